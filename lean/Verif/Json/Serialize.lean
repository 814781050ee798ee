import Verif.Json.Dialects
import Verif.Json.Escape

/-! # Serialization -/

namespace Verif.Json

open Verif.Unicode (WellFormed8)
open Verif.Str (AsciiDigit numeral)

/-- What is needed of the standard library's text for a floating-point value: it is a JSON number
that reads back as an equal value. No condition on the other values. -/
def FloatBack (io : FloatIO) : Value → Prop
  | .flt f => ∃ w, Number io (io.fmt f) w ∧ eq (.flt f) w = true
  | _ => True

theorem digits_intPart (n : Nat) : IntPart (Verif.Digits.digits 10 n) ∧
    numeral 10 (Verif.Digits.digits 10 n) = n := by
  refine ⟨?_, Verif.Digits.numeral_digits (by decide) (by decide) n⟩
  have pos : ∀ n : Nat, 1 ≤ n → ∃ c t, Verif.Digits.digits 10 n = c :: t ∧ 0x31 ≤ c ∧ c ≤ 0x39 ∧
      ∀ d ∈ t, AsciiDigit d := by
    intro n
    induction n using Nat.strongRecOn with
    | _ n ih =>
      intro hn
      by_cases h : n < 10
      · refine ⟨Verif.Digits.digitChar n, [], Verif.Digits.digits_of_lt h, ?_, ?_, by simp⟩
        · unfold Verif.Digits.digitChar; rw [if_pos h]; omega
        · unfold Verif.Digits.digitChar; rw [if_pos h]; omega
      · obtain ⟨c, t, h1, h2, h3, h4⟩ := ih (n / 10) (by omega) (by omega)
        refine ⟨c, t ++ [Verif.Digits.digitChar (n % 10)], ?_, h2, h3, ?_⟩
        · rw [Verif.Digits.digits_of_ge (by decide) (by omega), h1]; rfl
        · intro d hd
          rcases List.mem_append.1 hd with hd | hd
          · exact h4 d hd
          · simp only [List.mem_singleton] at hd
            rw [hd]; exact Verif.Digits.digitChar_dec (by omega)
  by_cases h : n = 0
  · subst h; left; exact Verif.Digits.digits_of_lt (by decide)
  · right; exact pos n (by omega)

theorem eq_nat (i : Int) (h1 : 0 ≤ i) (h2 : i < 2 ^ 63) : eq (.int i) (.uint i.toNat) = true := by
  unfold eq toSigned
  rw [if_pos (by omega)]
  simp only [beq_iff_eq]; omega

theorem serializeString_wf {s : List Nat} (h : WellFormed8 s) :
    ∃ t, serializeString s = some (0x22 :: (t ++ [0x22])) ∧ StringBody t s := by
  obtain ⟨t, h1, h2, _⟩ := escapeBody_wf h
  exact ⟨t, by unfold serializeString; rw [h1]; rfl, h2⟩

theorem eqKeys : ∀ {m m' : List (List Nat × Value)}, eqMembers m m' = true →
    m.map (·.1) = m'.map (·.1) := by
  intro m
  induction m with
  | nil => intro m' h; cases m' with | nil => rfl | cons => simp [eqMembers] at h
  | cons p m ih =>
    obtain ⟨k, v⟩ := p
    intro m' h
    cases m' with
    | nil => simp [eqMembers] at h
    | cons q m' =>
      obtain ⟨k', v'⟩ := q
      simp only [eqMembers, Bool.and_eq_true, beq_iff_eq] at h
      simp [h.1.1, ih h.2]

theorem sorted_of_keys {m m' : List (List Nat × Value)} (h : m.map (·.1) = m'.map (·.1))
    (hs : SortedKeys m) : SortedKeys m' := by
  have h1 : (m.map (·.1)).Pairwise (· < ·) := List.pairwise_map.2 hs
  rw [h] at h1
  exact List.pairwise_map.1 h1

mutual
theorem serialize_value {io : FloatIO} : ∀ (v : Value), v.WF → v.All (FloatBack io) →
    ∃ t w, serialize io v = some t ∧ JValue io rfc8259 t w ∧ eq v w = true
  | .null, _, _ => ⟨_, _, rfl, .null, by simp [eq]⟩
  | .str s, h, _ => by
    obtain ⟨t, h1, h2⟩ := serializeString_wf h
    exact ⟨_, _, by rw [serialize]; exact h1, .str h2, by simp [eq]⟩
  | .bool true, _, _ => ⟨_, _, rfl, .tru, by simp [eq]⟩
  | .bool false, _, _ => ⟨_, _, rfl, .fals, by simp [eq]⟩
  | .int i, h, _ => by
    have hw : -(2 ^ 63) ≤ i ∧ i < 2 ^ 63 := h
    obtain ⟨h1, h2⟩ := digits_intPart i.natAbs
    rw [serialize, fmtInt]
    split
    · refine ⟨_, _, rfl, .num (.int h1 (by rw [h2]; omega)), ?_⟩
      rw [h2]; simp only [eq, beq_iff_eq]; omega
    · refine ⟨_, _, rfl, .num (.uint h1 (by rw [h2]; omega)), ?_⟩
      rw [h2]
      have := eq_nat i (by omega) hw.2
      rwa [show i.toNat = i.natAbs by omega] at this
  | .uint n, h, _ => by
    have hw : n < 2 ^ 64 := h
    obtain ⟨h1, h2⟩ := digits_intPart n
    refine ⟨_, _, rfl, .num (.uint h1 (by rw [h2]; exact hw)), ?_⟩
    rw [h2]; simp [eq]
  | .flt f, _, h => by
    obtain ⟨w, h1, h2⟩ : FloatBack io (.flt f) := h
    exact ⟨_, w, rfl, .num h1, h2⟩
  | .arr l, h, hf => by
    rcases serialize_elems l h hf.2 with ⟨rfl, h1⟩ | ⟨t, w, r, ws, h1, h2, h3, h4⟩
    · refine ⟨_, _, by rw [serialize, h1]; rfl, .arr0 (a := []) (by intro c hc; simp at hc), ?_⟩
      simp [eq, eqElems]
    · refine ⟨_, .arr (w :: ws), by rw [serialize, h1]; rfl, ?_, ?_⟩
      · exact .arr (a := []) (by intro c hc; simp at hc) h2 h3
      · rw [eq]; exact h4
  | .obj m, h, hf => by
    obtain ⟨hs, hm⟩ : SortedKeys m ∧ WFMembers m := h
    rcases serialize_members m hm hf.2 with ⟨rfl, h1⟩ | ⟨t, k, w, r, ws, h1, h2, h3, h4⟩
    · refine ⟨_, _, by rw [serialize, h1]; rfl, .obj0 (a := []) (by intro c hc; simp at hc), ?_⟩
      simp [eq, eqMembers]
    · refine ⟨_, .obj ((k, w) :: ws), by rw [serialize, h1]; rfl, ?_, ?_⟩
      · exact .obj (a := []) (by intro c hc; simp at hc) h2 h3
          (mapOf_self (sorted_of_keys (eqKeys h4) hs))
      · rw [eq]; exact h4
theorem serialize_elems {io : FloatIO} : ∀ (l : List Value), WFElems l → AllElems (FloatBack io) l →
    (l = [] ∧ serializeElems io l = some []) ∨
    ∃ t w r ws, serializeElems io l = some (t ++ r) ∧ JValue io rfc8259 t w ∧
      JElems io rfc8259 r ws ∧ eqElems l (w :: ws) = true
  | [], _, _ => Or.inl ⟨rfl, rfl⟩
  | v :: l, h, hf => by
    right
    obtain ⟨t, w, h1, h2, h3⟩ := serialize_value v h.1 hf.1
    rcases serialize_elems l h.2 hf.2 with ⟨rfl, g1⟩ | ⟨t', w', r', ws', g1, g2, g3, g4⟩
    · refine ⟨t, w, [], [], ?_, h2, .nil (by intro c hc; simp at hc), by simp [eqElems, h3]⟩
      rw [serializeElems, h1, g1]; rfl
    · refine ⟨t, w, 0x2c :: (t' ++ r'), w' :: ws', ?_, h2,
        .cons (b := []) (c := []) (by intro c hc; simp at hc) (by intro c hc; simp at hc) g2 g3, ?_⟩
      · have hne : l.isEmpty = false := by
          cases l with
          | nil => simp [eqElems] at g4
          | cons => rfl
        rw [serializeElems, h1, g1]
        simp only [hne, commaThen, Bool.not_false, if_true]
      · rw [eqElems, h3, g4]; rfl
theorem serialize_members {io : FloatIO} : ∀ (m : List (List Nat × Value)), WFMembers m →
    AllMembers (FloatBack io) m →
    (m = [] ∧ serializeMembers io m = some []) ∨
    ∃ t k w r ws, serializeMembers io m = some (t ++ r) ∧ JMember io rfc8259 t k w ∧
      JMembers io rfc8259 r ws ∧ eqMembers m ((k, w) :: ws) = true
  | [], _, _ => Or.inl ⟨rfl, rfl⟩
  | (k, v) :: m, h, hf => by
    right
    obtain ⟨tk, k1, k2⟩ := serializeString_wf h.1
    obtain ⟨t, w, h1, h2, h3⟩ := serialize_value v h.2.1 hf.1
    have hm : JMember io rfc8259 (0x22 :: (tk ++ 0x22 :: ([] ++ 0x3a :: ([] ++ t)))) k w :=
      .mk k2 (by intro c hc; simp at hc) (by intro c hc; simp at hc) h2
    simp only [List.nil_append] at hm
    rcases serialize_members m h.2.2 hf.2 with ⟨rfl, g1⟩ | ⟨t', k', w', r', ws', g1, g2, g3, g4⟩
    · refine ⟨_, k, w, [], [], ?_, hm, .nil (by intro c hc; simp at hc), by simp [eqMembers, h3]⟩
      rw [serializeMembers, k1, h1, g1]
      simp [commaThen]
    · refine ⟨_, k, w, 0x2c :: (t' ++ r'), (k', w') :: ws', ?_, hm,
        .cons (b := []) (c := []) (by intro c hc; simp at hc) (by intro c hc; simp at hc) g2 g3, ?_⟩
      · have hne : m.isEmpty = false := by
          cases m with
          | nil => simp [eqMembers] at g4
          | cons => rfl
        rw [serializeMembers, k1, h1, g1]
        simp [hne, commaThen]
      · rw [eqMembers, h3, g4]; simp
end

end Verif.Json
