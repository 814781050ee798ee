import Verif.Json.Serialize
import Verif.Json.Complete
import Verif.Json.Order

/-! # The bytes of RFC 8259 texts, the values they denote, and identity up to the kind of integers -/

namespace Verif.Json

open Verif.Unicode (WellFormed8)
open Verif.Str (AsciiDigit AsciiHex numeral)

/-- A byte that can occur in an RFC 8259 text. -/
def TextByte (c : Nat) : Prop := c < 256 ∧ (0x20 ≤ c ∨ c = 0x09 ∨ c = 0x0a ∨ c = 0x0d)

theorem tb_append {a b : List Nat} (ha : ∀ c ∈ a, TextByte c) (hb : ∀ c ∈ b, TextByte c) :
    ∀ c ∈ a ++ b, TextByte c := by
  intro c hc
  rcases List.mem_append.mp hc with h | h
  · exact ha c h
  · exact hb c h

theorem tb_cons {x : Nat} {a : List Nat} (hx : TextByte x) (ha : ∀ c ∈ a, TextByte c) :
    ∀ c ∈ x :: a, TextByte c := by
  intro c hc
  rcases List.mem_cons.mp hc with rfl | h
  · exact hx
  · exact ha c h

theorem tb_nil : ∀ c ∈ ([] : List Nat), TextByte c := by intro c h; simp at h

theorem tb_ws {a : List Nat} (h : RfcWs a) : ∀ c ∈ a, TextByte c := by
  intro c hc; have := h c hc; unfold TextByte; omega

theorem tb_digits {a : List Nat} (h : ∀ d ∈ a, AsciiDigit d) : ∀ c ∈ a, TextByte c := by
  intro c hc; have := h c hc; unfold AsciiDigit at this; unfold TextByte; omega

theorem tb_lit (n : Nat) (h : 0x20 ≤ n ∧ n < 256) : TextByte n := ⟨h.2, Or.inl h.1⟩

theorem chars_ge {t m : List Nat} (h : Chars t m) : ∀ c ∈ t, 0x20 ≤ c := by
  have hx : ∀ {h : List Nat} {c : Nat}, Hex4 h c → ∀ d ∈ h, 0x20 ≤ d := by
    intro h c hh d hd
    have := hh.2.1 d hd
    unfold AsciiHex AsciiDigit at this; omega
  induction h with
  | nil => intro c hc; simp at hc
  | plain h1 _ _ _ ih =>
    intro c hc
    rcases List.mem_cons.mp hc with rfl | h
    · exact h1
    · exact ih c h
  | @simple e r t m he _ ih =>
    intro c hc
    have : 0x20 ≤ e := by
      simp only [simpleEscapes, List.mem_cons, Prod.mk.injEq, List.not_mem_nil, or_false] at he
      omega
    rcases List.mem_cons.mp hc with rfl | h
    · omega
    · rcases List.mem_cons.mp h with rfl | h
      · exact this
      · exact ih c h
  | uni h1 _ _ ih =>
    intro c hc
    simp only [List.mem_cons, List.mem_append] at hc
    rcases hc with rfl | rfl | h | h
    · omega
    · omega
    · exact hx h1 c h
    · exact ih c h
  | pair h1 _ h2 _ _ ih =>
    intro c hc
    simp only [List.mem_cons, List.mem_append] at hc
    rcases hc with rfl | rfl | h | rfl | rfl | h | h
    · omega
    · omega
    · exact hx h1 c h
    · omega
    · omega
    · exact hx h2 c h
    · exact ih c h

theorem tb_string {t m : List Nat} (h : StringBody t m) : ∀ c ∈ t, TextByte c :=
  fun c hc => ⟨wf8_bytes h.1 c hc, Or.inl (chars_ge h.2 c hc)⟩

theorem tb_int {ds : List Nat} (h : IntPart ds) : ∀ c ∈ ds, TextByte c := by
  rcases h with rfl | ⟨c, t, rfl, h1, h2, h3⟩
  · exact tb_cons (tb_lit _ (by omega)) tb_nil
  · exact tb_cons (tb_lit _ (by omega)) (tb_digits h3)

theorem tb_number {io : FloatIO} {t : List Nat} {v : Value} (h : Number io t v) :
    ∀ c ∈ t, TextByte c := by
  cases h with
  | uint h _ => exact tb_int h
  | int h _ => exact tb_cons (tb_lit _ (by omega)) (tb_int h)
  | flt hs hi hf he _ _ =>
    refine tb_append (tb_append (tb_append ?_ (tb_int hi)) ?_) ?_
    · rcases hs with rfl | rfl
      · exact tb_nil
      · exact tb_cons (tb_lit _ (by omega)) tb_nil
    · rcases hf with rfl | ⟨ds, _, h, rfl⟩
      · exact tb_nil
      · exact tb_cons (tb_lit _ (by omega)) (tb_digits h)
    · rcases he with rfl | ⟨c, sg, ds, h1, h2, _, h3, rfl⟩
      · exact tb_nil
      · refine tb_cons (tb_lit _ (by omega)) (tb_append ?_ (tb_digits h3))
        rcases h2 with rfl | rfl | rfl
        · exact tb_nil
        · exact tb_cons (tb_lit _ (by omega)) tb_nil
        · exact tb_cons (tb_lit _ (by omega)) tb_nil

mutual
theorem tb_value {io : FloatIO} : ∀ {t : List Nat} {v : Value}, JValue io rfc8259 t v →
    ∀ c ∈ t, TextByte c
  | _, _, .null => by intro c hc; simp at hc; unfold TextByte; omega
  | _, _, .tru => by intro c hc; simp at hc; unfold TextByte; omega
  | _, _, .fals => by intro c hc; simp at hc; unfold TextByte; omega
  | _, _, .num h => tb_number h
  | _, _, .str h => tb_cons (tb_lit _ (by omega)) (tb_append (tb_string h)
      (tb_cons (tb_lit _ (by omega)) tb_nil))
  | _, _, .obj0 h => tb_cons (tb_lit _ (by omega)) (tb_append (tb_ws h)
      (tb_cons (tb_lit _ (by omega)) tb_nil))
  | _, _, .obj h1 h2 h3 _ => tb_cons (tb_lit _ (by omega))
      (tb_append (tb_append (tb_append (tb_ws h1) (tb_member h2)) (tb_members h3))
        (tb_cons (tb_lit _ (by omega)) tb_nil))
  | _, _, .arr0 h => tb_cons (tb_lit _ (by omega)) (tb_append (tb_ws h)
      (tb_cons (tb_lit _ (by omega)) tb_nil))
  | _, _, .arr h1 h2 h3 => tb_cons (tb_lit _ (by omega))
      (tb_append (tb_append (tb_append (tb_ws h1) (tb_value h2)) (tb_elems h3))
        (tb_cons (tb_lit _ (by omega)) tb_nil))
theorem tb_elems {io : FloatIO} : ∀ {t : List Nat} {vs : List Value}, JElems io rfc8259 t vs →
    ∀ c ∈ t, TextByte c
  | _, _, .nil h => tb_ws h
  | _, _, .trailing _ h _ => h.elim
  | _, _, .cons h1 h2 h3 h4 => tb_append (tb_ws h1) (tb_cons (tb_lit _ (by omega))
      (tb_append (tb_append (tb_ws h2) (tb_value h3)) (tb_elems h4)))
theorem tb_member {io : FloatIO} : ∀ {t k : List Nat} {v : Value}, JMember io rfc8259 t k v →
    ∀ c ∈ t, TextByte c
  | _, _, _, .mk h1 h2 h3 h4 => tb_cons (tb_lit _ (by omega)) (tb_append (tb_string h1)
      (tb_cons (tb_lit _ (by omega)) (tb_append (tb_ws h2) (tb_cons (tb_lit _ (by omega))
        (tb_append (tb_ws h3) (tb_value h4))))))
theorem tb_members {io : FloatIO} : ∀ {t : List Nat} {ms : List (List Nat × Value)},
    JMembers io rfc8259 t ms → ∀ c ∈ t, TextByte c
  | _, _, .nil h => tb_ws h
  | _, _, .trailing _ h _ => h.elim
  | _, _, .cons h1 h2 h3 h4 => tb_append (tb_ws h1) (tb_cons (tb_lit _ (by omega))
      (tb_append (tb_append (tb_ws h2) (tb_member h3)) (tb_members h4)))
end

theorem tb_text {io : FloatIO} {s : List Nat} {v : Value} (h : JText io rfc8259 s v) :
    ∀ c ∈ s, TextByte c := by
  obtain ⟨a, t, b, rfl, h1, h2, h3⟩ := h
  exact tb_append (tb_append (tb_ws h1) (tb_value h2)) (tb_ws h3)

/-! ## Texts denote well-formed values -/

theorem wfMembers_iff : ∀ m : List (List Nat × Value), WFMembers m ↔ ∀ p ∈ m, WellFormed8 p.1 ∧ p.2.WF := by
  intro m
  induction m with
  | nil => simp [WFMembers]
  | cons p m ih =>
    obtain ⟨k, v⟩ := p
    simp only [WFMembers, ih, List.mem_cons]
    constructor
    · rintro ⟨h1, h2, h3⟩ q (rfl | h)
      · exact ⟨h1, h2⟩
      · exact h3 q h
    · intro h
      exact ⟨(h _ (Or.inl rfl)).1, (h _ (Or.inl rfl)).2, fun q hq => h q (Or.inr hq)⟩

theorem lastOf_mem {ms : List (List Nat × Value)} {k : List Nat} {v : Value} (h : lastOf ms k = some v) :
    (k, v) ∈ ms := by
  unfold lastOf at h
  cases hf : ms.reverse.find? (fun p => p.1 == k) with
  | none => rw [hf] at h; simp at h
  | some p =>
    rw [hf] at h
    have h1 := List.mem_of_find?_eq_some hf
    have h2 := List.find?_some hf
    simp at h2 h
    obtain ⟨k', v'⟩ := p
    simp at h2 h h1
    subst h2; subst h
    exact h1

theorem number_wf {io : FloatIO} {t : List Nat} {v : Value} (h : Number io t v) : v.WF := by
  cases h with
  | uint _ h => exact h
  | int _ h => exact ⟨by omega, by omega⟩
  | flt => trivial

mutual
theorem jvalue_wf {io : FloatIO} {D : Dialect} : ∀ {t : List Nat} {v : Value}, JValue io D t v → v.WF
  | _, _, .null => trivial
  | _, _, .tru => trivial
  | _, _, .fals => trivial
  | _, _, .num h => number_wf h
  | _, _, .str h => chars_wf h
  | _, _, .obj0 _ => ⟨List.Pairwise.nil, trivial⟩
  | _, _, .obj _ h2 h3 h4 => ⟨h4.1, (wfMembers_iff _).2 (by
      have hh := jmember_wf h2
      have ht := (wfMembers_iff _).1 (jmembers_wf h3)
      rintro ⟨k, v⟩ hp
      have hm := lastOf_mem ((h4.2 k v).1 hp)
      rcases List.mem_cons.mp hm with h | h
      · rw [h]; exact hh
      · exact ht _ h)⟩
  | _, _, .arr0 _ => trivial
  | _, _, .arr _ h2 h3 => ⟨jvalue_wf h2, jelems_wf h3⟩
theorem jelems_wf {io : FloatIO} {D : Dialect} : ∀ {t : List Nat} {vs : List Value}, JElems io D t vs →
    WFElems vs
  | _, _, .nil _ => trivial
  | _, _, .trailing _ _ _ => trivial
  | _, _, .cons _ _ h3 h4 => ⟨jvalue_wf h3, jelems_wf h4⟩
theorem jmember_wf {io : FloatIO} {D : Dialect} : ∀ {t k : List Nat} {v : Value}, JMember io D t k v →
    WellFormed8 k ∧ v.WF
  | _, _, _, .mk h1 _ _ h4 => ⟨chars_wf h1, jvalue_wf h4⟩
theorem jmembers_wf {io : FloatIO} {D : Dialect} : ∀ {t : List Nat} {ms : List (List Nat × Value)},
    JMembers io D t ms → WFMembers ms
  | _, _, .nil _ => trivial
  | _, _, .trailing _ _ _ => trivial
  | _, _, .cons _ _ h3 h4 => ⟨(jmember_wf h3).1, (jmember_wf h3).2, jmembers_wf h4⟩
end

theorem jtext_wf {io : FloatIO} {D : Dialect} {s : List Nat} {v : Value} (h : JText io D s v) : v.WF := by
  obtain ⟨_, _, _, _, _, h2, _⟩ := h
  exact jvalue_wf h2

/-! ## With one kind of integers and no floats, equality is identity -/

mutual
theorem eq_same {c : NumClass} (hc : c ≠ .common) : ∀ a b : Value, a.All c.holds → b.All c.holds →
    eq a b = true → a = b
  | .null, b, _, _ => by cases b <;> simp [eq]
  | .str s, b, _, _ => by cases b <;> simp [eq]
  | .obj m, b, ha, hb => by
    cases b <;> simp only [eq, Bool.false_eq_true, false_implies]
    intro h; rw [eqMembers_same hc m _ ha.2 hb.2 h]
  | .arr l, b, ha, hb => by
    cases b <;> simp only [eq, Bool.false_eq_true, false_implies]
    intro h; rw [eqElems_same hc l _ ha.2 hb.2 h]
  | .bool x, b, _, _ => by cases b <;> simp [eq]
  | .int i, b, ha, hb => by
    cases c with
    | common => exact absurd rfl hc
    | signed =>
      cases b <;> simp only [eq, Bool.false_eq_true, false_implies, beq_iff_eq]
      · intro h; rw [h]
      · exact absurd hb (by simp [Value.All, NumClass.holds])
      · exact absurd hb (by simp [Value.All, NumClass.holds])
    | unsigned => exact absurd ha (by simp [Value.All, NumClass.holds])
  | .uint n, b, ha, hb => by
    cases c with
    | common => exact absurd rfl hc
    | unsigned =>
      cases b <;> simp only [eq, Bool.false_eq_true, false_implies, beq_iff_eq]
      · exact absurd hb (by simp [Value.All, NumClass.holds])
      · intro h; rw [h]
      · exact absurd hb (by simp [Value.All, NumClass.holds])
    | signed => exact absurd ha (by simp [Value.All, NumClass.holds])
  | .flt f, b, ha, _ => by
    exact absurd ha (by cases c <;> simp [Value.All, NumClass.holds])
theorem eqMembers_same {c : NumClass} (hc : c ≠ .common) : ∀ a b : List (List Nat × Value),
    AllMembers c.holds a → AllMembers c.holds b → eqMembers a b = true → a = b
  | [], b, _, _ => by cases b <;> simp [eqMembers]
  | (k, v) :: a, b, ha, hb => by
    cases b with
    | nil => simp [eqMembers]
    | cons p b =>
      obtain ⟨k', v'⟩ := p
      simp only [eqMembers, Bool.and_eq_true, beq_iff_eq]
      rintro ⟨⟨rfl, h1⟩, h2⟩
      rw [eq_same hc v v' ha.1 hb.1 h1, eqMembers_same hc a b ha.2 hb.2 h2]
theorem eqElems_same {c : NumClass} (hc : c ≠ .common) : ∀ a b : List Value,
    AllElems c.holds a → AllElems c.holds b → eqElems a b = true → a = b
  | [], b, _, _ => by cases b <;> simp [eqElems]
  | v :: a, b, ha, hb => by
    cases b with
    | nil => simp [eqElems]
    | cons v' b =>
      simp only [eqElems, Bool.and_eq_true]
      rintro ⟨h1, h2⟩
      rw [eq_same hc v v' ha.1 hb.1 h1, eqElems_same hc a b ha.2 hb.2 h2]
end

end Verif.Json
