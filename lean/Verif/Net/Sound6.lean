import Verif.Net.Lemmas

/-!
# What the IPv6 parser accepts
-/

namespace Verif.Net

open Verif.Str Verif.Digits

/-- The pieces the parser's loop reads: groups of hexadecimal digits and single colons. -/
inductive Loose : List Nat → List (List Nat) → Prop
  | nil : Loose [] []
  | colon {s ts} : Loose s ts → Loose (0x3a :: s) ts
  | group {t s ts} : t ≠ [] → (∀ c ∈ t, AsciiHex c) → (s = [] ∨ s.head? = some 0x3a) → Loose s ts →
      Loose (t ++ s) (t :: ts)

theorem Loose.append {a b as bs} (ha : Loose a as) (hb : Loose b bs) (hh : b = [] ∨ b.head? = some 0x3a) :
    Loose (a ++ b) (as ++ bs) := by
  induction ha with
  | nil => exact hb
  | colon _ ih => exact .colon ih
  | @group t s ts h1 h2 h3 _ ih =>
    rw [List.append_assoc, List.cons_append]
    refine .group h1 h2 ?_ ih
    rcases h3 with rfl | h3
    · exact hh
    · right; rw [List.head?_append, h3]; rfl

theorem pieces_colon {s ps} (h : Pieces 0x3a (0x3a :: s) ps) : Pieces 0x3a s ps := by
  generalize he : 0x3a :: s = x at h
  cases h with
  | nil => simp at he
  | skip h => simp at he; subst he; exact h
  | last h1 h2 => subst he; simp at h2
  | @piece p s' ps' h1 h2 h3 =>
    cases p with
    | nil => exact absurd rfl h1
    | cons c p => simp at he; rw [← he.1] at h2; simp at h2

theorem Loose.pieces {s ts} (h : Loose s ts) : Pieces 0x3a s ts := by
  induction h with
  | nil => exact .nil
  | colon _ ih => exact .skip ih
  | @group t s ts h1 h2 h3 _ ih =>
    have hn : 0x3a ∉ t := fun hm => not_hex_colon (h2 _ hm)
    rcases h3 with rfl | h3
    · have : ts = [] := by
        generalize he : ([] : List Nat) = x at ih
        cases ih with
        | nil => rfl
        | skip _ => simp at he
        | last h1 _ => exact absurd he.symm h1
        | piece h1 _ _ => simp at he
      subst this
      rw [List.append_nil]; exact .last h1 hn
    · cases s with
      | nil => simp at h3
      | cons c s => simp at h3; subst h3; exact .piece h1 hn (pieces_colon ih)

theorem Loose.hex {s ts} (h : Loose s ts) : ∀ t ∈ ts, t ≠ [] ∧ ∀ c ∈ t, AsciiHex c := by
  induction h with
  | nil => simp
  | colon _ ih => exact ih
  | group h1 h2 _ _ ih =>
    intro t ht
    rcases List.mem_cons.mp ht with rfl | ht
    · exact ⟨h1, h2⟩
    · exact ih t ht

/-- The text read by the loop from `parts`, `short` to `parts'`, `short'`. -/
def Read (c : List Nat) (parts : List Nat) (short : Option Nat) (parts' : List Nat)
    (short' : Option Nat) : Prop :=
  (∃ ts, Loose c ts ∧ (∀ t ∈ ts, numeral 16 t ≤ 0xffff) ∧ short' = short ∧
    parts' = parts ++ groupBytes (ts.map (numeral 16))) ∨
  (∃ x y ls rs, c = x ++ [0x3a, 0x3a] ++ y ∧ Loose x ls ∧ Loose y rs ∧
    (∀ t ∈ ls ++ rs, numeral 16 t ≤ 0xffff) ∧ short = none ∧
    short' = some (parts.length + 2 * ls.length) ∧
    parts' = parts ++ groupBytes ((ls ++ rs).map (numeral 16)))

theorem Read.nil (parts : List Nat) (short : Option Nat) : Read [] parts short parts short :=
  .inl ⟨[], .nil, by simp, rfl, by simp [groupBytes]⟩

theorem Read.colon {c parts short parts' short'} (h : Read c parts short parts' short') :
    Read (0x3a :: c) parts short parts' short' := by
  rcases h with ⟨ts, h1, h2, h3, h4⟩ | ⟨x, y, ls, rs, h1, h2, h3, h4, h5, h6, h7⟩
  · exact .inl ⟨ts, .colon h1, h2, h3, h4⟩
  · exact .inr ⟨0x3a :: x, y, ls, rs, by rw [h1]; rfl, .colon h2, h3, h4, h5, h6, h7⟩

theorem Read.group {t c parts short parts' short'} (ht : t ≠ []) (hx : ∀ u ∈ t, AsciiHex u)
    (hv : numeral 16 t ≤ 0xffff) (hc : c = [] ∨ c.head? = some 0x3a)
    (h : Read c (parts ++ [numeral 16 t / 256, numeral 16 t % 256]) short parts' short') :
    Read (t ++ c) parts short parts' short' := by
  rcases h with ⟨ts, h1, h2, h3, h4⟩ | ⟨x, y, ls, rs, h1, h2, h3, h4, h5, h6, h7⟩
  · refine .inl ⟨t :: ts, .group ht hx hc h1, ?_, h3, ?_⟩
    · intro q hq
      rcases List.mem_cons.mp hq with rfl | hq
      · exact hv
      · exact h2 q hq
    · rw [h4]; simp [groupBytes]
  · refine .inr ⟨t ++ x, y, t :: ls, rs, by rw [h1]; simp, .group ht hx ?_ h2, h3, ?_, h5, ?_, ?_⟩
    · cases x with
      | nil => exact .inl rfl
      | cons q x =>
        right
        rw [h1] at hc
        simpa using hc
    · intro q hq
      rcases List.mem_cons.mp hq with rfl | hq
      · exact hv
      · exact h4 q hq
    · rw [h6]; simp; omega
    · rw [h7]; simp [groupBytes]

theorem v6Rest_sound : ∀ (n : Nat) (s parts : List Nat) (short : Option Nat) (parts' : List Nat)
    (short' : Option Nat), s.length = n → NoWrap 16 AsciiHex s →
    v6Rest s parts short = some ([], parts', short') → Read s parts short parts' short' := by
  intro n
  induction n using Nat.strongRecOn with
  | _ n ih =>
    intro s parts short parts' short' hn hw h
    rw [v6Rest] at h
    split at h
    · rename_i hc
      obtain ⟨s1, rfl⟩ : ∃ s1, s = 0x3a :: s1 := by
        cases s with
        | nil => simp at hc
        | cons c s => simp at hc; subst hc; exact ⟨s, rfl⟩
      simp only [List.drop_succ_cons, List.drop_zero] at h
      simp only [List.length_cons] at hn
      split at h
      · rename_i hc2
        obtain ⟨s2, rfl⟩ : ∃ s2, s1 = 0x3a :: s2 := by
          cases s1 with
          | nil => simp at hc2
          | cons c s => simp at hc2; subst hc2; exact ⟨s, rfl⟩
        simp only [List.drop_succ_cons, List.drop_zero] at h
        simp only [List.length_cons] at hn
        have hw2 : NoWrap 16 AsciiHex s2 := hw.drop 2
        split at h
        · simp at h
        · rename_i hsh
          have hnone : short = none := by simpa using hsh
          have key : ∀ {p'}, Read s2 parts (some parts.length) p' short' →
              Read (0x3a :: 0x3a :: s2) parts short p' short' := by
            intro p' hr
            rcases hr with ⟨ts, h1, h2, h3, h4⟩ | ⟨x, y, ls, rs, h1, h2, h3, h4, h5, h6, h7⟩
            · exact .inr ⟨[], s2, [], ts, rfl, .nil, h1, by simpa using h2, hnone, by rw [h3]; rfl,
                by simpa using h4⟩
            · simp at h5
          split at h
          · exact key (ih _ (by omega) s2 _ _ _ _ rfl hw2 h)
          · simp only [Option.some.injEq, Prod.mk.injEq] at h
            obtain ⟨rfl, rfl, rfl⟩ := h
            exact key (.inl ⟨[], .nil, by simp, rfl, by simp [groupBytes]⟩)
      · have hw1 : NoWrap 16 AsciiHex s1 := hw.drop 1
        split at h
        · exact (ih _ (by omega) s1 _ _ _ _ rfl hw1 h).colon
        · simp only [Option.some.injEq, Prod.mk.injEq] at h
          obtain ⟨rfl, rfl, rfl⟩ := h
          exact Read.colon (.inl ⟨[], .nil, by simp, rfl, by simp [groupBytes]⟩)
    · split at h
      · simp at h
      · rename_i hr
        have hlt := hexRun_lt hw
        rw [Nat.mod_eq_of_lt hlt] at h
        simp only at h
        have hdl := hexRun_drop_lt hr
        have hs : s = hexRun s ++ s.drop (hexRun s).length := takeWhile_append_drop _ s
        have hxs : ∀ c ∈ hexRun s, AsciiHex c := fun c hc => mem_hexRun hc
        have hnh : ∀ c, (s.drop (hexRun s).length).head? = some c → ¬ AsciiHex c := by
          intro c hc hx
          have hlen : hexRun s = hexRun s ++ hexRun (s.drop (hexRun s).length) := by
            have hc1 : hexRun (hexRun s ++ s.drop (hexRun s).length) =
                hexRun s ++ hexRun (s.drop (hexRun s).length) := by
              unfold hexRun
              rw [List.takeWhile_append_of_pos]
              intro a ha; exact decide_eq_true (mem_hexRun ha)
            rw [← hs] at hc1; exact hc1
          have hne : hexRun (s.drop (hexRun s).length) = [] := by
            have := congrArg List.length hlen
            rw [List.length_append] at this
            exact List.eq_nil_of_length_eq_zero (by omega)
          cases hd : s.drop (hexRun s).length with
          | nil => rw [hd] at hc; simp at hc
          | cons q r =>
            rw [hd] at hc hne
            simp at hc; subst hc
            unfold hexRun at hne
            rw [List.takeWhile_cons_of_pos (by simpa using hx)] at hne
            simp at hne
        split at h
        · rename_i hv
          rw [group_bytes hv] at h
          split at h
          · rename_i hcond
            have hrec := ih _ (by omega) _ _ _ _ _ rfl (hw.drop _) h
            rw [hs]
            refine Read.group hr hxs hv ?_ hrec
            cases hd : s.drop (hexRun s).length with
            | nil => exact .inl rfl
            | cons q r =>
              right
              rw [hd] at h hnh
              rw [v6Rest] at h
              split at h
              · rename_i hq; exact hq
              · split at h
                · simp at h
                · rename_i hq
                  exfalso
                  apply hq
                  unfold hexRun
                  rw [List.takeWhile_cons_of_neg (by simpa using hnh q rfl)]
          · simp only [Option.some.injEq, Prod.mk.injEq] at h
            obtain ⟨h1, rfl, rfl⟩ := h
            have hs' := hs
            rw [h1] at hs'
            have e := Read.group (c := []) (parts := parts) (short := short) hr hxs hv (.inl rfl)
              (Read.nil _ _)
            rw [← hs'] at e
            exact e
        · simp at h

theorem v6Rest_length : ∀ (n : Nat) (s parts : List Nat) (short : Option Nat) (s' parts' : List Nat)
    (short' : Option Nat), s.length = n → parts.length < 16 → parts.length % 2 = 0 →
    v6Rest s parts short = some (s', parts', short') → parts'.length ≤ 16 := by
  intro n
  induction n using Nat.strongRecOn with
  | _ n ih =>
    intro s parts short s' parts' short' hn hp hp2 h
    rw [v6Rest] at h
    split at h
    · rename_i hc
      cases s with
      | nil => simp at hc
      | cons c s =>
        simp only [List.drop_succ_cons, List.drop_zero] at h
        simp only [List.length_cons] at hn
        repeat' split at h
        · simp at h
        · exact ih _ (by simp; omega) _ _ _ _ _ _ rfl hp hp2 h
        · simp only [Option.some.injEq, Prod.mk.injEq] at h
          rw [← h.2.1]; omega
        · exact ih _ (by omega) _ _ _ _ _ _ rfl hp hp2 h
        · simp only [Option.some.injEq, Prod.mk.injEq] at h
          rw [← h.2.1]; omega
    · split at h
      · simp at h
      · rename_i hr
        have hdl := hexRun_drop_lt hr
        simp only at h
        repeat' split at h
        · rename_i hcond
          exact ih _ (by omega) _ _ _ _ _ _ rfl hcond.2 (by simp; omega) h
        · simp only [Option.some.injEq, Prod.mk.injEq] at h
          obtain ⟨_, rfl, _⟩ := h
          simp; omega
        · simp at h

end Verif.Net
