import Verif.Str.Props

/-! # C21, exactly: what `wildcard_match` answers on every source and pattern -/

namespace Verif.Str

/-- The segments occur in the source at positions that do not decrease (they may overlap). -/
def OccurInOrder (source : List Nat) (segs : List (List Nat)) : Prop :=
  ∃ at_ : List Nat, at_.length = segs.length ∧ at_.Pairwise (· ≤ ·) ∧
    ∀ (k : Nat) (g : List Nat) (j : Nat), segs[k]? = some g → at_[k]? = some j → ∃ u t, source = u ++ g ++ t ∧ u.length = j

theorem chain_iff (source : List Nat) : ∀ (segs : List (List Nat)) (i : Nat), Chain source segs i ↔
    ∃ at_ : List Nat, at_.length = segs.length ∧ at_.Pairwise (· ≤ ·) ∧ (∀ j ∈ at_, i ≤ j) ∧
      ∀ (k : Nat) (g : List Nat) (j : Nat), segs[k]? = some g → at_[k]? = some j → ∃ u t, source = u ++ g ++ t ∧ u.length = j := by
  intro segs
  induction segs with
  | nil => intro i; simp only [Chain, true_iff]; exact ⟨[], rfl, .nil, by simp, by simp⟩
  | cons g gs ih =>
    intro i
    rw [Chain]
    constructor
    · rintro ⟨j, h1, h2, ⟨t, h3⟩, h4⟩
      obtain ⟨at_, a1, a2, a3, a4⟩ := (ih j).1 h4
      refine ⟨j :: at_, by simp [a1], .cons (fun x hx => a3 x hx) a2, ?_, ?_⟩
      · intro x hx
        rcases List.mem_cons.1 hx with rfl | hx
        · exact h1
        · have := a3 x hx; omega
      · intro k g' j' hg hj
        cases k with
        | zero =>
          simp only [List.getElem?_cons_zero, Option.some.injEq] at hg hj
          subst hg; subst hj
          refine ⟨source.take j, t, ?_, by rw [List.length_take]; omega⟩
          rw [List.append_assoc, ← h3, List.take_append_drop]
        | succ k => exact a4 k g' j' (by simpa using hg) (by simpa using hj)
    · rintro ⟨at_, a1, a2, a3, a4⟩
      cases at_ with
      | nil => simp at a1
      | cons j at_ =>
        obtain ⟨u, t, e, hu⟩ := a4 0 g j rfl rfl
        rw [List.pairwise_cons] at a2
        refine ⟨j, a3 j (by simp), by rw [e]; simp; omega, ⟨t, ?_⟩, (ih j).2 ⟨at_, by simpa using a1, a2.2, a2.1, ?_⟩⟩
        · rw [e, List.append_assoc, List.drop_left' hu]
        · intro k g' j' hg hj
          exact a4 (k + 1) g' j' (by simpa using hg) (by simpa using hj)

/-- **C21, exactly.** For every source and pattern: the answer is yes exactly when the pattern is not empty and, of its
segments between stars (empty ones left out), the first is a prefix of the source unless a star comes first, the last is
a suffix unless a star comes last, and all occur in order, overlaps allowed. A pattern of stars only matches everything. -/
theorem wildcard_exact (source pattern : List Nat) (segs : List (List Nat)) (hp : Pieces 0x2a pattern segs) :
    wildcardMatch source pattern = true ↔ pattern ≠ [] ∧ ∀ first last, segs.head? = some first → segs.getLast? = some last →
      (pattern.head? ≠ some 0x2a → first <+: source) ∧ (pattern.getLast? ≠ some 0x2a → last <:+ source) ∧
      OccurInOrder source segs := by
  rw [wildcardMatch_iff hp]
  have hc : Chain source segs 0 ↔ OccurInOrder source segs := by
    rw [chain_iff]; unfold OccurInOrder; simp
  cases segs with
  | nil => simp
  | cons g gs =>
    have hl : ∃ x, (g :: gs).getLast? = some x := ⟨_, List.getLast?_eq_some_getLast (by simp)⟩
    obtain ⟨x, hx⟩ := hl
    rw [hx]
    simp only [ne_eq, reduceCtorEq, not_false_eq_true, true_implies, List.headD_cons, List.head?_cons, Option.some.injEq,
      Option.getD_some, hc]
    refine and_congr_right fun _ => ⟨?_, ?_⟩
    · rintro ⟨h1, h2, h3⟩ f l rfl rfl
      exact ⟨fun h => by obtain ⟨t, e⟩ := h1 h; exact ⟨t, e.symm⟩, fun h => by obtain ⟨t, e⟩ := h2 h; exact ⟨t, e.symm⟩, h3⟩
    · intro h
      obtain ⟨h1, h2, h3⟩ := h g x rfl rfl
      exact ⟨fun h => by obtain ⟨t, e⟩ := h1 h; exact ⟨t, e.symm⟩, fun h => by obtain ⟨t, e⟩ := h2 h; exact ⟨t, e.symm⟩, h3⟩

/-- "a*a" against "a": the two segments overlap, and the answer is yes. -/
example : wildcardMatch [0x61] [0x61, 0x2a, 0x61] = true := by
  have hp : Pieces 0x2a [0x61, 0x2a, 0x61] [[0x61], [0x61]] :=
    .piece (p := [0x61]) (by decide) (by decide) (.last (by decide) (by decide))
  refine (wildcard_exact _ _ _ hp).2 ⟨by decide, ?_⟩
  rintro f l hf hl
  cases hf; cases hl
  refine ⟨fun _ => List.prefix_refl _, fun _ => List.suffix_refl _, [0, 0], rfl, by decide, ?_⟩
  intro k g j hg hj
  match k with
  | 0 => simp at hg hj; subst hg; subst hj; exact ⟨[], [], rfl, rfl⟩
  | 1 => simp at hg hj; subst hg; subst hj; exact ⟨[], [], rfl, rfl⟩
  | k + 2 => simp at hg

end Verif.Str
