import Verif.Str.Props

/-!
# C20: replacements that do not run into the search string

Source: `/repo/fly/types/string/string.hpp` 568-598. The loop of `replace_all` looks for the search string in the whole
text after every replacement. Here: what it gives if no occurrence of the search string can touch the replacement.
-/

namespace Verif.Str

/-! ## Specification -/

/-- Replacing from left to right, once, what does not overlap: what a user expects of `replace_all`. -/
inductive Replaced (search replace : List Nat) : List Nat → List Nat → Prop
  | none {t} : ¬ Occurs search t → Replaced search replace t t
  /-- `a` is followed by the first occurrence -/
  | first {a b r} : (∀ a' b', a ++ search ++ b = a' ++ search ++ b' → a.length ≤ a'.length) →
      Replaced search replace b r → Replaced search replace (a ++ search ++ b) (a ++ replace ++ r)

/-- Wherever the replacement stands, an occurrence of the search string lies before it or behind it. -/
def Clear (search replace : List Nat) : Prop :=
  ∀ a b x y, a ++ replace ++ b = x ++ search ++ y →
    x.length + search.length ≤ a.length ∨ a.length + replace.length ≤ x.length

/-! ## Proofs -/

theorem replaceStep_first {u v a b : List Nat} (hu : u ≠ [])
    (hf : ∀ a' b', a ++ u ++ b = a' ++ u ++ b' → a.length ≤ a'.length) :
    replaceStep u v (a ++ u ++ b) = some (a ++ v ++ b) := by
  cases h : replaceStep u v (a ++ u ++ b) with
  | none =>
    rcases replaceStep_none h with e | e
    · exact absurd e hu
    · exact absurd ⟨a, b, rfl⟩ e
  | some t' =>
    obtain ⟨_, a', b', e1, e2, e3⟩ := replaceStep_some h
    have l1 := hf a' b' e1
    have l2 := e3 a b rfl
    have hl : a.length = a'.length := by omega
    rw [List.append_assoc, List.append_assoc] at e1
    obtain ⟨ha, hr⟩ := List.append_inj e1 hl
    obtain ⟨_, hb⟩ := List.append_inj hr rfl
    rw [e2, ha, hb]

theorem replaced_exists (search replace : List Nat) (hs : search ≠ []) :
    ∀ n (t : List Nat), t.length ≤ n → ∃ r, Replaced search replace t r := by
  intro n
  induction n with
  | zero =>
    intro t ht
    refine ⟨t, .none ?_⟩
    rintro ⟨a, b, e⟩
    have := List.length_pos_iff.2 hs
    have := congrArg List.length e
    simp only [List.length_append] at this
    omega
  | succ n ih =>
    intro t ht
    cases h : replaceStep search replace t with
    | none =>
      rcases replaceStep_none h with e | e
      · exact absurd e hs
      · exact ⟨t, .none e⟩
    | some t' =>
      obtain ⟨_, a, b, e1, _, e3⟩ := replaceStep_some h
      have := List.length_pos_iff.2 hs
      have hl := congrArg List.length e1
      simp only [List.length_append] at hl
      obtain ⟨r, hr⟩ := ih b (by omega)
      subst e1
      exact ⟨_, .first e3 hr⟩

/-- `p` is already dealt with. -/
theorem replaced_runs {search replace : List Nat} (hs : search ≠ []) (hc : Clear search replace) {t r : List Nat}
    (h : Replaced search replace t r) : ∀ p, (∀ x y, p ++ t = x ++ search ++ y → p.length ≤ x.length) →
      ReplaceRuns search replace (p ++ t) (p ++ r) := by
  have hpos := List.length_pos_iff.2 hs
  induction h with
  | @none t h =>
    intro p hp
    refine .done ?_
    cases e : replaceStep search replace (p ++ t) with
    | none => rfl
    | some t' =>
      obtain ⟨_, a, b, e1, _, _⟩ := replaceStep_some e
      have hl := hp a b e1
      exfalso
      apply h
      refine ⟨a.drop p.length, b, ?_⟩
      have := congrArg (List.drop p.length) e1
      rw [List.drop_left, List.append_assoc, List.drop_append_of_le_length hl, ← List.append_assoc] at this
      exact this
  | @first a b r hf _ ih =>
    intro p hp
    have first : ∀ a' b', (p ++ a) ++ search ++ b = a' ++ search ++ b' → (p ++ a).length ≤ a'.length := by
      intro a' b' e
      have hl := hp a' b' (by rw [← e]; simp)
      have e' := congrArg (List.drop p.length) e
      rw [List.append_assoc, List.append_assoc, List.drop_left, List.append_assoc, List.drop_append_of_le_length hl,
        ← List.append_assoc, ← List.append_assoc] at e'
      have := hf _ _ e'
      rw [List.length_drop] at this
      rw [List.length_append]
      omega
    have hstep := replaceStep_first (v := replace) hs first
    have := ih (p ++ a ++ replace) (by
      intro x y e
      rcases hc _ _ _ _ e with h1 | h1
      · exfalso
        -- an occurrence inside `p ++ a` would be one in the text before the first
        have e2 : p ++ a = x ++ search ++ (p ++ a).drop (x.length + search.length) := by
          have := congrArg (List.take (x ++ search).length) e
          rw [List.append_assoc, List.take_append_of_le_length (by rw [List.length_append]; exact h1),
            List.take_left, List.length_append] at this
          rw [← this, List.take_append_drop]
        have := first x ((p ++ a).drop (x.length + search.length) ++ search ++ b) (by
          conv => lhs; rw [e2]
          simp only [List.append_assoc])
        omega
      · simpa [Nat.add_assoc] using h1)
    have e1 : p ++ (a ++ search ++ b) = p ++ a ++ search ++ b := by simp
    have e2 : p ++ (a ++ replace ++ r) = p ++ a ++ replace ++ r := by simp
    rw [e1, e2]
    exact .step hstep this

/-- **C20.** If no occurrence of the search string can touch the replacement, `replace_all` terminates, and its result
is the text with the occurrences replaced once, from left to right. -/
theorem replace_all_clear_partial (search replace t : List Nat) (hs : search ≠ []) (hc : Clear search replace) :
    (∃ r, ReplaceRuns search replace t r) ∧
    ∀ r, ReplaceRuns search replace t r ↔ Replaced search replace t r := by
  have fwd : ∀ r, Replaced search replace t r → ReplaceRuns search replace t r := fun r h => by
    simpa using replaced_runs hs hc h [] (fun _ _ _ => Nat.zero_le _)
  obtain ⟨r0, h0⟩ := replaced_exists search replace hs _ t (Nat.le_refl _)
  refine ⟨⟨r0, fwd r0 h0⟩, fun r => ⟨fun h => ?_, fwd r⟩⟩
  rw [replace_runs_unique h (fwd r0 h0)]
  exact h0

/-- That is so in particular if the two have no character in common and the replacement is not empty: replacing one
word by another, a separator by a longer one, ... -/
theorem clear_of_disjoint (search replace : List Nat) (hs : search ≠ []) (hr : replace ≠ [])
    (hd : ∀ c ∈ replace, c ∉ search) :
    Clear search replace := by
  intro a b x y e
  have hpos := List.length_pos_iff.2 hr
  by_cases h : x.length + search.length ≤ a.length
  · exact .inl h
  · right
    apply Nat.le_of_not_lt
    intro hlt
    -- a position of both
    have key : ∀ k, a.length ≤ k → k < a.length + replace.length → x.length ≤ k → k < x.length + search.length → False := by
      intro k h1 h2 h3 h4
      have ek := congrArg (fun l => l[k]?) e
      simp only [List.append_assoc] at ek
      rw [List.getElem?_append_right h1, List.getElem?_append_left (by omega), List.getElem?_append_right h3,
        List.getElem?_append_left (by omega)] at ek
      rw [List.getElem?_eq_getElem (by omega), List.getElem?_eq_getElem (by omega)] at ek
      have ek := Option.some.inj ek
      have m1 : replace[k - a.length]'(by omega) ∈ replace := List.getElem_mem _
      rw [ek] at m1
      exact hd _ m1 (List.getElem_mem _)
    by_cases hx : x.length ≤ a.length
    · exact key a.length (Nat.le_refl _) (by omega) hx (by omega)
    · have := List.length_pos_iff.2 hs
      exact key x.length (by omega) hlt (Nat.le_refl _) (by omega)

/-- "ab" by "cde" in "abxaabb": each of the two is replaced. -/
example : ReplaceRuns [0x61, 0x62] [0x63, 0x64, 0x65] [0x61, 0x62, 0x78, 0x61, 0x61, 0x62, 0x62]
    [0x63, 0x64, 0x65, 0x78, 0x61, 0x63, 0x64, 0x65, 0x62] := by
  refine .step (t' := [0x63, 0x64, 0x65, 0x78, 0x61, 0x61, 0x62, 0x62]) (by decide) ?_
  refine .step (t' := [0x63, 0x64, 0x65, 0x78, 0x61, 0x63, 0x64, 0x65, 0x62]) (by decide) ?_
  exact .done (by decide)

example (r : List Nat) : ReplaceRuns [0x61, 0x62] [0x63, 0x64, 0x65] [0x61, 0x62, 0x78, 0x61, 0x61, 0x62, 0x62] r ↔
    Replaced [0x61, 0x62] [0x63, 0x64, 0x65] [0x61, 0x62, 0x78, 0x61, 0x61, 0x62, 0x62] r :=
  (replace_all_clear_partial _ _ _ (by decide) (clear_of_disjoint _ _ (by decide) (by decide) (by decide))).2 r

/-- Where the replacement runs into the search string the two differ: the loop finds an
occurrence that was not there before. "ab" by "b" gives "b" for "aab", from left to right it is "ab". -/
theorem replace_all_again_violated :
    ReplaceRuns [0x61, 0x62] [0x62] [0x61, 0x61, 0x62] [0x62] ∧
    Replaced [0x61, 0x62] [0x62] [0x61, 0x61, 0x62] [0x61, 0x62] := by
  constructor
  · exact .step (t' := [0x61, 0x62]) (by decide) (.step (t' := [0x62]) (by decide) (.done (by decide)))
  · refine .first (a := [0x61]) (b := []) (r := []) ?_ (.none ?_)
    · intro a' b' e
      match a', e with
      | [], e => simp at e
      | _ :: _, _ => simp
    · rintro ⟨a, b, e⟩
      have := congrArg List.length e
      simp at this

end Verif.Str
