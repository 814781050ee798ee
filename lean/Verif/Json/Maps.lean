import Verif.Json.Spec
import Verif.Json.Parser

/-! # Sorted association lists as finite maps -/

namespace Verif.Json

theorem strLt_iff : ∀ a b : List Nat, strLt a b = true ↔ a < b := by
  intro a
  induction a with
  | nil =>
    intro b
    cases b with
    | nil => simp [strLt]
    | cons c b => simp [strLt]
  | cons c a ih =>
    intro b
    cases b with
    | nil => simp [strLt]
    | cons d b =>
      rw [strLt, List.cons_lt_cons_iff]
      simp only [Bool.or_eq_true, Bool.and_eq_true, decide_eq_true_eq, ih]

theorem key_trans {a b c : List Nat} (h1 : a < b) (h2 : b < c) : a < c := List.lt_trans h1 h2

theorem key_irrefl (a : List Nat) : ¬ a < a := List.lt_irrefl a

theorem key_tri (a b : List Nat) : a < b ∨ a = b ∨ b < a := by
  induction a generalizing b with
  | nil => cases b <;> simp
  | cons c a ih =>
    cases b with
    | nil => simp
    | cons d b =>
      simp only [List.cons_lt_cons_iff, List.cons.injEq]
      rcases Nat.lt_trichotomy c d with h | h | h
      · exact Or.inl (Or.inl h)
      · rcases ih b with h' | h' | h'
        · exact Or.inl (Or.inr ⟨h, h'⟩)
        · exact Or.inr (Or.inl ⟨h, h'⟩)
        · exact Or.inr (Or.inr (Or.inr ⟨h.symm, h'⟩))
      · exact Or.inr (Or.inr (Or.inl h))

theorem mem_insert_imp {k : List Nat} {v : Value} : ∀ {m : List (List Nat × Value)}
    {p : List Nat × Value}, p ∈ insertOrAssign k v m → p = (k, v) ∨ (∃ q ∈ m, p.1 = q.1) := by
  intro m
  induction m with
  | nil => intro p h; simp only [insertOrAssign, List.mem_singleton] at h; exact Or.inl h
  | cons q m ih =>
    obtain ⟨k', v'⟩ := q
    intro p h
    rw [insertOrAssign] at h
    split at h
    · rcases List.mem_cons.1 h with h | h
      · exact Or.inl h
      · exact Or.inr ⟨p, h, rfl⟩
    · split at h
      · rcases List.mem_cons.1 h with h | h
        · exact Or.inr ⟨p, by rw [h]; exact List.mem_cons_self, rfl⟩
        · rcases ih h with h | ⟨q, hq, e⟩
          · exact Or.inl h
          · exact Or.inr ⟨q, List.mem_cons_of_mem _ hq, e⟩
      · rcases List.mem_cons.1 h with h | h
        · exact Or.inr ⟨(k', v'), List.mem_cons_self, by rw [h]⟩
        · exact Or.inr ⟨p, List.mem_cons_of_mem _ h, rfl⟩

theorem sorted_insert {k : List Nat} {v : Value} : ∀ {m : List (List Nat × Value)}, SortedKeys m →
    SortedKeys (insertOrAssign k v m) := by
  intro m
  induction m with
  | nil => intro _; simp [insertOrAssign, SortedKeys]
  | cons q m ih =>
    obtain ⟨k', v'⟩ := q
    intro h
    have hh := h
    unfold SortedKeys at h ih ⊢
    rw [List.pairwise_cons] at h
    rw [insertOrAssign]
    split
    · rename_i h1
      rw [strLt_iff] at h1
      rw [List.pairwise_cons]
      refine ⟨?_, hh⟩
      intro p hp
      rcases List.mem_cons.1 hp with rfl | hp
      · exact h1
      · exact key_trans h1 (h.1 p hp)
    · split
      · rename_i h1 h2
        rw [strLt_iff] at h2
        rw [List.pairwise_cons]
        refine ⟨?_, ih h.2⟩
        intro p hp
        rcases mem_insert_imp hp with rfl | ⟨q, hq, e⟩
        · exact h2
        · show k' < p.1
          rw [e]; exact h.1 q hq
      · rw [List.pairwise_cons]; exact ⟨h.1, h.2⟩

theorem mem_insert {k : List Nat} {v : Value} : ∀ {m : List (List Nat × Value)}, SortedKeys m →
    ∀ k' v', ((k', v') ∈ insertOrAssign k v m ↔ (k' = k ∧ v' = v) ∨ (k' ≠ k ∧ (k', v') ∈ m)) := by
  intro m
  induction m with
  | nil =>
    intro _ k' v'
    simp [insertOrAssign]
  | cons q m ih =>
    obtain ⟨k1, v1⟩ := q
    intro h k' v'
    unfold SortedKeys at h
    rw [List.pairwise_cons] at h
    rw [insertOrAssign]
    split
    · rename_i h1
      rw [strLt_iff] at h1
      simp only [List.mem_cons, Prod.mk.injEq]
      constructor
      · rintro (h2 | ⟨rfl, rfl⟩ | h2)
        · exact Or.inl h2
        · exact Or.inr ⟨fun e => key_irrefl k (by rw [e] at h1; exact h1), Or.inl ⟨rfl, rfl⟩⟩
        · refine Or.inr ⟨?_, Or.inr h2⟩
          rintro rfl
          exact key_irrefl _ (key_trans h1 (h.1 _ h2))
      · rintro (h2 | ⟨_, h2⟩)
        · exact Or.inl h2
        · exact Or.inr h2
    · rename_i h1
      split
      · rename_i h2
        rw [strLt_iff] at h2
        have := ih h.2 k' v'
        simp only [List.mem_cons, this, Prod.mk.injEq]
        constructor
        · rintro (⟨rfl, rfl⟩ | h3 | ⟨h3, h4⟩)
          · exact Or.inr ⟨fun e => key_irrefl k (by rw [e] at h2; exact h2), Or.inl ⟨rfl, rfl⟩⟩
          · exact Or.inl h3
          · exact Or.inr ⟨h3, Or.inr h4⟩
        · rintro (h3 | ⟨h3, h4 | h4⟩)
          · exact Or.inr (Or.inl h3)
          · exact Or.inl h4
          · exact Or.inr (Or.inr ⟨h3, h4⟩)
      · rename_i h2
        rw [strLt_iff] at h1 h2
        have hk : k1 = k := by
          rcases key_tri k k1 with h3 | h3 | h3
          · exact absurd h3 h1
          · exact h3.symm
          · exact absurd h3 h2
        subst hk
        simp only [List.mem_cons, Prod.mk.injEq]
        constructor
        · rintro (h3 | h3)
          · exact Or.inl h3
          · refine Or.inr ⟨?_, Or.inr h3⟩
            intro e
            exact key_irrefl k1 (by have := h.1 _ h3; rw [e] at this; exact this)
        · rintro (h3 | ⟨h3, ⟨h4, _⟩ | h4⟩)
          · exact Or.inl h3
          · exact absurd h4 h3
          · exact Or.inr h4

theorem insert_ne_nil (k : List Nat) (v : Value) (m : List (List Nat × Value)) :
    insertOrAssign k v m ≠ [] := by
  cases m with
  | nil => simp [insertOrAssign]
  | cons q m =>
    obtain ⟨k', v'⟩ := q
    rw [insertOrAssign]
    split
    · simp
    · split <;> simp

theorem lastOf_append (ms : List (List Nat × Value)) (k k' : List Nat) (v : Value) :
    lastOf (ms ++ [(k, v)]) k' = if k = k' then some v else lastOf ms k' := by
  unfold lastOf
  rw [List.reverse_append, List.reverse_singleton, List.singleton_append, List.find?_cons]
  by_cases h : k = k'
  · subst h; simp
  · have : ((k, v).1 == k') = false := by simp [h]
    rw [this, if_neg h]

theorem mapOf_nil : MapOf [] [] := by
  refine ⟨by simp [SortedKeys], ?_⟩
  intro k v; simp [lastOf]

theorem mapOf_insert {ms m : List (List Nat × Value)} (h : MapOf ms m) (k : List Nat) (v : Value) :
    MapOf (ms ++ [(k, v)]) (insertOrAssign k v m) := by
  refine ⟨sorted_insert h.1, ?_⟩
  intro k' v'
  rw [mem_insert h.1, lastOf_append]
  by_cases hk : k = k'
  · subst hk
    simp only [if_true, Option.some.injEq, ne_eq, not_true, false_and, or_false, true_and]
    exact eq_comm
  · rw [if_neg hk, ← h.2 k' v']
    simp only [ne_eq]
    constructor
    · rintro (⟨h1, _⟩ | h1)
      · exact absurd h1.symm hk
      · exact h1.2
    · intro h1; exact Or.inr ⟨fun e => hk e.symm, h1⟩

theorem sorted_ext : ∀ {m m' : List (List Nat × Value)}, SortedKeys m → SortedKeys m' →
    (∀ p, p ∈ m ↔ p ∈ m') → m = m' := by
  intro m
  induction m with
  | nil =>
    intro m' _ _ h
    cases m' with
    | nil => rfl
    | cons q m' => exact absurd ((h q).2 List.mem_cons_self) (by simp)
  | cons p m ih =>
    intro m' h1 h2 h
    cases m' with
    | nil => exact absurd ((h p).1 List.mem_cons_self) (by simp)
    | cons q m' =>
      unfold SortedKeys at h1 h2
      rw [List.pairwise_cons] at h1 h2
      have hpq : p = q := by
        rcases List.mem_cons.1 ((h p).1 List.mem_cons_self) with e | e
        · exact e
        · rcases List.mem_cons.1 ((h q).2 List.mem_cons_self) with e' | e'
          · exact e'.symm
          · exact absurd (key_trans (h1.1 q e') (h2.1 p e)) (key_irrefl _)
      subst hpq
      rw [ih h1.2 h2.2]
      intro x
      constructor
      · intro hx
        rcases List.mem_cons.1 ((h x).1 (List.mem_cons_of_mem _ hx)) with e | e
        · exact absurd (h1.1 x hx) (by rw [e]; exact key_irrefl _)
        · exact e
      · intro hx
        rcases List.mem_cons.1 ((h x).2 (List.mem_cons_of_mem _ hx)) with e | e
        · exact absurd (h2.1 x hx) (by rw [e]; exact key_irrefl _)
        · exact e

theorem mapOf_unique {ms m m' : List (List Nat × Value)} (h : MapOf ms m) (h' : MapOf ms m') :
    m = m' := by
  refine sorted_ext h.1 h'.1 ?_
  rintro ⟨k, v⟩
  rw [h.2, h'.2]

theorem insert_last {k : List Nat} {v : Value} : ∀ {m : List (List Nat × Value)},
    (∀ p ∈ m, p.1 < k) → insertOrAssign k v m = m ++ [(k, v)] := by
  intro m
  induction m with
  | nil => intro _; rfl
  | cons q m ih =>
    obtain ⟨k', v'⟩ := q
    intro h
    have h1 : k' < k := h (k', v') List.mem_cons_self
    have h2 : ¬ strLt k k' = true := by
      rw [strLt_iff]; intro h3; exact key_irrefl _ (key_trans h1 h3)
    rw [insertOrAssign, if_neg h2, if_pos ((strLt_iff _ _).2 h1),
      ih (fun p hp => h p (List.mem_cons_of_mem _ hp))]
    rfl

/-- A sorted list of entries denotes itself. -/
theorem mapOf_self {m : List (List Nat × Value)} (h : SortedKeys m) : MapOf m m := by
  have key : ∀ (m2 m1 : List (List Nat × Value)), SortedKeys (m1 ++ m2) → MapOf m1 m1 →
      MapOf (m1 ++ m2) (m1 ++ m2) := by
    intro m2
    induction m2 with
    | nil => intro m1 _ h; rw [List.append_nil]; exact h
    | cons q m2 ih =>
      obtain ⟨k, v⟩ := q
      intro m1 h1 h2
      have h3 := mapOf_insert h2 k v
      rw [insert_last] at h3
      · have := ih (m1 ++ [(k, v)])
        rw [List.append_assoc, List.singleton_append] at this
        exact this h1 h3
      · intro p hp
        unfold SortedKeys at h1
        rw [List.pairwise_append] at h1
        exact h1.2.2 p hp (k, v) List.mem_cons_self
  exact key m [] h mapOf_nil

end Verif.Json
