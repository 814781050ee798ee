import Verif.Json.Order

/-! # The order is total on values with one kind of integers -/

namespace Verif.Json

/-- Exactly one of less, equal, greater. -/
def Tri (lt : Prop) (e : Prop) (gt : Prop) : Prop :=
  (lt ∧ ¬ e ∧ ¬ gt) ∨ (¬ lt ∧ e ∧ ¬ gt) ∨ (¬ lt ∧ ¬ e ∧ gt)

theorem strLt_tri (a b : List Nat) : Tri (strLt a b = true) (a = b) (strLt b a = true) := by
  rw [strLt_iff, strLt_iff]
  rcases key_tri a b with h | h | h
  · refine Or.inl ⟨h, ?_, fun h' => key_irrefl _ (key_trans h h')⟩
    rintro rfl; exact key_irrefl _ h
  · subst h; exact Or.inr (Or.inl ⟨key_irrefl _, rfl, key_irrefl _⟩)
  · refine Or.inr (Or.inr ⟨fun h' => key_irrefl _ (key_trans h h'), ?_, h⟩)
    rintro rfl; exact key_irrefl _ h

/-- One step of a lexicographic comparison. -/
theorem lex_tri {l1 g1 l2 g2 : Bool} {e1 e2 : Prop} (h1 : Tri (l1 = true) e1 (g1 = true))
    (h2 : Tri (l2 = true) e2 (g2 = true)) :
    Tri ((l1 || (!g1 && l2)) = true) (e1 ∧ e2) ((g1 || (!l1 && g2)) = true) := by
  unfold Tri at *
  rcases h1 with ⟨a, b, c⟩ | ⟨a, b, c⟩ | ⟨a, b, c⟩ <;>
    rcases h2 with ⟨x, y, z⟩ | ⟨x, y, z⟩ | ⟨x, y, z⟩ <;>
    simp_all

theorem index_tri {a b : Value} (h : a.index ≠ b.index)
    (h1 : less a b = decide (a.index < b.index)) (h2 : less b a = decide (b.index < a.index)) :
    Tri (less a b = true) (a = b) (less b a = true) := by
  rw [h1, h2, decide_eq_true_eq, decide_eq_true_eq]
  have hne : a ≠ b := by rintro rfl; exact h rfl
  rcases Nat.lt_or_gt_of_ne h with h | h
  · exact Or.inl ⟨h, hne, by omega⟩
  · exact Or.inr (Or.inr ⟨by omega, hne, h⟩)

mutual
theorem less_tri : ∀ a b : Value, a.All OnlyInt → b.All OnlyInt →
    Tri (less a b = true) (a = b) (less b a = true)
  | .null, b, _, hb => by
    cases b with
    | null => simp [less, Tri]
    | _ => refine index_tri (by simp [Value.index]) ?_ ?_ <;> simp [less, Value.index]
  | .str s, b, _, hb => by
    cases b <;> first
      | (refine index_tri (by simp [Value.index]) ?_ ?_ <;> simp [less, Value.index] <;> done)
      | skip
    rename_i t
    simp only [less, Value.str.injEq]; exact strLt_tri s t
  | .obj m, b, ha, hb => by
    cases b <;> first
      | (refine index_tri (by simp [Value.index]) ?_ ?_ <;> simp [less, Value.index] <;> done)
      | skip
    simp only [less, Value.obj.injEq]; exact lessMembers_tri m _ ha.2 hb.2
  | .arr l, b, ha, hb => by
    cases b <;> first
      | (refine index_tri (by simp [Value.index]) ?_ ?_ <;> simp [less, Value.index] <;> done)
      | skip
    simp only [less, Value.arr.injEq]; exact lessElems_tri l _ ha.2 hb.2
  | .bool x, b, _, hb => by
    cases b <;> first
      | (refine index_tri (by simp [Value.index]) ?_ ?_ <;> simp [less, Value.index] <;> done)
      | skip
    rename_i y
    cases x <;> cases y <;> simp [less, Tri]
  | .int i, b, ha, hb => by
    cases b <;> first
      | (refine index_tri (by simp [Value.index]) ?_ ?_ <;> simp [less, Value.index] <;> done)
      | skip
    · simp only [less, Value.int.injEq, decide_eq_true_eq]; unfold Tri; omega
    · exact absurd hb (by simp [Value.All, OnlyInt])
    · exact absurd hb (by simp [Value.All, OnlyInt])
  | .uint n, b, h, _ => absurd h (by simp [Value.All, OnlyInt])
  | .flt f, b, h, _ => absurd h (by simp [Value.All, OnlyInt])
theorem lessMembers_tri : ∀ a b : List (List Nat × Value), AllMembers OnlyInt a → AllMembers OnlyInt b →
    Tri (lessMembers a b = true) (a = b) (lessMembers b a = true)
  | [], b, _, _ => by
    cases b with
    | nil => simp [lessMembers, Tri]
    | cons p b => obtain ⟨k, v⟩ := p; simp [lessMembers, Tri]
  | (k, v) :: a, b, ha, hb => by
    cases b with
    | nil => simp [lessMembers, Tri]
    | cons p b =>
      obtain ⟨k', v'⟩ := p
      simp only [lessMembers, List.cons.injEq, Prod.mk.injEq]
      have := lex_tri (strLt_tri k k') (lex_tri (less_tri v v' ha.1 hb.1)
        (lessMembers_tri a b ha.2 hb.2))
      rw [and_assoc]; exact this
theorem lessElems_tri : ∀ a b : List Value, AllElems OnlyInt a → AllElems OnlyInt b →
    Tri (lessElems a b = true) (a = b) (lessElems b a = true)
  | [], b, _, _ => by
    cases b with
    | nil => simp [lessElems, Tri]
    | cons p b => simp [lessElems, Tri]
  | v :: a, b, ha, hb => by
    cases b with
    | nil => simp [lessElems, Tri]
    | cons v' b =>
      simp only [lessElems, List.cons.injEq]
      exact lex_tri (less_tri v v' ha.1 hb.1) (lessElems_tri a b ha.2 hb.2)
end

/-- A lexicographic step as a disjunction. -/
theorem lex_iff {l g m : Bool} {e : Prop} (h : Tri (l = true) e (g = true)) :
    (l || (!g && m)) = true ↔ l = true ∨ (e ∧ m = true) := by
  unfold Tri at h
  rcases h with ⟨a, b, c⟩ | ⟨a, b, c⟩ | ⟨a, b, c⟩ <;> simp_all

mutual
theorem less_trans : ∀ a b c : Value, a.All OnlyInt → b.All OnlyInt → c.All OnlyInt →
    less a b = true → less b c = true → less a c = true
  | .null, b, c, _, hb, hc => by
    cases b <;> cases c <;> simp [less, Value.index]
  | .str s, b, c, _, hb, hc => by
    cases b <;> cases c <;> simp [less, Value.index]
    rw [strLt_iff, strLt_iff, strLt_iff]; exact key_trans
  | .obj m, b, c, ha, hb, hc => by
    cases b <;> cases c <;> simp [less, Value.index]
    exact lessMembers_trans m _ _ ha.2 hb.2 hc.2
  | .arr l, b, c, ha, hb, hc => by
    cases b <;> cases c <;> simp [less, Value.index]
    exact lessElems_trans l _ _ ha.2 hb.2 hc.2
  | .bool x, b, c, _, hb, hc => by
    cases b <;> cases c <;> simp [less, Value.index]
    rename_i y z
    cases x <;> cases y <;> cases z <;> simp
  | .int i, b, c, ha, hb, hc => by
    cases b <;> cases c <;> simp [less, Value.index] <;>
      simp only [Value.All, OnlyInt] at hb hc
    omega
  | .uint n, b, c, h, _, _ => absurd h (by simp [Value.All, OnlyInt])
  | .flt f, b, c, h, _, _ => absurd h (by simp [Value.All, OnlyInt])
theorem lessMembers_trans : ∀ a b c : List (List Nat × Value), AllMembers OnlyInt a →
    AllMembers OnlyInt b → AllMembers OnlyInt c → lessMembers a b = true → lessMembers b c = true →
    lessMembers a c = true
  | [], b, c, _, _, _ => by
    cases b with
    | nil => simp [lessMembers]
    | cons p b =>
      cases c with
      | nil => simp [lessMembers]
      | cons q c => obtain ⟨k, v⟩ := q; simp [lessMembers]
  | (k, v) :: a, b, c, ha, hb, hc => by
    cases b with
    | nil => simp [lessMembers]
    | cons p b =>
      cases c with
      | nil => simp [lessMembers]
      | cons q c =>
        obtain ⟨k', v'⟩ := p
        obtain ⟨k'', v''⟩ := q
        simp only [lessMembers]
        rw [lex_iff (strLt_tri k k'), lex_iff (strLt_tri k' k''), lex_iff (strLt_tri k k''),
          lex_iff (less_tri v v' ha.1 hb.1), lex_iff (less_tri v' v'' hb.1 hc.1),
          lex_iff (less_tri v v'' ha.1 hc.1), strLt_iff, strLt_iff, strLt_iff]
        have h1 := less_trans v v' v'' ha.1 hb.1 hc.1
        have h2 := lessMembers_trans a b c ha.2 hb.2 hc.2
        rintro (g1 | ⟨rfl, g1 | ⟨rfl, g1⟩⟩) (g2 | ⟨rfl, g2 | ⟨rfl, g2⟩⟩)
        · exact Or.inl (key_trans g1 g2)
        · exact Or.inl g1
        · exact Or.inl g1
        · exact Or.inl g2
        · exact Or.inr ⟨rfl, Or.inl (h1 g1 g2)⟩
        · exact Or.inr ⟨rfl, Or.inl g1⟩
        · exact Or.inl g2
        · exact Or.inr ⟨rfl, Or.inl g2⟩
        · exact Or.inr ⟨rfl, Or.inr ⟨rfl, h2 g1 g2⟩⟩
theorem lessElems_trans : ∀ a b c : List Value, AllElems OnlyInt a →
    AllElems OnlyInt b → AllElems OnlyInt c → lessElems a b = true → lessElems b c = true →
    lessElems a c = true
  | [], b, c, _, _, _ => by
    cases b with
    | nil => simp [lessElems]
    | cons p b =>
      cases c with
      | nil => simp [lessElems]
      | cons q c => simp [lessElems]
  | v :: a, b, c, ha, hb, hc => by
    cases b with
    | nil => simp [lessElems]
    | cons v' b =>
      cases c with
      | nil => simp [lessElems]
      | cons v'' c =>
        simp only [lessElems]
        rw [lex_iff (less_tri v v' ha.1 hb.1), lex_iff (less_tri v' v'' hb.1 hc.1),
          lex_iff (less_tri v v'' ha.1 hc.1)]
        have h1 := less_trans v v' v'' ha.1 hb.1 hc.1
        have h2 := lessElems_trans a b c ha.2 hb.2 hc.2
        rintro (g1 | ⟨rfl, g1⟩) (g2 | ⟨rfl, g2⟩)
        · exact Or.inl (h1 g1 g2)
        · exact Or.inl g1
        · exact Or.inl g2
        · exact Or.inr ⟨rfl, h2 g1 g2⟩
end

end Verif.Json
