import Verif.Json.Maps

/-! # Equality, order and hash of JSON values -/

namespace Verif.Json

/-! ## Symmetry and reflexivity -/

/-- Not a NaN or an infinity. -/
def FiniteFloat : Value → Prop
  | .flt .nan => False
  | .flt (.inf _) => False
  | _ => True

theorem near_self (f : Flt) (h : FiniteFloat (.flt f)) : f.near f = true := by
  cases f with
  | fin a k =>
    simp only [Flt.near, Int.sub_self, Int.natAbs_zero, Nat.zero_mul, decide_eq_true_eq]
    exact Nat.zero_le _
  | inf b => exact absurd h (by simp [FiniteFloat])
  | nan => exact absurd h (by simp [FiniteFloat])

theorem near_symm (a b : Flt) : a.near b = b.near a := by
  cases a <;> cases b <;> simp only [Flt.near]
  rename_i a j b k
  have h1 : (a * 2 ^ k - b * 2 ^ j).natAbs = (b * 2 ^ j - a * 2 ^ k).natAbs := by omega
  rw [h1, Nat.add_comm]

mutual
theorem eq_refl : ∀ v : Value, v.All FiniteFloat → eq v v = true
  | .null, _ => by simp [eq]
  | .str s, _ => by simp [eq]
  | .obj m, h => by rw [eq]; exact eqMembers_refl m h.2
  | .arr l, h => by rw [eq]; exact eqElems_refl l h.2
  | .bool b, _ => by simp [eq]
  | .int i, _ => by simp [eq]
  | .uint n, _ => by simp [eq]
  | .flt f, h => by rw [eq]; exact near_self f h
theorem eqMembers_refl : ∀ m : List (List Nat × Value), AllMembers FiniteFloat m → eqMembers m m = true
  | [], _ => by simp [eqMembers]
  | (k, v) :: m, h => by simp [eqMembers, eq_refl v h.1, eqMembers_refl m h.2]
theorem eqElems_refl : ∀ l : List Value, AllElems FiniteFloat l → eqElems l l = true
  | [], _ => by simp [eqElems]
  | v :: l, h => by simp [eqElems, eq_refl v h.1, eqElems_refl l h.2]
end

theorem cross_eq {i : Int} {n : Nat} (hi : -(2 ^ 63) ≤ i ∧ i < 2 ^ 63) (hn : n < 2 ^ 64) :
    i = toSigned n ↔ n = toUnsigned i := by
  unfold toSigned toUnsigned
  split <;> split <;> omega

mutual
theorem eq_symm : ∀ a b : Value, a.WF → b.WF → eq a b = eq b a
  | .null, b, _, _ => by cases b <;> simp [eq]
  | .str s, b, _, _ => by
    cases b <;> simp only [eq]
    exact Bool.eq_iff_iff.2 (by simp only [beq_iff_eq]; exact eq_comm)
  | .obj m, b, ha, hb => by
    cases b <;> simp only [eq]
    exact eqMembers_symm m _ ha.2 hb.2
  | .arr l, b, ha, hb => by
    cases b <;> simp only [eq]
    exact eqElems_symm l _ ha hb
  | .bool x, b, _, _ => by
    cases b <;> simp only [eq]
    exact Bool.eq_iff_iff.2 (by simp only [beq_iff_eq]; exact eq_comm)
  | .int i, b, ha, hb => by
    cases b <;> simp only [eq]
    · exact Bool.eq_iff_iff.2 (by simp only [beq_iff_eq]; exact eq_comm)
    · exact Bool.eq_iff_iff.2 (by simp only [beq_iff_eq]; exact cross_eq ha hb)
    · exact near_symm _ _
  | .uint n, b, ha, hb => by
    cases b <;> simp only [eq]
    · exact Bool.eq_iff_iff.2 (by simp only [beq_iff_eq]; exact (cross_eq hb ha).symm)
    · exact Bool.eq_iff_iff.2 (by simp only [beq_iff_eq]; exact eq_comm)
    · exact near_symm _ _
  | .flt f, b, _, _ => by
    cases b <;> simp only [eq]
    · exact near_symm _ _
    · exact near_symm _ _
    · exact near_symm _ _
theorem eqMembers_symm : ∀ a b : List (List Nat × Value), WFMembers a → WFMembers b →
    eqMembers a b = eqMembers b a
  | [], b, _, _ => by
    cases b with
    | nil => rfl
    | cons p b => obtain ⟨k, v⟩ := p; simp [eqMembers]
  | (k, v) :: a, b, ha, hb => by
    cases b with
    | nil => simp [eqMembers]
    | cons p b =>
      obtain ⟨k', v'⟩ := p
      simp only [eqMembers]
      rw [eq_symm v v' ha.2.1 hb.2.1, eqMembers_symm a b ha.2.2 hb.2.2]
      have : (k == k') = (k' == k) := Bool.eq_iff_iff.2 (by simp only [beq_iff_eq]; exact eq_comm)
      rw [this]
theorem eqElems_symm : ∀ a b : List Value, WFElems a → WFElems b → eqElems a b = eqElems b a
  | [], b, _, _ => by
    cases b with
    | nil => rfl
    | cons p b => simp [eqElems]
  | v :: a, b, ha, hb => by
    cases b with
    | nil => simp [eqElems]
    | cons v' b =>
      simp only [eqElems]
      rw [eq_symm v v' ha.1 hb.1, eqElems_symm a b ha.2 hb.2]
end

/-! ## Canonical forms: float-free equality is identity up to the bit pattern of integers -/

mutual
/-- Signed integers replaced by the unsigned integer with the same 64 bits. -/
def bits : Value → Value
  | .int i => .uint (toUnsigned i)
  | .obj m => .obj (bitsMembers m)
  | .arr l => .arr (bitsElems l)
  | .null => .null
  | .str s => .str s
  | .bool b => .bool b
  | .uint n => .uint n
  | .flt f => .flt f
/-- All entries. -/
def bitsMembers : List (List Nat × Value) → List (List Nat × Value)
  | [] => []
  | (k, v) :: m => (k, bits v) :: bitsMembers m
/-- All elements. -/
def bitsElems : List Value → List Value
  | [] => []
  | v :: l => bits v :: bitsElems l
end

theorem toUnsigned_inj {i j : Int} (hi : -(2 ^ 63) ≤ i ∧ i < 2 ^ 63) (hj : -(2 ^ 63) ≤ j ∧ j < 2 ^ 63) :
    toUnsigned i = toUnsigned j ↔ i = j := by
  unfold toUnsigned
  split <;> split <;> omega

mutual
theorem eq_bits : ∀ a b : Value, a.WF → b.WF → a.All NotFloat → b.All NotFloat →
    (eq a b = true ↔ bits a = bits b)
  | .null, b, _, _, _, _ => by cases b <;> simp [eq, bits]
  | .str s, b, _, _, _, _ => by cases b <;> simp [eq, bits]
  | .obj m, b, ha, hb, fa, fb => by
    cases b <;> simp only [eq, bits, Value.obj.injEq, reduceCtorEq, Bool.false_eq_true]
    exact eqMembers_bits m _ ha.2 hb.2 fa.2 fb.2
  | .arr l, b, ha, hb, fa, fb => by
    cases b <;> simp only [eq, bits, Value.arr.injEq, reduceCtorEq, Bool.false_eq_true]
    exact eqElems_bits l _ ha hb fa.2 fb.2
  | .bool x, b, _, _, _, _ => by cases b <;> simp [eq, bits]
  | .int i, b, ha, hb, fa, fb => by
    cases b <;> simp only [eq, bits, Value.uint.injEq, reduceCtorEq, Bool.false_eq_true, beq_iff_eq]
    · exact (toUnsigned_inj ha hb).symm
    · rw [cross_eq ha hb]; exact eq_comm
    · exact absurd fb (by simp [Value.All, NotFloat])
  | .uint n, b, ha, hb, fa, fb => by
    cases b <;> simp only [eq, bits, Value.uint.injEq, reduceCtorEq, Bool.false_eq_true, beq_iff_eq]
    exact absurd fb (by simp [Value.All, NotFloat])
  | .flt f, b, _, _, fa, _ => absurd fa (by simp [Value.All, NotFloat])
theorem eqMembers_bits : ∀ a b : List (List Nat × Value), WFMembers a → WFMembers b →
    AllMembers NotFloat a → AllMembers NotFloat b →
    (eqMembers a b = true ↔ bitsMembers a = bitsMembers b)
  | [], b, _, _, _, _ => by
    cases b with
    | nil => simp [eqMembers, bitsMembers]
    | cons p b => obtain ⟨k, v⟩ := p; simp [eqMembers, bitsMembers]
  | (k, v) :: a, b, ha, hb, fa, fb => by
    cases b with
    | nil => simp [eqMembers, bitsMembers]
    | cons p b =>
      obtain ⟨k', v'⟩ := p
      simp only [eqMembers, bitsMembers, Bool.and_eq_true, beq_iff_eq, List.cons.injEq, Prod.mk.injEq]
      rw [eq_bits v v' ha.2.1 hb.2.1 fa.1 fb.1, eqMembers_bits a b ha.2.2 hb.2.2 fa.2 fb.2]
theorem eqElems_bits : ∀ a b : List Value, WFElems a → WFElems b → AllElems NotFloat a →
    AllElems NotFloat b → (eqElems a b = true ↔ bitsElems a = bitsElems b)
  | [], b, _, _, _, _ => by
    cases b with
    | nil => simp [eqElems, bitsElems]
    | cons p b => simp [eqElems, bitsElems]
  | v :: a, b, ha, hb, fa, fb => by
    cases b with
    | nil => simp [eqElems, bitsElems]
    | cons v' b =>
      simp only [eqElems, bitsElems, Bool.and_eq_true, List.cons.injEq]
      rw [eq_bits v v' ha.1 hb.1 fa.1 fb.1, eqElems_bits a b ha.2 hb.2 fa.2 fb.2]
end

/-! ## Order -/

/-- The mathematical value of an integer. -/
def numOf : Value → Option Int
  | .int i => some i
  | .uint n => some n
  | _ => none

/-- Classes of numbers within which the library's comparison of integers is the mathematical one:
only signed, only unsigned, or all within the range of both types. -/
inductive NumClass where
  | signed
  | unsigned
  | common

/-- Membership of the numbers of a value in a class; there are no floating-point numbers. -/
def NumClass.holds : NumClass → Value → Prop
  | _, .flt _ => False
  | .signed, .uint _ => False
  | .unsigned, .int _ => False
  | .common, .int i => 0 ≤ i ∧ i < 2 ^ 63
  | .common, .uint n => n < 2 ^ 63
  | _, _ => True

mutual
/-- Every integer written as a signed integer. -/
def canon : Value → Value
  | .uint n => .int n
  | .obj m => .obj (canonMembers m)
  | .arr l => .arr (canonElems l)
  | .null => .null
  | .str s => .str s
  | .bool b => .bool b
  | .int i => .int i
  | .flt f => .flt f
/-- All entries. -/
def canonMembers : List (List Nat × Value) → List (List Nat × Value)
  | [] => []
  | (k, v) :: m => (k, canon v) :: canonMembers m
/-- All elements. -/
def canonElems : List Value → List Value
  | [] => []
  | v :: l => canon v :: canonElems l
end

/-- Integers are signed, and there are no floating-point numbers. -/
def OnlyInt : Value → Prop
  | .flt _ => False
  | .uint _ => False
  | _ => True

mutual
theorem canon_only {c : NumClass} : ∀ a : Value, a.All c.holds → (canon a).All OnlyInt
  | .null, _ => by simp [canon, Value.All, OnlyInt]
  | .str s, _ => by simp [canon, Value.All, OnlyInt]
  | .obj m, h => by
    simp only [canon, Value.All, OnlyInt, true_and]; exact canonMembers_only m h.2
  | .arr l, h => by
    simp only [canon, Value.All, OnlyInt, true_and]; exact canonElems_only l h.2
  | .bool b, _ => by simp [canon, Value.All, OnlyInt]
  | .int i, _ => by simp [canon, Value.All, OnlyInt]
  | .uint n, _ => by simp [canon, Value.All, OnlyInt]
  | .flt f, h => absurd h (by cases c <;> simp [Value.All, NumClass.holds])
theorem canonMembers_only {c : NumClass} : ∀ m : List (List Nat × Value), AllMembers c.holds m →
    AllMembers OnlyInt (canonMembers m)
  | [], _ => by simp [canonMembers, AllMembers]
  | (k, v) :: m, h => ⟨canon_only v h.1, canonMembers_only m h.2⟩
theorem canonElems_only {c : NumClass} : ∀ l : List Value, AllElems c.holds l →
    AllElems OnlyInt (canonElems l)
  | [], _ => by simp [canonElems, AllElems]
  | v :: l, h => ⟨canon_only v h.1, canonElems_only l h.2⟩
end

mutual
theorem eq_canon {c : NumClass} : ∀ a b : Value, a.All c.holds → b.All c.holds →
    (eq a b = true ↔ canon a = canon b)
  | .null, b, _, _ => by cases b <;> simp [eq, canon]
  | .str s, b, _, _ => by cases b <;> simp [eq, canon]
  | .obj m, b, ha, hb => by
    cases b <;> simp only [eq, canon, Value.obj.injEq, reduceCtorEq, Bool.false_eq_true]
    exact eqMembers_canon m _ ha.2 hb.2
  | .arr l, b, ha, hb => by
    cases b <;> simp only [eq, canon, Value.arr.injEq, reduceCtorEq, Bool.false_eq_true]
    exact eqElems_canon l _ ha.2 hb.2
  | .bool x, b, _, _ => by cases b <;> simp [eq, canon]
  | .int i, b, ha, hb => by
    cases b <;> simp only [eq, canon, Value.int.injEq, reduceCtorEq, Bool.false_eq_true, beq_iff_eq]
    · rename_i n
      cases c <;> simp only [Value.All, NumClass.holds] at ha hb
      unfold toSigned; rw [if_pos hb]
    · cases c <;> simp [Value.All, NumClass.holds] at hb
  | .uint n, b, ha, hb => by
    cases b <;> simp only [eq, canon, Value.int.injEq, reduceCtorEq, Bool.false_eq_true, beq_iff_eq]
    · rename_i n
      cases c <;> simp only [Value.All, NumClass.holds] at ha hb
      unfold toUnsigned; rw [if_pos hb.1]; omega
    · omega
    · cases c <;> simp [Value.All, NumClass.holds] at hb
  | .flt f, b, h, _ => absurd h (by cases c <;> simp [Value.All, NumClass.holds])
theorem eqMembers_canon {c : NumClass} : ∀ a b : List (List Nat × Value), AllMembers c.holds a →
    AllMembers c.holds b → (eqMembers a b = true ↔ canonMembers a = canonMembers b)
  | [], b, _, _ => by
    cases b with
    | nil => simp [eqMembers, canonMembers]
    | cons p b => obtain ⟨k, v⟩ := p; simp [eqMembers, canonMembers]
  | (k, v) :: a, b, ha, hb => by
    cases b with
    | nil => simp [eqMembers, canonMembers]
    | cons p b =>
      obtain ⟨k', v'⟩ := p
      simp only [eqMembers, canonMembers, Bool.and_eq_true, beq_iff_eq, List.cons.injEq, Prod.mk.injEq]
      rw [eq_canon v v' ha.1 hb.1, eqMembers_canon a b ha.2 hb.2]
theorem eqElems_canon {c : NumClass} : ∀ a b : List Value, AllElems c.holds a →
    AllElems c.holds b → (eqElems a b = true ↔ canonElems a = canonElems b)
  | [], b, _, _ => by
    cases b with
    | nil => simp [eqElems, canonElems]
    | cons p b => simp [eqElems, canonElems]
  | v :: a, b, ha, hb => by
    cases b with
    | nil => simp [eqElems, canonElems]
    | cons v' b =>
      simp only [eqElems, canonElems, Bool.and_eq_true, List.cons.injEq]
      rw [eq_canon v v' ha.1 hb.1, eqElems_canon a b ha.2 hb.2]
end

mutual
theorem less_canon {c : NumClass} : ∀ a b : Value, a.All c.holds → b.All c.holds →
    less a b = less (canon a) (canon b) ∧ less b a = less (canon b) (canon a)
  | .null, b, _, _ => by cases b <;> simp [less, canon, Value.index]
  | .str s, b, _, _ => by cases b <;> simp [less, canon, Value.index]
  | .obj m, b, ha, hb => by
    cases b <;> simp only [less, canon, Value.index] <;> try simp
    exact lessMembers_canon m _ ha.2 hb.2
  | .arr l, b, ha, hb => by
    cases b <;> simp only [less, canon, Value.index] <;> try simp
    exact lessElems_canon l _ ha.2 hb.2
  | .bool x, b, _, _ => by cases b <;> simp [less, canon, Value.index]
  | .int i, b, ha, hb => by
    cases b <;> simp only [less, canon, Value.index] <;> try simp
    · rename_i n
      cases c <;> simp only [Value.All, NumClass.holds] at ha hb
      unfold toSigned toUnsigned
      rw [if_pos hb, if_pos ha.1]
      exact ⟨Iff.rfl, by omega⟩
  | .uint n, b, ha, hb => by
    cases b <;> simp only [less, canon, Value.index] <;> try simp
    · rename_i n
      cases c <;> simp only [Value.All, NumClass.holds] at ha hb
      unfold toSigned toUnsigned
      rw [if_pos ha, if_pos hb.1]
      exact ⟨by omega, Iff.rfl⟩
  | .flt f, b, h, _ => absurd h (by cases c <;> simp [Value.All, NumClass.holds])
theorem lessMembers_canon {c : NumClass} : ∀ a b : List (List Nat × Value), AllMembers c.holds a →
    AllMembers c.holds b → lessMembers a b = lessMembers (canonMembers a) (canonMembers b) ∧
      lessMembers b a = lessMembers (canonMembers b) (canonMembers a)
  | [], b, _, _ => by
    cases b with
    | nil => simp [lessMembers, canonMembers]
    | cons p b => obtain ⟨k, v⟩ := p; simp [lessMembers, canonMembers]
  | (k, v) :: a, b, ha, hb => by
    cases b with
    | nil => simp [lessMembers, canonMembers]
    | cons p b =>
      obtain ⟨k', v'⟩ := p
      simp only [lessMembers, canonMembers]
      have h1 := less_canon v v' ha.1 hb.1
      have h2 := lessMembers_canon a b ha.2 hb.2
      rw [h1.1, h1.2, h2.1, h2.2]
      exact ⟨rfl, rfl⟩
theorem lessElems_canon {c : NumClass} : ∀ a b : List Value, AllElems c.holds a →
    AllElems c.holds b → lessElems a b = lessElems (canonElems a) (canonElems b) ∧
      lessElems b a = lessElems (canonElems b) (canonElems a)
  | [], b, _, _ => by
    cases b with
    | nil => simp [lessElems, canonElems]
    | cons p b => simp [lessElems, canonElems]
  | v :: a, b, ha, hb => by
    cases b with
    | nil => simp [lessElems, canonElems]
    | cons v' b =>
      simp only [lessElems, canonElems]
      have h1 := less_canon v v' ha.1 hb.1
      have h2 := lessElems_canon a b ha.2 hb.2
      rw [h1.1, h1.2, h2.1, h2.2]
      exact ⟨rfl, rfl⟩
end

end Verif.Json
