import Verif.Json.Cost

/-!
# C165: copying, comparing, hashing and destroying deep JSON values

Source: `/repo/fly/types/json/json.cpp` 19-22, 732-763, 772-805, `/repo/fly/types/json/json.hpp` 2161-2206; the destructor is the implicit
one (json.hpp declares none). Each of them is called again, through the `std::variant` and the `std::map` or `std::vector` in it, for every
entry and element; each call of the JSON function takes a level of the stack.
-/

namespace Verif.Json.Depth

open Verif.Json Verif.Json.Cost

/-! ## Model

`none`: the stack overflows. `d` levels are left. -/

mutual
/-- `~Json` (json.hpp; implicit). -/
def destroyIn : Nat → Value → Option Unit
  | 0, _ => none
  | d + 1, .obj m => destroyMembersIn d m
  | d + 1, .arr l => destroyElemsIn d l
  | _ + 1, _ => some ()
/-- The entries of an object (json.hpp; implicit). -/
def destroyMembersIn : Nat → List (List Nat × Value) → Option Unit
  | _, [] => some ()
  | d, (_, v) :: m => (destroyIn d v).bind fun _ => destroyMembersIn d m
/-- The elements of an array (json.hpp; implicit). -/
def destroyElemsIn : Nat → List Value → Option Unit
  | _, [] => some ()
  | d, v :: l => (destroyIn d v).bind fun _ => destroyElemsIn d l
end

mutual
/-- `Json(const_reference)` (json.cpp 19-22). -/
def copyIn : Nat → Value → Option Value
  | 0, _ => none
  | d + 1, .obj m => (copyMembersIn d m).map .obj
  | d + 1, .arr l => (copyElemsIn d l).map .arr
  | _ + 1, v => some v
/-- The copy of an object's entries (json.cpp 20). -/
def copyMembersIn : Nat → List (List Nat × Value) → Option (List (List Nat × Value))
  | _, [] => some []
  | d, (k, v) :: m => (copyIn d v).bind fun v => (copyMembersIn d m).map ((k, v) :: ·)
/-- The copy of an array's elements (json.cpp 20). -/
def copyElemsIn : Nat → List Value → Option (List Value)
  | _, [] => some []
  | d, v :: l => (copyIn d v).bind fun v => (copyElemsIn d l).map (v :: ·)
end

mutual
/-- `operator==` (json.cpp 732-763). -/
def eqIn : Nat → Value → Value → Option Bool
  | 0, _, _ => none
  | d + 1, .obj a, .obj b => if a.length = b.length then eqMembersIn d a b else some false
  | d + 1, .arr a, .arr b => if a.length = b.length then eqElemsIn d a b else some false
  | _ + 1, a, b => some (eq a b)
/-- Equality of the entries of two objects of the same size (json.cpp 754). -/
def eqMembersIn : Nat → List (List Nat × Value) → List (List Nat × Value) → Option Bool
  | d, (k, v) :: a, (k', v') :: b =>
    if k ≠ k' then some false
    else (eqIn d v v').bind fun r => if r then eqMembersIn d a b else some false
  | _, _, _ => some true
/-- Equality of the elements of two arrays of the same size (json.cpp 754). -/
def eqElemsIn : Nat → List Value → List Value → Option Bool
  | d, v :: a, v' :: b => (eqIn d v v').bind fun r => if r then eqElemsIn d a b else some false
  | _, _, _ => some true
end

/-- `Json outer = array; outer.push_back(std::move(value)); value = std::move(outer);`, done `n` times (json.cpp 25-29, 61-65,
609-614): no call in it enters the value. -/
def wrap : Nat → Value → Value
  | 0, v => v
  | n + 1, v => wrap n (.arr [v])

/-! ## Proof -/

mutual
theorem destroyIn_spec : ∀ (d : Nat) (v : Value), destroyIn d v = if levels v ≤ d then some () else none
  | 0, v => by have := levels_pos v; rw [destroyIn, if_neg (by omega)]
  | d + 1, .obj m => by
    rw [destroyIn, levels, destroyMembersIn_spec d m]
    by_cases h : levelsMembers m ≤ d
    · rw [if_pos h, if_pos (by omega)]
    · rw [if_neg h, if_neg (by omega)]
  | d + 1, .arr l => by
    rw [destroyIn, levels, destroyElemsIn_spec d l]
    by_cases h : levelsElems l ≤ d
    · rw [if_pos h, if_pos (by omega)]
    · rw [if_neg h, if_neg (by omega)]
  | d + 1, .null => by simp [destroyIn, levels]
  | d + 1, .str _ => by simp [destroyIn, levels]
  | d + 1, .bool _ => by simp [destroyIn, levels]
  | d + 1, .int _ => by simp [destroyIn, levels]
  | d + 1, .uint _ => by simp [destroyIn, levels]
  | d + 1, .flt _ => by simp [destroyIn, levels]
theorem destroyMembersIn_spec : ∀ (d : Nat) (m : List (List Nat × Value)), destroyMembersIn d m = if levelsMembers m ≤ d then some () else none
  | d, [] => by simp [destroyMembersIn, levelsMembers]
  | d, (k, v) :: m => by
    rw [destroyMembersIn, levelsMembers, destroyIn_spec d v, destroyMembersIn_spec d m]
    by_cases h1 : levels v ≤ d <;> by_cases h2 : levelsMembers m ≤ d <;> simp [h1, h2, Nat.max_le]
theorem destroyElemsIn_spec : ∀ (d : Nat) (l : List Value), destroyElemsIn d l = if levelsElems l ≤ d then some () else none
  | d, [] => by simp [destroyElemsIn, levelsElems]
  | d, v :: l => by
    rw [destroyElemsIn, levelsElems, destroyIn_spec d v, destroyElemsIn_spec d l]
    by_cases h1 : levels v ≤ d <;> by_cases h2 : levelsElems l ≤ d <;> simp [h1, h2, Nat.max_le]
end

mutual
theorem copyIn_spec : ∀ (d : Nat) (v : Value), copyIn d v = if levels v ≤ d then some v else none
  | 0, v => by have := levels_pos v; rw [copyIn, if_neg (by omega)]
  | d + 1, .obj m => by
    rw [copyIn, levels, copyMembersIn_spec d m]
    by_cases h : levelsMembers m ≤ d
    · rw [if_pos h, if_pos (by omega)]; rfl
    · rw [if_neg h, if_neg (by omega)]; rfl
  | d + 1, .arr l => by
    rw [copyIn, levels, copyElemsIn_spec d l]
    by_cases h : levelsElems l ≤ d
    · rw [if_pos h, if_pos (by omega)]; rfl
    · rw [if_neg h, if_neg (by omega)]; rfl
  | d + 1, .null => by simp [copyIn, levels]
  | d + 1, .str _ => by simp [copyIn, levels]
  | d + 1, .bool _ => by simp [copyIn, levels]
  | d + 1, .int _ => by simp [copyIn, levels]
  | d + 1, .uint _ => by simp [copyIn, levels]
  | d + 1, .flt _ => by simp [copyIn, levels]
theorem copyMembersIn_spec : ∀ (d : Nat) (m : List (List Nat × Value)), copyMembersIn d m = if levelsMembers m ≤ d then some m else none
  | d, [] => by simp [copyMembersIn, levelsMembers]
  | d, (k, v) :: m => by
    rw [copyMembersIn, levelsMembers, copyIn_spec d v, copyMembersIn_spec d m]
    by_cases h1 : levels v ≤ d <;> by_cases h2 : levelsMembers m ≤ d <;> simp [h1, h2, Nat.max_le]
theorem copyElemsIn_spec : ∀ (d : Nat) (l : List Value), copyElemsIn d l = if levelsElems l ≤ d then some l else none
  | d, [] => by simp [copyElemsIn, levelsElems]
  | d, v :: l => by
    rw [copyElemsIn, levelsElems, copyIn_spec d v, copyElemsIn_spec d l]
    by_cases h1 : levels v ≤ d <;> by_cases h2 : levelsElems l ≤ d <;> simp [h1, h2, Nat.max_le]
end

/-- A comparison on a limited stack is one on an unlimited one, and overflows only if both values are deeper. -/
structure EqFits (n : Nat) : Prop where
  val : ∀ d (a b : Value), sizeOf a ≤ n → (∀ r, eqIn d a b = some r → r = eq a b) ∧ (eqIn d a b = none → d < levels a ∧ d < levels b)
  mem : ∀ d (a b : List (List Nat × Value)), sizeOf a ≤ n →
    (a.length = b.length → ∀ r, eqMembersIn d a b = some r → r = eqMembers a b) ∧
    (eqMembersIn d a b = none → d < levelsMembers a ∧ d < levelsMembers b)
  elem : ∀ d (a b : List Value), sizeOf a ≤ n →
    (a.length = b.length → ∀ r, eqElemsIn d a b = some r → r = eqElems a b) ∧
    (eqElemsIn d a b = none → d < levelsElems a ∧ d < levelsElems b)

theorem eqFits : ∀ n, EqFits n := by
  intro n
  induction n with
  | zero =>
    refine ⟨?_, ?_, ?_⟩
    · intro d a b h; cases a <;> simp at h
    · intro d a b h; cases a <;> simp at h
    · intro d a b h; cases a <;> simp at h
  | succ n ih =>
    refine ⟨?_, ?_, ?_⟩
    · intro d a b h
      cases d with
      | zero =>
        have := levels_pos a
        have := levels_pos b
        rw [eqIn]
        exact ⟨by simp, fun _ => ⟨by omega, by omega⟩⟩
      | succ d =>
        have other : eqIn (d + 1) a b = some (eq a b) → (∀ r, eqIn (d + 1) a b = some r → r = eq a b) ∧
            (eqIn (d + 1) a b = none → d + 1 < levels a ∧ d + 1 < levels b) := by
          intro e; rw [e]; exact ⟨fun r h => (Option.some.inj h).symm, by simp⟩
        cases a <;> cases b <;> try (refine other ?_; rw [eqIn] <;> simp; done)
        · rename_i a b
          obtain ⟨h1, h2⟩ := ih.mem d a b (by simp at h; omega)
          rw [eqIn, eq, levels, levels]
          split
          · rename_i hl
            exact ⟨h1 hl, fun e => by have := h2 e; omega⟩
          · rename_i hl
            rw [eqMembers_length a b hl]; exact ⟨by simp, by simp⟩
        · rename_i a b
          obtain ⟨h1, h2⟩ := ih.elem d a b (by simp at h; omega)
          rw [eqIn, eq, levels, levels]
          split
          · rename_i hl
            exact ⟨h1 hl, fun e => by have := h2 e; omega⟩
          · rename_i hl
            rw [eqElems_length a b hl]; exact ⟨by simp, by simp⟩
    · intro d a b h
      cases a with
      | nil =>
        cases b with
        | nil => simp [eqMembersIn, eqMembers]
        | cons y b => simp [eqMembersIn]
      | cons x a =>
        cases b with
        | nil => simp [eqMembersIn]
        | cons y b =>
          obtain ⟨k, v⟩ := x
          obtain ⟨k', v'⟩ := y
          simp only [List.cons.sizeOf_spec, Prod.mk.sizeOf_spec] at h
          obtain ⟨h1, h2⟩ := ih.mem d a b (by omega)
          obtain ⟨g1, g2⟩ := ih.val d v v' (by omega)
          rw [eqMembersIn, eqMembers, levelsMembers, levelsMembers]
          by_cases hk : k = k'
          · rw [if_neg (by simpa using hk)]
            cases hv : eqIn d v v' with
            | none => exact ⟨by simp, fun _ => by have := g2 hv; omega⟩
            | some r =>
              rw [← g1 r hv, hk]
              cases r with
              | false => simp
              | true => exact ⟨fun hl r hr => by simpa using h1 (by simpa using hl) r (by simpa using hr),
                  fun e => by have := h2 (by simpa using e); omega⟩
          · rw [if_pos hk]; simp [hk]
    · intro d a b h
      cases a with
      | nil =>
        cases b with
        | nil => simp [eqElemsIn, eqElems]
        | cons y b => simp [eqElemsIn]
      | cons v a =>
        cases b with
        | nil => simp [eqElemsIn]
        | cons v' b =>
          simp only [List.cons.sizeOf_spec] at h
          obtain ⟨h1, h2⟩ := ih.elem d a b (by omega)
          obtain ⟨g1, g2⟩ := ih.val d v v' (by omega)
          rw [eqElemsIn, eqElems, levelsElems, levelsElems]
          cases hv : eqIn d v v' with
          | none => exact ⟨by simp, fun _ => by have := g2 hv; omega⟩
          | some r =>
            rw [← g1 r hv]
            cases r with
            | false => simp
            | true => exact ⟨fun hl r hr => by simpa using h1 (by simpa using hl) r (by simpa using hr),
                fun e => by have := h2 (by simpa using e); omega⟩

theorem wrap_succ : ∀ (n : Nat) (v : Value), wrap (n + 1) v = .arr [wrap n v]
  | 0, _ => rfl
  | n + 1, v => by rw [wrap, wrap_succ n (.arr [v]), wrap]

theorem wrap_nested (n : Nat) : wrap n (.arr []) = nested n := by
  induction n with
  | zero => rfl
  | succ n ih => rw [wrap_succ, ih]; rfl

theorem eqIn_nested : ∀ n d, d ≤ n → eqIn d (nested n) (nested n) = none := by
  intro n
  induction n with
  | zero => intro d h; have h0 : d = 0 := by omega
            rw [h0, eqIn]
  | succ n ih =>
    intro d h
    cases d with
    | zero => rw [eqIn]
    | succ d => simp [nested, eqIn, eqElemsIn, ih d (by omega)]

/-! ## C165 -/

/-- C165: destroying and copying a value need exactly as many levels as the value is deep (and the copy is the value); comparing two need
at most as many as the less deep one has, and give the answer of `eq`. For every value and every size of the stack. -/
theorem json_use_depth_partial (d : Nat) (a b : Value) :
    (destroyIn d a = some () ↔ levels a ≤ d) ∧ (copyIn d a = if levels a ≤ d then some a else none) ∧
    (min (levels a) (levels b) ≤ d → eqIn d a b = some (eq a b)) := by
  refine ⟨?_, copyIn_spec d a, fun hd => ?_⟩
  · rw [destroyIn_spec]; split <;> simp_all
  · obtain ⟨h1, h2⟩ := (eqFits (sizeOf a)).val d a b (Nat.le_refl _)
    cases h : eqIn d a b with
    | none => have := h2 h; omega
    | some r => rw [h1 r h]

/-- C165: what was read, or can be written, on a stack can be copied and destroyed on it too. -/
theorem json_read_then_destroyed (io : FloatIO) (ft : Features) (d : Nat) (s : List Nat) (v : Value)
    (h : parseIn io ft d s = some (some v)) : destroyIn d v = some () ∧ copyIn d v = some v := by
  have hl : levels v ≤ d := by
    unfold parseIn at h
    cases hp : parseJsonIn io ft (2 * s.length + 2) d s with
    | none => rw [hp] at h; simp at h
    | some q =>
      rw [hp] at h
      cases q with
      | fail => simp at h
      | oom => simp at h
      | ok w r =>
        have := (fits io ft _).json d s w r hp
        simp only [Option.some.injEq] at h
        unfold finish at h
        split at h
        · split at h
          · simp only [Option.some.injEq] at h
            rw [← h]; exact this
          · exact absurd h (by simp)
        · exact absurd h (by simp)
  rw [destroyIn_spec, copyIn_spec, if_pos hl, if_pos hl]
  exact ⟨rfl, rfl⟩

/-- C165 refuted for values built in other ways: on a stack of any size a loop that moves a value into an array again and again, and needs
no depth for it, makes a value that cannot be destroyed, copied, compared with itself or written any more. -/
theorem json_use_depth_violated (io : FloatIO) (d : Nat) :
    let v := wrap d (.arr [])
    destroyIn d v = none ∧ copyIn d v = none ∧ eqIn d v v = none ∧ serializeIn io d v = none := by
  intro v
  have hv : v = nested d := wrap_nested d
  have hl : ¬ levels v ≤ d := by rw [hv, levels_nested]; omega
  refine ⟨by rw [destroyIn_spec, if_neg hl], by rw [copyIn_spec, if_neg hl], ?_, ?_⟩
  · rw [hv]; exact eqIn_nested d d (Nat.le_refl _)
  · rw [hv]; exact serializeIn_nested io d d (Nat.le_refl _)

/-- An object in an array: two levels; comparing it with a number needs one. -/
example : levels (.arr [.obj []]) = 2 ∧ destroyIn 2 (.arr [.obj []]) = some () ∧ destroyIn 1 (.arr [.obj []]) = none ∧
    eqIn 1 (.arr [.obj []]) (.uint 3) = some false ∧ wrap 2 .null = .arr [.arr [.null]] := ⟨rfl, rfl, rfl, rfl, rfl⟩

end Verif.Json.Depth
