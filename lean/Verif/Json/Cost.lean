import Verif.Json.DepthWrite

/-!
# C166: how often the comparisons and the hash of JSON values call themselves

Source: `/repo/fly/types/json/json.cpp` 732-805, `/repo/fly/types/json/json.hpp` 2161-2206. `value1 == value2` and `value1 < value2` of two
`std::map`s or `std::vector`s (json.cpp 754, 796) are those of the standard library: equality looks at the sizes and then at the
elements in turn until two differ; `<` is lexicographic and knows only `<` of the elements, so it asks `a < b` and, if not, `b < a`, before
it goes on to the next two ([alg.lex.comparison], [expos.only.entity] synth-three-way).
-/

namespace Verif.Json.Cost

open Verif.Json Verif.Json.Depth

/-! ## Model

Each function gives its answer and the number of calls of the JSON operator made for it, the first one included. -/

mutual
/-- `operator==` (json.cpp 732-763). -/
def eqN : Value → Value → Bool × Nat
  | .obj a, .obj b => if a.length = b.length then ((eqMembersN a b).1, (eqMembersN a b).2 + 1) else (false, 1)
  | .arr a, .arr b => if a.length = b.length then ((eqElemsN a b).1, (eqElemsN a b).2 + 1) else (false, 1)
  | a, b => (eq a b, 1)
/-- Equality of the entries of two objects of the same size (json.cpp 754). -/
def eqMembersN : List (List Nat × Value) → List (List Nat × Value) → Bool × Nat
  | (k, v) :: a, (k', v') :: b =>
    if k ≠ k' then (false, 0)
    else if (eqN v v').1 then ((eqMembersN a b).1, (eqN v v').2 + (eqMembersN a b).2) else (false, (eqN v v').2)
  | _, _ => (true, 0)
/-- Equality of the elements of two arrays of the same size (json.cpp 754). -/
def eqElemsN : List Value → List Value → Bool × Nat
  | v :: a, v' :: b =>
    if (eqN v v').1 then ((eqElemsN a b).1, (eqN v v').2 + (eqElemsN a b).2) else (false, (eqN v v').2)
  | _, _ => (true, 0)
end

mutual
/-- `operator<` (json.cpp 772-805). -/
def lessN : Value → Value → Bool × Nat
  | .obj a, .obj b => ((lessMembersN a b).1, (lessMembersN a b).2 + 1)
  | .arr a, .arr b => ((lessElemsN a b).1, (lessElemsN a b).2 + 1)
  | a, b => (less a b, 1)
termination_by a b => sizeOf a + sizeOf b
/-- `<` of the entries of two objects (json.cpp 796): the keys first, then the values. -/
def lessMembersN : List (List Nat × Value) → List (List Nat × Value) → Bool × Nat
  | _, [] => (false, 0)
  | [], _ :: _ => (true, 0)
  | (k, v) :: a, (k', v') :: b =>
    if strLt k k' then (true, 0)
    else if strLt k' k then (false, 0)
    else if (lessN v v').1 then (true, (lessN v v').2)
    else if (lessN v' v).1 then (false, (lessN v v').2 + (lessN v' v).2)
    else ((lessMembersN a b).1, (lessN v v').2 + (lessN v' v).2 + (lessMembersN a b).2)
termination_by a b => sizeOf a + sizeOf b
/-- `<` of the elements of two arrays (json.cpp 796). -/
def lessElemsN : List Value → List Value → Bool × Nat
  | _, [] => (false, 0)
  | [], _ :: _ => (true, 0)
  | v :: a, v' :: b =>
    if (lessN v v').1 then (true, (lessN v v').2)
    else if (lessN v' v).1 then (false, (lessN v v').2 + (lessN v' v).2)
    else ((lessElemsN a b).1, (lessN v v').2 + (lessN v' v).2 + (lessElemsN a b).2)
termination_by a b => sizeOf a + sizeOf b
end

mutual
/-- `std::hash<fly::Json>` (json.hpp 2161-2206). -/
def hashN (h : Hashers) : Value → Nat × Nat
  | .obj m => ((hashMembersN h (hashCombine 2 m.length) m).1, (hashMembersN h (hashCombine 2 m.length) m).2 + 1)
  | .arr l => ((hashElemsN h (hashCombine 3 l.length) l).1, (hashElemsN h (hashCombine 3 l.length) l).2 + 1)
  | .null => (hashCombine 0 0, 1)
  | .str s => (hashCombine 1 (h.str s), 1)
  | .bool b => (hashCombine 4 (h.bool b), 1)
  | .int i => (hashCombine 5 (h.int i), 1)
  | .uint n => (hashCombine 6 (h.uint n), 1)
  | .flt f => (hashCombine 7 (h.flt f), 1)
/-- The loop over an object (json.hpp 2178-2182). -/
def hashMembersN (h : Hashers) (acc : Nat) : List (List Nat × Value) → Nat × Nat
  | [] => (acc, 0)
  | (k, v) :: m =>
    let r := hashMembersN h (hashCombine (hashCombine acc (h.str k)) (hashN h v).1) m
    (r.1, (hashN h v).2 + r.2)
/-- The loop over an array (json.hpp 2191-2194). -/
def hashElemsN (h : Hashers) (acc : Nat) : List Value → Nat × Nat
  | [] => (acc, 0)
  | v :: l =>
    let r := hashElemsN h (hashCombine acc (hashN h v).1) l
    (r.1, (hashN h v).2 + r.2)
end

/-! ## Specification -/

mutual
/-- How many JSON values there are in a value, itself included. -/
def nodes : Value → Nat
  | .obj m => nodesMembers m + 1
  | .arr l => nodesElems l + 1
  | .null => 1
  | .str _ => 1
  | .bool _ => 1
  | .int _ => 1
  | .uint _ => 1
  | .flt _ => 1
/-- In the entries of an object. -/
def nodesMembers : List (List Nat × Value) → Nat
  | [] => 0
  | (_, v) :: m => nodes v + nodesMembers m
/-- In the elements of an array. -/
def nodesElems : List Value → Nat
  | [] => 0
  | v :: l => nodes v + nodesElems l
end

/-! ## Proof -/

theorem nodes_pos (v : Value) : 0 < nodes v := by cases v <;> simp [nodes]

/-- The answers are those of `eq`. -/
structure EqSame (n : Nat) : Prop where
  val : ∀ a b : Value, sizeOf a ≤ n → (eqN a b).1 = eq a b ∧ (eqN a b).2 ≤ nodes a ∧ (eqN a b).2 ≤ nodes b
  mem : ∀ a b : List (List Nat × Value), sizeOf a ≤ n →
    (a.length = b.length → (eqMembersN a b).1 = eqMembers a b) ∧ (eqMembersN a b).2 ≤ nodesMembers a ∧ (eqMembersN a b).2 ≤ nodesMembers b
  elem : ∀ a b : List Value, sizeOf a ≤ n →
    (a.length = b.length → (eqElemsN a b).1 = eqElems a b) ∧ (eqElemsN a b).2 ≤ nodesElems a ∧ (eqElemsN a b).2 ≤ nodesElems b

theorem eqMembers_length : ∀ a b : List (List Nat × Value), a.length ≠ b.length → eqMembers a b = false
  | [], [], h => absurd rfl h
  | [], _ :: _, _ => by rw [eqMembers] <;> simp
  | _ :: _, [], _ => by rw [eqMembers] <;> simp
  | (k, v) :: a, (k', v') :: b, h => by
    rw [eqMembers, eqMembers_length a b (fun e => h (by simp [e]))]; simp

theorem eqElems_length : ∀ a b : List Value, a.length ≠ b.length → eqElems a b = false
  | [], [], h => absurd rfl h
  | [], _ :: _, _ => by rw [eqElems] <;> simp
  | _ :: _, [], _ => by rw [eqElems] <;> simp
  | v :: a, v' :: b, h => by
    rw [eqElems, eqElems_length a b (fun e => h (by simp [e]))]; simp

theorem eqSame : ∀ n, EqSame n := by
  intro n
  induction n with
  | zero =>
    refine ⟨?_, ?_, ?_⟩
    · intro a b h; cases a <;> simp at h
    · intro a b h; cases a <;> simp at h
    · intro a b h; cases a <;> simp at h
  | succ n ih =>
    refine ⟨?_, ?_, ?_⟩
    · intro a b h
      have pa := nodes_pos a
      have pb := nodes_pos b
      have other : eqN a b = (eq a b, 1) → (eqN a b).1 = eq a b ∧ (eqN a b).2 ≤ nodes a ∧ (eqN a b).2 ≤ nodes b := by
        intro e; rw [e]; exact ⟨rfl, pa, pb⟩
      cases a <;> cases b <;> try (refine other ?_; rw [eqN] <;> simp; done)
      · rename_i a b
        obtain ⟨h1, h2, h3⟩ := ih.mem a b (by simp at h; omega)
        rw [eqN, eq, nodes, nodes]
        split
        · rename_i hl
          exact ⟨h1 hl, by simp only []; omega, by simp only []; omega⟩
        · rename_i hl
          exact ⟨(eqMembers_length a b hl).symm, by simp, by simp⟩
      · rename_i a b
        obtain ⟨h1, h2, h3⟩ := ih.elem a b (by simp at h; omega)
        rw [eqN, eq, nodes, nodes]
        split
        · rename_i hl
          exact ⟨h1 hl, by simp only []; omega, by simp only []; omega⟩
        · rename_i hl
          exact ⟨(eqElems_length a b hl).symm, by simp, by simp⟩
    · intro a b h
      cases a with
      | nil =>
        cases b with
        | nil => simp [eqMembersN, eqMembers]
        | cons y b => simp [eqMembersN]
      | cons x a =>
        cases b with
        | nil => simp [eqMembersN]
        | cons y b =>
          obtain ⟨k, v⟩ := x
          obtain ⟨k', v'⟩ := y
          simp only [List.cons.sizeOf_spec, Prod.mk.sizeOf_spec] at h
          obtain ⟨h1, h2, h3⟩ := ih.mem a b (by omega)
          obtain ⟨g1, g2, g3⟩ := ih.val v v' (by omega)
          rw [eqMembersN, eqMembers, nodesMembers, nodesMembers]
          split
          · rename_i hk
            exact ⟨by intro _; simp [hk], by simp, by simp⟩
          · rename_i hk
            have hk : k = k' := Classical.not_not.1 hk
            split
            · rename_i hv
              refine ⟨fun hl => ?_, by simp only []; omega, by simp only []; omega⟩
              rw [← g1, hv, hk]
              simpa using h1 (by simpa using hl)
            · rename_i hv
              refine ⟨fun _ => ?_, by simp only []; omega, by simp only []; omega⟩
              rw [← g1]
              simp [hv]
    · intro a b h
      cases a with
      | nil =>
        cases b with
        | nil => simp [eqElemsN, eqElems]
        | cons y b => simp [eqElemsN]
      | cons v a =>
        cases b with
        | nil => simp [eqElemsN]
        | cons v' b =>
          simp only [List.cons.sizeOf_spec] at h
          obtain ⟨h1, h2, h3⟩ := ih.elem a b (by omega)
          obtain ⟨g1, g2, g3⟩ := ih.val v v' (by omega)
          rw [eqElemsN, eqElems, nodesElems, nodesElems]
          split
          · rename_i hv
            refine ⟨fun hl => ?_, by simp only []; omega, by simp only []; omega⟩
            rw [← g1, hv]
            simpa using h1 (by simpa using hl)
          · rename_i hv
            refine ⟨fun _ => ?_, by simp only []; omega, by simp only []; omega⟩
            rw [← g1]
            simp [hv]

/-- The answers are those of `less`, and the number of calls is bounded by the size and the depth of either value. -/
structure LessSame (n : Nat) : Prop where
  val : ∀ a b : Value, sizeOf a + sizeOf b ≤ n → (lessN a b).1 = less a b ∧
    2 * (lessN a b).2 ≤ 2 ^ levels a * nodes a ∧ 2 * (lessN a b).2 ≤ 2 ^ levels b * nodes b
  mem : ∀ a b : List (List Nat × Value), sizeOf a + sizeOf b ≤ n → (lessMembersN a b).1 = lessMembers a b ∧
    (lessMembersN a b).2 ≤ 2 ^ levelsMembers a * nodesMembers a ∧ (lessMembersN a b).2 ≤ 2 ^ levelsMembers b * nodesMembers b
  elem : ∀ a b : List Value, sizeOf a + sizeOf b ≤ n → (lessElemsN a b).1 = lessElems a b ∧
    (lessElemsN a b).2 ≤ 2 ^ levelsElems a * nodesElems a ∧ (lessElemsN a b).2 ≤ 2 ^ levelsElems b * nodesElems b

/-- One comparison on top of those of the entries. -/
theorem one_more {c l m : Nat} (h : c ≤ 2 ^ l * m) : 2 * (c + 1) ≤ 2 ^ (l + 1) * (m + 1) := by
  have h1 : 1 ≤ 2 ^ l := Nat.one_le_two_pow
  have e : 2 ^ (l + 1) * (m + 1) = 2 * (2 ^ l * m) + 2 * 2 ^ l := by
    rw [Nat.pow_succ, Nat.mul_add, Nat.mul_one, Nat.mul_comm (2 ^ l) 2, Nat.mul_assoc]
  rw [e]
  omega

/-- Both comparisons of the first entries, and those of the rest. -/
theorem both {c1 c2 c3 l l' m m' : Nat} (h1 : 2 * c1 ≤ 2 ^ l * m) (h2 : 2 * c2 ≤ 2 ^ l * m) (h3 : c3 ≤ 2 ^ l' * m') :
    c1 + c2 + c3 ≤ 2 ^ max l l' * (m + m') := by
  have e1 : 2 ^ l * m ≤ 2 ^ max l l' * m := Nat.mul_le_mul_right _ (Nat.pow_le_pow_right (by omega) (by omega))
  have e2 : 2 ^ l' * m' ≤ 2 ^ max l l' * m' := Nat.mul_le_mul_right _ (Nat.pow_le_pow_right (by omega) (by omega))
  rw [Nat.mul_add]
  omega

theorem leaf_cost (v : Value) : 2 * 1 ≤ 2 ^ levels v * nodes v := by
  have h1 := levels_pos v
  have h2 := nodes_pos v
  have h3 : 2 ^ 1 ≤ 2 ^ levels v := Nat.pow_le_pow_right (by omega) h1
  exact Nat.mul_le_mul h3 h2

theorem lessSame : ∀ n, LessSame n := by
  intro n
  induction n with
  | zero =>
    refine ⟨?_, ?_, ?_⟩
    · intro a b h; cases a <;> simp at h
    · intro a b h; cases a <;> simp at h
    · intro a b h; cases a <;> simp at h
  | succ n ih =>
    refine ⟨?_, ?_, ?_⟩
    · intro a b h
      have la := leaf_cost a
      have lb := leaf_cost b
      have other : lessN a b = (less a b, 1) → (lessN a b).1 = less a b ∧
          2 * (lessN a b).2 ≤ 2 ^ levels a * nodes a ∧ 2 * (lessN a b).2 ≤ 2 ^ levels b * nodes b := by
        intro e; rw [e]; exact ⟨rfl, la, lb⟩
      cases a <;> cases b <;> try (refine other ?_; rw [lessN] <;> simp; done)
      · rename_i a b
        obtain ⟨h1, h2, h3⟩ := ih.mem a b (by simp at h; omega)
        rw [lessN, less, nodes, nodes, levels, levels]
        exact ⟨h1, one_more h2, one_more h3⟩
      · rename_i a b
        obtain ⟨h1, h2, h3⟩ := ih.elem a b (by simp at h; omega)
        rw [lessN, less, nodes, nodes, levels, levels]
        exact ⟨h1, one_more h2, one_more h3⟩
    · intro a b h
      cases b with
      | nil => rw [lessMembersN, lessMembers]; exact ⟨rfl, Nat.zero_le _, Nat.zero_le _⟩
      | cons y b =>
        cases a with
        | nil => rw [lessMembersN, lessMembers]; exact ⟨rfl, Nat.zero_le _, Nat.zero_le _⟩
        | cons x a =>
          obtain ⟨k, v⟩ := x
          obtain ⟨k', v'⟩ := y
          simp only [List.cons.sizeOf_spec, Prod.mk.sizeOf_spec] at h
          obtain ⟨h1, h2, h3⟩ := ih.mem a b (by omega)
          obtain ⟨g1, g2, g3⟩ := ih.val v v' (by omega)
          obtain ⟨f1, f2, f3⟩ := ih.val v' v (by omega)
          have ba := both g2 f3 h2
          have bb := both g3 f2 h3
          rw [lessMembersN, lessMembers, nodesMembers, nodesMembers, levelsMembers, levelsMembers, ← g1, ← f1, ← h1]
          split
          · rename_i hk; simp [hk]
          · rename_i hk
            split
            · rename_i hk'; simp [hk, hk']
            · rename_i hk'
              split
              · rename_i hv
                exact ⟨by simp [hk, hk', hv], by simp only []; omega, by simp only []; omega⟩
              · rename_i hv
                split
                · rename_i hv'
                  exact ⟨by simp [hk, hk', hv, hv'], by simp only []; omega, by simp only []; omega⟩
                · rename_i hv'
                  exact ⟨by simp [hk, hk', hv, hv'], ba, bb⟩
    · intro a b h
      cases b with
      | nil => rw [lessElemsN, lessElems]; exact ⟨rfl, Nat.zero_le _, Nat.zero_le _⟩
      | cons v' b =>
        cases a with
        | nil => rw [lessElemsN, lessElems]; exact ⟨rfl, Nat.zero_le _, Nat.zero_le _⟩
        | cons v a =>
          simp only [List.cons.sizeOf_spec] at h
          obtain ⟨h1, h2, h3⟩ := ih.elem a b (by omega)
          obtain ⟨g1, g2, g3⟩ := ih.val v v' (by omega)
          obtain ⟨f1, f2, f3⟩ := ih.val v' v (by omega)
          have ba := both g2 f3 h2
          have bb := both g3 f2 h3
          rw [lessElemsN, lessElems, nodesElems, nodesElems, levelsElems, levelsElems, ← g1, ← f1, ← h1]
          split
          · rename_i hv
            exact ⟨by simp [hv], by simp only []; omega, by simp only []; omega⟩
          · rename_i hv
            split
            · rename_i hv'
              exact ⟨by simp [hv, hv'], by simp only []; omega, by simp only []; omega⟩
            · rename_i hv'
              exact ⟨by simp [hv, hv'], ba, bb⟩

mutual
theorem hashN_spec (h : Hashers) : ∀ v : Value, hashN h v = (hash h v, nodes v)
  | .obj m => by rw [hashN, hash, nodes, hashMembersN_spec h m]
  | .arr l => by rw [hashN, hash, nodes, hashElemsN_spec h l]
  | .null => by rw [hashN, hash, nodes]
  | .str _ => by rw [hashN, hash, nodes]
  | .bool _ => by rw [hashN, hash, nodes]
  | .int _ => by rw [hashN, hash, nodes]
  | .uint _ => by rw [hashN, hash, nodes]
  | .flt _ => by rw [hashN, hash, nodes]
theorem hashMembersN_spec (h : Hashers) : ∀ (m : List (List Nat × Value)) (acc : Nat), hashMembersN h acc m = (hashMembers h acc m, nodesMembers m)
  | [], acc => by rw [hashMembersN, hashMembers, nodesMembers]
  | (k, v) :: m, acc => by
    simp only [hashMembersN, hashMembers, nodesMembers, hashN_spec h v, hashMembersN_spec h m]
theorem hashElemsN_spec (h : Hashers) : ∀ (l : List Value) (acc : Nat), hashElemsN h acc l = (hashElems h acc l, nodesElems l)
  | [], acc => by rw [hashElemsN, hashElems, nodesElems]
  | v :: l, acc => by
    simp only [hashElemsN, hashElems, nodesElems, hashN_spec h v, hashElemsN_spec h l]
end

theorem nodes_nested : ∀ n, nodes (nested n) = n + 1 := by
  intro n
  induction n with
  | zero => rfl
  | succ n ih => simp [nested, nodes, nodesElems, ih]

theorem lessN_nested : ∀ n, lessN (nested n) (nested n) = (false, 2 ^ (n + 1) - 1) := by
  intro n
  induction n with
  | zero => simp [nested, lessN, lessElemsN]
  | succ n ih =>
    have h1 : 1 ≤ 2 ^ (n + 1) := Nat.one_le_two_pow
    simp only [nested, lessN, lessElemsN, ih, Bool.false_eq_true, if_false, Nat.add_zero]
    rw [Nat.pow_succ 2 (n + 1)]
    congr 1
    omega

/-! ## C166 -/

/-- C166: `==` gives the answer of `eq` and calls itself no more often than there are values in the smaller one; the hash is that of
`hash`, and is called once for every value. For all values. -/
theorem json_equal_cost (h : Hashers) (a b : Value) :
    ((eqN a b).1 = eq a b ∧ (eqN a b).2 ≤ min (nodes a) (nodes b)) ∧ ((hashN h a).1 = hash h a ∧ (hashN h a).2 = nodes a) := by
  obtain ⟨h1, h2, h3⟩ := (eqSame (sizeOf a)).val a b (Nat.le_refl _)
  exact ⟨⟨h1, by omega⟩, by rw [hashN_spec]; exact ⟨rfl, rfl⟩⟩

/-- C166: `<` gives the answer of `less` and calls itself at most 2^(d-1) times as often as there are values in a value `d` levels deep,
whichever of the two is taken. For all values. So for depths that are bounded the time is proportional to the size; in general it is not
(`json_less_cost_violated`). -/
theorem json_less_cost_partial (a b : Value) :
    (lessN a b).1 = less a b ∧ 2 * (lessN a b).2 ≤ min (2 ^ levels a * nodes a) (2 ^ levels b * nodes b) := by
  obtain ⟨h1, h2, h3⟩ := (lessSame (sizeOf a + sizeOf b)).val a b (Nat.le_refl _)
  exact ⟨h1, by omega⟩

/-- C166 refuted for `<`: `n` arrays, one in the other, are read from a text of `2n` brackets, and comparing two of them takes `2^n - 1`
calls; the time is in no proportion to the size. -/
theorem json_less_cost_violated (io : FloatIO) :
    (∀ n, ∃ v, nodes v = n + 1 ∧ JText io rfc8259 (List.replicate (n + 1) 0x5b ++ List.replicate (n + 1) 0x5d) v ∧
      (lessN v v).2 = 2 ^ (n + 1) - 1) ∧
    (∀ c, ∃ v, c * nodes v < (lessN v v).2) := by
  have blank : rfc8259.blank [] := by intro c hc; simp at hc
  refine ⟨fun n => ⟨nested n, nodes_nested n, ⟨[], nestedText n, [], by simp [nestedText], blank, nested_value io n, blank⟩,
    by rw [lessN_nested]⟩, fun c => ⟨nested (2 * c + 3), ?_⟩⟩
  rw [lessN_nested, nodes_nested]
  have sq : ∀ m : Nat, m < 2 ^ m := fun m => Nat.lt_two_pow_self
  show c * (2 * c + 3 + 1) < 2 ^ (2 * c + 3 + 1) - 1
  have h3 : 2 ^ (2 * c + 3 + 1) = 4 * (2 ^ (c + 1) * 2 ^ (c + 1)) := by
    rw [show 2 * c + 3 + 1 = (c + 1) + (c + 1) + 2 by omega, Nat.pow_add, Nat.pow_add]; omega
  have h4 := sq (c + 1)
  have h5 : (c + 2) * (c + 2) ≤ 2 ^ (c + 1) * 2 ^ (c + 1) := Nat.mul_le_mul h4 h4
  have h6 : (c + 2) * (c + 2) = c * (c + 2) + 2 * (c + 2) := by rw [Nat.add_mul]
  have h7 : c * (2 * c + 3 + 1) = 2 * (c * (c + 2)) := by
    rw [show 2 * c + 3 + 1 = 2 * (c + 2) by omega, Nat.mul_left_comm]
  omega

/-- `[[1], {"a": 2}]` against `[[1], {"a": 3}]`: equality takes five calls. `<` takes nine: itself, the first elements both ways, each of
these their own elements both ways, and the second elements with their entries once. -/
example : eqN (.arr [.arr [.uint 1], .obj [([0x61], .uint 2)]]) (.arr [.arr [.uint 1], .obj [([0x61], .uint 3)]]) = (false, 5) ∧
    nodes (.arr [.arr [.uint 1], .obj [([0x61], .uint 2)]]) = 5 ∧
    (lessN (.arr [.arr [.uint 1], .obj [([0x61], .uint 2)]]) (.arr [.arr [.uint 1], .obj [([0x61], .uint 3)]])) = (true, 9) := by
  refine ⟨rfl, rfl, ?_⟩
  simp [lessN, lessElemsN, lessMembersN, less, strLt]

end Verif.Json.Cost
