import Verif.Json.Built
import Verif.Json.OpsLemmas

/-!
# C114: what a braced list of JSON values denotes
-/

namespace Verif.Json

/-! ## Specification -/

/-- The value is a pair: an array of two elements, the first of them a string. -/
def IsPair (v : Value) : Prop := ∃ k w, v = .arr [.str k, w]

/-- The list gives the key that value, and no earlier pair of the list has that key. -/
def FirstListed (vs : List Value) (k : List Nat) (w : Value) : Prop :=
  ∃ a b, vs = a ++ .arr [.str k, w] :: b ∧ ∀ w', .arr [.str k, w'] ∉ a

/-! ## Proof -/

theorem objectLike_iff (v : Value) : isObjectLike v = true ↔ IsPair v := by
  constructor
  · intro h
    match v, h with
    | .arr [], h => simp [isObjectLike] at h
    | .arr [_], h => simp [isObjectLike] at h
    | .arr (_ :: _ :: _ :: _), h => simp [isObjectLike] at h
    | .arr [x, w], h =>
      cases x with
      | str k => exact ⟨k, w, rfl⟩
      | _ => simp [isObjectLike] at h
  · rintro ⟨k, w, rfl⟩; simp [isObjectLike]

theorem all_objectLike (vs : List Value) : vs.all isObjectLike = true ↔ ∀ v ∈ vs, IsPair v := by
  simp only [List.all_eq_true, objectLike_iff]

theorem firstListed_cons (k : List Nat) (w : Value) (k' : List Nat) (w' : Value) (vs : List Value) :
    FirstListed (.arr [.str k', w'] :: vs) k w ↔ (k = k' ∧ w = w') ∨ (k ≠ k' ∧ FirstListed vs k w) := by
  constructor
  · rintro ⟨a, b, h, hn⟩
    cases a with
    | nil => simp only [List.nil_append, List.cons.injEq] at h; left; cases h.1; exact ⟨rfl, rfl⟩
    | cons x a =>
      simp only [List.cons_append, List.cons.injEq] at h
      right
      refine ⟨?_, a, b, h.2, fun w'' hw => hn w'' (List.mem_cons_of_mem _ hw)⟩
      rintro rfl
      exact hn w' (by rw [← h.1]; simp)
  · rintro (⟨rfl, rfl⟩ | ⟨hk, a, b, rfl, hn⟩)
    · exact ⟨[], vs, rfl, by simp⟩
    · refine ⟨.arr [.str k', w'] :: a, b, rfl, ?_⟩
      intro w'' hw
      rcases List.mem_cons.1 hw with h | h
      · cases h; exact hk rfl
      · exact hn w'' h

theorem foldl_addPair : ∀ (vs : List Value) (m : List (List Nat × Value)), (∀ v ∈ vs, IsPair v) →
    SortedKeys m → ∃ m', vs.foldl addPair (some m) = some m' ∧ SortedKeys m' ∧
      ∀ k w, lookup k m' = some w ↔ lookup k m = some w ∨ (lookup k m = none ∧ FirstListed vs k w) := by
  intro vs
  induction vs with
  | nil =>
    intro m _ hs
    refine ⟨m, rfl, hs, fun k w => ⟨Or.inl, ?_⟩⟩
    rintro (h | ⟨_, a, b, h, _⟩)
    · exact h
    · cases a <;> cases h
  | cons v vs ih =>
    intro m hp hs
    obtain ⟨k0, w0, rfl⟩ := hp v (by simp)
    obtain ⟨m', h1, h2, h3⟩ := ih (insertNew k0 w0 m) (fun x hx => hp x (List.mem_cons_of_mem _ hx))
      (sorted_insertNew hs k0 w0)
    refine ⟨m', h1, h2, fun k w => ?_⟩
    rw [h3 k w, firstListed_cons, lookup_insertNew hs k0 k w0]
    by_cases hk : k = k0
    · subst hk
      cases hl : lookup k m with
      | none => simp [eq_comm]
      | some x => simp
    · cases hl : lookup k m <;> simp [hk]

/-- C114: a braced list whose elements are all pairs becomes the object whose keys are the first elements of
the pairs, each with the value listed first with it; any other list becomes the array of its elements, in
order. The constructor never terminates the program. -/
theorem braced_list (vs : List Value) :
    ((∀ v ∈ vs, IsPair v) → ∃ m, initList vs = some (.obj m) ∧ SortedKeys m ∧
      ∀ k w, (k, w) ∈ m ↔ FirstListed vs k w) ∧
    ((∃ v ∈ vs, ¬ IsPair v) → initList vs = some (.arr vs)) := by
  constructor
  · intro h
    obtain ⟨m, h1, h2, h3⟩ := foldl_addPair vs [] h List.Pairwise.nil
    refine ⟨m, ?_, h2, fun k w => ?_⟩
    · unfold initList
      rw [if_pos ((all_objectLike vs).2 h), h1]; rfl
    · rw [← lookup_iff h2, h3 k w]
      simp [lookup]
  · rintro ⟨v, hv, hn⟩
    unfold initList
    rw [if_neg (fun h => hn ((all_objectLike vs).1 h v hv))]
    have := ofArr_eq vs
    unfold ofArr at this
    rw [this]

/-- The two shapes of the documentation: `{{"k", null}, {"l", "v"}}` and `{"v", null}`; the empty list is an
object, and of two pairs with one key the first stays. -/
example : initList [.arr [.str [0x6b], .null], .arr [.str [0x6c], .str [0x76]]] =
      some (.obj [([0x6b], .null), ([0x6c], .str [0x76])]) ∧
    initList [.str [0x76], .null] = some (.arr [.str [0x76], .null]) ∧
    initList [] = some (.obj []) ∧
    initList [.arr [.str [0x6b], .int 1], .arr [.str [0x6b], .int 2]] = some (.obj [([0x6b], .int 1)]) :=
  ⟨rfl, rfl, rfl, rfl⟩

/-- C114: a braced list never drops a value unless two pairs have one key: the object has as many entries as
the list when the keys differ. -/
theorem braced_list_complete (vs : List Value) (hp : ∀ v ∈ vs, IsPair v)
    (hd : vs.Pairwise (fun v v' => ∀ k w w', v = .arr [.str k, w] → v' ≠ .arr [.str k, w'])) :
    ∃ m, initList vs = some (.obj m) ∧ ∀ k w, (k, w) ∈ m ↔ .arr [.str k, w] ∈ vs := by
  obtain ⟨m, h1, _, h3⟩ := (braced_list vs).1 hp
  refine ⟨m, h1, fun k w => ?_⟩
  rw [h3]
  constructor
  · rintro ⟨a, b, rfl, _⟩; simp
  · intro h
    obtain ⟨a, b, rfl⟩ := List.append_of_mem h
    refine ⟨a, b, rfl, fun w' hw' => ?_⟩
    exact (List.pairwise_append.1 hd).2.2 _ hw' _ (by simp) k w' w rfl rfl

/-- Two pairs with different keys. -/
example : ∃ m, initList [.arr [.str [0x6b], .null], .arr [.str [0x6c], .str [0x76]]] = some (.obj m) ∧
    ∀ k w, (k, w) ∈ m ↔ .arr [.str k, w] ∈ [Value.arr [.str [0x6b], .null], .arr [.str [0x6c], .str [0x76]]] := by
  refine braced_list_complete _ (fun v hv => ?_) ?_
  · simp only [List.mem_cons, List.not_mem_nil, or_false] at hv
    rcases hv with rfl | rfl
    · exact ⟨_, _, rfl⟩
    · exact ⟨_, _, rfl⟩
  · simp [List.pairwise_cons]
    rintro k w w' rfl _ h
    cases h

/-- C114: what a braced list means depends on its elements alone, so an array of string pairs cannot be written
as a braced list of them: reading `[["a","b"]]` gives an array, the braced list of its elements is an object. -/
theorem braced_list_no_array_of_pairs :
    ¬ ∀ vs : List Value, initList vs = some (.arr vs) ∨ ∃ v ∈ vs, ¬ ∃ k w, v = .arr [.str k, .str w] := by
  intro h
  rcases h [.arr [.str [0x61], .str [0x62]]] with h | ⟨v, hv, hn⟩
  · have : initList [.arr [.str [0x61], .str [0x62]]] = some (.obj [([0x61], .str [0x62])]) := rfl
    rw [this] at h; cases h
  · simp only [List.mem_singleton] at hv
    exact hn ⟨_, _, hv⟩

end Verif.Json
