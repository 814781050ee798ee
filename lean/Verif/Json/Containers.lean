import Verif.Json.ConvertProps

/-!
# C92: JSON arrays as C++ containers

Sources: `/repo/fly/types/json/json.hpp` 1695-1710, `/repo/fly/types/json/detail/array_util.hpp`.
-/

namespace Verif.Json

/-! ## Model -/

/-- `operator T` for an array type (json.hpp 1695-1710): the elements are converted in order and appended one by
one with `json_array_append`; the first that throws ends it. -/
def toContainer {α : Type} (append : List α → α → List α) (conv : Value → Out α) : List α → List Value → Out (List α)
  | c, [] => .ok c
  | c, v :: l => match conv v with
    | .ok x => toContainer append conv (append c x) l
    | .threw => .threw
    | .ub => .ub

/-- The same on a value (json.hpp 1697-1699). -/
def toContainerOf {α : Type} (append : List α → α → List α) (conv : Value → Out α) : Value → Out (List α)
  | .arr l => toContainer append conv [] l
  | _ => .threw

/-- `json_array_append` for `deque`, `list` and `vector` (array_util.hpp 25-30, 73-78, 151-156). -/
def pushBack {α : Type} (c : List α) (x : α) : List α := c ++ [x]

/-- The walk of `json_array_append` for `forward_list` (array_util.hpp 43-49): one step for each element. -/
def beforeEnd {α : Type} : List α → Nat → Nat
  | [], pos => pos
  | _ :: c, pos => beforeEnd c (pos + 1)

/-- `json_array_append` for `forward_list` (array_util.hpp 38-52): `before_begin()` is position 0, and
`insert_after` inserts behind as many elements as were passed. -/
def forwardAppend {α : Type} (c : List α) (x : α) : List α :=
  c.take (beforeEnd c 0) ++ x :: c.drop (beforeEnd c 0)

/-- `std::set::insert` (array_util.hpp 104-109) with the order `lt`: an equivalent element stays. -/
def setInsert {α : Type} (lt : α → α → Bool) : List α → α → List α
  | [], x => [x]
  | y :: c, x => if lt x y then x :: y :: c else if lt y x then y :: setInsert lt c x else y :: c

/-- `std::multiset::insert` (array_util.hpp 88-94): after the equivalent elements. -/
def multisetInsert {α : Type} (lt : α → α → Bool) : List α → α → List α
  | [], x => [x]
  | y :: c, x => if lt x y then x :: y :: c else y :: multisetInsert lt c x

/-! ## Specification -/

/-- A strict total order. -/
structure TotalOrder {α : Type} (lt : α → α → Bool) : Prop where
  irrefl : ∀ a, lt a a = false
  trans : ∀ a b c, lt a b = true → lt b c = true → lt a c = true
  total : ∀ a b, lt a b = true ∨ a = b ∨ lt b a = true

/-! ## Proof -/

theorem beforeEnd_eq {α : Type} : ∀ (c : List α) (n : Nat), beforeEnd c n = n + c.length := by
  intro c
  induction c with
  | nil => intro n; rfl
  | cons x c ih => intro n; rw [beforeEnd, ih, List.length_cons]; omega

theorem forwardAppend_eq {α : Type} (c : List α) (x : α) : forwardAppend c x = c ++ [x] := by
  unfold forwardAppend
  rw [beforeEnd_eq]
  simp

theorem toContainer_iff {α : Type} (append : List α → α → List α) (conv : Value → Out α) :
    ∀ (l : List Value) (c r : List α), toContainer append conv c l = .ok r ↔
      ∃ xs, Converts conv l xs ∧ r = xs.foldl append c := by
  intro l
  induction l with
  | nil =>
    intro c r
    constructor
    · intro h; cases h; exact ⟨[], .nil, rfl⟩
    · rintro ⟨xs, h, rfl⟩; cases h; rfl
  | cons v l ih =>
    intro c r
    rw [toContainer]
    cases hv : conv v with
    | ok x =>
      simp only
      rw [ih]
      constructor
      · rintro ⟨xs, h, rfl⟩; exact ⟨x :: xs, .cons hv h, rfl⟩
      · rintro ⟨xs, h, rfl⟩
        cases h with
        | cons h1 h2 => rw [hv] at h1; cases h1; exact ⟨_, h2, rfl⟩
    | threw =>
      constructor
      · intro h; cases h
      · rintro ⟨xs, h, _⟩
        cases h with
        | cons h1 h2 => rw [hv] at h1; cases h1
    | ub =>
      constructor
      · intro h; cases h
      · rintro ⟨xs, h, _⟩
        cases h with
        | cons h1 h2 => rw [hv] at h1; cases h1

theorem foldl_append_eq {α : Type} (append : List α → α → List α) (h : ∀ c x, append c x = c ++ [x]) :
    ∀ (xs c : List α), xs.foldl append c = c ++ xs := by
  intro xs
  induction xs with
  | nil => intro c; simp
  | cons x xs ih => intro c; rw [List.foldl_cons, ih, h]; simp

/-- C92: a JSON array converted to a sequence container of any of the supported types holds the converted
elements in order; the conversion succeeds exactly when that of every element does. -/
theorem json_sequence (conv : Value → Out α) (v : Value) (r : List α) :
    (toContainerOf pushBack conv v = .ok r ↔ ∃ l, v = .arr l ∧ Converts conv l r) ∧
    (toContainerOf forwardAppend conv v = .ok r ↔ ∃ l, v = .arr l ∧ Converts conv l r) := by
  have key : ∀ append : List α → α → List α, (∀ c x, append c x = c ++ [x]) →
      (toContainerOf append conv v = .ok r ↔ ∃ l, v = .arr l ∧ Converts conv l r) := by
    intro append ha
    cases v with
    | arr l =>
      rw [toContainerOf, toContainer_iff]
      simp only [foldl_append_eq append ha, List.nil_append]
      constructor
      · rintro ⟨xs, h, rfl⟩; exact ⟨l, rfl, h⟩
      · rintro ⟨l', h, h'⟩; cases h; exact ⟨r, h', rfl⟩
    | _ => simp [toContainerOf]
  exact ⟨key _ (fun _ _ => rfl), key _ forwardAppend_eq⟩

example : toContainerOf forwardAppend (toInt ⟨true, 32⟩) (.arr [.int 3, .str [0x31], .int (-2)]) = .ok [3, 1, -2] := by
  decide +kernel

theorem mem_setInsert {α : Type} {lt : α → α → Bool} (h : TotalOrder lt) (x : α) : ∀ (c : List α) (z : α),
    z ∈ setInsert lt c x ↔ z = x ∨ z ∈ c := by
  intro c
  induction c with
  | nil => intro z; simp [setInsert]
  | cons y c ih =>
    intro z
    rw [setInsert]
    split
    · simp
    · split
      · simp only [List.mem_cons, ih]; constructor <;> (rintro (h | h | h) <;> simp [h])
      · rename_i h1 h2
        have : x = y := by
          rcases h.total x y with h' | h' | h'
          · exact absurd h' h1
          · exact h'
          · exact absurd h' h2
        subst this; simp

theorem sorted_setInsert {α : Type} {lt : α → α → Bool} (h : TotalOrder lt) (x : α) : ∀ (c : List α),
    c.Pairwise (fun a b => lt a b = true) → (setInsert lt c x).Pairwise (fun a b => lt a b = true) := by
  intro c
  induction c with
  | nil => intro _; simp [setInsert]
  | cons y c ih =>
    intro hc
    have hc' := List.pairwise_cons.1 hc
    rw [setInsert]
    split
    · rename_i h1
      refine List.pairwise_cons.2 ⟨?_, hc⟩
      intro z hz
      rcases List.mem_cons.1 hz with rfl | hz
      · exact h1
      · exact h.trans _ _ _ h1 (hc'.1 z hz)
    · split
      · rename_i h2
        refine List.pairwise_cons.2 ⟨?_, ih hc'.2⟩
        intro z hz
        rcases (mem_setInsert h x c z).1 hz with rfl | hz
        · exact h2
        · exact hc'.1 z hz
      · exact hc

/-- C92: a JSON array converted to a set holds the converted elements, each once, in increasing order. -/
theorem json_set {α : Type} (lt : α → α → Bool) (h : TotalOrder lt) (conv : Value → Out α) (v : Value) (r : List α) :
    toContainerOf (setInsert lt) conv v = .ok r ↔
      ∃ l xs, v = .arr l ∧ Converts conv l xs ∧ r.Pairwise (fun a b => lt a b = true) ∧ ∀ x, x ∈ r ↔ x ∈ xs := by
  have hf : ∀ (xs c : List α), c.Pairwise (fun a b => lt a b = true) →
      (xs.foldl (setInsert lt) c).Pairwise (fun a b => lt a b = true) ∧
      ∀ z, z ∈ xs.foldl (setInsert lt) c ↔ z ∈ c ∨ z ∈ xs := by
    intro xs
    induction xs with
    | nil => intro c hc; exact ⟨hc, by simp⟩
    | cons x xs ih =>
      intro c hc
      obtain ⟨h1, h2⟩ := ih _ (sorted_setInsert h x c hc)
      refine ⟨h1, fun z => ?_⟩
      rw [List.foldl_cons, h2, mem_setInsert h, List.mem_cons]
      constructor
      · rintro ((h | h) | h) <;> simp [h]
      · rintro (h | h | h) <;> simp [h]
  have huniq : ∀ (a b : List α), a.Pairwise (fun x y => lt x y = true) → b.Pairwise (fun x y => lt x y = true) →
      (∀ x, x ∈ a ↔ x ∈ b) → a = b := by
    intro a
    induction a with
    | nil =>
      intro b _ _ hm
      cases b with
      | nil => rfl
      | cons y b => exact absurd ((hm y).2 (by simp)) (by simp)
    | cons x a ih =>
      intro b ha hb hm
      cases b with
      | nil => exact absurd ((hm x).1 (by simp)) (by simp)
      | cons y b =>
        have ha' := List.pairwise_cons.1 ha
        have hb' := List.pairwise_cons.1 hb
        have hxy : x = y := by
          rcases List.mem_cons.1 ((hm x).1 (by simp)) with e | e
          · exact e
          · rcases List.mem_cons.1 ((hm y).2 (by simp)) with e' | e'
            · exact e'.symm
            · have := h.trans _ _ _ (hb'.1 x e) (ha'.1 y e')
              rw [h.irrefl] at this; cases this
        subst hxy
        congr 1
        refine ih b ha'.2 hb'.2 (fun z => ?_)
        constructor
        · intro hz
          rcases List.mem_cons.1 ((hm z).1 (List.mem_cons_of_mem _ hz)) with e | e
          · subst e; have := ha'.1 z hz; rw [h.irrefl] at this; cases this
          · exact e
        · intro hz
          rcases List.mem_cons.1 ((hm z).2 (List.mem_cons_of_mem _ hz)) with e | e
          · subst e; have := hb'.1 z hz; rw [h.irrefl] at this; cases this
          · exact e
  cases v with
  | arr l =>
    rw [toContainerOf, toContainer_iff]
    constructor
    · rintro ⟨xs, hx, rfl⟩
      obtain ⟨h1, h2⟩ := hf xs [] List.Pairwise.nil
      exact ⟨l, xs, rfl, hx, h1, fun x => by rw [h2]; simp⟩
    · rintro ⟨l', xs, he, hx, hs, hm⟩
      cases he
      obtain ⟨h1, h2⟩ := hf xs [] List.Pairwise.nil
      exact ⟨xs, hx, huniq _ _ hs h1 (fun x => by rw [h2, hm]; simp)⟩
  | _ => simp [toContainerOf]

/-- The order of the integers, that of `std::less<int>`. -/
theorem intOrder : TotalOrder (fun a b : Int => decide (a < b)) where
  irrefl := by intro a; simp
  trans := by intro a b c; simp; omega
  total := by intro a b; simp; omega

example : toContainerOf (setInsert fun a b => decide (a < b)) (toInt ⟨true, 32⟩)
    (.arr [.int 3, .str [0x31], .int 3, .int (-2)]) = .ok [-2, 1, 3] := by decide +kernel

theorem perm_multisetInsert {α : Type} (lt : α → α → Bool) (x : α) : ∀ c : List α,
    (multisetInsert lt c x).Perm (x :: c) := by
  intro c
  induction c with
  | nil => exact .refl _
  | cons y c ih =>
    rw [multisetInsert]
    split
    · exact .refl _
    · exact (List.Perm.cons y ih).trans (List.Perm.swap x y c)

theorem sorted_multisetInsert {α : Type} {lt : α → α → Bool} (h : TotalOrder lt) (x : α) : ∀ (c : List α),
    c.Pairwise (fun a b => lt b a = false) → (multisetInsert lt c x).Pairwise (fun a b => lt b a = false) := by
  intro c
  induction c with
  | nil => intro _; simp [multisetInsert]
  | cons y c ih =>
    intro hc
    have hc' := List.pairwise_cons.1 hc
    rw [multisetInsert]
    split
    · rename_i h1
      refine List.pairwise_cons.2 ⟨?_, hc⟩
      intro z hz
      cases hzx : lt z x with
      | false => rfl
      | true =>
        rcases List.mem_cons.1 hz with rfl | hz
        · have := h.trans _ _ _ h1 hzx
          rw [h.irrefl] at this; cases this
        · have h2 := h.trans _ _ _ hzx h1
          rw [hc'.1 z hz] at h2; cases h2
    · rename_i h1
      refine List.pairwise_cons.2 ⟨?_, ih hc'.2⟩
      intro z hz
      rcases List.mem_cons.1 ((perm_multisetInsert lt x c).mem_iff.1 hz) with rfl | hz
      · cases hh : lt z y with
        | false => rfl
        | true => exact absurd hh h1
      · exact hc'.1 z hz

/-- C92: a JSON array converted to a multiset holds the converted elements, as often as they occur, sorted. -/
theorem json_multiset {α : Type} (lt : α → α → Bool) (h : TotalOrder lt) (conv : Value → Out α) (v : Value)
    (r : List α) (hr : toContainerOf (multisetInsert lt) conv v = .ok r) :
    ∃ l xs, v = .arr l ∧ Converts conv l xs ∧ r.Pairwise (fun a b => lt b a = false) ∧ r.Perm xs := by
  have hf : ∀ (xs c : List α), c.Pairwise (fun a b => lt b a = false) →
      (xs.foldl (multisetInsert lt) c).Pairwise (fun a b => lt b a = false) ∧
      (xs.foldl (multisetInsert lt) c).Perm (c ++ xs) := by
    intro xs
    induction xs with
    | nil => intro c hc; exact ⟨hc, by simp⟩
    | cons x xs ih =>
      intro c hc
      obtain ⟨h1, h2⟩ := ih _ (sorted_multisetInsert h x c hc)
      refine ⟨h1, h2.trans (((perm_multisetInsert lt x c).append_right xs).trans ?_)⟩
      exact List.perm_middle.symm
  cases v with
  | arr l =>
    rw [toContainerOf, toContainer_iff] at hr
    obtain ⟨xs, hx, rfl⟩ := hr
    obtain ⟨h1, h2⟩ := hf xs [] List.Pairwise.nil
    exact ⟨l, xs, rfl, hx, h1, h2⟩
  | _ => simp [toContainerOf] at hr

example : toContainerOf (multisetInsert fun a b => decide (a < b)) (toInt ⟨true, 32⟩)
    (.arr [.int 3, .str [0x31], .int 3, .int (-2)]) = .ok [-2, 1, 3, 3] := by decide +kernel

end Verif.Json
