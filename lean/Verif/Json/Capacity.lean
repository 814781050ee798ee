import Verif.Json.Ops
import Verif.Json.Convert

/-!
# Capacity of JSON strings and arrays, and conversions that take the content out

Sources: `/repo/fly/types/json/json.cpp` 200-230, 457-508, and the calls of `Verif.Json.Ops`.

A JSON string or array keeps its content in a block of memory that a standard container manages; references to elements, and iterators,
stay good as long as the block does. A block is a number that changes whenever the container takes a new one. What the C++ standard
says of `std::string` and `std::vector` is assumed: a new block is taken only by `reserve` above the capacity and by a call after which
the size is above the capacity, and it is then at least as large as asked for; how much larger (`grow`) is left open.
-/

namespace Verif.Json.Capacity

/-- A `fly::Json` with the capacity of its string or array (meaningless for other types) and its block of memory. -/
structure Cell where
  v : Value
  cap : Nat
  block : Nat

/-- `fly::SameAsAny<S, json_string_type, json_array_type>` (json.cpp 466, 489): the types with a capacity. -/
def hasCapacity : Value → Bool
  | .str _ => true
  | .arr _ => true
  | _ => false

/-- `capacity()` (json.cpp 457-481). -/
def capacity (c : Cell) : Nat :=
  match c.v with
  | .null => 0
  | .str _ => c.cap
  | .arr _ => c.cap
  | .obj m => m.length
  | _ => 1

/-- `reserve(n)` (json.cpp 484-508). `limit` is the largest capacity the allocator grants, above which the container throws; the first
component tells whether the call returned. -/
def reserve (limit : Nat) (grow : Nat → Nat → Nat) (c : Cell) (n : Nat) : Bool × Cell :=
  if hasCapacity c.v then
    if c.cap < n then
      if n ≤ limit then (true, { c with cap := grow c.cap n, block := c.block + 1 }) else (false, c)
    else (true, c)
  else (false, c)

/-- What one of the calls of `Verif.Json.Ops` does to the memory: the content of a string or array stays where it is if it still fits;
a null value that becomes an array (json.hpp 2084-2100) starts with an empty container. -/
def call (limit : Nat) (grow : Nat → Nat → Nat) (c : Cell) (op : Op) : Cell :=
  let v' := (step limit c.v op).1
  let old := if hasCapacity c.v then c.cap else 0
  if sizeOfJson v' ≤ old then { c with v := v' }
  else { v := v', cap := grow old (sizeOfJson v'), block := c.block + 1 }

/-- A call of `capacity` operations or another one. -/
inductive Call where
  | reserve (n : Nat)
  | other (op : Op)

/-- One call on a cell. -/
def Cell.step (limit : Nat) (grow : Nat → Nat → Nat) (c : Cell) : Call → Cell
  | .reserve n => (Capacity.reserve limit grow c n).2
  | .other op => call limit grow c op

/-- A history of calls (no code of its own: the calls of `json.cpp` one after the other). -/
def Cell.run (limit : Nat) (grow : Nat → Nat → Nat) (c : Cell) (calls : List Call) : Cell :=
  calls.foldl (fun c k => c.step limit grow k) c

/-- `Json::operator json_string_type() &&` (json.cpp 206-212): what is returned (`none`: it threw) and the value left behind. -/
def takeStr : Value → Option (List Nat) × Value
  | .str s => (some s, .null)
  | v => (none, v)

/-- `Json::operator json_object_type() &&` (json.cpp 215-221). -/
def takeObj : Value → Option (List (List Nat × Value)) × Value
  | .obj m => (some m, .null)
  | v => (none, v)

/-- `Json::operator json_array_type() &&` (json.cpp 224-230). -/
def takeArr : Value → Option (List Value) × Value
  | .arr l => (some l, .null)
  | v => (none, v)

/-- `Json::operator json_null_type()` (json.cpp 200-203): whether it returns. -/
def asNull : Value → Bool
  | .null => true
  | _ => false

/-! ## Specification -/

/-- The number of characters, elements or entries: what `size()` documents (null 0, other scalars 1). -/
def sizeSpec : Value → Nat
  | .null => 0
  | .str s => s.length
  | .arr l => l.length
  | .obj m => m.length
  | .bool _ => 1
  | .int _ => 1
  | .uint _ => 1
  | .flt _ => 1

/-- A string or an array. -/
inductive Sized : Value → Prop
  | str (s : List Nat) : Sized (.str s)
  | arr (l : List Value) : Sized (.arr l)

/-- The container grants at least what is asked for. -/
def Grants (grow : Nat → Nat → Nat) : Prop := ∀ old n, n ≤ grow old n

/-- A value as it comes from a constructor: its content fits into its block. -/
def Cell.Good (c : Cell) : Prop := Sized c.v → sizeSpec c.v ≤ c.cap

/-! ## Lemmas -/

theorem sized_iff (v : Value) : hasCapacity v = true ↔ Sized v := by
  constructor
  · intro h; cases v <;> first | constructor | cases h
  · intro h; cases h <;> rfl

theorem sizeOf_eq (v : Value) : sizeOfJson v = sizeSpec v := by cases v <;> rfl

/-- A call does not turn a string or array into something else. -/
theorem step_sized (limit : Nat) {v : Value} (h : Sized v) (op : Op) : Sized (step limit v op).1 := by
  cases h with
  | str s =>
    cases op <;> simp only [step, withKey, withIndex, withSubscript, asArray, asObject, eraseAt, resizeJson, clearJson] <;>
      first | exact .str _ | (split <;> exact .str _)
  | arr l =>
    cases op <;> simp only [step, withKey, withIndex, withSubscript, asArray, asObject, eraseAt, resizeJson, clearJson] <;>
      first
      | exact .arr _
      | (split <;> exact .arr _)

theorem call_good (limit : Nat) (grow : Nat → Nat → Nat) (hg : Grants grow) (c : Cell) (op : Op) :
    (call limit grow c op).Good := by
  unfold call
  dsimp only
  generalize ho : (if hasCapacity c.v = true then c.cap else 0) = old
  have hle : old ≤ c.cap := by rw [← ho]; split <;> omega
  by_cases h : sizeOfJson (step limit c.v op).1 ≤ old
  · rw [if_pos h]
    intro hs
    rw [← sizeOf_eq]
    exact Nat.le_trans h hle
  · rw [if_neg h]
    intro hs
    rw [← sizeOf_eq]
    exact hg _ _

theorem reserve_good (limit : Nat) (grow : Nat → Nat → Nat) (hg : Grants grow) (c : Cell) (n : Nat) (h : c.Good) :
    (reserve limit grow c n).2.Good := by
  unfold reserve
  split
  · split
    · split
      · intro hs
        have := h hs
        have := hg c.cap n
        dsimp only
        omega
      · exact h
    · exact h
  · exact h

theorem run_good (limit : Nat) (grow : Nat → Nat → Nat) (hg : Grants grow) : ∀ (calls : List Call) (c : Cell), c.Good →
    (c.run limit grow calls).Good := by
  intro calls
  induction calls with
  | nil => intro c h; exact h
  | cons k ks ih =>
    intro c h
    refine ih _ ?_
    cases k with
    | reserve n => exact reserve_good limit grow hg c n h
    | other op => exact call_good limit grow hg c op

theorem capacity_sized {c : Cell} (h : Sized c.v) : capacity c = c.cap := by
  unfold capacity
  generalize c.v = v at h
  cases h <;> rfl

/-! ## Properties -/

/-- `size()` is never more than `capacity()`, after any calls. -/
theorem size_le_capacity (limit : Nat) (grow : Nat → Nat → Nat) (hg : Grants grow) (c : Cell) (hc : c.Good) (calls : List Call) :
    sizeSpec (c.run limit grow calls).v ≤ capacity (c.run limit grow calls) := by
  have h := run_good limit grow hg calls c hc
  generalize c.run limit grow calls = d at h
  obtain ⟨v, cap, block⟩ := d
  cases v with
  | str s => exact h (.str _)
  | arr l => exact h (.arr _)
  | _ => first | exact Nat.le_refl _ | exact Nat.zero_le _

/-- Values other than strings and arrays have no spare room: the capacity is the size. -/
theorem capacity_unsized (c : Cell) (h : ¬ Sized c.v) : capacity c = sizeSpec c.v := by
  obtain ⟨v, cap, block⟩ := c
  cases v <;> first | rfl | exact absurd (Sized.str _) h | exact absurd (Sized.arr _) h

/-- `reserve(n)` returns exactly for a string or array and an amount that can be had (or is there already). It then gives a capacity of
at least `n` and of no less than before, and moves the content only if the capacity was less. The value is the same in any case, and
nothing at all changes when it throws. -/
theorem reserve_spec (limit : Nat) (grow : Nat → Nat → Nat) (hg : Grants grow) (c : Cell) (n : Nat) :
    ((reserve limit grow c n).1 = true ↔ Sized c.v ∧ (n ≤ c.cap ∨ n ≤ limit)) ∧
    (reserve limit grow c n).2.v = c.v ∧
    ((reserve limit grow c n).1 = false → (reserve limit grow c n).2 = c) ∧
    ((reserve limit grow c n).1 = true → n ≤ capacity (reserve limit grow c n).2 ∧ capacity c ≤ capacity (reserve limit grow c n).2) ∧
    (n ≤ capacity c → Sized c.v → (reserve limit grow c n).2 = c) := by
  have key : ∀ d : Cell, d.v = c.v → Sized c.v → capacity d = d.cap := fun d hd hs => capacity_sized (hd ▸ hs)
  unfold reserve
  by_cases hs : Sized c.v
  · rw [if_pos ((sized_iff _).2 hs)]
    by_cases h1 : c.cap < n
    · rw [if_pos h1]
      by_cases h2 : n ≤ limit
      · rw [if_pos h2]
        refine ⟨by simp [hs, h2], rfl, fun h => (nomatch h), fun _ => ?_, fun h => ?_⟩
        · have e1 := key c rfl hs
          have e2 := key { c with cap := grow c.cap n, block := c.block + 1 } rfl hs
          dsimp only at e2 ⊢
          rw [e1, e2]
          have := hg c.cap n
          omega
        · rw [key c rfl hs] at h; omega
      · rw [if_neg h2]
        refine ⟨?_, rfl, fun _ => rfl, fun h => (nomatch h), fun _ _ => rfl⟩
        simp only [Bool.false_eq_true, false_iff]
        omega
    · rw [if_neg h1]
      refine ⟨by simp [hs]; omega, rfl, fun _ => rfl, fun _ => ?_, fun _ _ => rfl⟩
      rw [key c rfl hs]
      omega
  · rw [if_neg (fun h => hs ((sized_iff _).1 h))]
    exact ⟨by simp [hs], rfl, fun _ => rfl, fun h => (nomatch h), fun _ _ => rfl⟩

/-- After `reserve(n)`, no sequence of calls moves the content as long as the size after each call is at most `n`: every reference and
iterator into the block stays good, and the capacity stays what it is. -/
theorem reserved_stays (limit : Nat) (grow : Nat → Nat → Nat) (hg : Grants grow) (c : Cell) (n : Nat) (calls : List Op)
    (hr : (reserve limit grow c n).1 = true)
    (hsz : ∀ k, k ≤ calls.length → sizeSpec (run limit c.v (calls.take k)).1 ≤ n) :
    ((reserve limit grow c n).2.run limit grow (calls.map .other)).block = (reserve limit grow c n).2.block ∧
    capacity ((reserve limit grow c n).2.run limit grow (calls.map .other)) = capacity (reserve limit grow c n).2 ∧
    ((reserve limit grow c n).2.run limit grow (calls.map .other)).v = (run limit c.v calls).1 := by
  have hs : Sized c.v := ((reserve_spec limit grow hg c n).1.1 hr).1
  have hv := (reserve_spec limit grow hg c n).2.1
  have hcap := ((reserve_spec limit grow hg c n).2.2.2.1 hr).1
  generalize (reserve limit grow c n).2 = d at hv hcap
  rw [← hv] at hs hsz ⊢
  rw [capacity_sized hs] at hcap
  clear hv hr hg
  induction calls generalizing d with
  | nil => exact ⟨rfl, rfl, rfl⟩
  | cons o os ih =>
    have hs' := step_sized limit hs o
    have h1 := hsz 1 (by simp)
    have h1 : sizeSpec (step limit d.v o).1 ≤ n := h1
    have e : call limit grow d o = { d with v := (step limit d.v o).1 } := by
      unfold call
      dsimp only
      rw [(sized_iff _).2 hs, if_pos rfl, if_pos (by rw [sizeOf_eq]; omega)]
    have e' : d.run limit grow ((o :: os).map .other) = Cell.run limit grow ⟨(step limit d.v o).1, d.cap, d.block⟩ (os.map .other) := by
      show (call limit grow d o).run limit grow (os.map .other) = _
      rw [e]
    obtain ⟨i1, i2, i3⟩ := ih ⟨(step limit d.v o).1, d.cap, d.block⟩
      (fun k hk => hsz (k + 1) (by simp only [List.length_cons]; omega)) hs' hcap
    rw [e']
    refine ⟨i1, ?_, i3⟩
    rw [i2, capacity_sized hs, capacity_sized (c := ⟨(step limit d.v o).1, d.cap, d.block⟩) hs']

/-- An array for which three places are reserved takes two more elements, a pop and another element in place. -/
example : (reserve 100 (fun _ n => n) ⟨.arr [.null], 1, 7⟩ 3).1 = true ∧
    (∀ k, k ≤ 4 → sizeSpec (run 100 (.arr [.null]) (([.pushBack (.int 1), .pushBack (.int 2), .popBack, .pushBack (.int 3)] : List Op).take k)).1 ≤ 3) := by
  refine ⟨rfl, fun k hk => ?_⟩
  have : k = 0 ∨ k = 1 ∨ k = 2 ∨ k = 3 ∨ k = 4 := by omega
  rcases this with rfl | rfl | rfl | rfl | rfl <;> decide +kernel

/-- Without the reserved place the content moves. -/
example : (call 100 (fun _ n => n) ⟨.arr [.null], 1, 7⟩ (.pushBack (.int 1))).block = 8 := by decide +kernel

/-- What a conversion that takes the content out has to do: hand over the content and leave null, or throw and leave everything. -/
def Takes {α : Type} (mk : α → Value) (v : Value) (r : Option α) (v' : Value) : Prop :=
  (∃ a, v = mk a ∧ r = some a ∧ v' = .null) ∨ ((∀ a, v ≠ mk a) ∧ r = none ∧ v' = v)

/-- Taking the content out of a JSON value gives exactly what it held and leaves null; a value of another type is left as it was. -/
theorem take_out (v : Value) :
    Takes .str v (takeStr v).1 (takeStr v).2 ∧ Takes .obj v (takeObj v).1 (takeObj v).2 ∧ Takes .arr v (takeArr v).1 (takeArr v).2 ∧
    (asNull v = true ↔ v = .null) := by
  refine ⟨?_, ?_, ?_, ?_⟩
  · cases v <;> first | exact .inl ⟨_, rfl, rfl, rfl⟩ | exact .inr ⟨fun _ h => (by cases h), rfl, rfl⟩
  · cases v <;> first | exact .inl ⟨_, rfl, rfl, rfl⟩ | exact .inr ⟨fun _ h => (by cases h), rfl, rfl⟩
  · cases v <;> first | exact .inl ⟨_, rfl, rfl, rfl⟩ | exact .inr ⟨fun _ h => (by cases h), rfl, rfl⟩
  · cases v <;> simp [asNull]

/-- Moving out of a string, array or object gives what copying out of it gives. -/
theorem move_is_copy_partial (io : FloatIO) (v : Value) :
    (∀ s, (takeStr v).1 = some s → toStr io v = .ok s) ∧ (∀ m, (takeObj v).1 = some m → toMap v = .ok m) ∧
    (∀ l, (takeArr v).1 = some l → toArr .ok v = .ok l) ∧
    ((takeObj v).1 = none → toMap v = .threw) ∧ ((takeArr v).1 = none → toArr (α := Value) .ok v = .threw) := by
  have hc : ∀ l : List Value, convElems Out.ok l = .ok l := by
    intro l
    induction l with
    | nil => rfl
    | cons x l ih => rw [convElems, ih]
  cases v <;> refine ⟨?_, ?_, ?_, ?_, ?_⟩ <;> intros <;> simp_all [takeStr, takeObj, takeArr, toStr, toMap, toArr]

/-- A number converts to a string when it is copied but throws when it is moved. -/
theorem move_is_copy_violated (io : FloatIO) :
    ¬ ∀ v s, toStr io v = .ok s → (takeStr v).1 = some s := by
  intro h
  have := h (.int 5) _ rfl
  cases this

end Verif.Json.Capacity
