import Verif.Json.Braces

/-!
# C115: swapping and merging JSON values with C++ containers

Sources: `/repo/fly/types/json/json.hpp` 1882-1962.
-/

namespace Verif.Json

/-! ## Model -/

/-- `swap(T &)` (json.hpp 1883-1925) for a string, object or array type: `kind` is the check of the type,
`fromJson` the conversion operator, `toJson` the constructor (`none`: it throws), `gone` what a moved-from
container is (empty for the standard library's). The container is moved into the constructor's parameter
before the constructor can throw. Gives the JSON value and the container afterwards, and whether the call
threw. -/
def swapWith {α : Type} (kind : Value → Bool) (fromJson : Value → Out α) (toJson : α → Option Value) (gone : α)
    (v : Value) (other : α) : Value × α × Bool :=
  if kind v then
    match fromJson v with
    | .ok x => match toJson other with
      | some w => (w, x, false)
      | none => (v, gone, true)
    | _ => (v, other, true)
  else (v, other, true)

/-- `swap(std::string &)` (json.hpp 1883-1895). -/
def swapString (v : Value) (other : List Nat) : Value × List Nat × Bool :=
  swapWith (fun v => match v with | .str _ => true | _ => false)
    (fun v => match v with | .str s => .ok s | _ => .threw) (fun s => (convertToString s).map .str) [] v other

/-- `swap` with a vector, list or deque of JSON values (json.hpp 1913-1925). -/
def swapArray (v : Value) (other : List Value) : Value × List Value × Bool :=
  swapWith (fun v => match v with | .arr _ => true | _ => false) (toArr .ok) (fun l => some (ofArr l)) [] v other

/-- The loop of `merge(T &)` (json.hpp 1928-1946) over the entries of the container in their order: `toJson`
is the constructor of the mapped type (`none`: it throws) and `gone` what it leaves of the value it was given;
keys of the standard maps are constant, so they are copied. Gives the object's entries and the container's
afterwards, and whether the call threw. -/
def mergeRef {α : Type} (toJson : α → Option Value) (gone : α → α) : List (List Nat × Value) →
    List (List Nat × α) → List (List Nat × Value) × List (List Nat × α) × Bool
  | m, [] => (m, [], false)
  | m, (raw, x) :: es =>
    match convertToString raw with
    | none => (m, (raw, x) :: es, true)
    | some k =>
      if (lookup k m).isSome then
        let r := mergeRef toJson gone m es
        (r.1, (raw, x) :: r.2.1, r.2.2)
      else match toJson x with
        | none => (m, (raw, gone x) :: es, true)
        | some v => mergeRef toJson gone (insertNew k v m) es

/-- `merge(T &)` (json.hpp 1928-1946). -/
def mergeWith {α : Type} (toJson : α → Option Value) (gone : α → α) (v : Value) (es : List (List Nat × α)) :
    Value × List (List Nat × α) × Bool :=
  match asObject v with
  | none => (v, es, true)
  | some m => let r := mergeRef toJson gone m es; (.obj r.1, r.2)

/-! ## Specification -/

/-- The entries of a JSON value, null counting as the empty object it is promoted to. -/
inductive EntriesOf : Value → List (List Nat × Value) → Prop
  | null : EntriesOf .null []
  | obj (m : List (List Nat × Value)) : EntriesOf (.obj m) m

/-- Which entries of a list move into an object: those with a key that is not there yet, the earliest of them
for each key. `Moves m es a b`: of `es`, `a` moves (with the converted keys and values) and `b` stays. -/
inductive Moves {α : Type} (key : List Nat → List Nat → Prop) (val : α → Value → Prop) :
    (List Nat → Prop) → List (List Nat × α) → List (List Nat × Value) → List (List Nat × α) → Prop
  | nil (has) : Moves key val has [] [] []
  | stays {has raw x k es a b} : key raw k → has k → Moves key val has es a b →
      Moves key val has ((raw, x) :: es) a ((raw, x) :: b)
  | moves {has raw x k v es a b} : key raw k → ¬ has k → val x v → Moves key val (fun k' => k' = k ∨ has k') es a b →
      Moves key val has ((raw, x) :: es) ((k, v) :: a) b

/-! ## Proof -/

/-- C115: a swap that does not throw exchanges: the JSON value gets the container's content, the container the
JSON value's. -/
theorem swap_exchanges {α : Type} (kind : Value → Bool) (fromJson : Value → Out α) (toJson : α → Option Value)
    (gone : α) (v : Value) (other : α) (w : Value) (x : α)
    (h : swapWith kind fromJson toJson gone v other = (w, x, false)) :
    toJson other = some w ∧ fromJson v = .ok x := by
  unfold swapWith at h
  split at h
  · split at h
    · split at h
      · simp_all
      · simp at h
    · simp at h
  · simp at h

/-- C115: swapping an array with a container of JSON values always exchanges them exactly; with any other kind
of value it throws and changes neither. -/
theorem swap_array (v : Value) (other : List Value) :
    (∀ l, v = .arr l → swapArray v other = (.arr other, l, false)) ∧
    ((∀ l, v ≠ .arr l) → swapArray v other = (v, other, true)) := by
  constructor
  · rintro l rfl
    have h : convElems Out.ok l = .ok l := by
      have := convElems_map Out.ok id id l (fun x _ => rfl)
      simpa using this
    simp only [swapArray, swapWith, if_true, toArr, h, ofArr_eq]
  · intro h
    cases v with
    | arr l => exact absurd rfl (h l)
    | _ => rfl

/-- C115: swapping a JSON string with a `std::string`: an exact exchange when the string is made of characters
that JSON does not escape; not a string: both unchanged. -/
theorem swap_string_plain (v : Value) (other : List Nat) :
    (∀ s, v = .str s → Verif.Unicode.WellFormed8 other →
      (∀ c ∈ other, 0x20 ≤ c ∧ c ≠ 0x22 ∧ c ≠ 0x5c) → swapString v other = (.str other, s, false)) ∧
    ((∀ s, v ≠ .str s) → swapString v other = (v, other, true)) := by
  constructor
  · rintro s rfl hw hc
    simp only [swapString, swapWith, if_true, json_string_restore_partial other hw hc, Option.map_some]
  · intro h
    cases v with
    | str s => exact absurd rfl (h s)
    | _ => rfl

example : swapString (.str [0x61]) [0x62, 0xc3, 0xa9] = (.str [0x62, 0xc3, 0xa9], [0x61], false) :=
  (swap_string_plain _ _).1 _ rfl
    (.one (by decide) (.two (by decide) (by decide) .nil)) (by simp)

/-- C115 fails when the string is not acceptable: the call throws, the JSON value is as before, and the caller's
string is lost. -/
theorem swap_loses_violated :
    ¬ ∀ (v : Value) (other : List Nat), (swapString v other).2.2 = true → (swapString v other).2.1 = other := by
  intro h
  have := h (.str [0x61]) [0x62, 0x0a] (by decide +kernel)
  revert this
  decide +kernel

/-- C115 fails for texts with characters JSON escapes: swapping twice need not restore anything, here because
the JSON string holds a line feed. -/
theorem swap_twice_violated :
    ¬ ∀ (v : Value) (other : List Nat), (swapString v other).2.2 = false →
      swapString (swapString v other).1 (swapString v other).2.1 = (v, other, false) := by
  intro h
  have h1 : swapString (.str [0x0a]) [0x61] = (.str [0x61], [0x0a], false) := by
    have : convertToString [0x61] = some [0x61] := by decide +kernel
    simp [swapString, swapWith, this]
  have h2 : convertToString [0x0a] = none := by decide +kernel
  have := h (.str [0x0a]) [0x61] (by rw [h1])
  rw [h1] at this
  simp [swapString, swapWith, h2] at this

theorem mergeRef_moves {α : Type} (toJson : α → Option Value) (gone : α → α) :
    ∀ (es : List (List Nat × α)) (m m' : List (List Nat × Value)) (b : List (List Nat × α)), SortedKeys m →
    (mergeRef toJson gone m es = (m', b, false) ↔
    ∃ a, Moves (fun raw k => convertToString raw = some k) (fun x v => toJson x = some v)
      (fun k => (lookup k m).isSome) es a b ∧ m' = mergeInto m a) := by
  intro es
  induction es with
  | nil =>
    intro m m' b hs
    constructor
    · intro h; simp only [mergeRef, Prod.mk.injEq, and_true] at h
      obtain ⟨rfl, rfl⟩ := h
      exact ⟨[], .nil _, rfl⟩
    · rintro ⟨a, h, rfl⟩; cases h; rfl
  | cons e es ih =>
    obtain ⟨raw, x⟩ := e
    intro m m' b hs
    simp only [mergeRef]
    cases hk : convertToString raw with
    | none =>
      constructor
      · intro h; simp at h
      · rintro ⟨a, h, _⟩
        cases h with
        | stays h1 => rw [hk] at h1; cases h1
        | moves h1 => rw [hk] at h1; cases h1
    | some k =>
      by_cases hl : (lookup k m).isSome
      · simp only [hl, if_true, Prod.mk.injEq]
        constructor
        · rintro ⟨rfl, rfl, h3⟩
          obtain ⟨a, h, h'⟩ := (ih m _ _ hs).1 (Prod.ext rfl (Prod.ext rfl h3))
          exact ⟨a, .stays hk hl h, h'⟩
        · rintro ⟨a, h, rfl⟩
          cases h with
          | stays h1 h2 h3 =>
            have := (ih m _ _ hs).2 ⟨a, h3, rfl⟩
            rw [this]; exact ⟨rfl, rfl, rfl⟩
          | moves h1 h2 _ _ => rw [hk] at h1; cases h1; exact absurd hl h2
      · simp only [hl]
        cases hv : toJson x with
        | none =>
          constructor
          · intro h; simp at h
          · rintro ⟨a, h, _⟩
            cases h with
            | stays h1 h2 _ => rw [hk] at h1; cases h1; exact absurd h2 hl
            | moves _ _ h3 _ => rw [hv] at h3; cases h3
        | some v =>
          have key : (fun k' => (lookup k' (insertNew k v m)).isSome = true) =
              (fun k' => k' = k ∨ (lookup k' m).isSome = true) := by
            funext k'
            rw [lookup_insertNew hs k k' v]
            by_cases e : k' = k
            · simp [e]
            · simp [e]
          have := ih (insertNew k v m) m' b (sorted_insertNew hs k v)
          rw [key] at this
          simp only [Bool.false_eq_true, if_false]
          rw [this]
          constructor
          · rintro ⟨a, h, rfl⟩
            exact ⟨(k, v) :: a, .moves hk hl hv h, rfl⟩
          · rintro ⟨a, h, rfl⟩
            cases h with
            | stays h1 h2 _ => rw [hk] at h1; cases h1; exact absurd h2 hl
            | moves h1 h2 h3 h4 =>
              rw [hk] at h1; cases h1
              rw [hv] at h3; cases h3
              exact ⟨_, h4, rfl⟩

theorem moves_new {α : Type} {key val} {has : List Nat → Prop} {es : List (List Nat × α)} {a b}
    (h : Moves key val has es a b) : a.Pairwise (fun p q => p.1 ≠ q.1) ∧ ∀ p ∈ a, ¬ has p.1 := by
  induction h with
  | nil => simp
  | stays _ _ _ ih => exact ih
  | @moves has raw x k v es a b _ h2 _ _ ih =>
    refine ⟨List.pairwise_cons.2 ⟨fun p hp h => ih.2 p hp (Or.inl h.symm), ih.1⟩, ?_⟩
    intro p hp
    rcases List.mem_cons.1 hp with rfl | hp
    · exact h2
    · exact fun h => ih.2 p hp (Or.inr h)

/-- Looking up in a merged map, for entries with different new keys in any order. -/
theorem lookup_merge_new : ∀ (a m : List (List Nat × Value)), SortedKeys m →
    a.Pairwise (fun p q => p.1 ≠ q.1) → (∀ p ∈ a, (lookup p.1 m).isSome ≠ true) → ∀ k v,
    (lookup k (mergeInto m a) = some v ↔ lookup k m = some v ∨ (k, v) ∈ a) := by
  intro a
  induction a with
  | nil => intro m _ _ _ k v; simp [mergeInto]
  | cons p a ih =>
    obtain ⟨k0, v0⟩ := p
    intro m hs hp hn k v
    have hp' := List.pairwise_cons.1 hp
    have hn0 : lookup k0 m = none := by
      have := hn (k0, v0) (by simp)
      cases h : lookup k0 m with
      | none => rfl
      | some y => simp [h] at this
    rw [mergeInto, ih _ (sorted_insertNew hs k0 v0) hp'.2 ?_ k v, lookup_insertNew hs k0 k v0]
    · by_cases e : k = k0
      · subst e
        simp only [hn0, List.mem_cons, Prod.mk.injEq, true_and]
        have : ∀ v, (k, v) ∉ a := fun v hv => hp'.1 (k, v) hv rfl
        simp [this, eq_comm]
      · cases hx : lookup k m <;> simp [e, List.mem_cons]
    · intro p hpa
      rw [lookup_insertNew hs k0 p.1 v0]
      have h1 := hn p (List.mem_cons_of_mem _ hpa)
      have h2 : p.1 ≠ k0 := fun e => hp'.1 p hpa e.symm
      cases hx : lookup p.1 m with
      | none => simp [h2]
      | some y => simp [hx] at h1

/-- C115: a merge that does not throw: the JSON value was an object or null; it keeps its entries and gets
exactly the entries of the container that are new, the first for each key; exactly the others stay in the
container, unchanged and in order. -/
theorem merge_moves {α : Type} (toJson : α → Option Value) (gone : α → α) (v w : Value) (es b : List (List Nat × α))
    (hv : ∀ m, v = .obj m → SortedKeys m) (h : mergeWith toJson gone v es = (w, b, false)) :
    ∃ m m' a, EntriesOf v m ∧ w = .obj m' ∧ SortedKeys m' ∧
      Moves (fun raw k => convertToString raw = some k) (fun x y => toJson x = some y)
        (fun k => ∃ y, (k, y) ∈ m) es a b ∧
      ∀ p, p ∈ m' ↔ p ∈ m ∨ p ∈ a := by
  unfold mergeWith at h
  split at h
  · simp at h
  · rename_i m hm
    have hs : SortedKeys m ∧ EntriesOf v m := by
      cases v with
      | null => cases hm; exact ⟨List.Pairwise.nil, .null⟩
      | obj m' => cases hm; exact ⟨hv m rfl, .obj m⟩
      | _ => cases hm
    rcases hr : mergeRef toJson gone m es with ⟨m1, r⟩
    rw [hr] at h
    simp only [Prod.mk.injEq] at h
    obtain ⟨rfl, rfl⟩ := h
    obtain ⟨a, ha, he⟩ := (mergeRef_moves toJson gone es m m1 b hs.1).1 hr
    have hhas : (fun k => (lookup k m).isSome = true) = (fun k => ∃ y, (k, y) ∈ m) := by
      funext k
      rw [Option.isSome_iff_exists]
      simp only [lookup_iff hs.1]
    have hn := moves_new ha
    refine ⟨m, _, a, hs.2, rfl, ?_, ?_, ?_⟩
    · rw [he]; exact sorted_merge hs.1
    · rw [← hhas]; exact ha
    · rintro ⟨k, y⟩
      rw [he, ← lookup_iff (sorted_merge hs.1), lookup_merge_new a m hs.1 hn.1 hn.2, lookup_iff hs.1]

/-- `{"a": 1}` merged with `{"a": 2, "b": 3}`: 3 moves, 2 stays. -/
example : mergeWith some id (.obj [([0x61], .int 1)]) [([0x61], .int 2), ([0x62], .int 3)] =
    (.obj [([0x61], .int 1), ([0x62], .int 3)], [([0x61], .int 2)], false) := by
  have h1 : convertToString [0x61] = some [0x61] := by decide +kernel
  have h2 : convertToString [0x62] = some [0x62] := by decide +kernel
  simp [mergeWith, asObject, mergeRef, h1, h2, lookup, insertNew, strLt]

/-- C115: when the values of the container are JSON values (or of another type whose conversion cannot fail),
no entry is lost even by a merge that throws: every entry is in the object under its key or still in the
container, and the object has lost nothing. -/
theorem merge_keeps {α : Type} (toJson : α → Option Value) (gone : α → α) (hj : ∀ x, (toJson x).isSome) :
    ∀ (es : List (List Nat × α)) (m : List (List Nat × Value)), SortedKeys m →
    (∀ p ∈ m, p ∈ (mergeRef toJson gone m es).1) ∧
    ∀ e ∈ es, e ∈ (mergeRef toJson gone m es).2.1 ∨
      ∃ k v, convertToString e.1 = some k ∧ toJson e.2 = some v ∧ (k, v) ∈ (mergeRef toJson gone m es).1 := by
  intro es
  induction es with
  | nil => intro m _; exact ⟨fun p hp => hp, by simp⟩
  | cons e es ih =>
    obtain ⟨raw, x⟩ := e
    intro m hs
    simp only [mergeRef]
    cases hk : convertToString raw with
    | none => exact ⟨fun p hp => hp, fun e he => Or.inl he⟩
    | some k =>
      by_cases hl : (lookup k m).isSome
      · simp only [hl, if_true]
        obtain ⟨h1, h2⟩ := ih m hs
        refine ⟨h1, fun e he => ?_⟩
        rcases List.mem_cons.1 he with rfl | he
        · exact Or.inl (by simp)
        · rcases h2 e he with h | h
          · exact Or.inl (List.mem_cons_of_mem _ h)
          · exact Or.inr h
      · cases hv : toJson x with
        | none => have := hj x; rw [hv] at this; cases this
        | some v =>
          simp only [hl, Bool.false_eq_true, if_false]
          obtain ⟨h1, h2⟩ := ih (insertNew k v m) (sorted_insertNew hs k v)
          have hin : ∀ k' w, lookup k' m = some w ∨ (k' = k ∧ w = v) → (k', w) ∈ insertNew k v m := by
            intro k' w hw
            rw [← lookup_iff (sorted_insertNew hs k v), lookup_insertNew hs k k' v]
            rcases hw with hw | ⟨rfl, rfl⟩
            · by_cases e : k' = k
              · subst e; rw [hw] at hl; exact absurd rfl hl
              · rw [if_neg e]; exact hw
            · cases hx : lookup k' m with
              | none => simp
              | some y => rw [hx] at hl; exact absurd rfl hl
          refine ⟨fun p hp => h1 p (hin p.1 p.2 (Or.inl ((lookup_iff hs _ _).2 hp))), fun e he => ?_⟩
          rcases List.mem_cons.1 he with rfl | he
          · exact Or.inr ⟨k, v, hk, hv, h1 _ (hin k v (Or.inr ⟨rfl, rfl⟩))⟩
          · exact h2 e he

/-- Merging JSON values; the key of the second entry is not valid UTF-8, so the merge throws there, and the entries
from that one on are still in the container. -/
example : (∀ x : Value, (some x).isSome) ∧
    mergeRef some id [([0x61], .int 1)] [([0x62], .int 2), ([0xff], .int 3), ([0x63], .int 4)] =
      ([([0x61], .int 1), ([0x62], .int 2)], [([0xff], .int 3), ([0x63], .int 4)], true) := by
  have h2 : convertToString [0x62] = some [0x62] := by decide +kernel
  have h3 : convertToString [0xff] = none := by decide +kernel
  refine ⟨fun _ => rfl, ?_⟩
  simp [mergeRef, h2, h3, lookup, insertNew, strLt]

/-- C115 fails for containers whose values are strings: when a value is not acceptable the merge throws, and
that value is lost from the container. -/
theorem merge_loses_violated :
    ¬ ∀ (v : Value) (es : List (List Nat × List Nat)),
      let r := mergeWith (fun s => (convertToString s).map .str) (fun _ => []) v es
      ∀ e ∈ es, e ∈ r.2.1 ∨ ∃ m k s, r.1 = .obj m ∧ convertToString e.1 = some k ∧ (k, Value.str s) ∈ m := by
  intro h
  have h1 : convertToString [0x61] = some [0x61] := by decide +kernel
  have h2 : convertToString [0x0a] = none := by decide +kernel
  have := h .null [([0x61], [0x0a])] ([0x61], [0x0a]) (by simp)
  simp [mergeWith, asObject, mergeRef, h1, h2, lookup] at this

end Verif.Json
