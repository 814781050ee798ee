import Verif.Json.Exchange

/-!
# C115: merging with a container that is given away

Source: `/repo/fly/types/json/json.hpp` 1949-1962.
-/

namespace Verif.Json

/-- The loop of `merge(T &&)` (json.hpp 1955-1961) over the entries of the container in their order (`insert`: json.hpp
2030-2045; the keys of the standard maps are constant, so they are copied). Gives the object's entries, what is left in
the container, and whether the call threw. -/
def mergeAway {α : Type} (toJson : α → Option Value) (gone : α → α) : List (List Nat × Value) →
    List (List Nat × α) → List (List Nat × Value) × List (List Nat × α) × Bool
  | m, [] => (m, [], false)
  | m, (raw, x) :: es =>
    match convertToString raw with
    | none => (m, (raw, x) :: es, true)
    | some k =>
      match (lookup k m).isSome with
      | true =>
        let r := mergeAway toJson gone m es
        (r.1, (raw, x) :: r.2.1, r.2.2)
      | false =>
        match toJson x with
        | none => (m, (raw, gone x) :: es, true)
        | some v =>
          let r := mergeAway toJson gone (insertNew k v m) es
          (r.1, (raw, gone x) :: r.2.1, r.2.2)

/-- `merge(T &&)` (json.hpp 1949-1962). -/
def mergeGiven {α : Type} (toJson : α → Option Value) (gone : α → α) (v : Value) (es : List (List Nat × α)) :
    Value × List (List Nat × α) × Bool :=
  match asObject v with
  | none => (v, es, true)
  | some m => let r := mergeAway toJson gone m es; (.obj r.1, r.2)

theorem mergeAway_ref {α : Type} (toJson : α → Option Value) (gone : α → α) : ∀ (es : List (List Nat × α))
    (m : List (List Nat × Value)),
    (mergeAway toJson gone m es).1 = (mergeRef toJson gone m es).1 ∧
    (mergeAway toJson gone m es).2.2 = (mergeRef toJson gone m es).2.2 ∧
    (mergeAway toJson gone m es).2.1.map (·.1) = es.map (·.1) ∧
    (mergeRef toJson gone m es).2.1.Sublist (mergeAway toJson gone m es).2.1 := by
  intro es
  induction es with
  | nil => intro m; exact ⟨rfl, rfl, rfl, .slnil⟩
  | cons e es ih =>
    obtain ⟨raw, x⟩ := e
    intro m
    simp only [mergeAway, mergeRef]
    cases convertToString raw with
    | none => exact ⟨rfl, rfl, rfl, .refl _⟩
    | some k =>
      cases hl : (lookup k m).isSome with
      | true =>
        obtain ⟨h1, h2, h3, h4⟩ := ih m
        simp only [hl, if_true]
        exact ⟨h1, h2, by simpa using h3, h4.cons_cons _⟩
      | false =>
        simp only [hl, Bool.false_eq_true, if_false]
        cases toJson x with
        | none => exact ⟨rfl, rfl, rfl, .refl _⟩
        | some v =>
          obtain ⟨h1, h2, h3, h4⟩ := ih (insertNew k v m)
          exact ⟨h1, h2, by simpa using h3, h4.cons _⟩

/-- C115: a container that is given away is merged as one that is kept: the JSON value is the same afterwards, and the
call throws in the same cases; no entry is removed from the container, and those that the other merge leaves in it keep
their values (those that moved are left without theirs). -/
theorem merge_given_away {α : Type} (toJson : α → Option Value) (gone : α → α) (v : Value) (es : List (List Nat × α)) :
    (mergeGiven toJson gone v es).1 = (mergeWith toJson gone v es).1 ∧
    (mergeGiven toJson gone v es).2.2 = (mergeWith toJson gone v es).2.2 ∧
    (mergeGiven toJson gone v es).2.1.map (·.1) = es.map (·.1) ∧
    (mergeWith toJson gone v es).2.1.Sublist (mergeGiven toJson gone v es).2.1 := by
  unfold mergeGiven mergeWith
  cases asObject v with
  | none => exact ⟨rfl, rfl, rfl, .refl _⟩
  | some m =>
    obtain ⟨h1, h2, h3, h4⟩ := mergeAway_ref toJson gone es m
    exact ⟨congrArg Value.obj h1, h2, h3, h4⟩

/-- Merging `{"a": 1}` with `{"a": 2, "b": 3}`, whose value for "b" is null afterwards. -/
example : mergeGiven some (fun _ => .null) (.obj [([0x61], .int 1)]) [([0x61], .int 2), ([0x62], .int 3)] =
    (.obj [([0x61], .int 1), ([0x62], .int 3)], [([0x61], .int 2), ([0x62], .null)], false) := by
  have h1 : convertToString [0x61] = some [0x61] := by decide +kernel
  have h2 : convertToString [0x62] = some [0x62] := by decide +kernel
  simp [mergeGiven, asObject, mergeAway, h1, h2, lookup, insertNew, strLt]

end Verif.Json
