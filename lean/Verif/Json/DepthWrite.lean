import Verif.Json.Depth

/-!
# C165: writing deep JSON values

Source: `/repo/fly/types/json/json.cpp` 68-141. `serialize` calls itself for the entries of an object and the elements of an array; each
call takes a level of the stack.
-/

namespace Verif.Json.Depth

open Verif.Json

/-! ## Model -/

mutual
/-- `serialize` (json.cpp 68-141) with `d` levels of the stack left; the outer `none`: the stack overflows, the inner one as in
`Verif.Json.serialize`. -/
def serializeIn (io : FloatIO) : Nat → Value → Option (Option (List Nat))
  | 0, _ => none
  | _ + 1, .null => some (some nullText)
  | _ + 1, .str s => some (serializeString s)
  | d + 1, .obj m => (membersIn io d m).map (·.map (fun r => 0x7b :: (r ++ [0x7d])))
  | d + 1, .arr l => (elemsIn io d l).map (·.map (fun r => 0x5b :: (r ++ [0x5d])))
  | _ + 1, .bool b => some (some (fmtBool b))
  | _ + 1, .int i => some (some (fmtInt i))
  | _ + 1, .uint n => some (some (Verif.Digits.digits 10 n))
  | _ + 1, .flt f => some (some (io.fmt f))
/-- The loop over an object's entries (json.cpp 99-109). -/
def membersIn (io : FloatIO) : Nat → List (List Nat × Value) → Option (Option (List Nat))
  | _, [] => some (some [])
  | d, (k, v) :: m =>
    match serializeString k with
    | none => some none
    | some tk =>
      match serializeIn io d v with
      | none => none
      | some none => some none
      | some (some tv) =>
        match membersIn io d m with
        | none => none
        | some none => some none
        | some (some r) => some (some (commaThen (!m.isEmpty) (tk ++ 0x3a :: tv) r))
/-- The loop over an array's elements (json.cpp 117-125). -/
def elemsIn (io : FloatIO) : Nat → List Value → Option (Option (List Nat))
  | _, [] => some (some [])
  | d, v :: l =>
    match serializeIn io d v with
    | none => none
    | some none => some none
    | some (some tv) =>
      match elemsIn io d l with
      | none => none
      | some none => some none
      | some (some r) => some (some (commaThen (!l.isEmpty) tv r))
end

/-! ## Specification -/

mutual
/-- How deep a value is: 1 for a value without entries or elements. -/
def levels : Value → Nat
  | .obj m => levelsMembers m + 1
  | .arr l => levelsElems l + 1
  | .null => 1
  | .str _ => 1
  | .bool _ => 1
  | .int _ => 1
  | .uint _ => 1
  | .flt _ => 1
/-- The deepest of the members. -/
def levelsMembers : List (List Nat × Value) → Nat
  | [] => 0
  | (_, v) :: m => max (levels v) (levelsMembers m)
/-- The deepest of the elements. -/
def levelsElems : List Value → Nat
  | [] => 0
  | v :: l => max (levels v) (levelsElems l)
end

/-! ## Proof -/

mutual
theorem serializeIn_spec (io : FloatIO) : ∀ (d : Nat) (v : Value),
    (∀ r, serializeIn io d v = some r → r = serialize io v) ∧ (serializeIn io d v = none → d < levels v)
  | 0, v => by
    refine ⟨?_, ?_⟩
    · intro r h; rw [serializeIn] at h; exact absurd h (by simp)
    · intro _; cases v <;> simp [levels]
  | d + 1, .null => by simp [serializeIn, serialize]
  | d + 1, .str s => by simp [serializeIn, serialize]
  | d + 1, .bool b => by simp [serializeIn, serialize]
  | d + 1, .int i => by simp [serializeIn, serialize]
  | d + 1, .uint n => by simp [serializeIn, serialize]
  | d + 1, .flt f => by simp [serializeIn, serialize]
  | d + 1, .obj m => by
    have ih := membersIn_spec io d m
    rw [serializeIn, serialize, levels]
    cases hm : membersIn io d m with
    | none => exact ⟨by simp, fun _ => by have := ih.2 hm; omega⟩
    | some q => exact ⟨by intro r h; rw [ih.1 q hm] at h; simpa using h.symm, by simp⟩
  | d + 1, .arr l => by
    have ih := elemsIn_spec io d l
    rw [serializeIn, serialize, levels]
    cases hm : elemsIn io d l with
    | none => exact ⟨by simp, fun _ => by have := ih.2 hm; omega⟩
    | some q => exact ⟨by intro r h; rw [ih.1 q hm] at h; simpa using h.symm, by simp⟩
theorem membersIn_spec (io : FloatIO) : ∀ (d : Nat) (m : List (List Nat × Value)),
    (∀ r, membersIn io d m = some r → r = serializeMembers io m) ∧ (membersIn io d m = none → d < levelsMembers m)
  | d, [] => by simp [membersIn, serializeMembers]
  | d, (k, v) :: m => by
    have h1 := serializeIn_spec io d v
    have h2 := membersIn_spec io d m
    rw [membersIn, serializeMembers, levelsMembers]
    cases hk : serializeString k with
    | none => simp
    | some tk =>
      cases hv : serializeIn io d v with
      | none => exact ⟨by simp, fun _ => by have := h1.2 hv; omega⟩
      | some q =>
        rw [← h1.1 q hv]
        cases q with
        | none => simp
        | some tv =>
          cases hm : membersIn io d m with
          | none => exact ⟨by simp, fun _ => by have := h2.2 hm; omega⟩
          | some q2 =>
            rw [← h2.1 q2 hm]
            cases q2 with
            | none => simp
            | some r => simp
theorem elemsIn_spec (io : FloatIO) : ∀ (d : Nat) (l : List Value),
    (∀ r, elemsIn io d l = some r → r = serializeElems io l) ∧ (elemsIn io d l = none → d < levelsElems l)
  | d, [] => by simp [elemsIn, serializeElems]
  | d, v :: l => by
    have h1 := serializeIn_spec io d v
    have h2 := elemsIn_spec io d l
    rw [elemsIn, serializeElems, levelsElems]
    cases hv : serializeIn io d v with
    | none => exact ⟨by simp, fun _ => by have := h1.2 hv; omega⟩
    | some q =>
      rw [← h1.1 q hv]
      cases q with
      | none => simp
      | some tv =>
        cases hm : elemsIn io d l with
        | none => exact ⟨by simp, fun _ => by have := h2.2 hm; omega⟩
        | some q2 =>
          rw [← h2.1 q2 hm]
          cases q2 with
          | none => simp
          | some r => simp
end

theorem levels_pos (v : Value) : 0 < levels v := by cases v <;> simp [levels]

theorem levelsElems_append (l : List Value) (v : Value) : levelsElems (l ++ [v]) = max (levelsElems l) (levels v) := by
  induction l with
  | nil => simp [levelsElems]
  | cons x l ih => simp only [List.cons_append, levelsElems, ih]; omega

theorem levels_insert (k : List Nat) (v : Value) : ∀ m, levelsMembers (insertOrAssign k v m) ≤ max (levels v) (levelsMembers m) := by
  intro m
  induction m with
  | nil => simp [insertOrAssign, levelsMembers]
  | cons x m ih =>
    obtain ⟨k', v'⟩ := x
    rw [insertOrAssign]
    split
    · simp [levelsMembers]
    · split
      · simp only [levelsMembers]; omega
      · simp only [levelsMembers]; omega

theorem parseString_levels {s : List Nat} {v : Value} {r : List Nat} (h : parseString s = .ok v r) : levels v = 1 := by
  unfold parseString at h
  repeat' split at h
  · cases h
  · cases h
  · simp only [Res.ok.injEq] at h; rw [← h.1]; rfl

theorem valueOf_levels {io : FloatIO} {s : List Nat} {v : Value} (h : valueOf io s = some v) : levels v = 1 := by
  unfold valueOf at h
  split at h
  · simp only [Option.some.injEq] at h; rw [← h]; rfl
  · split at h
    · simp only [Option.some.injEq] at h; rw [← h]; rfl
    · split at h
      · simp only [Option.some.injEq] at h; rw [← h]; rfl
      · unfold convertNumber at h
        split at h
        · obtain ⟨x, _, rfl⟩ := Option.map_eq_some_iff.1 h; rfl
        · obtain ⟨x, _, rfl⟩ := Option.map_eq_some_iff.1 h; rfl
        · obtain ⟨x, _, rfl⟩ := Option.map_eq_some_iff.1 h; rfl
        · exact absurd h (by simp)

theorem parseValue_levels {io : FloatIO} {s : List Nat} {v : Value} {r : List Nat} (h : parseValue io s = .ok v r) :
    levels v = 1 := by
  unfold parseValue at h
  split at h
  · rename_i w hw
    simp only [Res.ok.injEq] at h
    rw [← h.1]
    exact valueOf_levels hw
  · exact absurd h (by simp)

/-- What was read within `d` levels is no deeper than that. -/
structure Fits (io : FloatIO) (ft : Features) (n : Nat) : Prop where
  json : ∀ d s v r, parseJsonIn io ft n d s = some (.ok v r) → levels v ≤ d
  obj : ∀ d m s v r, levelsMembers m ≤ d → objLoopIn io ft n d m s = some (.ok v r) → levels v ≤ d + 1
  arr : ∀ d l s v r, levelsElems l ≤ d → arrLoopIn io ft n d l s = some (.ok v r) → levels v ≤ d + 1

theorem fits (io : FloatIO) (ft : Features) : ∀ n, Fits io ft n := by
  intro n
  induction n with
  | zero =>
    refine ⟨?_, ?_, ?_⟩
    · intro d s v r h; rw [parseJsonIn] at h; exact absurd h (by simp)
    · intro d m s v r _ h; rw [objLoopIn] at h; exact absurd h (by simp)
    · intro d l s v r _ h; rw [arrLoopIn] at h; exact absurd h (by simp)
  | succ n ih =>
    refine ⟨?_, ?_, ?_⟩
    · intro d s v r h
      rw [parseJsonIn] at h
      split at h
      · exact absurd h (by simp)
      · rename_i hd
        rcases hw : wsComments ft.comments s with ⟨_ | _, _ | ⟨c, t⟩⟩ <;> rw [hw] at h <;> simp only at h
        · exact absurd h (by simp)
        · exact absurd h (by simp)
        · have := parseValue_levels (Option.some.inj h); omega
        · split at h
          · have := ih.obj (d - 1) [] t v r (by simp [levelsMembers]) h; omega
          · split at h
            · have := ih.arr (d - 1) [] t v r (by simp [levelsElems]) h; omega
            · split at h
              · have := parseString_levels (Option.some.inj h); omega
              · have := parseValue_levels (Option.some.inj h); omega
    · intro d m s v r hm h
      have done : ∀ r', (some (Res.ok (Value.obj m) r') : Option (Res Value)) = some (.ok v r) → levels v ≤ d + 1 := by
        intro r' h
        simp only [Option.some.injEq, Res.ok.injEq] at h
        rw [← h.1, levels]; omega
      rw [objLoopIn] at h
      rcases hw : stateFor ft.comments 0x7d s with ⟨_ | _ | _, r1⟩ <;> rw [hw] at h <;> simp only at h
      · exact absurd h (by simp)
      · exact done _ h
      · rcases hs : separator ft 0x7d m.isEmpty r1 with ⟨_ | _ | _, r2⟩ <;> rw [hs] at h <;> simp only at h
        · exact absurd h (by simp)
        · exact done _ h
        · rcases hk : parseKey r2 with _ | ⟨raw, r3⟩ <;> rw [hk] at h <;> simp only at h
          · exact absurd h (by simp)
          · rcases hp : parseJsonIn io ft n d r3 with _ | q <;> rw [hp] at h
            · exact absurd h (by simp)
            · cases q with
              | fail => exact absurd h (by simp)
              | oom => exact absurd h (by simp)
              | ok w r4 =>
                simp only at h
                have hl := ih.json d r3 w r4 hp
                cases hc : convertToString raw with
                | none => rw [hc] at h; exact absurd h (by simp)
                | some k =>
                  rw [hc] at h
                  exact ih.obj d _ r4 v r (by have := levels_insert k w m; omega) h
    · intro d l s v r hl h
      have done : ∀ r', (some (Res.ok (Value.arr l) r') : Option (Res Value)) = some (.ok v r) → levels v ≤ d + 1 := by
        intro r' h
        simp only [Option.some.injEq, Res.ok.injEq] at h
        rw [← h.1, levels]; omega
      rw [arrLoopIn] at h
      rcases hw : stateFor ft.comments 0x5d s with ⟨_ | _ | _, r1⟩ <;> rw [hw] at h <;> simp only at h
      · exact absurd h (by simp)
      · exact done _ h
      · rcases hs : separator ft 0x5d l.isEmpty r1 with ⟨_ | _ | _, r2⟩ <;> rw [hs] at h <;> simp only at h
        · exact absurd h (by simp)
        · exact done _ h
        · rcases hp : parseJsonIn io ft n d r2 with _ | q <;> rw [hp] at h
          · exact absurd h (by simp)
          · cases q with
            | fail => exact absurd h (by simp)
            | oom => exact absurd h (by simp)
            | ok w r4 =>
              simp only at h
              have hlv := ih.json d r2 w r4 hp
              exact ih.arr d _ r4 v r (by rw [levelsElems_append]; omega) h

theorem levels_nested : ∀ n, levels (nested n) = n + 1 := by
  intro n
  induction n with
  | zero => rfl
  | succ n ih => simp [nested, levels, levelsElems, ih]

theorem serializeIn_nested (io : FloatIO) : ∀ (n d : Nat), d ≤ n → serializeIn io d (nested n) = none := by
  intro n
  induction n with
  | zero =>
    intro d h
    have h0 : d = 0 := by omega
    rw [h0, serializeIn]
  | succ n ih =>
    intro d h
    cases d with
    | zero => rw [serializeIn]
    | succ d => simp [nested, serializeIn, elemsIn, ih d (by omega)]

/-! ## C165 -/

/-- C165: writing a value needs as many levels of the stack as the value is deep; whenever it comes back, the text is the one written on
a stack without end. For every value. -/
theorem json_write_depth_partial (io : FloatIO) (d : Nat) (v : Value) :
    (∀ r, serializeIn io d v = some r → r = serialize io v) ∧ (levels v ≤ d → serializeIn io d v = some (serialize io v)) := by
  have h := serializeIn_spec io d v
  refine ⟨h.1, fun hl => ?_⟩
  cases hs : serializeIn io d v with
  | none => exact absurd (h.2 hs) (by omega)
  | some r => rw [h.1 r hs]

/-- C165: what a parser could read on a stack can be written on that stack. For every text and every size of the stack. -/
theorem json_read_then_written (io : FloatIO) (ft : Features) (d : Nat) (s : List Nat) (v : Value)
    (h : parseIn io ft d s = some (some v)) : serializeIn io d v = some (serialize io v) := by
  refine (json_write_depth_partial io d v).2 ?_
  unfold parseIn at h
  cases hp : parseJsonIn io ft (2 * s.length + 2) d s with
  | none => rw [hp] at h; simp at h
  | some q =>
    rw [hp] at h
    cases q with
    | fail => simp at h
    | oom => simp at h
    | ok w r =>
      have := (fits io ft _).json d s w r hp
      simp only [Option.some.injEq] at h
      unfold finish at h
      split at h
      · split at h
        · simp only [Option.some.injEq] at h
          rw [← h]; exact this
        · exact absurd h (by simp)
      · exact absurd h (by simp)

/-- C165 refuted for writing: however large the stack, an array of arrays, that many levels and one deep, overflows it. -/
theorem json_write_depth_violated (io : FloatIO) (d : Nat) :
    ∃ v, levels v = d + 1 ∧ (∃ s, JText io rfc8259 s v) ∧ serializeIn io d v = none := by
  have blank : rfc8259.blank [] := by intro c hc; simp at hc
  exact ⟨nested d, levels_nested d, ⟨nestedText d, [], nestedText d, [], by simp, blank, nested_value io d, blank⟩,
    serializeIn_nested io d d (Nat.le_refl _)⟩

/-- `[[null], {"a": true}]` is three levels deep and needs three. -/
example (io : FloatIO) : levels (.arr [.arr [.null], .obj [([0x61], .bool true)]]) = 3 ∧
    serializeIn io 3 (.arr [.arr [.null], .arr []]) = some (some [0x5b, 0x5b, 0x6e, 0x75, 0x6c, 0x6c, 0x5d, 0x2c, 0x5b, 0x5d, 0x5d]) ∧
    serializeIn io 2 (.arr [.arr [.null], .arr []]) = none := ⟨rfl, rfl, rfl⟩

end Verif.Json.Depth
