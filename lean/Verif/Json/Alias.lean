import Verif.Json.OpsLemmas

/-!
# C147: JSON operations whose argument is the value itself or a part of it

Source: `/repo/fly/types/json/json.cpp` 19-29, 61-65, 602-613, 708-711; `/repo/fly/types/json/json.hpp` 1811-1815, 2084-2100.

A document is a `Value`; a reference to one of the `Json` objects in it is the path to it, given by positions among the elements of
an array or the entries of an object. The objects do not change their addresses while their content is moved: elements live in the
buffer of the `std::vector`, entries in nodes of the `std::map`, and moving a container hands over the buffer or the nodes. That a
growing vector moves its elements to another buffer does not change paths and is left out, as is running out of memory.
-/

namespace Verif.Json.Alias

open Verif.Json (Value)

/-! ## Model -/

/-- The value referred to by the i-th element or entry. -/
def child : Value → Nat → Option Value
  | .arr l, i => l[i]?
  | .obj m, i => (m[i]?).map fun e => e.2
  | _, _ => none

/-- Replace it. -/
def setChild : Value → Nat → Value → Value
  | .arr l, i, x => .arr (l.set i x)
  | .obj m, i, x => .obj (m.modify i fun e => (e.1, x))
  | v, _, _ => v

/-- The value at a path. -/
def at? : Value → List Nat → Option Value
  | v, [] => some v
  | v, i :: p => match child v i with
    | some c => at? c p
    | none => none

/-- Replace the value at a path. -/
def put : Value → List Nat → Value → Value
  | _, [], x => x
  | v, i :: p, x => match child v i with
    | some c => setChild v i (put c p x)
    | none => v

/-- How a call ends: with a document; with an exception; using an object that was destroyed; or with a document from which what was
moved can no longer be reached, because it owns itself (it is never destroyed). -/
inductive Fate where
  | ok (doc : Value)
  | threw (doc : Value)
  | ub
  | lost (doc : Value)

/-- `dst = src` (json.cpp 61-65): the parameter is a copy made first (19-22). -/
def assignCopy (doc : Value) (dst src : List Nat) : Fate :=
  match at? doc dst, at? doc src with
  | some _, some v => .ok (put doc dst v)
  | _, _ => .ub

/-- `dst = std::move(src)` with two references (json.cpp 61-65): the parameter takes the content of the source, which becomes null
(25-29); then the destination takes that of the parameter. If the destination is below the source it is now part of what
the parameter owns, so that it gets itself. -/
def assignMove (doc : Value) (dst src : List Nat) : Fate :=
  match at? doc dst, at? doc src with
  | some _, some v =>
    if src <+: dst ∧ src ≠ dst then .lost (put doc src .null)
    else .ok (put (put doc src .null) dst v)
  | _, _ => .ub

/-- `dst.push_back(src)` (json.cpp 602-606): the destination is promoted before the argument is looked at. -/
def pushCopy (doc : Value) (dst src : List Nat) : Fate :=
  match at? doc dst with
  | none => .ub
  | some d => match asArray d with
    | none => .threw doc
    | some l =>
      let promoted := put doc dst (.arr l)
      match at? promoted src with
      | some v => .ok (put promoted dst (.arr (l ++ [v])))
      | none => .ub

/-- `dst.push_back(std::move(src))` (json.cpp 609-613): the new element takes the content of the source, which becomes null (25-29). If
the source is the destination, that destroys the vector that is being appended to; if it is above it, the destination is then part of
what its new element owns. -/
def pushMove (doc : Value) (dst src : List Nat) : Fate :=
  match at? doc dst with
  | none => .ub
  | some d => match asArray d with
    | none => .threw doc
    | some l =>
      let promoted := put doc dst (.arr l)
      match at? promoted src with
      | none => .ub
      | some v =>
        if src = dst then .ub
        else if src <+: dst then .lost (put promoted src .null)
        else
          let taken := put promoted src .null
          match at? taken dst with
          | some (.arr l') => .ok (put taken dst (.arr (l' ++ [v])))
          | _ => .ub

/-- `a.swap(b)` (json.cpp 708-711), exchanging the contents of two variants. -/
def swap (doc : Value) (a b : List Nat) : Fate :=
  match at? doc a, at? doc b with
  | some v, some w =>
    if a = b then .ok doc
    else if a <+: b then .lost (put doc a w)
    else if b <+: a then .lost (put doc b v)
    else .ok (put (put doc a w) b v)
  | _, _ => .ub

/-- `x[key] = x`, for a valid key: the right side is evaluated first, so the parameter is a copy of `x`; then `operator[]` (json.hpp
1811-1815) promotes `x`, or throws. -/
def subscriptCopy (x : Value) (key : List Nat) : Fate :=
  match asObject x with
  | none => .threw x
  | some m => .ok (.obj (insertOrAssign key x (subscript key m).1))

/-- `x[key] = std::move(x)`: the parameter takes the content of `x`, which is null when `operator[]` is called on it; if the key is
not valid UTF-8 that throws, and the parameter is destroyed. -/
def subscriptMove (x : Value) (raw : List Nat) : Fate :=
  let taken := x
  let left := Value.null
  match asObject left with
  | none => .threw left
  | some m => match convertToString raw with
    | some key => .ok (.obj (insertOrAssign key taken (subscript key m).1))
    | none => .threw (.obj m)

/-- `x.insert(key, std::move(x))` for a valid key (json.hpp 1833-1836, 2030-2047): the pair takes the content of `x` before `x` is asked
whether it is an object. -/
def insertSelfMove (x : Value) (key : List Nat) : Fate :=
  let taken := x
  let left := Value.null
  match left with
  | .obj m => .ok (.obj (insertNew key taken m))
  | v => .threw v

/-- `x.insert_or_assign(key, std::move(x))` for a valid key (json.hpp 1840-1851): a copy is inserted (1826-1829, 2030-2047), unless there is an
entry, which is then exchanged with the argument (json.cpp 708-711). -/
def insertOrAssignSelf (x : Value) (key : List Nat) : Fate :=
  match x with
  | .obj m => match lookup key m with
    | none => .ok (.obj (insertNew key x m))
    | some old => .lost old
  | _ => .threw x

/-! ## Specification -/

/-- The paths lead to different parts of a document. -/
def Apart (p q : List Nat) : Prop := ∃ c i j p' q', i ≠ j ∧ p = c ++ i :: p' ∧ q = c ++ j :: q'

/-- What a call may touch: everything in neither of two places is as before. -/
def OnlyAt (p q : List Nat) (doc doc' : Value) : Prop := ∀ r, Apart p r → Apart q r → at? doc' r = at? doc r

/-! ## Lemmas -/

theorem child_setChild_same {v c : Value} {i : Nat} (h : child v i = some c) (x : Value) : child (setChild v i x) i = some x := by
  cases v <;> simp only [child, setChild] at h ⊢ <;> try (cases h; done)
  · simp only [List.getElem?_modify, Option.map_eq_some_iff] at h ⊢
    obtain ⟨e, he, -⟩ := h
    exact ⟨(e.1, x), by simp [he], rfl⟩
  · rename_i l
    have : i < l.length := (List.getElem?_eq_some_iff.mp h).1
    simp [this]

theorem child_setChild_ne {v : Value} {i j : Nat} (h : i ≠ j) (x : Value) : child (setChild v i x) j = child v j := by
  cases v <;> simp only [child, setChild]
  · simp [List.getElem?_modify, h]
  · simp [h]

theorem at_put_below {v w : Value} {p : List Nat} (h : at? v p = some w) (x : Value) (q : List Nat) : at? (put v p x) (p ++ q) = at? x q := by
  induction p generalizing v with
  | nil => rfl
  | cons i p ih =>
    simp only [at?] at h
    cases hc : child v i with
    | none => rw [hc] at h; cases h
    | some c =>
      rw [hc] at h
      simp only [put, hc, List.cons_append, at?, child_setChild_same hc]
      exact ih h

theorem at_put_same {v w : Value} {p : List Nat} (h : at? v p = some w) (x : Value) : at? (put v p x) p = some x := by
  have := at_put_below h x []
  simpa [at?] using this

theorem at_append (v : Value) (p q : List Nat) : at? v (p ++ q) = (at? v p).bind (at? · q) := by
  induction p generalizing v with
  | nil => rfl
  | cons i p ih =>
    simp only [List.cons_append, at?]
    cases child v i with
    | none => rfl
    | some c => exact ih c

theorem at_put_apart {v : Value} {p q : List Nat} (h : Apart p q) (x : Value) : at? (put v p x) q = at? v q := by
  obtain ⟨c, i, j, p', q', hij, rfl, rfl⟩ := h
  induction c generalizing v with
  | nil =>
    simp only [List.nil_append, put, at?]
    cases hc : child v i with
    | none => rfl
    | some c => simp only; rw [child_setChild_ne hij]
  | cons k c ih =>
    simp only [List.cons_append, put, at?]
    cases hc : child v k with
    | none => simp only [at?, hc]
    | some w =>
      simp only [at?, child_setChild_same hc]
      exact ih

theorem put_same {v w : Value} {p : List Nat} (h : at? v p = some w) : put v p w = v := by
  induction p generalizing v with
  | nil => simp only [at?, Option.some.injEq] at h; exact h.symm
  | cons i p ih =>
    simp only [at?] at h
    cases hc : child v i with
    | none => rw [hc] at h; cases h
    | some c =>
      rw [hc] at h
      simp only [put, hc, ih h]
      cases v <;> simp only [child, setChild] at hc ⊢
      · rename_i m
        congr 1
        apply List.ext_getElem?
        intro j
        rw [List.getElem?_modify]
        by_cases e : i = j
        · subst e
          obtain ⟨e, he, rfl⟩ := Option.map_eq_some_iff.mp hc
          simp [he]
        · simp [e]
      · rename_i l
        congr 1
        obtain ⟨hi, rfl⟩ := List.getElem?_eq_some_iff.mp hc
        exact List.set_getElem_self hi

theorem apart_or (p q : List Nat) : p <+: q ∨ q <+: p ∨ Apart p q := by
  induction p generalizing q with
  | nil => exact .inl List.nil_prefix
  | cons i p ih =>
    cases q with
    | nil => exact .inr (.inl List.nil_prefix)
    | cons j q =>
      by_cases e : i = j
      · subst e
        rcases ih q with h | h | ⟨c, a, b, p', q', hab, rfl, rfl⟩
        · exact .inl ((List.cons_prefix_cons).mpr ⟨rfl, h⟩)
        · exact .inr (.inl ((List.cons_prefix_cons).mpr ⟨rfl, h⟩))
        · exact .inr (.inr ⟨i :: c, a, b, p', q', hab, rfl, rfl⟩)
      · exact .inr (.inr ⟨[], i, j, p, q, e, rfl, rfl⟩)

theorem Apart.symm {p q : List Nat} (h : Apart p q) : Apart q p := by
  obtain ⟨c, i, j, p', q', hij, h1, h2⟩ := h
  exact ⟨c, j, i, q', p', hij.symm, h2, h1⟩

theorem Apart.below {p q r : List Nat} (h : Apart p q) : Apart p (q ++ r) := by
  obtain ⟨c, i, j, p', q', hij, h1, h2⟩ := h
  exact ⟨c, i, j, p', q' ++ r, hij, h1, by rw [h2, List.append_assoc]; rfl⟩

theorem prefix_apart_trans {p q r : List Nat} (h : p <+: q) (hp : Apart p r) : Apart q r := by
  obtain ⟨t, rfl⟩ := h
  exact (hp.symm.below).symm

/-! ## Theorems -/

/-- Assigning a copy, from anywhere in the document to anywhere in it: the destination gets the value the source had. Nothing
apart from the destination changes; in particular not the source, if it is apart. -/
theorem assign_copy_exact (doc v : Value) (dst src : List Nat) (hd : (at? doc dst).isSome) (hs : at? doc src = some v) :
    ∃ doc', assignCopy doc dst src = .ok doc' ∧ at? doc' dst = some v ∧ OnlyAt dst dst doc doc' := by
  obtain ⟨w, hw⟩ := Option.isSome_iff_exists.mp hd
  exact ⟨put doc dst v, by simp [assignCopy, hw, hs], at_put_same hw v, fun r h _ => at_put_apart h v⟩

/-- `{"a": [1], "b": 2}`: a value assigned to a part of itself. -/
example : at? (put (.obj [([0x61], .arr [.uint 1]), ([0x62], .uint 2)]) [0] (.obj [([0x61], .arr [.uint 1]), ([0x62], .uint 2)])) [0, 0, 0] =
    some (.uint 1) := rfl

/-- Assigning by moving, unless the destination is inside the source: the destination gets the value the source had, also if the source
is inside it or is it; the source is null if it is apart; nothing else changes. That the destination may be inside the source is
what is missing. -/
theorem assign_move_partial (doc v : Value) (dst src : List Nat) (hd : (at? doc dst).isSome) (hs : at? doc src = some v)
    (hout : ¬ (src <+: dst ∧ src ≠ dst)) :
    ∃ doc', assignMove doc dst src = .ok doc' ∧ at? doc' dst = some v ∧ (Apart src dst → at? doc' src = some .null) ∧
      OnlyAt dst src doc doc' := by
  obtain ⟨w, hw⟩ := Option.isSome_iff_exists.mp hd
  refine ⟨put (put doc src .null) dst v, by simp only [assignMove, hw, hs, if_neg hout], ?_, fun ha => ?_, fun r h1 h2 => ?_⟩
  · have : ∃ u, at? (put doc src .null) dst = some u := by
      rcases apart_or src dst with h | h | h
      · have e : src = dst := Classical.byContradiction fun e => hout ⟨h, e⟩
        subst e
        exact ⟨_, at_put_same hs _⟩
      · obtain ⟨t, rfl⟩ := h
        cases t with
        | nil => rw [List.append_nil] at *; exact ⟨_, at_put_same hs _⟩
        | cons i t =>
          have : ∀ (v : Value) (p : List Nat) (x : Value) (q : List Nat) (w : Value), at? v p = some w → ∃ u, at? (put v (p ++ q) x) p = some u := by
            intro v p
            induction p generalizing v with
            | nil => intro x q w _; exact ⟨_, rfl⟩
            | cons i p ih =>
              intro x q w h
              simp only [at?] at h
              cases hc : child v i with
              | none => rw [hc] at h; cases h
              | some c =>
                rw [hc] at h
                simp only [List.cons_append, put, hc, at?, child_setChild_same hc]
                exact ih c x q w h
          exact this doc dst _ _ w hw
      · exact ⟨w, by rw [at_put_apart h]; exact hw⟩
    obtain ⟨u, hu⟩ := this
    exact at_put_same hu v
  · rw [at_put_apart ha.symm]
    exact at_put_same hs _
  · rw [at_put_apart h1, at_put_apart h2]

/-- The idiom `json = std::move(json["a"])`, for any document and any part of it: the document becomes that part. -/
theorem take_part (doc v : Value) (part : List Nat) (h : at? doc part = some v) : assignMove doc [] part = .ok v := by
  have hn : ¬ (part <+: [] ∧ part ≠ []) := fun ⟨h1, h2⟩ => h2 (List.prefix_nil.mp h1)
  have : assignMove doc [] part = .ok (put (put doc part .null) [] v) := by
    simp only [assignMove, h, if_neg hn]
    rfl
  rw [this]
  rfl

/-- Moving a value into a part of itself loses all of it: the value is null afterwards. -/
theorem assign_move_violated (doc v : Value) (src : List Nat) (i : Nat) (below : List Nat) (hs : at? doc src = some v)
    (hd : (at? doc (src ++ i :: below)).isSome) :
    ∃ doc', assignMove doc (src ++ i :: below) src = .lost doc' ∧ at? doc' src = some .null := by
  obtain ⟨w, hw⟩ := Option.isSome_iff_exists.mp hd
  refine ⟨put doc src .null, ?_, at_put_same hs _⟩
  simp [assignMove, hs, hw]

example : at? (.obj [([0x61], .arr [.uint 1])]) ([] ++ [0]) = some (.arr [.uint 1]) := rfl

/-- Appending a copy, from anywhere in the document to any array in it (the array itself, a part of it, or what it is part of), or from
anywhere else to a null value: the array has one more element, the value the source had. -/
theorem push_copy_partial (doc v : Value) (dst src : List Nat) (l : List Value)
    (hd : at? doc dst = some (.arr l) ∨ (at? doc dst = some .null ∧ l = [] ∧ Apart dst src)) (hs : at? doc src = some v) :
    ∃ doc', pushCopy doc dst src = .ok doc' ∧ at? doc' dst = some (.arr (l ++ [v])) ∧ OnlyAt dst dst doc doc' := by
  rcases hd with hd | ⟨hd, rfl, ha⟩
  · refine ⟨put doc dst (.arr (l ++ [v])), ?_, at_put_same hd _, fun r h _ => at_put_apart h _⟩
    simp [pushCopy, hd, asArray, put_same hd, hs]
  · have h1 := at_put_same hd (.arr [])
    refine ⟨put (put doc dst (.arr [])) dst (.arr ([] ++ [v])), ?_, at_put_same h1 _, fun r h _ => by rw [at_put_apart h, at_put_apart h]⟩
    simp [pushCopy, hd, asArray, at_put_apart ha, hs]

/-- `[1].push_back(itself)` is `[1, [1]]`. -/
example : ∃ doc', pushCopy (.arr [.uint 1]) [] [] = .ok doc' ∧ at? doc' [] = some (.arr [.uint 1, .arr [.uint 1]]) := ⟨_, rfl, rfl⟩

/-- Appending a null value to itself appends an empty array instead of null, wherever it is. -/
theorem push_copy_violated (doc : Value) (p : List Nat) (h : at? doc p = some .null) :
    ∃ doc', pushCopy doc p p = .ok doc' ∧ at? doc' p = some (.arr [.arr []]) := by
  have h1 : at? (put doc p (.arr [])) p = some (.arr []) := at_put_same h _
  refine ⟨put (put doc p (.arr [])) p (.arr [.arr []]), ?_, at_put_same h1 _⟩
  simp [pushCopy, h, asArray, h1]

/-- Appending by moving from outside of the array: it has the value as one more element, the source is null, and nothing else changes.
That the source may be inside the array or above it is what is missing. -/
theorem push_move_partial (doc v : Value) (dst src : List Nat) (l : List Value) (hd : at? doc dst = some (.arr l)) (hs : at? doc src = some v)
    (ha : Apart src dst) :
    ∃ doc', pushMove doc dst src = .ok doc' ∧ at? doc' dst = some (.arr (l ++ [v])) ∧ at? doc' src = some .null ∧ OnlyAt dst src doc doc' := by
  have hne : src ≠ dst := by
    intro e
    subst e
    obtain ⟨c, i, j, p', q', hij, h1, h2⟩ := ha
    rw [h1] at h2
    have := List.append_cancel_left h2
    injection this with h _
    exact hij h
  have hpre : ¬ src <+: dst := by
    rintro ⟨t, rfl⟩
    obtain ⟨c, i, j, p', q', hij, h1, h2⟩ := ha
    rw [h1] at h2
    rw [List.append_assoc] at h2
    have := List.append_cancel_left h2
    injection this with h _
    exact hij h
  have h1 : at? (put doc src .null) dst = some (.arr l) := by rw [at_put_apart ha]; exact hd
  refine ⟨put (put doc src .null) dst (.arr (l ++ [v])), ?_, at_put_same h1 _, ?_, fun r k1 k2 => ?_⟩
  · simp [pushMove, hd, asArray, put_same hd, hs, hne, hpre, h1]
  · rw [at_put_apart ha.symm]
    exact at_put_same hs _
  · rw [at_put_apart k1, at_put_apart k2]

/-- Moving an element of an array to its end: it is null where it was. -/
theorem push_element_moved (doc : Value) (dst : List Nat) (l : List Value) (i : Nat) (v : Value) (hd : at? doc dst = some (.arr l))
    (hi : l[i]? = some v) : ∃ doc', pushMove doc dst (dst ++ [i]) = .ok doc' ∧ at? doc' dst = some (.arr (l.set i .null ++ [v])) ∧ OnlyAt dst dst doc doc' := by
  have hs : at? doc (dst ++ [i]) = some v := by rw [at_append, hd]; simp [at?, child, hi]
  have hput : ∀ (doc : Value) (p : List Nat), at? doc p = some (.arr l) → at? (put doc (p ++ [i]) .null) p = some (.arr (l.set i .null)) := by
    intro doc p
    induction p generalizing doc with
    | nil =>
      intro h
      simp only [at?, Option.some.injEq] at h
      subst h
      simp [put, child, hi, setChild, at?]
    | cons j p ih =>
      intro h
      simp only [at?] at h
      cases hc : child doc j with
      | none => rw [hc] at h; cases h
      | some c =>
        rw [hc] at h
        simp only [List.cons_append, put, hc, at?, child_setChild_same hc]
        exact ih c h
  have h1 := hput doc dst hd
  refine ⟨put (put doc (dst ++ [i]) .null) dst (.arr (l.set i .null ++ [v])), ?_, at_put_same h1 _, fun r k _ => ?_⟩
  · have hne : ¬ dst ++ [i] <+: dst := fun h => by have := h.length_le; simp at this; omega
    simp [pushMove, hd, asArray, put_same hd, hs, hne, h1]
  · rw [at_put_apart k, at_put_apart (prefix_apart_trans ⟨[i], rfl⟩ k)]

example : ∃ doc', pushMove (.arr [.uint 1, .uint 2]) [] [0] = .ok doc' ∧ at? doc' [] = some (.arr [.null, .uint 2, .uint 1]) := ⟨_, rfl, rfl⟩

/-- Appending an array to itself by moving uses a vector that is gone, for every array and null value wherever it is; appending what
it is part of loses that. -/
theorem push_move_violated (doc d : Value) (p : List Nat) (hd : at? doc p = some d) (ha : d = .null ∨ ∃ l, d = .arr l) :
    pushMove doc p p = .ub ∧
    ∀ src i below, p = src ++ i :: below → ∃ doc', pushMove doc p src = .lost doc' ∧ at? doc' src = some .null := by
  have hl : ∃ l, asArray d = some l := by
    rcases ha with rfl | ⟨l, rfl⟩
    · exact ⟨[], rfl⟩
    · exact ⟨l, rfl⟩
  obtain ⟨l, hl⟩ := hl
  refine ⟨?_, fun src i below e => ?_⟩
  · simp [pushMove, hd, hl, at_put_same hd]
  · have hp : ∃ w, at? (put doc p (.arr l)) src = some w := by
      have h := at_put_same hd (.arr l)
      rw [e, at_append] at h
      cases hw : at? (put doc (src ++ i :: below) (.arr l)) src with
      | none => rw [hw] at h; cases h
      | some w => exact ⟨w, by rw [e]; exact hw⟩
    obtain ⟨w, hw⟩ := hp
    have hne : src ≠ p := fun h => by have := congrArg List.length (h.trans e); simp at this
    have hpre : src <+: p := ⟨i :: below, e.symm⟩
    refine ⟨put (put doc p (.arr l)) src .null, ?_, at_put_same hw _⟩
    simp [pushMove, hd, hl, hw, hne, hpre]

/-- Exchanging two values of which neither contains the other exchanges them; a value exchanged with a part of itself becomes that part
and the rest is lost. -/
theorem swap_partial (doc v w : Value) (a b : List Nat) (ha : at? doc a = some v) (hb : at? doc b = some w) (h : Apart a b) :
    ∃ doc', swap doc a b = .ok doc' ∧ at? doc' a = some w ∧ at? doc' b = some v ∧ OnlyAt a b doc doc' := by
  have no : ∀ {x y : List Nat}, Apart x y → ¬ x <+: y := by
    rintro x y hxy ⟨t, rfl⟩
    obtain ⟨c, i, j, p', q', hij, h1, h2⟩ := hxy
    rw [h1, List.append_assoc] at h2
    have := List.append_cancel_left h2
    injection this with h _
    exact hij h
  have hne : a ≠ b := fun e => no h (e ▸ List.prefix_rfl)
  have h1 : at? (put doc a w) b = some w := by rw [at_put_apart h]; exact hb
  refine ⟨put (put doc a w) b v, by simp [swap, ha, hb, hne, no h, no h.symm], ?_, at_put_same h1 _, fun r k1 k2 => ?_⟩
  · rw [at_put_apart h.symm]; exact at_put_same ha _
  · rw [at_put_apart k2, at_put_apart k1]

theorem swap_violated (doc v w : Value) (a : List Nat) (i : Nat) (below : List Nat) (ha : at? doc a = some v) (hb : at? doc (a ++ i :: below) = some w) :
    (∃ doc', swap doc a (a ++ i :: below) = .lost doc' ∧ at? doc' a = some w) ∧
    (∃ doc', swap doc (a ++ i :: below) a = .lost doc' ∧ at? doc' a = some w) := by
  have hp : a <+: a ++ i :: below := ⟨_, rfl⟩
  have hn : ¬ a ++ i :: below <+: a := fun h => by have := h.length_le; simp at this; omega
  refine ⟨⟨put doc a w, ?_, at_put_same ha _⟩, ⟨put doc a w, ?_, at_put_same ha _⟩⟩
  · simp [swap, ha, hb]
  · simp [swap, ha, hb, hn]

/-- `x[key] = x` puts a copy of the old value into it, if it is an object or null; `x[key] = std::move(x)` makes an object of the one entry,
of any value. -/
theorem subscript_self (x : Value) (key : List Nat) :
    (∀ m, x = .obj m ∨ (x = .null ∧ m = []) → SortedKeys m → ∃ m', subscriptCopy x key = .ok (.obj m') ∧ lookup key m' = some x ∧
      ∀ k, k ≠ key → lookup k m' = lookup k m) ∧
    (∀ raw, convertToString raw = some key → subscriptMove x raw = .ok (.obj [(key, x)])) := by
  refine ⟨fun m hx hs => ?_, fun raw hr => ?_⟩
  · have ha : asObject x = some m := by
      rcases hx with rfl | ⟨rfl, rfl⟩ <;> rfl
    refine ⟨insertOrAssign key x (insertNew key .null m), by simp [subscriptCopy, ha, subscript], ?_, fun k hk => ?_⟩
    · rw [lookup_insertOrAssign (sorted_insertNew hs key .null)]; simp
    · rw [lookup_insertOrAssign (sorted_insertNew hs key .null), lookup_insertNew hs]; simp [hk]
  · have hirr : strLt key key = false := by
      cases h : strLt key key with
      | false => rfl
      | true => exact absurd ((strLt_iff key key).1 h) (key_irrefl key)
    simp [subscriptMove, asObject, hr, subscript, insertNew, insertOrAssign, hirr]

/-- A call that throws should leave the value alone; with an argument moved from the value itself the value is lost: by `x[key] =
std::move(x)` with a key that is not valid, and by `x.insert(key, std::move(x))` always. `insert_or_assign` loses it if there
is an entry with the key; if there is none it works. -/
theorem self_move_violated (x : Value) (key raw : List Nat) :
    (convertToString raw = none → subscriptMove x raw = .threw (.obj [])) ∧
    insertSelfMove x key = .threw .null ∧
    (∀ m old, x = .obj m → lookup key m = some old → insertOrAssignSelf x key = .lost old) ∧
    (∀ m, x = .obj m → SortedKeys m → lookup key m = none → ∃ m', insertOrAssignSelf x key = .ok (.obj m') ∧ lookup key m' = some x ∧
      ∀ k, k ≠ key → lookup k m' = lookup k m) := by
  refine ⟨fun h => by simp [subscriptMove, asObject, h], rfl, fun m old hx hl => by subst hx; simp [insertOrAssignSelf, hl], fun m hx hs hl => ?_⟩
  subst hx
  refine ⟨insertNew key (.obj m) m, by simp [insertOrAssignSelf, hl], ?_, fun k hk => ?_⟩
  · rw [lookup_insertNew hs]; simp [hl]
  · rw [lookup_insertNew hs]; simp [hk]

example : ∃ m', subscriptCopy (.obj [([0x61], .uint 1)]) [0x62] = .ok (.obj m') ∧ lookup [0x62] m' = some (.obj [([0x61], .uint 1)]) :=
  ⟨_, rfl, rfl⟩

end Verif.Json.Alias
