import Verif.Json.OpsLemmas

/-!
# C147: merging JSON objects that are parts of one document

Source: `/repo/fly/types/json/json.cpp` 714-729.

Inserting and removing entries changes positions, so a reference into a document is here a path of keys and indices. The entries of a
`std::map` live in nodes, and `std::map::merge` hands over nodes: a reference to a `Json` in one stays good.
-/

namespace Verif.Json.Parts

open Verif.Json (Value)

/-! ## Model -/

/-- One step into a document. -/
inductive Step
  | idx (i : Nat)
  | key (k : List Nat)
deriving DecidableEq, Repr

/-- The element or the value of the entry. -/
def down : Value → Step → Option Value
  | .arr l, .idx i => l[i]?
  | .obj m, .key k => lookup k m
  | _, _ => none

/-- Replace it. -/
def set : Value → Step → Value → Value
  | .arr l, .idx i, x => .arr (l.set i x)
  | .obj m, .key k, x => .obj (m.map fun e => (e.1, if e.1 = k then x else e.2))
  | v, _, _ => v

/-- The value at a path. -/
def find : Value → List Step → Option Value
  | v, [] => some v
  | v, s :: p => match down v s with
    | some c => find c p
    | none => none

/-- Replace the value at a path. -/
def put : Value → List Step → Value → Value
  | _, [], x => x
  | v, s :: p, x => match down v s with
    | some c => set v s (put c p x)
    | none => v

/-- How a call ends: with a document; with an exception; with undefined behaviour; or with a document from which some entries
cannot be reached any more because they own each other. -/
inductive Fate where
  | ok (doc : Value)
  | threw (doc : Value)
  | ub
  | lost (doc : Value)

/-- The entries of `o` that `std::map::merge` takes, and those it leaves, if the destination has the entries `m`. -/
def taken (m o : List (List Nat × Value)) : List (List Nat × Value) := o.filter fun e => (lookup e.1 m).isNone
def left (m o : List (List Nat × Value)) : List (List Nat × Value) := o.filter fun e => (lookup e.1 m).isSome

/-- `dst.merge(src)` and `dst.merge(std::move(src))` for two values of one document (json.cpp 714-729). The destination is promoted
before the source is looked at. Merging a map with itself does nothing. If the destination is inside an entry of the source, and that
entry is handed over, the destination becomes a part of itself, together with all other entries handed over. -/
def merge (doc : Value) (dst src : List Step) : Fate :=
  match find doc dst with
  | none => .ub
  | some d => match asObject d with
    | none => .threw doc
    | some m =>
      let promoted := match d with
        | .null => put doc dst (.obj [])
        | _ => doc
      match find promoted src with
      | none => .ub
      | some (.obj o) =>
        if src = dst then .ok promoted
        else if src <+: dst then
          match dst.drop src.length with
          | .key k :: _ =>
            if (lookup k m).isSome then
              let given := put promoted dst (.obj (mergeInto m (taken m o)))
              match find given src with
              | some (.obj o') => .ok (put given src (.obj (left m o')))
              | _ => .ub
            else .lost (put promoted src (.obj (left m o)))
          | _ => .ub
        else
          let given := put promoted src (.obj (left m o))
          match find given dst with
          | some (.obj m') => .ok (put given dst (.obj (mergeInto m' (taken m o))))
          | _ => .ub
      | some _ => .threw promoted

/-! ## Specification -/

/-- What is at a path, containers without their content: an object is an object, an array has its length. -/
def shape (v : Value) (p : List Step) : Option Value := (find v p).map fun x => match x with
  | .obj _ => .obj []
  | .arr l => .arr (l.map fun _ => .null)
  | x => x

/-! ## Lemmas -/

theorem lookup_set (m : List (List Nat × Value)) (k k' : List Nat) (x : Value) :
    lookup k' (m.map fun e => (e.1, if e.1 = k then x else e.2)) = (lookup k' m).map fun y => if k' = k then x else y := by
  induction m with
  | nil => rfl
  | cons e m ih =>
    obtain ⟨a, b⟩ := e
    simp only [List.map_cons, lookup]
    by_cases h : k' = a
    · subst h; simp
    · simp [h, ih]

theorem lookup_filter (f : List Nat → Bool) (o : List (List Nat × Value)) (k : List Nat) :
    lookup k (o.filter fun e => f e.1) = if f k then lookup k o else none := by
  induction o with
  | nil => simp [lookup]
  | cons e o ih =>
    obtain ⟨a, b⟩ := e
    by_cases h : k = a
    · subst h
      by_cases hf : f k = true
      · simp [hf, lookup]
      · simp [hf, ih]
    · by_cases hf : f a = true
      · simp [hf, lookup, h, ih]
      · simp [hf, lookup, h, ih]

theorem lookup_taken (m o : List (List Nat × Value)) (k : List Nat) :
    lookup k (taken m o) = if (lookup k m).isNone then lookup k o else none := lookup_filter (fun k => (lookup k m).isNone) o k

theorem lookup_left (m o : List (List Nat × Value)) (k : List Nat) :
    lookup k (left m o) = if (lookup k m).isSome then lookup k o else none := lookup_filter (fun k => (lookup k m).isSome) o k

theorem sorted_taken {m o : List (List Nat × Value)} (h : SortedKeys o) : SortedKeys (taken m o) := List.Pairwise.filter _ h

theorem down_set {v c : Value} {s : Step} (h : down v s = some c) (x : Value) (s' : Step) :
    down (set v s x) s' = if s' = s then some x else down v s' := by
  cases v <;> cases s <;> simp only [down, set] at h ⊢ <;> try (cases h; done)
  · rename_i m k
    cases s' with
    | idx i => simp [down]
    | key k' =>
      simp only [down, lookup_set, Step.key.injEq]
      by_cases e : k' = k
      · subst e; simp [h]
      · simp [e]
  · rename_i l i
    have hi : i < l.length := (List.getElem?_eq_some_iff.mp h).1
    cases s' with
    | key k => simp [down]
    | idx j =>
      simp only [down, Step.idx.injEq]
      by_cases e : j = i
      · subst e; simp [hi]
      · simp [e, List.getElem?_set, Ne.symm e]

theorem shape_nil_set (v : Value) (s : Step) (x : Value) : shape (set v s x) [] = shape v [] := by
  cases v <;> cases s <;> simp [shape, find, set]
  rename_i l i
  apply List.ext_getElem
  · simp
  · intro j h1 h2; simp only [List.getElem_set, List.getElem_map]; split <;> rfl

theorem shape_cons (v : Value) (s : Step) (p : List Step) : shape v (s :: p) = (down v s).bind fun c => shape c p := by
  simp only [shape, find]
  cases down v s <;> rfl

/-- What a replacement changes. -/
theorem shape_put {v w : Value} {p : List Step} (h : find v p = some w) (x : Value) (q : List Step) :
    shape (put v p x) q = if p <+: q then shape x (q.drop p.length) else shape v q := by
  induction p generalizing v q with
  | nil => simp [put]
  | cons s p ih =>
    simp only [find] at h
    cases hc : down v s with
    | none => rw [hc] at h; cases h
    | some c =>
      rw [hc] at h
      simp only [put, hc]
      cases q with
      | nil => simp [shape_nil_set]
      | cons s' q =>
        rw [shape_cons, down_set hc]
        by_cases e : s' = s
        · subst e
          simp only [if_true, Option.bind_some, ih h, List.cons_prefix_cons, true_and, List.length_cons, List.drop_succ_cons, shape_cons, hc]
        · have : ¬ (s :: p <+: s' :: q) := by
            rw [List.cons_prefix_cons]; exact fun h => e h.1.symm
          rw [if_neg e, if_neg this, shape_cons]

theorem find_put_below {v w : Value} {p : List Step} (h : find v p = some w) (x : Value) (q : List Step) :
    find (put v p x) (p ++ q) = find x q := by
  induction p generalizing v with
  | nil => rfl
  | cons s p ih =>
    simp only [find] at h
    cases hc : down v s with
    | none => rw [hc] at h; cases h
    | some c =>
      rw [hc] at h
      simp only [put, hc, List.cons_append, find, down_set hc, if_true]
      exact ih h

theorem find_append (v : Value) (p q : List Step) : find v (p ++ q) = (find v p).bind (find · q) := by
  induction p generalizing v with
  | nil => rfl
  | cons s p ih =>
    simp only [List.cons_append, find]
    cases down v s with
    | none => rfl
    | some c => exact ih c

theorem find_put_other {v w : Value} {p q : List Step} (h : find v p = some w) (x : Value) (h1 : ¬ p <+: q) (h2 : ¬ q <+: p) :
    find (put v p x) q = find v q := by
  induction p generalizing v q with
  | nil => exact absurd (List.nil_prefix) h1
  | cons s p ih =>
    simp only [find] at h
    cases hc : down v s with
    | none => rw [hc] at h; cases h
    | some c =>
      rw [hc] at h
      simp only [put, hc]
      cases q with
      | nil => exact absurd (List.nil_prefix) h2
      | cons s' q =>
        simp only [find, down_set hc]
        by_cases e : s' = s
        · subst e
          rw [List.cons_prefix_cons] at h1 h2
          simp only [if_true, hc]
          exact ih h (fun g => h1 ⟨rfl, g⟩) (fun g => h2 ⟨rfl, g⟩)
        · rw [if_neg e]

theorem find_put_above {v w : Value} {p : List Step} {s : Step} {q : List Step} {o : Value} (h : find v (p ++ s :: q) = some w) (x : Value)
    (hp : find v p = some o) : ∃ c, down o s = some c ∧ find c q = some w ∧ find (put v (p ++ s :: q) x) p = some (set o s (put c q x)) := by
  rw [find_append, hp] at h
  simp only [Option.bind_some, find] at h
  cases hc : down o s with
  | none => rw [hc] at h; cases h
  | some c =>
    rw [hc] at h
    refine ⟨c, rfl, h, ?_⟩
    induction p generalizing v with
    | nil =>
      cases hp
      simp [put, hc, find]
    | cons t p ih =>
      simp only [find] at hp
      cases hd : down v t with
      | none => rw [hd] at hp; cases hp
      | some d =>
        rw [hd] at hp
        simp only [List.cons_append, put, hd, find, down_set hd, if_true]
        exact ih hp

theorem shape_key (m : List (List Nat × Value)) (k : List Nat) (r : List Step) :
    shape (.obj m) (.key k :: r) = (lookup k m).bind fun c => shape c r := shape_cons _ _ _

theorem shape_at {v w : Value} {p : List Step} (h : find v p = some w) (q : List Step) : shape v (p ++ q) = shape w q := by
  simp [shape, find_append, h]

theorem left_gone {v : Value} {p : List Step} {m o : List (List Nat × Value)} (h : find v p = some (.obj o)) {k : List Nat} (hk : lookup k m = none)
    (r : List Step) : shape (put v p (.obj (left m o))) (p ++ .key k :: r) = none := by
  rw [shape_put h, if_pos (List.prefix_append _ _), List.drop_left, shape_key, lookup_left, hk]
  rfl

theorem left_other {v : Value} {p : List Step} {m o : List (List Nat × Value)} (h : find v p = some (.obj o)) {r : List Step}
    (hr : ∀ k r', lookup k m = none → r ≠ p ++ .key k :: r') : shape (put v p (.obj (left m o))) r = shape v r := by
  rw [shape_put h]
  split
  · rename_i hp
    obtain ⟨t, rfl⟩ := hp
    rw [List.drop_left, shape_at h]
    cases t with
    | nil => rfl
    | cons s t =>
      cases s with
      | idx i => rfl
      | key k =>
        rw [shape_key, shape_key, lookup_left]
        cases hk : lookup k m with
        | none => exact absurd rfl (hr k t hk)
        | some x => rfl
  · rfl

theorem got {v : Value} {p : List Step} {m m' o : List (List Nat × Value)} (h : find v p = some (.obj m')) (hm : SortedKeys m') (ho : SortedKeys o)
    (hd : ∀ k, (lookup k m').isSome = (lookup k m).isSome) {k : List Nat} (hk : lookup k m = none) (r : List Step) :
    shape (put v p (.obj (mergeInto m' (taken m o)))) (p ++ .key k :: r) = (lookup k o).bind fun c => shape c r := by
  have hk' : lookup k m' = none := by have := hd k; rw [hk] at this; simpa using this
  rw [shape_put h, if_pos (List.prefix_append _ _), List.drop_left, shape_key, lookup_merge hm (sorted_taken ho), hk', lookup_taken, hk]
  rfl

theorem got_other {v : Value} {p : List Step} {m m' o : List (List Nat × Value)} (h : find v p = some (.obj m')) (hm : SortedKeys m') (ho : SortedKeys o)
    (hd : ∀ k, (lookup k m').isSome = (lookup k m).isSome) {r : List Step}
    (hr : ∀ k r', lookup k m = none → r ≠ p ++ .key k :: r') : shape (put v p (.obj (mergeInto m' (taken m o)))) r = shape v r := by
  rw [shape_put h]
  split
  · rename_i hp
    obtain ⟨t, rfl⟩ := hp
    rw [List.drop_left, shape_at h]
    cases t with
    | nil => rfl
    | cons s t =>
      cases s with
      | idx i => rfl
      | key k =>
        rw [shape_key, shape_key, lookup_merge hm (sorted_taken ho)]
        cases hk : lookup k m with
        | none => exact absurd rfl (hr k t hk)
        | some x =>
          have := hd k
          rw [hk] at this
          obtain ⟨y, hy⟩ := Option.isSome_iff_exists.mp this
          rw [hy]
          rfl
  · rfl

theorem sorted_set {m : List (List Nat × Value)} (h : SortedKeys m) (k : List Nat) (x : Value) :
    SortedKeys (m.map fun e => (e.1, if e.1 = k then x else e.2)) := by
  unfold SortedKeys at h ⊢
  rw [List.pairwise_map]
  exact h

/-! ## Theorems -/

/-- **C147.** Merging two objects of one document, whether apart, the same, or one inside the other, if the destination is not inside an
entry that is handed over: the entries of the source whose keys the destination lacks are afterwards in the destination with all they
contain, and no longer in the source; everything else in the document is where it was. -/
theorem merge_parts_partial (doc : Value) (dst src : List Step) (m o : List (List Nat × Value)) (hd : find doc dst = some (.obj m))
    (hs : find doc src = some (.obj o)) (hm : SortedKeys m) (ho : SortedKeys o)
    (hin : ∀ k rest, dst = src ++ .key k :: rest → (lookup k m).isSome) :
    ∃ doc', merge doc dst src = .ok doc' ∧
      (∀ k r, lookup k m = none → shape doc' (dst ++ .key k :: r) = shape doc (src ++ .key k :: r)) ∧
      (src ≠ dst → ∀ k r, lookup k m = none → shape doc' (src ++ .key k :: r) = none) ∧
      (∀ r, (∀ k r', lookup k m = none → r ≠ dst ++ .key k :: r' ∧ r ≠ src ++ .key k :: r') → shape doc' r = shape doc r) := by
  unfold merge
  simp only [hd, asObject, hs]
  by_cases he : src = dst
  · rw [if_pos he]
    subst he
    exact ⟨doc, rfl, fun _ _ _ => rfl, fun h => absurd rfl h, fun _ _ => rfl⟩
  rw [if_neg he]
  by_cases hp : src <+: dst
  · rw [if_pos hp]
    obtain ⟨t, rfl⟩ := hp
    rw [List.drop_left]
    cases t with
    | nil => simp at he
    | cons s q =>
      obtain ⟨c, hc, hcq, hf⟩ := find_put_above hd (.obj (mergeInto m (taken m o))) hs
      cases s with
      | idx i => simp [down] at hc
      | key k0 =>
        have hk0 := hin k0 q rfl
        simp only [hk0, if_true, hf, set]
        refine ⟨_, rfl, ?_, ?_, ?_⟩
        · intro k r hk
          rw [left_other hf]
          · rw [got hd hm ho (fun _ => rfl) hk, shape_at hs, shape_key]
          · intro k' r' hk' e
            rw [List.append_assoc] at e
            have := List.append_cancel_left e
            injection this with h1 _
            injection h1 with h1
            rw [h1, hk'] at hk0
            cases hk0
        · intro _ k r hk
          exact left_gone hf hk r
        · intro r hr
          rw [left_other hf fun k r' hk => (hr k r' hk).2, got_other hd hm ho (fun _ => rfl) fun k r' hk => (hr k r' hk).1]
  · rw [if_neg hp]
    have hg : ∃ m', find (put doc src (.obj (left m o))) dst = some (.obj m') ∧ SortedKeys m' ∧ ∀ k, (lookup k m').isSome = (lookup k m).isSome := by
      by_cases hq : dst <+: src
      · obtain ⟨t, rfl⟩ := hq
        cases t with
        | nil => simp at he
        | cons s q =>
          obtain ⟨c, hc, hcq, hf⟩ := find_put_above hs (.obj (left m o)) hd
          cases s with
          | idx i => simp [down] at hc
          | key k0 =>
            refine ⟨_, hf, sorted_set hm _ _, fun k => ?_⟩
            rw [lookup_set, Option.isSome_map]
      · exact ⟨m, by rw [find_put_other hs _ hp hq, hd], hm, fun _ => rfl⟩
    obtain ⟨m', hf, hm', hdom⟩ := hg
    simp only [hf]
    refine ⟨_, rfl, ?_, ?_, ?_⟩
    · intro k r hk
      rw [got hf hm' ho hdom hk, shape_at hs, shape_key]
    · intro _ k r hk
      rw [got_other hf hm' ho hdom, left_gone hs hk]
      intro k' r' hk' e
      rcases List.append_eq_append_iff.mp e with ⟨a, h1, h2⟩ | ⟨a, h1, h2⟩
      · exact hp ⟨a, h1.symm⟩
      · cases a with
        | nil => exact hp ⟨[], by simpa using h1⟩
        | cons x a =>
          injection h2 with h2 h3
          subst h2
          rw [h1, find_append, hd] at hs
          simp [find, down, hk'] at hs
    · intro r hr
      rw [got_other hf hm' ho hdom fun k r' hk => (hr k r' hk).1, left_other hs fun k r' hk => (hr k r' hk).2]

/-- A null destination becomes an object first; a destination or a source of another type throws, and only the former changes nothing. -/
theorem merge_parts_types (doc : Value) (dst src : List Step) :
    (find doc dst = some .null → merge doc dst src = merge (put doc dst (.obj [])) dst src) ∧
    (∀ v, find doc dst = some v → v ≠ .null → (∀ m, v ≠ .obj m) → merge doc dst src = .threw doc) ∧
    (∀ m v, find doc dst = some (.obj m) → find doc src = some v → (∀ o, v ≠ .obj o) → merge doc dst src = .threw doc) := by
  refine ⟨fun h => ?_, fun v h h1 h2 => ?_, fun m v h h1 h2 => ?_⟩
  · have : find (put doc dst (.obj [])) dst = some (.obj []) := by
      have := find_put_below h (.obj []) []
      simpa [find] using this
    unfold merge
    simp only [h, this, asObject]
  · unfold merge
    rw [h]
    cases v <;> simp_all [asObject]
  · unfold merge
    rw [h]
    simp only [asObject, h1]

/-- C147 fails otherwise: an object merged into something inside one of its entries, whose keys do not include that entry's, disappears with
all entries handed over. -/
theorem merge_parts_violated (doc : Value) (src rest : List Step) (k : List Nat) (m o : List (List Nat × Value))
    (hd : find doc (src ++ .key k :: rest) = some (.obj m)) (hs : find doc src = some (.obj o)) (hk : lookup k m = none) :
    ∃ doc', merge doc (src ++ .key k :: rest) src = .lost doc' ∧ ∀ j r, lookup j m = none → shape doc' (src ++ .key j :: r) = none := by
  refine ⟨put doc src (.obj (left m o)), ?_, fun j r hj => left_gone hs hj r⟩
  unfold merge
  have h1 : src ≠ src ++ .key k :: rest := fun e => by
    have := congrArg List.length e
    simp at this
  simp only [hd, asObject, hs, if_neg h1, if_pos (List.prefix_append _ _), List.drop_left, hk]
  rfl

/-- `{"a": {"b": 1}}`: merged with its entry `a`; and its entry `a` with it. -/
example : (∃ d, merge (.obj [([0x61], .obj [([0x62], .int 1)])]) [] [.key [0x61]] = .ok d ∧ d = .obj [([0x61], .obj []), ([0x62], .int 1)]) ∧
    merge (.obj [([0x61], .obj [([0x62], .int 1)])]) [.key [0x61]] [] = .lost (.obj []) := by
  constructor
  · refine ⟨_, rfl, ?_⟩
    simp [put, left, taken, lookup, mergeInto, insertNew, strLt]
  · rfl

end Verif.Json.Parts
