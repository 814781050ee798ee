import Verif.Json.MoreOps
import Verif.Json.OpsProof

/-!
# C155: the theorems
-/

namespace Verif.Json

theorem sorted_keys {m m' : List (List Nat × Value)} (h : m.map (·.1) = m'.map (·.1)) (hs : SortedKeys m') : SortedKeys m := by
  have h1 : (m'.map (·.1)).Pairwise (· < ·) := List.pairwise_map.2 hs
  rw [← h] at h1
  exact List.pairwise_map.1 h1

theorem lookup_nth {m : List (List Nat × Value)} (hs : SortedKeys m) : ∀ {p k v} (x : Value), m[p]? = some (k, v) →
    ∀ k', lookup k' (m.set p (k, x)) = if k' = k then some x else lookup k' m := by
  induction m with
  | nil => intro p k v x h; simp at h
  | cons e m ih =>
    intro p k v x h k'
    obtain ⟨hb, hm⟩ := sorted_cons.1 hs
    cases p with
    | zero =>
      simp only [List.getElem?_cons_zero, Option.some.injEq] at h
      subst h
      by_cases e' : k' = k <;> simp [lookup, e']
    | succ p =>
      simp only [List.getElem?_cons_succ] at h
      have hlt := hb _ (List.mem_of_getElem? h)
      simp only [List.set_cons_succ, lookup]
      by_cases e' : k' = e.1
      · have : k' ≠ k := by
          rintro rfl
          rw [e'] at hlt
          exact absurd hlt (List.lt_irrefl _)
        simp [e', show e.1 ≠ k from e' ▸ this]
      · have hf : (k' == e.1) = false := by simpa using e'
        simp only [hf, Bool.false_eq_true, if_false]
        exact ih hm x h k'

theorem keys_nth {m : List (List Nat × Value)} {p : Nat} {k : List Nat} {v : Value} (x : Value)
    (h : m[p]? = some (k, v)) : (m.set p (k, x)).map (·.1) = m.map (·.1) := by
  apply List.ext_getElem?
  intro i
  by_cases e : i = p
  · subst e
    have hlt := (List.getElem?_eq_some_iff.1 h).1
    rw [List.getElem?_map, List.getElem?_map, List.getElem?_set_self hlt, h]; rfl
  · simp [List.getElem?_set_ne (Ne.symm e)]

theorem lookup_assign {k : List Nat} (x : Value) : ∀ {m : List (List Nat × Value)}, (lookup k m).isSome →
    ∀ k', lookup k' (assignEntry k x m) = if k' = k then some x else lookup k' m := by
  intro m
  induction m with
  | nil => intro h; simp [lookup] at h
  | cons e m ih =>
    intro h k'
    obtain ⟨ke, ve⟩ := e
    simp only [lookup, assignEntry] at h ⊢
    by_cases e1 : k = ke
    · subst e1
      simp only [beq_self_eq_true, if_true, lookup]
      by_cases e2 : k' = k <;> simp [e2]
    · rw [if_neg (by simpa using e1)] at h
      rw [if_neg (by simpa using e1)]
      simp only [lookup, ih h k']
      by_cases e2 : k' = ke
      · subst e2
        simp [Ne.symm e1]
      · simp [e2]

theorem keys_assign (k : List Nat) (x : Value) (m : List (List Nat × Value)) :
    (assignEntry k x m).map (·.1) = m.map (·.1) := by
  induction m with
  | nil => rfl
  | cons e m ih =>
    obtain ⟨ke, ve⟩ := e
    simp only [assignEntry]
    split <;> simp [ih]

theorem first_entry {m : List (List Nat × Value)} (hs : SortedKeys m) :
    (∃ k v, m[endpoint false m.length]? = some (k, v) ∧ FirstKey (fun k => lookup k m) k ∧ lookup k m = some v) ∨ m = [] := by
  cases m with
  | nil => exact .inr rfl
  | cons e m =>
    left
    obtain ⟨k, v⟩ := e
    have hl : lookup k ((k, v) :: m) = some v := by simp [lookup]
    refine ⟨k, v, by simp [endpoint], ⟨by simp [hl], fun k' hk' => ?_⟩, hl⟩
    cases hx : lookup k' ((k, v) :: m) with
    | none => exact absurd hx hk'
    | some y =>
      rcases List.mem_cons.1 (lookup_mem hx) with e | e
      · injection e with e1; exact .inl e1
      · exact .inr ((sorted_cons.1 hs).1 _ e)

theorem last_entry {m : List (List Nat × Value)} (hs : SortedKeys m) :
    (∃ k v, m[endpoint true m.length]? = some (k, v) ∧ LastKey (fun k => lookup k m) k ∧ lookup k m = some v) ∨ m = [] := by
  rcases List.eq_nil_or_concat m with e | ⟨t, ⟨k, v⟩, e⟩
  · exact .inr e
  · left
    have hl : lookup k m = some v := (lookup_iff hs k v).2 (by rw [e]; simp)
    refine ⟨k, v, by simp [endpoint, e], ⟨by simp [hl], fun k' hk' => ?_⟩, hl⟩
    cases hx : lookup k' m with
    | none => exact absurd hx hk'
    | some y =>
      have hm := lookup_mem hx
      rw [e, List.concat_eq_append, List.mem_append] at hm
      rcases hm with hm | hm
      · right
        rw [e, List.concat_eq_append] at hs
        exact (List.pairwise_append.1 hs).2.2 _ hm (k, v) (List.mem_singleton.2 rfl)
      · simp only [List.mem_singleton, Prod.mk.injEq] at hm
        exact .inl hm.1

theorem means_iff {a : Arg} (h : a.Ok) (x : Value) : a.construct = some x ↔ a.Means x := by
  cases a with
  | json v => simp [Arg.construct, Arg.Means, eq_comm]
  | text raw =>
    simp only [Arg.construct, Arg.Means, Option.map_eq_some_iff]
    constructor
    · rintro ⟨t, h1, h2⟩; exact ⟨t, convert_some h h1, h2.symm⟩
    · rintro ⟨t, h1, h2⟩; exact ⟨t, (convertToString_iff raw t h).2 h1, h2.symm⟩

theorem means_none {a : Arg} (h : a.Ok) (hn : a.construct = none) : ∀ x, ¬ a.Means x := by
  intro x hx
  rw [(means_iff h x).2 hx] at hn
  cases hn

theorem insert_new {m : List (List Nat × Value)} (hs : SortedKeys m) (k : List Nat) (x : Value) :
    (lookup k m = none ∧ abs (.obj (insertNew k x m)) = .map (upd (fun k => lookup k m) k (some x))) ∨
    (lookup k m ≠ none ∧ abs (.obj (insertNew k x m)) = abs (.obj m)) := by
  cases hl : lookup k m with
  | none =>
    left
    refine ⟨rfl, map_eq fun k' => ?_⟩
    rw [lookup_insertNew hs, hl]; rfl
  | some y =>
    right
    refine ⟨by simp, ?_⟩
    rw [insertNew_eq hs, hl]; rfl

theorem fit_key {cap : Nat} {m : List (List Nat × Value)} (hs : SortedKeys m) {raw : List Nat}
    {f : List (List Nat × Value) → List Nat → Value × Ret} (h : ∀ k, Fits cap (f m k).1) :
    Fits cap (withKey (.obj m) raw f).1 := by
  unfold withKey
  cases convertToString raw with
  | none => exact hs
  | some k => exact h k

theorem more_obj {cap : Nat} {m : List (List Nat × Value)} (hs : SortedKeys m) {op : MoreOp} (ho : op.Ok)
    (hn : ∀ o, op ≠ .old o) :
    MoreMap (abs (.obj m)) (fun k => lookup k m) op (abs (stepMore cap (.obj m) op).1) (stepMore cap (.obj m) op).2 ∧
    Fits cap (stepMore cap (.obj m) op).1 := by
  cases op with
  | old o => exact absurd rfl (hn o)
  | constIdx i | setAtIdx i x => exact ⟨⟨rfl, rfl⟩, hs⟩
  | emplaceBack a => exact ⟨⟨rfl, rfl⟩, hs⟩
  | constKey raw => exact obj_step (op := .atKey raw) hs ho
  | setAtKey raw x =>
    constructor
    · refine keyed_of ho ?_ ?_
      · intro k hk
        simp only [stepMore, withKey, hk]
        cases hl : lookup k m with
        | none => exact .inr ⟨rfl, rfl, rfl⟩
        | some y => exact .inl ⟨by simp, map_eq (fun k' => lookup_assign x (by simp [hl]) k'), rfl⟩
      · intro hk; simp only [stepMore, withKey, hk]; exact ⟨rfl, rfl⟩
    · refine fit_key hs fun k => ?_
      show Fits cap (match lookup k m with | some _ => (Value.obj (assignEntry k x m), Ret.unit) | none => (Value.obj m, Ret.threw)).1
      cases lookup k m
      · exact hs
      · exact sorted_keys (keys_assign k x m) hs
  | front =>
    rcases first_entry hs with ⟨k, v, h1, h2, h3⟩ | e
    · simp only [stepMore, atEndpoint, h1]
      exact ⟨.inl ⟨k, v, h2, h3, rfl, rfl⟩, hs⟩
    · subst e; exact ⟨.inr ⟨fun _ => rfl, rfl, rfl⟩, hs⟩
  | back =>
    rcases last_entry hs with ⟨k, v, h1, h2, h3⟩ | e
    · simp only [stepMore, atEndpoint, h1]
      exact ⟨.inl ⟨k, v, h2, h3, rfl, rfl⟩, hs⟩
    · subst e; exact ⟨.inr ⟨fun _ => rfl, rfl, rfl⟩, hs⟩
  | setFront x =>
    rcases first_entry hs with ⟨k, v, h1, h2, h3⟩ | e
    · simp only [stepMore, atEndpoint, h1]
      exact ⟨.inl ⟨k, h2, map_eq (lookup_nth hs x h1), rfl⟩, sorted_keys (keys_nth x h1) hs⟩
    · subst e; exact ⟨.inr ⟨fun _ => rfl, rfl, rfl⟩, hs⟩
  | setBack x =>
    rcases last_entry hs with ⟨k, v, h1, h2, h3⟩ | e
    · simp only [stepMore, atEndpoint, h1]
      exact ⟨.inl ⟨k, h2, map_eq (lookup_nth hs x h1), rfl⟩, sorted_keys (keys_nth x h1) hs⟩
    · subst e; exact ⟨.inr ⟨fun _ => rfl, rfl, rfl⟩, hs⟩
  | count raw =>
    constructor
    · refine keyed_of ho ?_ ?_
      · intro k hk
        simp only [stepMore, withKey, hk]
        exact ⟨trivial, by split <;> split <;> simp_all⟩
      · intro hk; simp only [stepMore, withKey, hk]; exact ⟨rfl, rfl⟩
    · exact fit_key hs fun k => hs
  | find raw =>
    constructor
    · refine keyed_of ho ?_ ?_
      · intro k hk
        simp only [stepMore, withKey, hk]
        cases hl : lookup k m with
        | none => exact ⟨rfl, .inr ⟨rfl, rfl⟩⟩
        | some y => exact ⟨rfl, .inl ⟨y, rfl, rfl⟩⟩
      · intro hk; simp only [stepMore, withKey, hk]; exact ⟨rfl, rfl⟩
    · refine fit_key hs fun k => ?_
      show Fits cap (match lookup k m with | some x => (Value.obj m, Ret.val x) | none => (Value.obj m, Ret.flag false)).1
      cases lookup k m <;> exact hs
  | emplace raw a =>
    constructor
    · refine keyed_of ho.1 ?_ ?_
      · intro k hk
        simp only [stepMore, withSubscript, asObject, hk]
        cases hc : a.construct with
        | none => exact .inr ⟨means_none ho.2 hc, rfl, rfl⟩
        | some x =>
          refine .inl ⟨x, (means_iff ho.2 x).1 hc, ?_⟩
          rcases insert_new hs k x with ⟨h1, h2⟩ | ⟨h1, h2⟩
          · exact .inl ⟨h1, h2, by simp [h1]⟩
          · exact .inr ⟨h1, h2, by cases hx : lookup k m <;> simp_all⟩
      · intro hk; simp only [stepMore, withSubscript, asObject, hk]; exact ⟨rfl, rfl⟩
    · simp only [stepMore, withSubscript, asObject]
      cases convertToString raw with
      | none => exact hs
      | some k =>
        cases a.construct with
        | none => exact hs
        | some x => exact sorted_insertNew hs k x

theorem endpoint_first (x : Value) (b : List Value) : (x :: b)[endpoint false (x :: b).length]? = some x := by
  simp [endpoint]

theorem endpoint_last (a : List Value) (x : Value) : (a ++ [x])[endpoint true (a ++ [x]).length]? = some x := by
  simp [endpoint]

theorem emplace_back_seq {cap : Nat} {v : Value} {l : List Value} (hv : asArray v = some l) (hl : l.length ≤ cap) {a : Arg} (ho : a.Ok)
    (hd : v ≠ .null ∨ ((∃ x, a.Means x) ∧ 0 < cap)) (habs : v ≠ .null → abs v = .seq l) (hnull : v = .null → l = []) :
    MoreSeq cap (abs v) l (.emplaceBack a) (abs (stepMore cap v (.emplaceBack a)).1) (stepMore cap v (.emplaceBack a)).2 ∧
    Fits cap (stepMore cap v (.emplaceBack a)).1 := by
  simp only [stepMore, hv]
  cases hc : a.construct with
  | none =>
    refine ⟨.inr ⟨.inl (means_none ho hc), ?_, rfl⟩, hl⟩
    rcases hd with h | ⟨⟨x, hx⟩, -⟩
    · exact (habs h).symm
    · exact absurd hx (means_none ho hc x)
  | some x =>
    have hm := (means_iff ho x).1 hc
    by_cases h : l.length < cap
    · simp only [h, if_true]
      exact ⟨.inl ⟨x, hm, h, rfl, rfl⟩, by show (l ++ [x]).length ≤ cap; simp; omega⟩
    · simp only [h, if_false]
      refine ⟨.inr ⟨.inr (by omega), ?_, rfl⟩, hl⟩
      rcases hd with h' | ⟨-, h'⟩
      · exact (habs h').symm
      · by_cases e : v = .null
        · rw [hnull e] at h; simp at h; omega
        · exact (habs e).symm

theorem more_arr {cap : Nat} {l : List Value} (hc : cap < 2 ^ 63) (hl : l.length ≤ cap) {op : MoreOp} (ho : op.Ok)
    (hn : ∀ o, op ≠ .old o) :
    MoreSeq cap (abs (.arr l)) l op (abs (stepMore cap (.arr l) op).1) (stepMore cap (.arr l) op).2 ∧
    Fits cap (stepMore cap (.arr l) op).1 := by
  cases op with
  | old o => exact absurd rfl (hn o)
  | constIdx i => exact arr_step (op := .atIdx i) hc hl ho (fun h => h)
  | setAtIdx i x =>
    by_cases h : i < l.length
    · simp only [stepMore, h, if_true]
      obtain ⟨a, y, b, e1, e2, e3, e4⟩ := split_at h
      refine ⟨.inl ⟨a, y, b, e1, e2, ?_, rfl⟩, by simpa [Fits] using hl⟩
      show Abs.seq (l.set i x) = _
      rw [setAt h, e3, e4]
    · simp only [stepMore, h, if_false]
      exact ⟨.inr ⟨by omega, rfl, rfl⟩, hl⟩
  | front =>
    cases l with
    | nil => exact ⟨.inr ⟨rfl, rfl, rfl⟩, hl⟩
    | cons x b =>
      simp only [stepMore, atEndpoint, endpoint_first]
      exact ⟨.inl ⟨x, b, rfl, rfl, rfl⟩, hl⟩
  | back =>
    rcases List.eq_nil_or_concat l with e | ⟨a, x, e⟩
    · subst e; exact ⟨.inr ⟨rfl, rfl, rfl⟩, hl⟩
    · rw [List.concat_eq_append] at e
      subst e
      simp only [stepMore, atEndpoint, endpoint_last]
      exact ⟨.inl ⟨a, x, rfl, rfl, rfl⟩, hl⟩
  | setFront x =>
    cases l with
    | nil => exact ⟨.inr ⟨rfl, rfl, rfl⟩, hl⟩
    | cons y b =>
      simp only [stepMore, atEndpoint, endpoint_first]
      exact ⟨.inl ⟨y, b, rfl, by simp [endpoint, abs], rfl⟩, by simpa [Fits] using hl⟩
  | setBack x =>
    rcases List.eq_nil_or_concat l with e | ⟨a, y, e⟩
    · subst e; exact ⟨.inr ⟨rfl, rfl, rfl⟩, hl⟩
    · rw [List.concat_eq_append] at e
      subst e
      simp only [stepMore, atEndpoint, endpoint_last]
      refine ⟨.inl ⟨a, y, rfl, by simp [endpoint, abs], rfl⟩, by simpa [Fits] using hl⟩
  | emplaceBack a => exact emplace_back_seq rfl hl ho (.inl (by simp)) (fun _ => rfl) (fun e => by cases e)
  | constKey raw | setAtKey raw x | count raw | find raw => exact ⟨⟨rfl, rfl⟩, hl⟩
  | emplace raw a => exact ⟨⟨rfl, rfl⟩, hl⟩

theorem more_step {cap : Nat} (hc : cap < 2 ^ 63) {v : Value} (hv : Fits cap v) {op : MoreOp} (ho : op.Ok)
    (hd : ¬ MoreDeviates cap v op) :
    MoreExpected cap (abs v) op (abs (stepMore cap v op).1) (stepMore cap v op).2 ∧ Fits cap (stepMore cap v op).1 := by
  by_cases hn : ∃ o, op = .old o
  · obtain ⟨o, rfl⟩ := hn
    exact step_expected hc hv ho hd
  · have hn' : ∀ o, op ≠ .old o := fun o e => hn ⟨o, e⟩
    cases v with
    | obj m =>
      have h := more_obj (cap := cap) hv ho hn'
      rw [show (fun k => lookup k m) = fun k => valueAt k m from funext fun k => (valueAt_eq k m).symm] at h
      refine ⟨?_, h.2⟩
      cases op <;> first | exact absurd rfl (hn' _) | exact h.1
    | arr l =>
      have h := more_arr hc hv ho hn'
      refine ⟨?_, h.2⟩
      cases op <;> first | exact absurd rfl (hn' _) | exact h.1
    | null =>
      cases op with
      | old o => exact absurd rfl (hn' o)
      | emplace raw a =>
        have hd' : (∃ k, StringBody raw k) ∧ ∃ x, a.Means x := by
          simp only [MoreDeviates, true_and, not_or, Classical.not_forall, Classical.not_not] at hd
          exact hd
        obtain ⟨⟨k, hk⟩, x, hx⟩ := hd'
        have e1 := (convertToString_iff raw k ho.1).2 hk
        have e2 := (means_iff ho.2 x).2 hx
        have e : stepMore cap .null (.emplace raw a) = (.obj [(k, x)], .flag true) := by
          simp [stepMore, withSubscript, asObject, e1, e2, insertNew, lookup]
        rw [e]
        refine ⟨.inl ⟨k, hk, .inl ⟨x, hx, .inl ⟨rfl, ?_, rfl⟩⟩⟩, by simp [Fits, SortedKeys]⟩
        refine map_eq fun k' => ?_
        by_cases e' : k' = k <;> simp [lookup, upd, e']
      | emplaceBack a =>
        have hd' : (∃ x, a.Means x) ∧ 0 < cap := by
          simp only [MoreDeviates, true_and, not_or, Classical.not_forall, Classical.not_not] at hd
          exact ⟨hd.1, by omega⟩
        exact emplace_back_seq rfl (Nat.zero_le _) ho (.inr hd') (fun h => absurd rfl h) (fun _ => rfl)
      | _ => exact ⟨⟨rfl, rfl⟩, trivial⟩
    | str t | bool b | int i | uint n | flt f =>
      cases op with
      | old o => exact absurd rfl (hn' o)
      | _ => exact ⟨⟨rfl, rfl⟩, trivial⟩

/-- No call of the history deviates, in the state it is made in. -/
def NoMoreDeviation (cap : Nat) : Value → List MoreOp → Prop
  | _, [] => True
  | v, o :: os => ¬ MoreDeviates cap v o ∧ NoMoreDeviation cap (stepMore cap v o).1 os

/-- **C155**, except for the calls of `MoreDeviates`: every history of calls, of these and those of C35, gives the
results of the same operations on a finite map or a sequence, and leaves the same content. -/
theorem json_accessors_partial {cap : Nat} (hc : cap < 2 ^ 63) (ops : List MoreOp) : ∀ (v : Value), Fits cap v →
    (∀ o ∈ ops, o.Ok) → NoMoreDeviation cap v ops →
    MoreHistory cap (abs v) ops (abs (runMore cap v ops).1) (runMore cap v ops).2 := by
  induction ops with
  | nil => intro v _ _ _; exact .nil
  | cons o os ih =>
    intro v hv ho hd
    obtain ⟨h1, h2⟩ := more_step hc hv (ho o List.mem_cons_self) hd.1
    exact .cons h1 (ih _ h2 (fun x hx => ho x (List.mem_cons_of_mem _ hx)) hd.2)

/-- The hypotheses are met: a history that uses the calls on an object and on an array, with failures. -/
def sampleOps : List MoreOp :=
  [.emplace [98] (.text [120]), .emplace [97] (.json (.int 1)), .emplace [97] (.json (.int 2)), .front, .setBack (.bool true),
   .back, .find [99], .count [97], .setAtKey [97] (.arr []), .constKey [97], .emplace [255] (.json .null)]

example : NoMoreDeviation 8 .null sampleOps ∧ (∀ o ∈ sampleOps, o.Ok) := by
  have e1 : ∃ k, StringBody [98] k := ⟨[98], (convertToString_iff _ _ (by simp)).1 (by decide +kernel)⟩
  have e2 : ∃ x, (Arg.text [120]).Means x :=
    ⟨.str [120], [120], (convertToString_iff _ _ (by simp)).1 (by decide +kernel), rfl⟩
  have e3 : ∀ v o, (match v with | .obj _ => true | _ => false) = true → (∀ o', o ≠ .old o') → ¬ MoreDeviates 8 v o := by
    intro v o hv ho hd
    cases o <;> first | exact ho _ rfl | (rw [hd.1] at hv; cases hv) | exact hd
  refine ⟨⟨?_, ?_⟩, ?_⟩
  · rintro ⟨-, h | h⟩
    · exact absurd e1 (by simpa using h)
    · exact absurd e2 (by simpa using h)
  · refine ⟨?_, ?_, ?_, ?_, ?_, ?_, ?_, ?_, ?_, ?_, trivial⟩ <;>
      exact e3 _ _ (by decide +kernel) (fun _ h => nomatch h)
  · intro o ho
    simp only [sampleOps, List.mem_cons, List.not_mem_nil, or_false] at ho
    rcases ho with h | h | h | h | h | h | h | h | h | h | h <;> subst h <;> simp [MoreOp.Ok, Arg.Ok]

/-- C155 fails: an `emplace` that throws turns a null value into an empty object or array. -/
theorem json_accessors_violated (cap : Nat) (raw bad : List Nat) (hb : convertToString bad = none) (a : Arg) :
    stepMore cap .null (.emplace bad a) = (.obj [], .threw) ∧
    stepMore cap .null (.emplace raw (.text bad)) = (.obj [], .threw) ∧
    stepMore cap .null (.emplaceBack (.text bad)) = (.arr [], .threw) := by
  refine ⟨by simp [stepMore, withSubscript, asObject, hb], ?_, by simp [stepMore, asArray, Arg.construct, hb]⟩
  simp only [stepMore, withSubscript, asObject, Arg.construct, hb, Option.map_none]
  cases convertToString raw <;> rfl

/-- A byte string that is not a text, as the hypothesis asks. -/
example : convertToString [255] = none := by decide +kernel

end Verif.Json
