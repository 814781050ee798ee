import Verif.Json.OpsLemmas

/-! # Every call does what is expected of it -/

namespace Verif.Json

theorem keyed_of {raw : List Nat} (hb : ∀ b ∈ raw, b < 256) {s s' : Abs} {r : Ret} {P : List Nat → Prop}
    (h1 : ∀ k, convertToString raw = some k → P k)
    (h2 : convertToString raw = none → Fails s s' r) : Keyed s raw s' r P := by
  cases h : convertToString raw with
  | none => exact Or.inr ⟨convert_none hb h, h2 h⟩
  | some k => exact Or.inl ⟨k, convert_some hb h, h1 k h⟩

/-- The result of `operator[](key)` on a map. -/
theorem subscript_spec {m : List (List Nat × Value)} (hs : SortedKeys m) (k : List Nat) :
    abs (.obj (subscript k m).1) = .map (upd (fun k => lookup k m) k (some ((lookup k m).getD .null))) ∧
    (subscript k m).2 = (lookup k m).getD .null ∧ SortedKeys (subscript k m).1 := by
  refine ⟨?_, ?_, ?_⟩
  · refine map_eq (fun k' => ?_)
    show lookup k' (insertNew k .null m) = _
    rw [lookup_insertNew hs]; rfl
  · show (lookup k (insertNew k .null m)).getD .null = _
    rw [lookup_insertNew hs]; simp
  · exact sorted_insertNew hs k .null

theorem setKey_spec {m : List (List Nat × Value)} (hs : SortedKeys m) (k : List Nat) (x : Value) :
    abs (.obj (insertOrAssign k x (subscript k m).1)) = .map (upd (fun k => lookup k m) k (some x)) ∧
    SortedKeys (insertOrAssign k x (subscript k m).1) := by
  have h := sorted_insertNew hs k .null
  refine ⟨map_eq (fun k' => ?_), sorted_insert h⟩
  show lookup k' (insertOrAssign k x (insertNew k .null m)) = _
  rw [lookup_insertOrAssign h, lookup_insertNew hs]
  unfold upd
  split <;> rfl

theorem obj_step {cap : Nat} {m : List (List Nat × Value)} (hs : SortedKeys m) {op : Op} (ho : op.Ok) :
    ExpectedMap (abs (.obj m)) (fun k => lookup k m) op (abs (step cap (.obj m) op).1)
      (step cap (.obj m) op).2 ∧ Fits cap (step cap (.obj m) op).1 := by
  have kfit : ∀ raw (f : List (List Nat × Value) → List Nat → Value × Ret),
      (∀ k, Fits cap (f m k).1) → Fits cap (withKey (.obj m) raw f).1 := by
    intro raw f h
    unfold withKey
    cases convertToString raw with
    | none => exact hs
    | some k => exact h k
  have sfit : ∀ raw (f : List (List Nat × Value) → List Nat → Value × Ret),
      (∀ k, Fits cap (f m k).1) → Fits cap (withSubscript (.obj m) raw f).1 := by
    intro raw f h
    unfold withSubscript asObject
    cases convertToString raw with
    | none => exact hs
    | some k => exact h k
  cases op with
  | size =>
    obtain ⟨h1, h2⟩ := keys_spec hs
    exact ⟨⟨rfl, _, h1, h2, by simp [step, sizeOfJson]⟩, hs⟩
  | empty =>
    refine ⟨⟨rfl, ?_⟩, hs⟩
    cases m with
    | nil => left; exact ⟨rfl, fun k => rfl⟩
    | cons p m =>
      right
      refine ⟨rfl, p.1, ?_⟩
      have := (lookup_iff hs p.1 p.2).2 List.mem_cons_self
      simp [this]
  | atIdx i => exact ⟨⟨rfl, rfl⟩, hs⟩
  | atKey raw =>
    constructor
    · refine keyed_of ho ?_ ?_
      · intro k hk
        simp only [step, withKey, hk]
        cases hl : lookup k m with
        | none => exact Or.inr ⟨rfl, rfl, rfl⟩
        | some x => exact Or.inl ⟨x, rfl, rfl, rfl⟩
      · intro hk; simp only [step, withKey, hk]; exact ⟨rfl, rfl⟩
    · refine kfit raw _ (fun k => ?_)
      show Fits cap (match lookup k m with | some x => (Value.obj m, Ret.val x) | none => (Value.obj m, Ret.threw)).1
      cases lookup k m <;> exact hs
  | subIdx i => exact ⟨⟨rfl, rfl⟩, hs⟩
  | subKey raw =>
    constructor
    · refine keyed_of ho ?_ ?_
      · intro k hk
        simp only [step, withSubscript, asObject, hk]
        obtain ⟨h1, h2, _⟩ := subscript_spec hs k
        exact ⟨h1, by rw [h2]⟩
      · intro hk; simp only [step, withSubscript, asObject, hk]; exact ⟨rfl, rfl⟩
    · exact sfit raw _ (fun k => (subscript_spec hs k).2.2)
  | setIdx i x => exact ⟨⟨rfl, rfl⟩, hs⟩
  | setKey raw x =>
    constructor
    · refine keyed_of ho ?_ ?_
      · intro k hk
        simp only [step, withSubscript, asObject, hk]
        exact ⟨(setKey_spec hs k x).1, trivial⟩
      · intro hk; simp only [step, withSubscript, asObject, hk]; exact ⟨rfl, rfl⟩
    · exact sfit raw _ (fun k => (setKey_spec hs k x).2)
  | contains raw =>
    constructor
    · refine keyed_of ho ?_ ?_
      · intro k hk; simp only [step, withKey, hk]; constructor <;> trivial
      · intro hk; simp only [step, withKey, hk]; exact ⟨rfl, rfl⟩
    · exact kfit raw _ (fun k => hs)
  | insert raw x =>
    constructor
    · refine keyed_of ho ?_ ?_
      · intro k hk
        simp only [step, withKey, hk]
        cases hl : lookup k m with
        | none =>
          left
          refine ⟨rfl, map_eq (fun k' => ?_), by simp⟩
          rw [lookup_insertNew hs, hl]; rfl
        | some y =>
          right
          refine ⟨by simp, ?_, by simp⟩
          rw [insertNew_eq hs, hl]; rfl
      · intro hk; simp only [step, withKey, hk]; exact ⟨rfl, rfl⟩
    · exact kfit raw _ (fun k => sorted_insertNew hs k x)
  | insertOrAssign raw x =>
    constructor
    · refine keyed_of ho ?_ ?_
      · intro k hk
        simp only [step, withKey, hk]
        exact ⟨map_eq (fun k' => by rw [lookup_insertOrAssign hs]; rfl), trivial⟩
      · intro hk; simp only [step, withKey, hk]; exact ⟨rfl, rfl⟩
    · exact kfit raw _ (fun k => sorted_insert hs)
  | eraseKey raw =>
    constructor
    · refine keyed_of ho ?_ ?_
      · intro k hk
        simp only [step, withKey, hk]
        exact ⟨map_eq (fun k' => by rw [lookup_erase hs]; rfl), trivial⟩
      · intro hk; simp only [step, withKey, hk]; exact ⟨rfl, rfl⟩
    · exact kfit raw _ (fun k => sorted_erase hs)
  | eraseIdx i => exact ⟨⟨rfl, rfl⟩, hs⟩
  | insertAt i x => exact ⟨⟨rfl, rfl⟩, hs⟩
  | pushBack x => exact ⟨⟨rfl, rfl⟩, hs⟩
  | popBack => exact ⟨⟨rfl, rfl⟩, hs⟩
  | resize n => exact ⟨⟨rfl, rfl⟩, hs⟩
  | clear => exact ⟨⟨map_eq (fun k => rfl), rfl⟩, by simp [step, clearJson, Fits, SortedKeys]⟩
  | merge o =>
    cases o with
    | obj m' =>
      have hm' : SortedKeys m' := ho
      refine ⟨⟨fun k => lookup k m', fun k x => lookup_iff hm' k x, ?_, rfl⟩, sorted_merge hs⟩
      exact map_eq (fun k => lookup_merge hs hm' k)
    | _ => exact ⟨⟨rfl, rfl⟩, hs⟩

theorem padded_get {l : List Value} {i : Nat} : ∃ x, (padded l (i + 1))[i]? = some x ∧
    (padded l (i + 1)).getD i .null = x := by
  have : i < (padded l (i + 1)).length := by
    unfold padded; simp only [List.length_append, List.length_replicate]; omega
  refine ⟨(padded l (i + 1))[i], by simp [this], ?_⟩
  simp [List.getD, this]

theorem padded_length (l : List Value) (n : Nat) : (padded l n).length = max l.length n := by
  unfold padded; simp only [List.length_append, List.length_replicate]; omega

theorem growTo_ok {cap i : Nat} {l : List Value} (hc : cap < 2 ^ 63) (hl : l.length ≤ cap) (hi : i < cap) :
    growTo cap i l = (padded l (i + 1), true) := by
  unfold growTo padded
  split
  · have : i + 1 - l.length = 0 := by omega
    rw [this]; simp
  · have hm : (i + 1) % 2 ^ 64 = i + 1 := Nat.mod_eq_of_lt (by omega)
    rw [hm]
    unfold resizeTo
    rw [if_neg (by omega), if_pos (by omega)]
    simp only [List.length_append, List.length_replicate]
    rw [decide_eq_true (by omega)]

theorem growTo_fail {cap i : Nat} {l : List Value} (hl : l.length ≤ cap) (hi : cap ≤ i)
    (h64 : i < 2 ^ 64 - 1) : growTo cap i l = (l, false) := by
  unfold growTo
  rw [if_neg (by omega), Nat.mod_eq_of_lt (by omega)]
  unfold resizeTo
  rw [if_neg (by omega), if_neg (by omega)]

theorem split_at {l : List Value} {i : Nat} (h : i < l.length) :
    ∃ a y b, l = a ++ y :: b ∧ a.length = i ∧ a = l.take i ∧ b = l.drop (i + 1) := by
  refine ⟨l.take i, l[i], l.drop (i + 1), ?_, by simp; omega, rfl, rfl⟩
  rw [← List.drop_eq_getElem_cons h, List.take_append_drop]

theorem setAt {l : List Value} {i : Nat} (h : i < l.length) (x : Value) :
    l.set i x = l.take i ++ x :: l.drop (i + 1) := by
  rw [List.set_eq_take_append_cons_drop, if_pos h]

/-- `operator[](size_type)` on a null value or an array. -/
theorem index_step {cap i : Nat} {v : Value} {l : List Value} (hc : cap < 2 ^ 63) (hv : asArray v = some l)
    (hl : l.length ≤ cap) (hi : i < cap) (f : List Value → Value × Ret) :
    withIndex cap v i f = f (padded l (i + 1)) := by
  unfold withIndex
  rw [hv]
  simp only [growTo_ok hc hl hi, if_true]

theorem seq_index {cap i : Nat} {v : Value} {l : List Value} (hc : cap < 2 ^ 63) (hv : asArray v = some l)
    (hl : l.length ≤ cap) (hi : i < cap) :
    (∃ x, (padded l (i + 1))[i]? = some x ∧ step cap v (.subIdx i) = (.arr (padded l (i + 1)), .val x)) ∧
    ∀ x, ∃ a y b, padded l (i + 1) = a ++ y :: b ∧ a.length = i ∧
      step cap v (.setIdx i x) = (.arr (a ++ x :: b), .unit) := by
  constructor
  · obtain ⟨x, h1, h2⟩ := padded_get (l := l) (i := i)
    refine ⟨x, h1, ?_⟩
    simp only [step]
    rw [index_step hc hv hl hi, h2]
  · intro x
    have hlt : i < (padded l (i + 1)).length := by rw [padded_length]; omega
    obtain ⟨a, y, b, h1, h2, h3, h4⟩ := split_at hlt
    refine ⟨a, y, b, h1, h2, ?_⟩
    simp only [step]
    rw [index_step hc hv hl hi]
    show (Value.arr ((padded l (i + 1)).set i x), Ret.unit) = _
    rw [setAt hlt, h3, h4]

theorem arr_step {cap : Nat} {l : List Value} (hc : cap < 2 ^ 63) (hl : l.length ≤ cap) {op : Op}
    (ho : op.Ok) (hd : ¬ Deviates cap (.arr l) op) :
    ExpectedSeq cap (abs (.arr l)) l op (abs (step cap (.arr l) op).1) (step cap (.arr l) op).2 ∧
      Fits cap (step cap (.arr l) op).1 := by
  cases op with
  | size => exact ⟨⟨rfl, rfl⟩, hl⟩
  | empty =>
    refine ⟨⟨rfl, ?_⟩, hl⟩
    cases l with
    | nil => exact Or.inl ⟨rfl, rfl⟩
    | cons x l => exact Or.inr ⟨rfl, by simp⟩
  | atIdx i =>
    simp only [step]
    cases h : l[i]? with
    | none => exact ⟨Or.inr ⟨by simpa using h, rfl, rfl⟩, hl⟩
    | some x => exact ⟨Or.inl ⟨x, h, rfl, rfl⟩, hl⟩
  | atKey raw => exact ⟨⟨rfl, rfl⟩, hl⟩
  | subKey raw => exact ⟨⟨rfl, rfl⟩, hl⟩
  | setKey raw x => exact ⟨⟨rfl, rfl⟩, hl⟩
  | contains raw => exact ⟨⟨rfl, rfl⟩, hl⟩
  | insert raw x => exact ⟨⟨rfl, rfl⟩, hl⟩
  | insertOrAssign raw x => exact ⟨⟨rfl, rfl⟩, hl⟩
  | eraseKey raw => exact ⟨⟨rfl, rfl⟩, hl⟩
  | merge o => exact ⟨⟨rfl, rfl⟩, hl⟩
  | subIdx i =>
    have hi64 : i < 2 ^ 64 := ho
    by_cases hi : i < cap
    · obtain ⟨⟨x, h1, h2⟩, _⟩ := seq_index (v := .arr l) hc rfl hl hi
      rw [h2]
      refine ⟨Or.inl ⟨hi, rfl, x, h1, rfl⟩, ?_⟩
      show (padded l (i + 1)).length ≤ cap
      rw [padded_length]; omega
    · have hne : i ≠ 2 ^ 64 - 1 := fun e => hd (Or.inr ⟨⟨l, rfl⟩, e⟩)
      have := growTo_fail hl (Nat.le_of_not_lt hi) (by omega)
      simp only [step, withIndex, asArray, this, Bool.false_eq_true, if_false]
      exact ⟨Or.inr ⟨by omega, rfl, rfl⟩, hl⟩
  | setIdx i x =>
    have hi64 : i < 2 ^ 64 := ho
    by_cases hi : i < cap
    · obtain ⟨_, h⟩ := seq_index (v := .arr l) hc rfl hl hi
      obtain ⟨a, y, b, h1, h2, h3⟩ := h x
      rw [h3]
      refine ⟨Or.inl ⟨hi, rfl, a, y, b, h1, h2, rfl⟩, ?_⟩
      show (a ++ x :: b).length ≤ cap
      have := congrArg List.length h1
      rw [padded_length] at this
      simp only [List.length_append, List.length_cons] at this ⊢
      omega
    · have hne : i ≠ 2 ^ 64 - 1 := fun e => hd (Or.inr ⟨⟨l, rfl⟩, e⟩)
      have := growTo_fail hl (Nat.le_of_not_lt hi) (by omega)
      simp only [step, withIndex, asArray, this, Bool.false_eq_true, if_false]
      exact ⟨Or.inr ⟨by omega, rfl, rfl⟩, hl⟩
  | eraseIdx i =>
    simp only [step, eraseAt]
    by_cases hi : i < l.length
    · rw [if_pos hi]
      obtain ⟨a, y, b, h1, h2, h3, h4⟩ := split_at hi
      have h5 : l.eraseIdx i = a ++ b := by rw [List.eraseIdx_eq_take_drop_succ, h3, h4]
      rw [h5]
      refine ⟨Or.inl ⟨a, y, b, h1, h2, rfl, rfl⟩, ?_⟩
      show (a ++ b).length ≤ cap
      have := congrArg List.length h1
      simp only [List.length_append, List.length_cons] at this ⊢
      omega
    · rw [if_neg hi]; exact ⟨Or.inr ⟨by omega, rfl, rfl⟩, hl⟩
  | insertAt i x =>
    simp only [step]
    by_cases hi : i ≤ l.length ∧ l.length < cap
    · rw [if_pos hi]
      refine ⟨Or.inl ⟨l.take i, l.drop i, (List.take_append_drop i l).symm, by simp; omega, hi.2, rfl, rfl⟩, ?_⟩
      show (l.take i ++ x :: l.drop i).length ≤ cap
      simp only [List.length_append, List.length_cons, List.length_take, List.length_drop]; omega
    · rw [if_neg hi]; exact ⟨Or.inr ⟨by omega, rfl, rfl⟩, hl⟩
  | pushBack x =>
    simp only [step, asArray]
    by_cases hi : l.length < cap
    · rw [if_pos hi]
      exact ⟨Or.inl ⟨hi, rfl, rfl⟩, by
        show (l ++ [x]).length ≤ cap
        simp only [List.length_append, List.length_cons, List.length_nil]; omega⟩
    · rw [if_neg hi]; exact ⟨Or.inr ⟨by omega, rfl, rfl⟩, hl⟩
  | popBack =>
    have hst : step cap (.arr l) .popBack = eraseAt ((l.length + 2 ^ 64 - 1) % 2 ^ 64) (.arr l) := by
      simp only [step, sizeOfJson]
    rw [hst]
    simp only [eraseAt]
    by_cases hn : l = []
    · have hz : l.length = 0 := by rw [hn]; rfl
      have hm : (l.length + 2 ^ 64 - 1) % 2 ^ 64 = 2 ^ 64 - 1 := by omega
      rw [hm, if_neg (by omega)]
      exact ⟨Or.inr ⟨hn, by rw [hn], rfl⟩, hl⟩
    · have hpos := List.length_pos_iff.mpr hn
      have hm : (l.length + 2 ^ 64 - 1) % 2 ^ 64 = l.length - 1 := by omega
      rw [hm, if_pos (by omega)]
      obtain ⟨a, y, b, h1, h2, h3, h4⟩ := split_at (l := l) (i := l.length - 1) (by omega)
      have hb : b = [] := by rw [h4]; apply List.drop_eq_nil_of_le; omega
      have h5 : l.eraseIdx (l.length - 1) = a := by
        rw [List.eraseIdx_eq_take_drop_succ, ← h3, ← h4, hb, List.append_nil]
      rw [h5]
      refine ⟨Or.inl ⟨a, y, by rw [hb] at h1; exact h1, rfl, rfl⟩, ?_⟩
      show a.length ≤ cap
      omega
  | resize n =>
    simp only [step, resizeJson, resizeTo]
    by_cases h1 : n ≤ l.length
    · rw [if_pos h1]
      refine ⟨Or.inl ⟨by omega, ?_, rfl⟩, ?_⟩
      · show Abs.seq (l.take n) = _
        have : n - l.length = 0 := by omega
        unfold padded; rw [this]; simp
      · show (l.take n).length ≤ cap
        simp only [List.length_take]; omega
    · rw [if_neg h1]
      by_cases h2 : n ≤ cap
      · rw [if_pos h2]
        refine ⟨Or.inl ⟨h2, ?_, rfl⟩, ?_⟩
        · show Abs.seq (l ++ List.replicate (n - l.length) .null) = _
          rw [List.take_of_length_le (by rw [padded_length]; omega)]; rfl
        · show (l ++ List.replicate (n - l.length) Value.null).length ≤ cap
          simp only [List.length_append, List.length_replicate]; omega
      · rw [if_neg h2]; exact ⟨Or.inr ⟨by omega, rfl, rfl⟩, hl⟩
  | clear => exact ⟨⟨rfl, rfl⟩, by show (0 : Nat) ≤ cap; omega⟩

theorem null_step {cap : Nat} (hc : cap < 2 ^ 63) {op : Op} (ho : op.Ok)
    (hd : ¬ Deviates cap .null op) :
    Expected cap (abs .null) op (abs (step cap .null op).1) (step cap .null op).2 ∧
      Fits cap (step cap .null op).1 := by
  have hs : SortedKeys [] := by simp [SortedKeys]
  cases op with
  | size => exact ⟨⟨rfl, rfl⟩, trivial⟩
  | empty => exact ⟨⟨rfl, rfl⟩, trivial⟩
  | clear => exact ⟨⟨rfl, rfl⟩, trivial⟩
  | atIdx i => exact ⟨⟨rfl, rfl⟩, trivial⟩
  | atKey raw => exact ⟨⟨rfl, rfl⟩, trivial⟩
  | contains raw => exact ⟨⟨rfl, rfl⟩, trivial⟩
  | insert raw x => exact ⟨⟨rfl, rfl⟩, trivial⟩
  | insertOrAssign raw x => exact ⟨⟨rfl, rfl⟩, trivial⟩
  | eraseKey raw => exact ⟨⟨rfl, rfl⟩, trivial⟩
  | eraseIdx i => exact ⟨⟨rfl, rfl⟩, trivial⟩
  | insertAt i x => exact ⟨⟨rfl, rfl⟩, trivial⟩
  | popBack => exact ⟨⟨rfl, rfl⟩, trivial⟩
  | resize n => exact ⟨⟨rfl, rfl⟩, trivial⟩
  | subKey raw =>
    cases hk : convertToString raw with
    | none => exact absurd ⟨rfl, convert_none ho hk⟩ hd
    | some k =>
      simp only [step, withSubscript, asObject, hk]
      obtain ⟨h1, h2, h3⟩ := subscript_spec hs k
      exact ⟨Or.inl ⟨k, convert_some ho hk, h1, by rw [h2]; rfl⟩, h3⟩
  | setKey raw x =>
    cases hk : convertToString raw with
    | none => exact absurd ⟨rfl, convert_none ho hk⟩ hd
    | some k =>
      simp only [step, withSubscript, asObject, hk]
      obtain ⟨h1, h3⟩ := setKey_spec hs k x
      exact ⟨Or.inl ⟨k, convert_some ho hk, h1, rfl⟩, h3⟩
  | merge o =>
    cases o with
    | obj m' =>
      have hm' : SortedKeys m' := ho
      refine ⟨⟨fun k => lookup k m', fun k x => lookup_iff hm' k x, ?_, rfl⟩, sorted_merge hs⟩
      exact map_eq (fun k => lookup_merge hs hm' k)
    | _ => exact absurd ⟨rfl, by intro m; simp⟩ hd
  | subIdx i =>
    by_cases hi : i < cap
    · obtain ⟨⟨x, h1, h2⟩, _⟩ := seq_index (v := .null) (l := []) hc rfl (by simp) hi
      rw [h2]
      refine ⟨Or.inl ⟨hi, rfl, x, h1, rfl⟩, ?_⟩
      show (padded [] (i + 1)).length ≤ cap
      rw [padded_length]; simp only [List.length_nil]; omega
    · exact absurd (Or.inl ⟨rfl, by omega⟩) hd
  | setIdx i x =>
    by_cases hi : i < cap
    · obtain ⟨_, h⟩ := seq_index (v := .null) (l := []) hc rfl (by simp) hi
      obtain ⟨a, y, b, h1, h2, h3⟩ := h x
      rw [h3]
      refine ⟨Or.inl ⟨hi, rfl, a, y, b, h1, h2, rfl⟩, ?_⟩
      show (a ++ x :: b).length ≤ cap
      have := congrArg List.length h1
      rw [padded_length] at this
      simp only [List.length_append, List.length_cons, List.length_nil] at this ⊢
      omega
    · exact absurd (Or.inl ⟨rfl, by omega⟩) hd
  | pushBack x =>
    simp only [step, asArray]
    by_cases hi : ([] : List Value).length < cap
    · rw [if_pos hi]
      exact ⟨Or.inl ⟨hi, rfl, rfl⟩, hi⟩
    · rw [if_neg hi]; exact ⟨Or.inr ⟨Nat.le_of_not_lt hi, rfl, rfl⟩, trivial⟩

theorem str_step {cap : Nat} {t : List Nat} {op : Op} :
    Expected cap (abs (.str t)) op (abs (step cap (.str t) op).1) (step cap (.str t) op).2 ∧
      Fits cap (step cap (.str t) op).1 := by
  cases op with
  | resize n =>
    simp only [step, resizeJson, resizeStr]
    by_cases h1 : n ≤ t.length
    · rw [if_pos h1]
      refine ⟨Or.inl ⟨t, rfl, by omega, rfl, ?_⟩, trivial⟩
      have : n - t.length = 0 := by omega
      rw [this]; simp [abs]
    · rw [if_neg h1]
      by_cases h2 : n ≤ cap
      · rw [if_pos h2]
        refine ⟨Or.inl ⟨t, rfl, by omega, rfl, ?_⟩, trivial⟩
        rw [List.take_of_length_le (by simp only [List.length_append, List.length_replicate]; omega)]
        rfl
      · rw [if_neg h2]
        refine ⟨Or.inr ⟨?_, rfl, rfl⟩, trivial⟩
        intro t' e
        simp only [Value.str.injEq] at e
        subst e; omega
  | clear => exact ⟨⟨rfl, rfl⟩, trivial⟩
  | _ => exact ⟨⟨rfl, rfl⟩, trivial⟩

theorem scalar_step {cap : Nat} {v : Value} (hv : abs v = .other v) (hs : ∀ t, v ≠ .str t) {op : Op} :
    Expected cap (abs v) op (abs (step cap v op).1) (step cap v op).2 ∧ Fits cap (step cap v op).1 := by
  cases v with
  | null => simp [abs] at hv
  | obj m => simp [abs] at hv
  | arr l => simp [abs] at hv
  | str t => exact absurd rfl (hs t)
  | _ =>
    cases op with
    | resize n => exact ⟨Or.inr ⟨by intro t e; simp at e, rfl, rfl⟩, trivial⟩
    | _ => exact ⟨⟨rfl, rfl⟩, trivial⟩

theorem step_expected {cap : Nat} (hc : cap < 2 ^ 63) {v : Value} (hv : Fits cap v) {op : Op}
    (ho : op.Ok) (hd : ¬ Deviates cap v op) :
    Expected cap (abs v) op (abs (step cap v op).1) (step cap v op).2 ∧ Fits cap (step cap v op).1 := by
  cases v with
  | null => exact null_step hc ho hd
  | obj m =>
    have h := obj_step (cap := cap) hv ho
    rw [show (fun k => lookup k m) = fun k => valueAt k m from funext fun k => (valueAt_eq k m).symm] at h
    exact h
  | arr l => exact arr_step hc hv ho hd
  | str t => exact str_step
  | bool b => exact scalar_step rfl (by simp)
  | int i => exact scalar_step rfl (by simp)
  | uint n => exact scalar_step rfl (by simp)
  | flt f => exact scalar_step rfl (by simp)

/-- No call of the history deviates, in the state it is made in. -/
def NoDeviation (cap : Nat) : Value → List Op → Prop
  | _, [] => True
  | v, o :: os => ¬ Deviates cap v o ∧ NoDeviation cap (step cap v o).1 os

theorem run_expected {cap : Nat} (hc : cap < 2 ^ 63) : ∀ (ops : List Op) (v : Value), Fits cap v →
    (∀ o ∈ ops, o.Ok) → NoDeviation cap v ops →
    History cap (abs v) ops (abs (run cap v ops).1) (run cap v ops).2 := by
  intro ops
  induction ops with
  | nil => intro v _ _ _; exact .nil
  | cons o os ih =>
    intro v hv ho hd
    obtain ⟨h1, h2⟩ := step_expected hc hv (ho o List.mem_cons_self) hd.1
    exact .cons h1 (ih _ h2 (fun x hx => ho x (List.mem_cons_of_mem _ hx)) hd.2)

end Verif.Json
