import Verif.Json.MergeMove
import Verif.Json.MoreOpsProps

/-!
# C93, with all accessors, and with swaps and merges of containers
-/

namespace Verif.Json

open Verif.Unicode (WellFormed8)

/-! ## Specification -/

/-- The JSON arguments of a call. -/
def MoreOp.args : MoreOp → List Value
  | .old o => o.args
  | .setAtIdx _ v | .setAtKey _ v | .setFront v | .setBack v => [v]
  | .emplace _ (.json v) | .emplaceBack (.json v) => [v]
  | _ => []

/-- The calls that can make a string ill-formed. -/
def MoreCuts (v : Value) : MoreOp → Prop
  | .old o => Cuts v o
  | _ => False

/-- What a program can build: by the constructors, by the parser, by calls of the member functions (other than
shortening a string), by copying an element out, and by swapping or merging with containers, also when such a call
throws. -/
inductive Made (io : FloatIO) (cap : Nat) : Value → Prop
  | built (v : Value) : Built io cap v → Made io cap v
  | arr (l : List Value) : (∀ v ∈ l, Made io cap v) → Made io cap (ofArr l)
  | init (l : List Value) (v : Value) : (∀ x ∈ l, Made io cap x) → initList l = some v → Made io cap v
  | obj (es m : List (List Nat × Value)) : (∀ e ∈ es, ∀ b ∈ e.1, b < 256) → (∀ e ∈ es, Made io cap e.2) →
      ofMap es = some m → Made io cap (.obj m)
  | call (v : Value) (o : MoreOp) : Made io cap v → (∀ a ∈ o.args, Made io cap a) → o.Ok → ¬ MoreCuts v o →
      Made io cap (stepMore cap v o).1
  | result (v : Value) (o : MoreOp) (w : Value) : Made io cap v → (∀ a ∈ o.args, Made io cap a) → o.Ok → ¬ MoreCuts v o →
      (stepMore cap v o).2 = .val w → Made io cap w
  | swapString (v : Value) (s : List Nat) : Made io cap v → (∀ b ∈ s, b < 256) → Made io cap (swapString v s).1
  | swapArray (v : Value) (l : List Value) : Made io cap v → (∀ x ∈ l, Made io cap x) → Made io cap (swapArray v l).1
  | swapped (v : Value) (l : List Value) (w : Value) : Made io cap v → (∀ x ∈ l, Made io cap x) →
      w ∈ (swapArray v l).2.1 → Made io cap w
  | mergeValues (v : Value) (es : List (List Nat × Value)) : Made io cap v → (∀ e ∈ es, ∀ b ∈ e.1, b < 256) →
      (∀ e ∈ es, Made io cap e.2) → Made io cap (mergeWith some id v es).1
  | mergeStrings (v : Value) (es : List (List Nat × List Nat)) : Made io cap v → (∀ e ∈ es, ∀ b ∈ e.1, b < 256) →
      (∀ e ∈ es, ∀ b ∈ e.2, b < 256) →
      Made io cap (mergeWith (fun s => (convertToString s).map .str) (fun _ => []) v es).1

/-! ## Proof -/

theorem old_ok {o : Op} (h : o.Ok) : ∀ b ∈ o.rawKey, b < 256 := by
  cases o <;> first | exact h | (intro b hb; cases hb)

theorem arg_wf {a : Arg} (h : a.Ok) (hj : ∀ v, a = .json v → v.WF) {x : Value} (hx : a.construct = some x) : x.WF := by
  cases a with
  | json v => cases hx; exact hj x rfl
  | text raw =>
    obtain ⟨t, h1, h2⟩ := Option.map_eq_some_iff.1 hx
    subst h2
    exact convert_wf h h1

theorem wf_entry {m : List (List Nat × Value)} {p : Nat} {e : List Nat × Value} (hm : (Value.obj m).WF)
    (h : m[p]? = some e) : WellFormed8 e.1 ∧ e.2.WF := ((wf_obj_iff m).1 hm).2 e (List.mem_of_getElem? h)

theorem wf_assign {m : List (List Nat × Value)} {k : List Nat} {x : Value} (hm : (Value.obj m).WF) (hx : x.WF) :
    (Value.obj (assignEntry k x m)).WF := by
  rw [wf_obj_iff] at *
  refine ⟨sorted_keys (keys_assign k x m) hm.1, ?_⟩
  replace hm := hm.2
  induction m with
  | nil => intro p hp; cases hp
  | cons q m ih =>
    obtain ⟨k', v'⟩ := q
    intro p hp
    simp only [assignEntry] at hp
    split at hp
    · rcases List.mem_cons.1 hp with rfl | hp
      · exact ⟨(hm (k', v') (by simp)).1, hx⟩
      · exact hm p (List.mem_cons_of_mem _ hp)
    · rcases List.mem_cons.1 hp with rfl | hp
      · exact hm _ (by simp)
      · exact ih (fun y hy => hm y (List.mem_cons_of_mem _ hy)) p hp

theorem wf_setNth {m : List (List Nat × Value)} {p : Nat} {e : List Nat × Value} {x : Value} (hm : (Value.obj m).WF)
    (h : m[p]? = some e) (hx : x.WF) : (Value.obj (m.set p (e.1, x))).WF := by
  have he := wf_entry hm h
  rw [wf_obj_iff] at *
  refine ⟨sorted_keys (keys_nth (v := e.2) x h) hm.1, fun q hq => ?_⟩
  rcases List.mem_or_eq_of_mem_set hq with hq | rfl
  · exact hm.2 q hq
  · exact ⟨he.1, hx⟩

theorem wf_set {l : List Value} (hl : ∀ x ∈ l, x.WF) (i : Nat) {x : Value} (hx : x.WF) : ∀ y ∈ l.set i x, y.WF := by
  intro y hy
  rcases List.mem_or_eq_of_mem_set hy with hy | rfl
  · exact hl y hy
  · exact hx

theorem wf_atEndpoint {v : Value} (hv : v.WF) {last : Bool}
    {onMap : List (List Nat × Value) → Nat → List Nat × Value → Value × Ret} {onSeq : List Value → Nat → Value → Value × Ret}
    (h1 : ∀ m p e, v = .obj m → m[p]? = some e → (onMap m p e).1.WF ∧ ∀ w, (onMap m p e).2 = .val w → w.WF)
    (h2 : ∀ l p x, v = .arr l → l[p]? = some x → (onSeq l p x).1.WF ∧ ∀ w, (onSeq l p x).2 = .val w → w.WF) :
    (atEndpoint v last onMap onSeq).1.WF ∧ ∀ w, (atEndpoint v last onMap onSeq).2 = .val w → w.WF := by
  unfold atEndpoint
  split
  · split
    · rename_i h; exact h1 _ _ _ rfl h
    · exact ⟨hv, fun w hw => nomatch hw⟩
  · split
    · rename_i h; exact h2 _ _ _ rfl h
    · exact ⟨hv, fun w hw => nomatch hw⟩
  · exact ⟨hv, fun w hw => nomatch hw⟩

theorem wf_key_both {v : Value} {raw : List Nat} {f : List (List Nat × Value) → List Nat → Value × Ret}
    (hv : v.WF) (hf : ∀ m k, v = .obj m → (f m k).1.WF ∧ ∀ w, (f m k).2 = .val w → w.WF) :
    (withKey v raw f).1.WF ∧ ∀ w, (withKey v raw f).2 = .val w → w.WF := by
  unfold withKey
  split
  · split
    · exact hf _ _ rfl
    · exact ⟨hv, fun w hw => nomatch hw⟩
  · exact ⟨hv, fun w hw => nomatch hw⟩

theorem wf_more {cap : Nat} {v : Value} {o : MoreOp} (hv : v.WF) (ha : ∀ a ∈ o.args, a.WF) (ho : o.Ok)
    (hc : ¬ MoreCuts v o) : (stepMore cap v o).1.WF ∧ ∀ w, (stepMore cap v o).2 = .val w → w.WF := by
  cases o with
  | old o => exact ⟨wf_step hv ha (old_ok ho) hc, fun w hw => wf_result hv (old_ok ho) hw⟩
  | constIdx i =>
    exact ⟨wf_step (cap := cap) (o := .atIdx i) hv (fun a ha => nomatch ha) (fun b hb => nomatch hb) (fun h => h),
      fun w hw => wf_result (cap := cap) (o := .atIdx i) hv (fun b hb => nomatch hb) hw⟩
  | constKey raw =>
    exact ⟨wf_step (cap := cap) (o := .atKey raw) hv (fun a ha => nomatch ha) ho (fun h => h),
      fun w hw => wf_result (cap := cap) (o := .atKey raw) hv ho hw⟩
  | setAtIdx i x =>
    simp only [stepMore]
    split
    · split
      · exact ⟨wf_arr (wf_set ((wfElems_iff _).1 hv) i (ha x (by simp [MoreOp.args]))), fun w hw => nomatch hw⟩
      · exact ⟨hv, fun w hw => nomatch hw⟩
    · exact ⟨hv, fun w hw => nomatch hw⟩
  | setAtKey raw x =>
    refine wf_key_both hv fun m k e => ?_
    subst e
    split
    · exact ⟨wf_assign hv (ha x (by simp [MoreOp.args])), fun w hw => nomatch hw⟩
    · exact ⟨hv, fun w hw => nomatch hw⟩
  | front =>
    refine wf_atEndpoint hv (fun m p e he h => ?_) (fun l p x he h => ?_) <;> subst he <;> refine ⟨hv, fun w hw => ?_⟩ <;>
      injection hw with hw <;> subst hw
    · exact (wf_entry hv h).2
    · exact (wfElems_iff _).1 hv _ (List.mem_of_getElem? h)
  | back =>
    refine wf_atEndpoint hv (fun m p e he h => ?_) (fun l p x he h => ?_) <;> subst he <;> refine ⟨hv, fun w hw => ?_⟩ <;>
      injection hw with hw <;> subst hw
    · exact (wf_entry hv h).2
    · exact (wfElems_iff _).1 hv _ (List.mem_of_getElem? h)
  | setFront x =>
    have hx := ha x (by simp [MoreOp.args])
    refine wf_atEndpoint hv (fun m p e he h => ?_) (fun l p y he h => ?_) <;> subst he <;>
      refine ⟨?_, fun w hw => nomatch hw⟩
    · exact wf_setNth hv h hx
    · exact wf_arr (wf_set ((wfElems_iff _).1 hv) p hx)
  | setBack x =>
    have hx := ha x (by simp [MoreOp.args])
    refine wf_atEndpoint hv (fun m p e he h => ?_) (fun l p y he h => ?_) <;> subst he <;>
      refine ⟨?_, fun w hw => nomatch hw⟩
    · exact wf_setNth hv h hx
    · exact wf_arr (wf_set ((wfElems_iff _).1 hv) p hx)
  | count raw => exact wf_key_both hv fun m k _ => ⟨hv, fun w hw => nomatch hw⟩
  | find raw =>
    refine wf_key_both hv fun m k e => ?_
    subst e
    split
    · rename_i x hx
      refine ⟨hv, fun w hw => ?_⟩
      injection hw with hw
      subst hw
      exact wf_lookup hv hx
    · exact ⟨hv, fun w hw => nomatch hw⟩
  | emplace raw a =>
    have haw : ∀ v, a = .json v → v.WF := by rintro v rfl; exact ha v (by simp [MoreOp.args])
    constructor
    · refine wf_withSubscript hv ho.1 fun m k hm hk => ?_
      split
      · rename_i x hx; exact wf_insertNew hm hk (arg_wf ho.2 haw hx)
      · exact hm
    · intro w hw
      simp only [stepMore, withSubscript] at hw
      split at hw
      · cases hw
      · split at hw
        · split at hw <;> cases hw
        · cases hw
  | emplaceBack a =>
    have haw : ∀ v, a = .json v → v.WF := by rintro v rfl; exact ha v (by simp [MoreOp.args])
    simp only [stepMore]
    split
    · exact ⟨hv, fun w hw => nomatch hw⟩
    · rename_i l hl
      have hl' := wf_asArray hl hv
      split
      · rename_i x hx
        have hxw := arg_wf ho haw hx
        split
        · refine ⟨wf_arr fun y hy => ?_, fun w hw => ?_⟩
          · rcases List.mem_append.1 hy with hy | hy
            · exact hl' y hy
            · rw [List.mem_singleton.1 hy]; exact hxw
          · injection hw with hw; subst hw; exact hxw
        · exact ⟨wf_arr hl', fun w hw => nomatch hw⟩
      · exact ⟨wf_arr hl', fun w hw => nomatch hw⟩

theorem wf_mergeRef {α : Type} (toJson : α → Option Value) (gone : α → α) : ∀ (es : List (List Nat × α))
    (m : List (List Nat × Value)), (Value.obj m).WF → (∀ e ∈ es, ∀ b ∈ e.1, b < 256) →
    (∀ e ∈ es, ∀ y, toJson e.2 = some y → y.WF) → (Value.obj (mergeRef toJson gone m es).1).WF := by
  intro es
  induction es with
  | nil => intro m hm _ _; exact hm
  | cons e es ih =>
    obtain ⟨raw, x⟩ := e
    intro m hm hb hw
    have hb' := fun e he => hb e (List.mem_cons_of_mem _ he)
    have hw' := fun e he => hw e (List.mem_cons_of_mem _ he)
    simp only [mergeRef]
    split
    · exact hm
    · rename_i k hk
      split
      · exact ih m hm hb' hw'
      · split
        · exact hm
        · rename_i y hy
          exact ih _ (wf_insertNew hm (convert_wf (hb (raw, x) (by simp)) hk) (hw (raw, x) (by simp) y hy)) hb' hw'

theorem wf_mergeWith {α : Type} (toJson : α → Option Value) (gone : α → α) {v : Value} {es : List (List Nat × α)}
    (hv : v.WF) (hb : ∀ e ∈ es, ∀ b ∈ e.1, b < 256) (hw : ∀ e ∈ es, ∀ y, toJson e.2 = some y → y.WF) :
    (mergeWith toJson gone v es).1.WF := by
  unfold mergeWith
  split
  · exact hv
  · rename_i m hm
    exact wf_mergeRef toJson gone es m (wf_asObject hm hv) hb hw

theorem wf_swapArray {v : Value} {l : List Value} (hv : v.WF) (hl : ∀ x ∈ l, x.WF) :
    (swapArray v l).1.WF ∧ ∀ w ∈ (swapArray v l).2.1, w.WF := by
  by_cases h : ∃ m, v = .arr m
  · obtain ⟨m, rfl⟩ := h
    rw [(swap_array (.arr m) l).1 m rfl]
    exact ⟨wf_arr hl, (wfElems_iff _).1 hv⟩
  · rw [(swap_array v l).2 fun m e => h ⟨m, e⟩]
    exact ⟨hv, hl⟩

theorem wf_swapString {v : Value} {s : List Nat} (hv : v.WF) (hs : ∀ b ∈ s, b < 256) : (swapString v s).1.WF := by
  unfold swapString swapWith
  split
  · split
    · split
      · rename_i w hw
        obtain ⟨t, h1, h2⟩ := Option.map_eq_some_iff.1 hw
        subst h2
        exact convert_wf hs h1
      · exact hv
    · exact hv
  · exact hv

/-- C93: every value a program can build, also with the other accessors and with swaps and merges of containers, is well
formed: strings and keys are UTF-8, entries are sorted by key without duplicates, integers fit their types. -/
theorem json_made_wf (io : FloatIO) (cap : Nat) (v : Value) (h : Made io cap v) : v.WF := by
  induction h with
  | built v h => exact json_built_wf io cap v h
  | arr l _ ih => rw [ofArr_eq]; exact wf_arr ih
  | init l v _ h ih => exact wf_initList h ih
  | obj es m hb _ hm ih => exact wf_ofMap es [] m hb ih wf_empty hm
  | call v o _ _ ho hc ih1 ih2 => exact (wf_more ih1 ih2 ho hc).1
  | result v o w _ _ ho hc h ih1 ih2 => exact (wf_more ih1 ih2 ho hc).2 w h
  | swapString v s _ hs ih => exact wf_swapString ih hs
  | swapArray v l _ _ ih1 ih2 => exact (wf_swapArray ih1 ih2).1
  | swapped v l w _ _ hw ih1 ih2 => exact (wf_swapArray ih1 ih2).2 w hw
  | mergeValues v es _ hb _ ih1 ih2 =>
    exact wf_mergeWith some id ih1 hb fun e he y hy => by cases hy; exact ih2 e he
  | mergeStrings v es _ hb hs ih =>
    refine wf_mergeWith _ _ ih hb fun e he y hy => ?_
    obtain ⟨t, h1, h2⟩ := Option.map_eq_some_iff.1 hy
    subst h2
    exact convert_wf (hs e he) h1

/-- C93: such an object or array without floating-point numbers is written as one RFC 8259 text, and reading it gives an
equal value, with any parser features. -/
theorem json_made_round_trip (io : FloatIO) (cap : Nat) (ft : Features) (v : Value) (h : Made io cap v)
    (hf : v.All NotFloat) (hc : Container v ∨ ft.anyType = true) :
    ∃ t w, serialize io v = some t ∧ JText io rfc8259 t w ∧ parse io ft t = some w ∧ eq v w = true :=
  json_wf_round_trip io ft v (json_made_wf io cap v h) hf hc

/-- A program: `{"a": "x"}` by `emplace`, then merged with a map of strings, and its first value copied out. -/
example (io : FloatIO) : ∃ v, Made io 100 v ∧ v = .str [0x78] := by
  refine ⟨.str [0x78], .result (mergeWith (fun s => (convertToString s).map .str) (fun _ => [])
    (stepMore 100 .null (.emplace [0x61] (.text [0x78]))).1 [([0x61], [0x79])]).1 .front (.str [0x78]) ?_ ?_ trivial
    (fun h => h) ?_, rfl⟩
  · refine .mergeStrings _ _ (.call _ _ (.built _ .null) (by simp [MoreOp.args]) (by simp [MoreOp.Ok, Arg.Ok]) (fun h => h))
      (by simp) (by simp)
  · simp [MoreOp.args]
  · have h1 : convertToString [0x61] = some [0x61] := by decide +kernel
    have h2 : convertToString [0x78] = some [0x78] := by decide +kernel
    simp [stepMore, withSubscript, asObject, Arg.construct, h1, h2, insertNew, mergeWith, mergeRef, lookup, atEndpoint,
      endpoint]

end Verif.Json
