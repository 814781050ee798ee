import Verif.Json.ConvertProps
import Verif.Json.Canon

/-!
# C93: every JSON value a program can build is well formed, and can be written and read back
-/

namespace Verif.Json

open Verif.Unicode (WellFormed8)

/-! ## Specification -/

/-- The JSON arguments of a call. -/
def Op.args : Op → List Value
  | .setIdx _ v => [v]
  | .setKey _ v => [v]
  | .insert _ v => [v]
  | .insertOrAssign _ v => [v]
  | .insertAt _ v => [v]
  | .pushBack v => [v]
  | .merge v => [v]
  | _ => []

/-- The key argument of a call. -/
def Op.rawKey : Op → List Nat
  | .atKey r => r
  | .subKey r => r
  | .setKey r _ => r
  | .contains r => r
  | .insert r _ => r
  | .insertOrAssign r _ => r
  | .eraseKey r => r
  | _ => []

/-- The call that can make a string ill-formed: it shortens one. -/
def Cuts (v : Value) : Op → Prop
  | .resize n => ∃ s, v = .str s ∧ n < s.length
  | _ => False

/-- What a program can build: by the constructors, by the parser, by calls of the member functions
(other than shortening a string), and by copying an element out. Changing a nested element in
place is copying it out, changing the copy, and assigning it with `setIdx` or `setKey`. -/
inductive Built (io : FloatIO) (cap : Nat) : Value → Prop
  | null : Built io cap .null
  | bool (b : Bool) : Built io cap (.bool b)
  | int (i : Int) : -(2 ^ 63) ≤ i → i < 2 ^ 63 → Built io cap (.int i)
  | uint (n : Nat) : n < 2 ^ 64 → Built io cap (.uint n)
  | flt (f : Flt) : Built io cap (.flt f)
  | str (raw s : List Nat) : (∀ b ∈ raw, b < 256) → convertToString raw = some s → Built io cap (.str s)
  | arr (l : List Value) : (∀ v ∈ l, Built io cap v) → Built io cap (ofArr l)
  | init (l : List Value) (v : Value) : (∀ x ∈ l, Built io cap x) → initList l = some v → Built io cap v
  | obj (es m : List (List Nat × Value)) : (∀ e ∈ es, ∀ b ∈ e.1, b < 256) → (∀ e ∈ es, Built io cap e.2) →
      ofMap es = some m → Built io cap (.obj m)
  | parse (ft : Features) (text : List Nat) (v : Value) : (∀ b ∈ text, b < 256) →
      parse io ft text = some v → Built io cap v
  | call (v : Value) (o : Op) : Built io cap v → (∀ a ∈ o.args, Built io cap a) → (∀ b ∈ o.rawKey, b < 256) →
      ¬ Cuts v o → Built io cap (step cap v o).1
  | result (v : Value) (o : Op) (w : Value) : Built io cap v → (∀ b ∈ o.rawKey, b < 256) →
      (step cap v o).2 = .val w → Built io cap w

/-! ## Proof -/

theorem wfElems_iff : ∀ l : List Value, WFElems l ↔ ∀ v ∈ l, v.WF := by
  intro l
  induction l with
  | nil => simp [WFElems]
  | cons v l ih => simp only [WFElems, ih, List.mem_cons, forall_eq_or_imp]

theorem convert_wf {raw s : List Nat} (hb : ∀ b ∈ raw, b < 256) (h : convertToString raw = some s) :
    WellFormed8 s := chars_wf ((convertToString_iff raw s hb).1 h)

theorem wf_obj_iff (m : List (List Nat × Value)) :
    (Value.obj m).WF ↔ SortedKeys m ∧ ∀ p ∈ m, WellFormed8 p.1 ∧ p.2.WF := by
  rw [← wfMembers_iff]; rfl

theorem mem_insertNew {k : List Nat} {v : Value} : ∀ {m : List (List Nat × Value)} {p : List Nat × Value},
    p ∈ insertNew k v m → p = (k, v) ∨ p ∈ m := by
  intro m
  induction m with
  | nil => intro p h; simp only [insertNew, List.mem_singleton] at h; exact Or.inl h
  | cons q m ih =>
    obtain ⟨k', v'⟩ := q
    intro p h
    rw [insertNew] at h
    split at h
    · rcases List.mem_cons.1 h with h | h
      · exact Or.inl h
      · exact Or.inr h
    · split at h
      · rcases List.mem_cons.1 h with h | h
        · exact Or.inr (h ▸ List.mem_cons_self)
        · rcases ih h with h | h
          · exact Or.inl h
          · exact Or.inr (List.mem_cons_of_mem _ h)
      · exact Or.inr h

theorem wf_insertNew {m : List (List Nat × Value)} {k : List Nat} {v : Value} (hm : (Value.obj m).WF)
    (hk : WellFormed8 k) (hv : v.WF) : (Value.obj (insertNew k v m)).WF := by
  rw [wf_obj_iff] at *
  refine ⟨sorted_insertNew hm.1 k v, ?_⟩
  intro p hp
  rcases mem_insertNew hp with rfl | hp
  · exact ⟨hk, hv⟩
  · exact hm.2 p hp

theorem wf_insertOrAssign {m : List (List Nat × Value)} {k : List Nat} {v : Value} (hm : (Value.obj m).WF)
    (hk : WellFormed8 k) (hv : v.WF) : (Value.obj (insertOrAssign k v m)).WF := by
  rw [wf_obj_iff] at *
  refine ⟨sorted_insert hm.1, ?_⟩
  rintro ⟨k', v'⟩ hp
  rcases (mem_insert hm.1 k' v').1 hp with ⟨rfl, rfl⟩ | ⟨_, hp⟩
  · exact ⟨hk, hv⟩
  · exact hm.2 _ hp

theorem wf_eraseEntry {m : List (List Nat × Value)} {k : List Nat} (hm : (Value.obj m).WF) :
    (Value.obj (eraseEntry k m)).WF := by
  rw [wf_obj_iff] at *
  exact ⟨sorted_erase hm.1, fun p hp => hm.2 p (mem_eraseEntry hp)⟩

theorem wf_mergeInto : ∀ {o m : List (List Nat × Value)}, (Value.obj m).WF → (Value.obj o).WF →
    (Value.obj (mergeInto m o)).WF := by
  intro o
  induction o with
  | nil => intro m hm _; exact hm
  | cons p o ih =>
    obtain ⟨k, v⟩ := p
    intro m hm ho
    have ho' := (wf_obj_iff _).1 ho
    have h1 := ho'.2 (k, v) (by simp)
    rw [mergeInto]
    refine ih (wf_insertNew hm h1.1 h1.2) ((wf_obj_iff _).2 ⟨(List.pairwise_cons.1 ho'.1).2, ?_⟩)
    intro p hp; exact ho'.2 p (List.mem_cons_of_mem _ hp)

theorem wf_empty : (Value.obj []).WF := (wf_obj_iff _).2 ⟨List.Pairwise.nil, by simp⟩

theorem wf_asObject {v : Value} {m : List (List Nat × Value)} (h : asObject v = some m) (hv : v.WF) :
    (Value.obj m).WF := by
  cases v with
  | null => simp only [asObject, Option.some.injEq] at h; subst h; exact wf_empty
  | obj m' => simp only [asObject, Option.some.injEq] at h; subst h; exact hv
  | _ => simp [asObject] at h

theorem wf_asArray {v : Value} {l : List Value} (h : asArray v = some l) (hv : v.WF) : ∀ x ∈ l, x.WF := by
  cases v with
  | null => simp only [asArray, Option.some.injEq] at h; subst h; simp
  | arr l' =>
    simp only [asArray, Option.some.injEq] at h; subst h
    exact (wfElems_iff _).1 hv
  | _ => simp [asArray] at h

theorem wf_arr {l : List Value} (h : ∀ x ∈ l, x.WF) : (Value.arr l).WF := (wfElems_iff l).2 h

theorem wf_resizeTo {cap n : Nat} {l l' : List Value} (h : resizeTo cap n l = some l') (hl : ∀ x ∈ l, x.WF) :
    ∀ x ∈ l', x.WF := by
  unfold resizeTo at h
  split at h
  · simp only [Option.some.injEq] at h; subst h
    intro x hx; exact hl x (List.mem_of_mem_take hx)
  · split at h
    · simp only [Option.some.injEq] at h; subst h
      intro x hx
      rcases List.mem_append.1 hx with hx | hx
      · exact hl x hx
      · rw [(List.mem_replicate.1 hx).2]; exact trivial
    · cases h

theorem wf_growTo {cap i : Nat} {l : List Value} (hl : ∀ x ∈ l, x.WF) : ∀ x ∈ (growTo cap i l).1, x.WF := by
  unfold growTo
  split
  · exact hl
  · split
    · exact hl
    · rename_i l' h; exact wf_resizeTo h hl

theorem wf_withKey {v : Value} {raw : List Nat} {f : List (List Nat × Value) → List Nat → Value × Ret}
    (hv : v.WF) (hr : ∀ b ∈ raw, b < 256)
    (hf : ∀ m k, v = .obj m → WellFormed8 k → (f m k).1.WF) : (withKey v raw f).1.WF := by
  unfold withKey
  split
  · split
    · rename_i k hk; exact hf _ k rfl (convert_wf hr hk)
    · exact hv
  · exact hv

theorem wf_withSubscript {v : Value} {raw : List Nat} {f : List (List Nat × Value) → List Nat → Value × Ret}
    (hv : v.WF) (hr : ∀ b ∈ raw, b < 256)
    (hf : ∀ m k, (Value.obj m).WF → WellFormed8 k → (f m k).1.WF) : (withSubscript v raw f).1.WF := by
  unfold withSubscript
  split
  · exact hv
  · rename_i m hm
    split
    · rename_i k hk; exact hf _ k (wf_asObject hm hv) (convert_wf hr hk)
    · exact wf_asObject hm hv

theorem wf_withIndex {cap : Nat} {v : Value} {i : Nat} {f : List Value → Value × Ret}
    (hv : v.WF) (hf : ∀ l, (∀ x ∈ l, x.WF) → (f l).1.WF) : (withIndex cap v i f).1.WF := by
  unfold withIndex
  split
  · exact hv
  · rename_i l hl
    have := wf_growTo (cap := cap) (i := i) (wf_asArray hl hv)
    split
    · exact hf _ this
    · exact wf_arr this

theorem wf_eraseAt {i : Nat} {v : Value} (hv : v.WF) : (eraseAt i v).1.WF := by
  unfold eraseAt
  split
  · split
    · exact wf_arr fun x hx => (wfElems_iff _).1 hv x (List.mem_of_mem_eraseIdx hx)
    · exact hv
  · exact hv

theorem wf8_zeros {s : List Nat} (h : WellFormed8 s) (n : Nat) : WellFormed8 (s ++ List.replicate n 0) := by
  have h0 : WellFormed8 (List.replicate n 0) := wf8_ascii _ (by intro b hb; rw [(List.mem_replicate.1 hb).2]; decide)
  obtain ⟨cps, h1, h2⟩ := (Verif.Unicode.wf8_iff s).1 h
  obtain ⟨cps', h3, h4⟩ := (Verif.Unicode.wf8_iff _).1 h0
  refine (Verif.Unicode.wf8_iff _).2 ⟨cps ++ cps', ?_, by rw [List.flatMap_append, ← h2, ← h4]⟩
  intro c hc
  rcases List.mem_append.1 hc with hc | hc
  · exact h1 c hc
  · exact h3 c hc

theorem wf_step {cap : Nat} {v : Value} {o : Op} (hv : v.WF) (ha : ∀ a ∈ o.args, a.WF)
    (hr : ∀ b ∈ o.rawKey, b < 256) (hc : ¬ Cuts v o) : (step cap v o).1.WF := by
  cases o with
  | size => exact hv
  | empty => exact hv
  | atIdx i =>
    simp only [step]
    split
    · split <;> exact hv
    · exact hv
  | atKey raw =>
    simp only [step]
    refine wf_withKey hv hr ?_
    intro m k _ _
    split <;> exact hv
  | subIdx i => exact wf_withIndex hv (fun l hl => wf_arr hl)
  | subKey raw =>
    refine wf_withSubscript hv hr (fun m k hm hk => ?_)
    exact wf_insertNew hm hk trivial
  | setIdx i x =>
    refine wf_withIndex hv (fun l hl => wf_arr ?_)
    intro y hy
    rcases List.mem_or_eq_of_mem_set hy with hy | rfl
    · exact hl y hy
    · exact ha y (by simp [Op.args])
  | setKey raw x =>
    refine wf_withSubscript hv hr (fun m k hm hk => ?_)
    exact wf_insertOrAssign (wf_insertNew hm hk trivial) hk (ha x (by simp [Op.args]))
  | contains raw => exact wf_withKey hv hr (fun m k _ _ => hv)
  | insert raw x =>
    refine wf_withKey hv hr (fun m k hm hk => ?_)
    exact wf_insertNew (hm ▸ hv) hk (ha x (by simp [Op.args]))
  | insertOrAssign raw x =>
    refine wf_withKey hv hr (fun m k hm hk => ?_)
    exact wf_insertOrAssign (hm ▸ hv) hk (ha x (by simp [Op.args]))
  | eraseKey raw => exact wf_withKey hv hr (fun m k hm _ => wf_eraseEntry (hm ▸ hv))
  | eraseIdx i => exact wf_eraseAt hv
  | insertAt pos x =>
    simp only [step]
    split
    · rename_i l
      split
      · refine wf_arr ?_
        have hl := (wfElems_iff l).1 hv
        intro y hy
        rcases List.mem_append.1 hy with hy | hy
        · exact hl y (List.mem_of_mem_take hy)
        · rcases List.mem_cons.1 hy with rfl | hy
          · exact ha y (by simp [Op.args])
          · exact hl y (List.mem_of_mem_drop hy)
      · exact hv
    · exact hv
  | pushBack x =>
    simp only [step]
    split
    · rename_i l hl
      split
      · refine wf_arr ?_
        intro y hy
        rcases List.mem_append.1 hy with hy | hy
        · exact wf_asArray hl hv y hy
        · rw [List.mem_singleton.1 hy]; exact ha x (by simp [Op.args])
      · exact hv
    · exact hv
  | popBack => exact wf_eraseAt hv
  | resize n =>
    simp only [step, resizeJson]
    split
    · split
      · rename_i l' h; exact wf_arr (wf_resizeTo h ((wfElems_iff _).1 hv))
      · exact hv
    · rename_i s
      split
      · rename_i s' h
        unfold resizeStr at h
        split at h
        · rename_i hn
          have : n = s.length := by
            rcases Nat.lt_or_ge n s.length with h' | h'
            · exact absurd ⟨s, rfl, h'⟩ hc
            · omega
          subst this
          simp only [List.take_length, Option.some.injEq] at h
          subst h; exact hv
        · split at h
          · simp only [Option.some.injEq] at h
            subst h; exact wf8_zeros hv _
          · cases h
      · exact hv
    · exact hv
  | clear =>
    cases v with
    | str s => exact WellFormed8.nil
    | obj m => exact wf_empty
    | arr l => exact wf_arr (by simp)
    | int i => exact ⟨by decide, by decide⟩
    | uint n => show 0 < 2 ^ 64; decide
    | _ => exact trivial
  | merge x =>
    simp only [step]
    split
    · exact hv
    · rename_i m hm
      split
      · exact wf_mergeInto (wf_asObject hm hv) (ha _ (by simp [Op.args]))
      · exact wf_asObject hm hv

theorem mem_of_lookup {k : List Nat} : ∀ {m : List (List Nat × Value)} {v : Value},
    lookup k m = some v → ∃ k', (k', v) ∈ m := by
  intro m
  induction m with
  | nil => intro v h; simp [lookup] at h
  | cons p m ih =>
    obtain ⟨k', v'⟩ := p
    intro v h
    rw [lookup] at h
    split at h
    · simp only [Option.some.injEq] at h; subst h; exact ⟨k', by simp⟩
    · obtain ⟨k2, h2⟩ := ih h
      exact ⟨k2, List.mem_cons_of_mem _ h2⟩

theorem wf_lookup {k : List Nat} {m : List (List Nat × Value)} {v : Value} (hm : (Value.obj m).WF)
    (h : lookup k m = some v) : v.WF := by
  obtain ⟨k', hk⟩ := mem_of_lookup h
  exact (((wf_obj_iff m).1 hm).2 _ hk).2

theorem wf_getD {l : List Value} (hl : ∀ x ∈ l, x.WF) (i : Nat) : (l.getD i .null).WF := by
  rw [List.getD_eq_getElem?_getD]
  cases h : l[i]? with
  | none => exact trivial
  | some x => exact hl x (List.mem_of_getElem? h)

theorem wf_result {cap : Nat} {v w : Value} {o : Op} (hv : v.WF) (hr : ∀ b ∈ o.rawKey, b < 256)
    (h : (step cap v o).2 = .val w) : w.WF := by
  cases o with
  | atIdx i =>
    simp only [step] at h
    split at h
    · rename_i l
      split at h
      · rename_i x hx
        simp only [Ret.val.injEq] at h; subst h
        exact (wfElems_iff l).1 hv _ (List.mem_of_getElem? hx)
      · cases h
    · cases h
  | atKey raw =>
    simp only [step, withKey] at h
    split at h
    · split at h
      · split at h
        · rename_i x hx
          simp only [Ret.val.injEq] at h; subst h
          exact wf_lookup hv hx
        · cases h
      · cases h
    · cases h
  | subIdx i =>
    simp only [step, withIndex] at h
    split at h
    · cases h
    · rename_i l hl
      split at h
      · simp only [Ret.val.injEq] at h; subst h
        exact wf_getD (wf_growTo (wf_asArray hl hv)) i
      · cases h
  | subKey raw =>
    simp only [step, withSubscript] at h
    split at h
    · cases h
    · rename_i m hm
      split at h
      · rename_i k hk
        simp only [Ret.val.injEq] at h; subst h
        simp only [subscript]
        have hw : (Value.obj (insertNew k .null m)).WF :=
          wf_insertNew (wf_asObject hm hv) (convert_wf hr hk) trivial
        cases hl : lookup k (insertNew k .null m) with
        | none => exact trivial
        | some x => exact wf_lookup hw hl
      · cases h
  | size => cases h
  | empty => cases h
  | setIdx i x =>
    simp only [step, withIndex] at h
    split at h
    · cases h
    · split at h <;> cases h
  | setKey raw x =>
    simp only [step, withSubscript] at h
    split at h
    · cases h
    · split at h <;> cases h
  | contains raw =>
    simp only [step, withKey] at h
    split at h
    · split at h <;> cases h
    · cases h
  | insert raw x =>
    simp only [step, withKey] at h
    split at h
    · split at h <;> cases h
    · cases h
  | insertOrAssign raw x =>
    simp only [step, withKey] at h
    split at h
    · split at h <;> cases h
    · cases h
  | eraseKey raw =>
    simp only [step, withKey] at h
    split at h
    · split at h <;> cases h
    · cases h
  | eraseIdx i =>
    simp only [step, eraseAt] at h
    split at h
    · split at h <;> cases h
    · cases h
  | insertAt pos x =>
    simp only [step] at h
    split at h
    · split at h <;> cases h
    · cases h
  | pushBack x =>
    simp only [step] at h
    split at h
    · split at h <;> cases h
    · cases h
  | popBack =>
    simp only [step, eraseAt] at h
    split at h
    · split at h <;> cases h
    · cases h
  | resize n =>
    simp only [step, resizeJson] at h
    split at h
    · split at h <;> cases h
    · split at h <;> cases h
    · cases h
  | clear => cases h
  | merge x =>
    simp only [step] at h
    split at h
    · cases h
    · split at h <;> cases h

theorem wf_ofMap : ∀ (es m0 m : List (List Nat × Value)), (∀ e ∈ es, ∀ b ∈ e.1, b < 256) →
    (∀ e ∈ es, e.2.WF) → (Value.obj m0).WF →
    es.foldl (fun acc e => match acc, convertToString e.1 with
      | some m, some k => some (insertNew k e.2 m)
      | _, _ => none) (some m0) = some m → (Value.obj m).WF := by
  intro es
  induction es with
  | nil => intro m0 m _ _ h0 h; simp only [List.foldl_nil, Option.some.injEq] at h; exact h ▸ h0
  | cons p es ih =>
    obtain ⟨k, v⟩ := p
    intro m0 m hb hv h0 h
    rw [List.foldl_cons] at h
    cases hk : convertToString k with
    | none =>
      simp only [hk] at h
      have : ∀ l : List (List Nat × Value), l.foldl (fun acc e => match acc, convertToString e.1 with
          | some m, some k => some (insertNew k e.2 m)
          | _, _ => none) none = none := by
        intro l; induction l with
        | nil => rfl
        | cons q l ih => rw [List.foldl_cons]; exact ih
      rw [this] at h; cases h
    | some k' =>
      simp only [hk] at h
      exact ih _ m (fun e he => hb e (List.mem_cons_of_mem _ he)) (fun e he => hv e (List.mem_cons_of_mem _ he))
        (wf_insertNew h0 (convert_wf (hb (k, v) (by simp)) hk) (hv (k, v) (by simp))) h

theorem addPair_none : ∀ l : List Value, l.foldl addPair none = none := by
  intro l; induction l with
  | nil => rfl
  | cons q l ih => rw [List.foldl_cons]; exact ih

theorem wf_addPair : ∀ (l : List Value) (m0 m : List (List Nat × Value)), (∀ x ∈ l, x.WF) →
    (Value.obj m0).WF → l.foldl addPair (some m0) = some m → (Value.obj m).WF := by
  intro l
  induction l with
  | nil => intro m0 m _ h0 h; simp only [List.foldl_nil, Option.some.injEq] at h; exact h ▸ h0
  | cons x l ih =>
    intro m0 m hx h0 h
    rw [List.foldl_cons] at h
    cases hs : addPair (some m0) x with
    | none => rw [hs, addPair_none] at h; cases h
    | some m1 =>
      rw [hs] at h
      refine ih m1 m (fun y hy => hx y (List.mem_cons_of_mem _ hy)) ?_ h
      have hw := hx x (by simp)
      unfold addPair at hs
      split at hs
      · rename_i m' l' hm'
        cases hm'
        have hl := (wfElems_iff l').1 hw
        split at hs
        · rename_i k w hk hw'
          simp only [Option.some.injEq] at hs
          subst hs
          exact wf_insertNew h0 (hl _ (List.mem_of_getElem? hk)) (hl _ (List.mem_of_getElem? hw'))
        · cases hs
      · cases hs

theorem wf_initList {l : List Value} {v : Value} (h : initList l = some v) (hl : ∀ x ∈ l, x.WF) : v.WF := by
  unfold initList at h
  split at h
  · rw [Option.map_eq_some_iff] at h
    obtain ⟨m, hm, rfl⟩ := h
    exact wf_addPair l [] m hl wf_empty hm
  · simp only [Option.some.injEq] at h
    subst h
    have := ofArr_eq l
    unfold ofArr at this
    rw [this]
    exact wf_arr hl

/-- C93: every value a program can build is well formed: strings and keys are UTF-8, entries are sorted
by key without duplicates, integers fit their types. -/
theorem json_built_wf (io : FloatIO) (cap : Nat) (v : Value) (h : Built io cap v) : v.WF := by
  induction h with
  | null => exact trivial
  | bool b => exact trivial
  | int i h1 h2 => exact ⟨h1, h2⟩
  | uint n h => exact h
  | flt f => exact trivial
  | str raw s hb h => exact convert_wf hb h
  | arr l _ ih => rw [ofArr_eq]; exact wf_arr ih
  | init l v _ h ih => exact wf_initList h ih
  | obj es m hb _ hm ih => exact wf_ofMap es [] m hb ih wf_empty hm
  | parse ft text v hb h =>
    exact jtext_wf ((parse_iff io ft text v hb).1 h).1
  | call v o _ _ hr hc ih1 ih2 => exact wf_step ih1 ih2 hr hc
  | result v o w _ hr h ih => exact wf_result ih hr h

/-- A well-formed object or array without floating-point numbers is written as one RFC 8259 text, and reading it gives an
equal value, with any parser features. -/
theorem json_wf_round_trip (io : FloatIO) (ft : Features) (v : Value) (hw : v.WF)
    (hf : v.All NotFloat) (hc : Container v ∨ ft.anyType = true) :
    ∃ t w, serialize io v = some t ∧ JText io rfc8259 t w ∧ parse io ft t = some w ∧ eq v w = true := by
  obtain ⟨t, w, h1, h2, h3, h4⟩ := serialize_rfc_partial io v hw (all_mono (fun _ h => notFloat_back h) v hf)
  obtain ⟨t', w', g1, g2, g3⟩ := json_roundtrip io ft v hw hf hc
  rw [h1] at g1
  cases g1
  refine ⟨t, w', h1, ?_, g2, g3⟩
  have hb : ∀ b ∈ t, b < 256 := fun b hb => (tb_text h2 b hb).1
  have e := (parse_iff io { ft with anyType := true } t w hb).2
    ⟨jtext_mono (rfc_le true ft.comments ft.trailingComma) (fun _ _ => trivial) h2, by simp⟩
  have e' := (parse_iff io { ft with anyType := true } t w' hb).2
    ⟨((parse_iff io ft t w' hb).1 g2).1, by simp⟩
  rw [e] at e'
  cases e'
  exact h2

/-- C93: an object or array a program built without floating-point numbers is written as one RFC 8259
text, and reading it gives an equal value, with any parser features. -/
theorem json_built_round_trip (io : FloatIO) (cap : Nat) (ft : Features) (v : Value) (h : Built io cap v)
    (hf : v.All NotFloat) (hc : Container v ∨ ft.anyType = true) :
    ∃ t w, serialize io v = some t ∧ JText io rfc8259 t w ∧ parse io ft t = some w ∧ eq v w = true :=
  json_wf_round_trip io ft v (json_built_wf io cap v h) hf hc

/-- C93: a value read from a text is written and read back as an equal value. -/
theorem json_parse_serialize_parse (io : FloatIO) (ft : Features) (text : List Nat) (v : Value)
    (hb : ∀ b ∈ text, b < 256) (h : parse io ft text = some v) (hf : v.All NotFloat) :
    ∃ t w, serialize io v = some t ∧ parse io ft t = some w ∧ eq v w = true := by
  have hc := ((parse_iff io ft text v hb).1 h).2
  rw [Bool.or_eq_true, isContainer_iff] at hc
  obtain ⟨t, w, h1, _, h2, h3⟩ := json_built_round_trip io 0 ft v (.parse ft text v hb h) hf hc
  exact ⟨t, w, h1, h2, h3⟩

/-- A program: build `{"a": [1, "x"]}` by calls. -/
example (io : FloatIO) : Built io 100 (step 100 .null (.setKey [0x61] (ofArr [.int 1, .str [0x78]]))).1 := by
  refine .call _ _ .null ?_ (by simp [Op.rawKey]) (by simp [Cuts])
  intro a ha
  simp only [Op.args, List.mem_singleton] at ha
  subst ha
  refine .arr _ ?_
  intro v hv
  simp only [List.mem_cons, List.not_mem_nil, or_false] at hv
  rcases hv with rfl | rfl
  · exact .int 1 (by decide) (by decide)
  · exact .str [0x78] [0x78] (by simp) (by decide +kernel)

/-- C93 does not hold of the call left out: shortening a string can leave half a character. -/
theorem json_built_cut_violated (cap : Nat) :
    ¬ (step cap (.str [0xc3, 0xa9]) (.resize 1)).1.WF := by
  have h : (step cap (.str [0xc3, 0xa9]) (.resize 1)).1 = .str [0xc3] := rfl
  rw [h]
  intro hw
  have : WellFormed8 [0xc3] := hw
  cases this with
  | one h _ => exact absurd h (by decide)

end Verif.Json
