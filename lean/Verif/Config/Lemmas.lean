import Verif.Config.Spec
import Verif.Json.OpsLemmas

/-!
# Configurations: lemmas
-/

namespace Verif.Config

open Verif.Json (Value lookup subscript asObject SortedKeys lookup_insertNew sorted_insertNew)

/-- Null or a well-formed object. -/
def Shape (v : Value) : Prop := v = .null ∨ ∃ m, v = .obj m ∧ SortedKeys m

theorem sectionOf_obj (id : List Nat) (m : List (List Nat × Value)) :
    sectionOf id (.obj m) = (lookup id m).getD .null := by
  simp only [sectionOf, Verif.Json.valueAt_eq]

theorem section_spec {v : Value} (h : Shape v) (id : List Nat) :
    (section? id v).2 = sectionOf id v ∧ Shape (section? id v).1 ∧ ∀ k, sectionOf k (section? id v).1 = sectionOf k v := by
  rcases h with rfl | ⟨m, rfl, hm⟩
  · refine ⟨?_, .inr ⟨_, rfl, ?_⟩, fun k => ?_⟩
    · simp [section?, asObject, subscript, Verif.Json.insertNew, lookup, sectionOf]
    · exact sorted_insertNew List.Pairwise.nil id .null
    · show sectionOf k (.obj (Verif.Json.insertNew id .null [])) = .null
      rw [sectionOf_obj]
      rw [lookup_insertNew List.Pairwise.nil]
      split <;> rfl
  · refine ⟨?_, .inr ⟨_, rfl, sorted_insertNew hm id .null⟩, fun k => ?_⟩
    · show (lookup id (Verif.Json.insertNew id .null m)).getD .null = sectionOf id (.obj m)
      rw [sectionOf_obj]
      rw [lookup_insertNew hm]; simp
    · show sectionOf k (.obj (Verif.Json.insertNew id .null m)) = sectionOf k (.obj m)
      rw [sectionOf_obj, sectionOf_obj]
      rw [lookup_insertNew hm]
      split
      · rename_i e; subst e; rfl
      · rfl

/-! ## The map of configurations -/

/-- No identifier occurs twice. -/
def Keys (l : List (List Nat × Nat)) : Prop := (l.map (·.1)).Nodup

theorem find_iff {l : List (List Nat × Nat)} (h : Keys l) (id : List Nat) (n : Nat) : find id l = some n ↔ (id, n) ∈ l := by
  induction l with
  | nil => simp [find]
  | cons e l ih =>
    obtain ⟨k, n'⟩ := e
    have h' : k ∉ l.map (·.1) ∧ Keys l := by
      have := h; unfold Keys at this ⊢; rw [List.map_cons, List.nodup_cons] at this; exact this
    simp only [find]
    split
    · rename_i e
      subst e
      constructor
      · intro e; cases e; exact List.mem_cons_self
      · intro hm
        rcases List.mem_cons.mp hm with e | hm
        · cases e; rfl
        · exact absurd (List.mem_map.mpr ⟨_, hm, rfl⟩) h'.1
    · rename_i hne
      rw [ih h'.2]
      constructor
      · exact List.mem_cons_of_mem _
      · intro hm
        rcases List.mem_cons.mp hm with e | hm
        · cases e; exact absurd rfl hne
        · exact hm

theorem find_none {l : List (List Nat × Nat)} {id : List Nat} (h : find id l = none) : id ∉ l.map (·.1) := by
  induction l with
  | nil => simp
  | cons e l ih =>
    obtain ⟨k, n⟩ := e
    simp only [find] at h
    split at h
    · cases h
    · rename_i hne
      rw [List.map_cons, List.mem_cons]
      rintro (e | e)
      · exact hne e.symm
      · exact ih h e

theorem assign_keys {l : List (List Nat × Nat)} {id : List Nat} {n : Nat} :
    (assign id n l).map (·.1) = if id ∈ l.map (·.1) then l.map (·.1) else l.map (·.1) ++ [id] := by
  induction l with
  | nil => rfl
  | cons e l ih =>
    obtain ⟨k, n'⟩ := e
    simp only [assign]
    by_cases hk : k = id
    · rw [if_pos hk, if_pos (by simp [hk])]; rfl
    · rw [if_neg hk, List.map_cons, ih]
      by_cases hm : id ∈ l.map (·.1)
      · rw [if_pos hm, if_pos (by simp only [List.map_cons, List.mem_cons]; exact .inr hm)]; rfl
      · rw [if_neg hm, if_neg (by
          simp only [List.map_cons, List.mem_cons]
          rintro (e | e)
          · exact hk e.symm
          · exact hm e)]
        rfl

theorem keys_assign {l : List (List Nat × Nat)} (h : Keys l) (id : List Nat) (n : Nat) : Keys (assign id n l) := by
  unfold Keys
  rw [assign_keys]
  split
  · exact h
  · rename_i hm
    rw [List.nodup_append]
    exact ⟨h, by simp, fun a ha b hb => by simp at hb; subst hb; exact fun e => hm (e ▸ ha)⟩

theorem mem_assign {l : List (List Nat × Nat)} (h : Keys l) (id : List Nat) (n : Nat) (k : List Nat) (m : Nat) :
    (k, m) ∈ assign id n l ↔ (k = id ∧ m = n) ∨ (k ≠ id ∧ (k, m) ∈ l) := by
  induction l with
  | nil =>
    simp only [assign, List.mem_singleton, Prod.mk.injEq, List.not_mem_nil, and_false, or_false]
  | cons e l ih =>
    obtain ⟨k', m'⟩ := e
    have h' : k' ∉ l.map (·.1) ∧ Keys l := by
      have := h; unfold Keys at this ⊢; rw [List.map_cons, List.nodup_cons] at this; exact this
    simp only [assign]
    by_cases hk : k' = id
    · subst hk
      rw [if_pos rfl, List.mem_cons, List.mem_cons, Prod.mk.injEq, Prod.mk.injEq]
      constructor
      · rintro (e | e)
        · exact .inl e
        · refine .inr ⟨fun e' => ?_, .inr e⟩
          subst e'; exact h'.1 (List.mem_map.mpr ⟨_, e, rfl⟩)
      · rintro (e | ⟨e, e' | e'⟩)
        · exact .inl e
        · exact absurd e'.1 e
        · exact .inr e'
    · rw [if_neg hk, List.mem_cons, ih h'.2, List.mem_cons]
      constructor
      · rintro (e | e | e)
        · cases e; exact .inr ⟨hk, .inl rfl⟩
        · exact .inl e
        · exact .inr ⟨e.1, .inr e.2⟩
      · rintro (e | ⟨e, e' | e'⟩)
        · exact .inr (.inl e)
        · exact .inl e'
        · exact .inr (.inr ⟨e, e'⟩)

theorem keys_filter {l : List (List Nat × Nat)} (h : Keys l) (p : List Nat × Nat → Bool) : Keys (l.filter p) :=
  List.Sublist.nodup (List.Sublist.map _ List.filter_sublist) h

/-! ## Objects -/

theorem setValues_get (objs : List Obj) (n : Nat) (v : Value) (i : Nat) :
    (setValues objs n v)[i]? = if i = n then (objs[i]?).map (fun o => { o with values := v }) else objs[i]? := by
  unfold setValues
  rw [List.getElem?_modify]
  by_cases h : n = i
  · subst h; simp
  · rw [if_neg (fun e => h e.symm)]
    cases objs[i]? <;> simp [h]

/-- What `update` never changes of an object. -/
def core (o : Obj) : List Nat × Nat × Bool := (o.id, o.ty, o.live)

theorem fill_core (s : Manager) (n : Nat) (id : List Nat) (i : Nat) : ((s.fill n id).objs[i]?).map core = (s.objs[i]?).map core := by
  show ((setValues s.objs n _)[i]?).map core = _
  rw [setValues_get]
  split
  · cases s.objs[i]? <;> rfl
  · rfl

theorem fill_live (s : Manager) (n : Nat) (id : List Nat) (i : Nat) : (s.fill n id).isLive i = s.isLive i := by
  have h := fill_core s n id i
  unfold Manager.isLive
  cases h1 : (s.fill n id).objs[i]? <;> cases h2 : s.objs[i]? <;> rw [h1, h2] at h <;> simp [core] at h ⊢
  exact h.2.2

theorem refresh_core (l : List (List Nat × Nat)) : ∀ (s : Manager) (i : Nat), ((refresh s l).objs[i]?).map core = (s.objs[i]?).map core := by
  induction l with
  | nil => intro s i; rfl
  | cons e l ih =>
    intro s i
    obtain ⟨id, n⟩ := e
    simp only [refresh]
    split
    · rw [ih, fill_core]
    · rw [ih]

theorem refresh_values (l : List (List Nat × Nat)) : ∀ (s : Manager), Shape s.values →
    Shape (refresh s l).values ∧ ∀ k, sectionOf k (refresh s l).values = sectionOf k s.values := by
  induction l with
  | nil => intro s h; exact ⟨h, fun _ => rfl⟩
  | cons e l ih =>
    intro s h
    obtain ⟨id, n⟩ := e
    simp only [refresh]
    split
    · have hs := section_spec h id
      have := ih (s.fill n id) hs.2.1
      exact ⟨this.1, fun k => (this.2 k).trans (hs.2.2 k)⟩
    · exact ih s h

/-- The loop gives every live object in the list the section of its identifier. -/
theorem refresh_objs (l : List (List Nat × Nat)) : ∀ (s : Manager), Shape s.values →
    (∀ k n, (k, n) ∈ l → ∃ o, s.objs[n]? = some o ∧ o.id = k) → ∀ (i : Nat) (o : Obj), s.objs[i]? = some o → o.live = true →
      (o.id, i) ∈ l ∨ o.values = sectionOf o.id s.values →
      ∃ o', (refresh s l).objs[i]? = some o' ∧ core o' = core o ∧ o'.values = sectionOf o.id s.values := by
  induction l with
  | nil =>
    intro s _ _ i o ho _ h
    exact ⟨o, ho, rfl, h.resolve_left List.not_mem_nil⟩
  | cons e l ih =>
    intro s hs hl i o ho hlive h
    obtain ⟨id, n⟩ := e
    simp only [refresh]
    split
    · have hsec := section_spec hs id
      have hl' : ∀ k m, (k, m) ∈ l → ∃ o, (s.fill n id).objs[m]? = some o ∧ o.id = k := by
        intro k m hm
        obtain ⟨o, h1, h2⟩ := hl k m (List.mem_cons_of_mem _ hm)
        have hc := fill_core s n id m
        rw [h1] at hc
        cases hx : (s.fill n id).objs[m]? with
        | none => rw [hx] at hc; cases hc
        | some o' =>
          rw [hx] at hc
          have : o'.id = o.id := congrArg Prod.fst (Option.some.inj hc)
          exact ⟨o', rfl, by rw [this, h2]⟩
      have hval : ∀ k, sectionOf k (s.fill n id).values = sectionOf k s.values := hsec.2.2
      by_cases hin : i = n
      · subst hin
        have hid : o.id = id := by
          obtain ⟨o2, h1, h2⟩ := hl id i List.mem_cons_self
          rw [ho] at h1; cases h1; exact h2
        have hget : (s.fill i id).objs[i]? = some { o with values := sectionOf id s.values } := by
          show (setValues s.objs i _)[i]? = _
          rw [setValues_get, if_pos rfl, ho, hsec.1]; rfl
        obtain ⟨o', a1, a2, a3⟩ := ih (s.fill i id) hsec.2.1 hl' i _ hget hlive (.inr (by rw [hval]; exact congrArg (sectionOf · s.values) hid.symm))
        exact ⟨o', a1, a2, by rw [a3, hval]⟩
      · have hget : (s.fill n id).objs[i]? = some o := by
          show (setValues s.objs n _)[i]? = _
          rw [setValues_get, if_neg hin, ho]
        have h' : (o.id, i) ∈ l ∨ o.values = sectionOf o.id (s.fill n id).values := by
          rcases h with h | h
          · rcases List.mem_cons.mp h with e | h
            · exact absurd (congrArg Prod.snd e) hin
            · exact .inl h
          · exact .inr (by rw [hval]; exact h)
        obtain ⟨o', a1, a2, a3⟩ := ih (s.fill n id) hsec.2.1 hl' i o hget hlive h'
        exact ⟨o', a1, a2, by rw [a3, hval]⟩
    · rename_i hdead
      refine ih s hs (fun k m hm => hl k m (List.mem_cons_of_mem _ hm)) i o ho hlive ?_
      rcases h with h | h
      · rcases List.mem_cons.mp h with e | h
        · exfalso
          have : i = n := congrArg Prod.snd e
          subst this
          apply hdead; unfold Manager.isLive; rw [ho]; exact hlive
        · exact .inl h
      · exact .inr h

/-! ## The invariant -/

/-- Holds in every history. -/
structure Inv (s : Manager) : Prop where
  keys : Keys s.configs
  shape : Shape s.values
  entry : ∀ k n, (k, n) ∈ s.configs → ∃ o, s.objs[n]? = some o ∧ o.id = k
  live : ∀ (n : Nat) (o : Obj), s.objs[n]? = some o → o.live = true → (o.id, n) ∈ s.configs

theorem Inv.init : Inv Manager.init :=
  ⟨List.nodup_nil, .inl rfl, fun _ _ h => absurd h List.not_mem_nil, fun _ _ h => (nomatch h)⟩

/-- Same objects up to their values, same map. -/
theorem Inv.same {s s' : Manager} (h : Inv s) (hc : s'.configs = s.configs) (hv : Shape s'.values)
    (ho : ∀ i : Nat, (s'.objs[i]?).map core = (s.objs[i]?).map core) : Inv s' := by
  have get : ∀ (i : Nat) (o' : Obj), s'.objs[i]? = some o' → ∃ o, s.objs[i]? = some o ∧ core o' = core o := by
    intro i o' h
    have := ho i
    rw [h] at this
    cases hx : s.objs[i]? with
    | none => rw [hx] at this; cases this
    | some o => rw [hx] at this; exact ⟨o, rfl, Option.some.inj this⟩
  have get' : ∀ (i : Nat) (o : Obj), s.objs[i]? = some o → ∃ o', s'.objs[i]? = some o' ∧ core o' = core o := by
    intro i o h
    have := ho i
    rw [h] at this
    cases hx : s'.objs[i]? with
    | none => rw [hx] at this; cases this
    | some o' => rw [hx] at this; exact ⟨o', rfl, Option.some.inj this⟩
  refine ⟨by rw [hc]; exact h.keys, hv, fun k n hm => ?_, fun n o' ho' hl => ?_⟩
  · rw [hc] at hm
    obtain ⟨o, h1, h2⟩ := h.entry k n hm
    obtain ⟨o', h3, h4⟩ := get' n o h1
    exact ⟨o', h3, by rw [show o'.id = o.id from congrArg Prod.fst h4, h2]⟩
  · obtain ⟨o, h1, h2⟩ := get n o' ho'
    rw [hc, show o'.id = o.id from congrArg Prod.fst h2]
    exact h.live n o h1 (by rw [← show o'.live = o.live from congrArg (·.2.2) h2]; exact hl)

theorem Inv.fill {s : Manager} (h : Inv s) (n : Nat) (id : List Nat) : Inv (s.fill n id) :=
  h.same rfl (section_spec h.shape id).2.1 (fun i => fill_core s n id i)

/-- A new object. -/
theorem Inv.fresh {s : Manager} (h : Inv s) (id : List Nat) (ty : Nat)
    (hd : ∀ n, (id, n) ∈ s.configs → s.isLive n = false) :
    Inv { s with
      objs := s.objs ++ [{ id := id, ty := ty, values := .null, live := true }]
      configs := assign id s.objs.length s.configs } := by
  refine ⟨keys_assign h.keys id _, h.shape, fun k n hm => ?_, fun n o ho hl => ?_⟩
  · rcases (mem_assign h.keys id _ k n).mp hm with ⟨rfl, rfl⟩ | ⟨_, hm⟩
    · exact ⟨_, List.getElem?_concat_length, rfl⟩
    · obtain ⟨o, h1, h2⟩ := h.entry k n hm
      refine ⟨o, ?_, h2⟩
      have : n < s.objs.length := (List.getElem?_eq_some_iff.mp h1).1
      show (s.objs ++ _)[n]? = _
      rw [List.getElem?_append_left this]; exact h1
  · have ho : (s.objs ++ [_])[n]? = some o := ho
    show (o.id, n) ∈ assign id s.objs.length s.configs
    rw [mem_assign h.keys]
    by_cases hn : n < s.objs.length
    · rw [List.getElem?_append_left hn] at ho
      have hm := h.live n o ho hl
      refine .inr ⟨fun e => ?_, hm⟩
      have := hd n (by rw [← e]; exact hm)
      unfold Manager.isLive at this
      rw [ho] at this
      simp only [hl] at this; cases this
    · have : n = s.objs.length := by
        have := (List.getElem?_eq_some_iff.mp ho).1
        simp only [List.length_append, List.length_cons, List.length_nil] at this
        omega
      subst this
      rw [List.getElem?_concat_length] at ho
      cases ho
      exact .inl ⟨rfl, rfl⟩

theorem Inv.create {s : Manager} (h : Inv s) (casts : Nat → Nat → Bool) (id : List Nat) (ty : Nat) : Inv (s.create casts id ty).1 := by
  unfold Manager.create
  simp only []
  cases hf : find id s.configs with
  | none =>
    exact (h.fresh id ty (fun n hm => absurd (List.mem_map.mpr ⟨_, hm, rfl⟩) (find_none hf))).fill _ _
  | some n =>
    simp only []
    have hm := (find_iff h.keys id n).mp hf
    have hd : s.isLive n = false → ∀ n', (id, n') ∈ s.configs → s.isLive n' = false := by
      intro e n' hm'
      have := (find_iff h.keys id n').mpr hm'
      rw [hf] at this; cases this; exact e
    cases ho : s.objs[n]? with
    | none => exact (h.fresh id ty (hd (by unfold Manager.isLive; rw [ho]))).fill _ _
    | some o =>
      simp only []
      split
      · split
        · exact h.fill n id
        · exact h
      · rename_i hl
        exact (h.fresh id ty (hd (by unfold Manager.isLive; rw [ho]; simpa using hl))).fill _ _

theorem release_get (s : Manager) (n i : Nat) :
    (s.release n).objs[i]? = if i = n then (s.objs[i]?).map (fun o => { o with live := false }) else s.objs[i]? := by
  show (s.objs.modify n _)[i]? = _
  rw [List.getElem?_modify]
  by_cases h : n = i
  · subst h; simp
  · rw [if_neg (fun e => h e.symm)]
    cases s.objs[i]? <;> simp [h]

theorem Inv.release {s : Manager} (h : Inv s) (n : Nat) : Inv (s.release n) := by
  refine ⟨h.keys, h.shape, fun k i hm => ?_, fun i o ho hl => ?_⟩
  · obtain ⟨o, h1, h2⟩ := h.entry k i hm
    rw [release_get]
    split
    · exact ⟨{ o with live := false }, by rw [h1]; rfl, h2⟩
    · exact ⟨o, h1, h2⟩
  · rw [release_get] at ho
    split at ho
    · cases hx : s.objs[i]? with
      | none => rw [hx] at ho; cases ho
      | some o2 => rw [hx] at ho; cases ho; cases hl
    · exact h.live i o ho hl

theorem Inv.kept {s : Manager} (h : Inv s) : Inv { s with configs := s.configs.filter fun e => s.isLive e.2 } := by
  refine ⟨keys_filter h.keys _, h.shape, fun k n hm => h.entry k n (List.mem_filter.mp hm).1, fun n o ho hl => ?_⟩
  refine List.mem_filter.mpr ⟨h.live n o ho hl, ?_⟩
  show s.isLive n = true
  unfold Manager.isLive
  rw [show s.objs[n]? = some o from ho]; exact hl

theorem Inv.update {s : Manager} (h : Inv s) (p : Option Value) (hp : WellFormedFile (.update p)) : Inv (s.update p) := by
  have key : ∀ v, Shape v → Inv { refresh { s with values := v } s.configs with configs := s.configs.filter fun e => s.isLive e.2 } := by
    intro v hv
    have h1 : Inv { s with values := v } := ⟨h.keys, hv, h.entry, h.live⟩
    have h2 : Inv { refresh { s with values := v } s.configs with configs := s.configs } :=
      h1.same rfl (refresh_values s.configs { s with values := v } hv).1 (fun i => refresh_core _ _ i)
    have h3 := h2.kept
    have e : (fun e : List Nat × Nat => ({ refresh { s with values := v } s.configs with configs := s.configs } : Manager).isLive e.2) =
        fun e => s.isLive e.2 := by
      funext e
      have hc := refresh_core s.configs { s with values := v } e.2
      unfold Manager.isLive
      show (match (refresh { s with values := v } s.configs).objs[e.2]? with | some o => o.live | none => false) = _
      cases h1 : (refresh { s with values := v } s.configs).objs[e.2]? <;> cases h2 : s.objs[e.2]? <;>
        rw [h1] at hc <;> simp only [h2] at hc <;> simp [core] at hc ⊢
      exact hc.2.2
    rw [e] at h3
    exact h3
  unfold Manager.update
  simp only []
  split
  · rename_i m hm
    refine key _ (.inr ⟨m, hm, ?_⟩)
    cases p with
    | none => cases hm
    | some v => simp only [Option.getD_some] at hm; subst hm; exact hp
  · rename_i hm; exact key _ (.inl hm)
  · exact ⟨h.keys, .inl rfl, h.entry, h.live⟩

theorem Inv.step {s : Manager} (h : Inv s) (casts : Nat → Nat → Bool) (op : Op) (ho : WellFormedFile op) : Inv (s.step casts op) := by
  cases op with
  | create id ty => exact h.create casts id ty
  | release n => exact h.release n
  | prune => exact h.kept
  | update p => exact h.update p ho

theorem inv_run (casts : Nat → Nat → Bool) (ops : List Op) (ho : ∀ op ∈ ops, WellFormedFile op) : Inv (run casts ops) := by
  have gen : ∀ (ops : List Op) (s : Manager), Inv s → (∀ op ∈ ops, WellFormedFile op) → Inv (ops.foldl (Manager.step casts) s) := by
    intro ops
    induction ops with
    | nil => intro s h _; exact h
    | cons op ops ih => intro s h ho; exact ih _ (h.step casts op (ho op List.mem_cons_self)) (fun o hm => ho o (List.mem_cons_of_mem _ hm))
  exact gen ops _ .init ho

/-! ## What live objects see -/

/-- Live objects hold the section of the manager's values. -/
def Fresh (s : Manager) : Prop := ∀ (n : Nat) (o : Obj), s.objs[n]? = some o → o.live = true → o.values = sectionOf o.id s.values

theorem Fresh.fill {s : Manager} {m : Nat} (hi : Inv s) (h : ∀ (n : Nat) (o : Obj), s.objs[n]? = some o → o.live = true → n ≠ m → o.values = sectionOf o.id s.values)
    (id : List Nat) (hm : ∀ o : Obj, s.objs[m]? = some o → o.id = id) : Fresh (s.fill m id) := by
  have hs := section_spec hi.shape id
  intro n o ho hl
  have hv : sectionOf o.id (s.fill m id).values = sectionOf o.id s.values := hs.2.2 o.id
  rw [hv]
  have ho2 : (setValues s.objs m (section? id s.values).2)[n]? = some o := ho
  clear ho
  rw [setValues_get] at ho2
  split at ho2
  · rename_i e
    subst e
    cases hx : s.objs[n]? with
    | none => rw [hx] at ho2; cases ho2
    | some o2 =>
      rw [hx] at ho2; cases ho2
      show (section? id s.values).2 = sectionOf o2.id s.values
      rw [hs.1, hm o2 hx]
  · rename_i e
    exact h n o ho2 hl e

theorem Fresh.create {s : Manager} (hi : Inv s) (h : Fresh s) (casts : Nat → Nat → Bool) (id : List Nat) (ty : Nat) :
    Fresh (s.create casts id ty).1 ∧ ∀ k, sectionOf k (s.create casts id ty).1.values = sectionOf k s.values := by
  have fresh : (∀ n, (id, n) ∈ s.configs → s.isLive n = false) →
      Fresh (({ s with
        objs := s.objs ++ [{ id := id, ty := ty, values := .null, live := true }]
        configs := assign id s.objs.length s.configs } : Manager).fill s.objs.length id) ∧
      ∀ k, sectionOf k (({ s with
        objs := s.objs ++ [{ id := id, ty := ty, values := .null, live := true }]
        configs := assign id s.objs.length s.configs } : Manager).fill s.objs.length id).values = sectionOf k s.values := by
    intro hd
    refine ⟨Fresh.fill (hi.fresh id ty hd) (fun n o ho hl hne => ?_) id (fun o ho => ?_), fun k => (section_spec hi.shape id).2.2 k⟩
    · have ho : (s.objs ++ [_])[n]? = some o := ho
      have hn : n < s.objs.length := by
        have := (List.getElem?_eq_some_iff.mp ho).1
        simp only [List.length_append, List.length_cons, List.length_nil] at this
        omega
      rw [List.getElem?_append_left hn] at ho
      exact h n o ho hl
    · have ho : (s.objs ++ [_])[s.objs.length]? = some o := ho
      rw [List.getElem?_concat_length] at ho
      cases ho; rfl
  unfold Manager.create
  simp only []
  cases hf : find id s.configs with
  | none => exact fresh (fun n hm => absurd (List.mem_map.mpr ⟨_, hm, rfl⟩) (find_none hf))
  | some n =>
    simp only []
    have hm := (find_iff hi.keys id n).mp hf
    have hd : s.isLive n = false → ∀ n', (id, n') ∈ s.configs → s.isLive n' = false := by
      intro e n' hm'
      have := (find_iff hi.keys id n').mpr hm'
      rw [hf] at this; cases this; exact e
    cases ho : s.objs[n]? with
    | none => exact fresh (hd (by unfold Manager.isLive; rw [ho]))
    | some o =>
      simp only []
      split
      · split
        · refine ⟨Fresh.fill hi (fun n o ho hl _ => h n o ho hl) id (fun o2 h2 => ?_), fun k => (section_spec hi.shape id).2.2 k⟩
          obtain ⟨o3, h3, h4⟩ := hi.entry id n hm
          rw [h2] at h3; cases h3; exact h4
        · exact ⟨h, fun _ => rfl⟩
      · rename_i hl
        exact fresh (hd (by unfold Manager.isLive; rw [ho]; simpa using hl))

theorem Fresh.update {s : Manager} (hi : Inv s) (p : Option Value) (hp : KeyValueFile (.update p)) :
    Fresh (s.update p) ∧ ∀ k, sectionOf k (s.update p).values = sectionOf k (p.getD .null) := by
  have key : ∀ v, Shape v → Fresh { refresh { s with values := v } s.configs with configs := s.configs.filter fun e => s.isLive e.2 } ∧
      ∀ k, sectionOf k (refresh { s with values := v } s.configs).values = sectionOf k v := by
    intro v hv
    have hval := (refresh_values s.configs { s with values := v } hv).2
    refine ⟨fun n o ho hl => ?_, hval⟩
    have ho : (refresh { s with values := v } s.configs).objs[n]? = some o := ho
    have hc := refresh_core s.configs { s with values := v } n
    rw [ho] at hc
    cases hx : s.objs[n]? with
    | none => simp only [hx] at hc; cases hc
    | some o0 =>
      simp only [hx] at hc
      have hc : core o = core o0 := Option.some.inj hc
      have hl0 : o0.live = true := by rw [← show o.live = o0.live from congrArg (·.2.2) hc]; exact hl
      obtain ⟨o', h1, _, h3⟩ := refresh_objs s.configs { s with values := v } hv hi.entry n o0 hx hl0 (.inl (hi.live n o0 hx hl0))
      rw [ho] at h1; cases h1
      rw [h3, show o.id = o0.id from congrArg Prod.fst hc]
      exact (hval o0.id).symm
  cases p with
  | none => exact key .null (.inl rfl)
  | some v =>
    cases v with
    | obj m => exact key (.obj m) (.inr ⟨m, rfl, hp⟩)
    | null => exact key .null (.inl rfl)
    | str _ => exact absurd hp id
    | arr _ => exact absurd hp id
    | bool _ => exact absurd hp id
    | int _ => exact absurd hp id
    | uint _ => exact absurd hp id
    | flt _ => exact absurd hp id

theorem wf_of_kv {op : Op} (h : KeyValueFile op) : WellFormedFile op := by
  cases op with
  | update p =>
    cases p with
    | none => trivial
    | some v => cases v <;> first | exact h | trivial
  | _ => trivial

theorem fresh_run (casts : Nat → Nat → Bool) (ops : List Op) (ho : ∀ op ∈ ops, KeyValueFile op) :
    Fresh (run casts ops) ∧ ∀ k, sectionOf k (run casts ops).values = sectionOf k (lastFile ops) := by
  have gen : ∀ (ops : List Op) (s : Manager) (v : Value), Inv s → Fresh s → (∀ k, sectionOf k s.values = sectionOf k v) →
      (∀ op ∈ ops, KeyValueFile op) → Fresh (ops.foldl (Manager.step casts) s) ∧
      ∀ k, sectionOf k (ops.foldl (Manager.step casts) s).values = sectionOf k (ops.foldl nextFile v) := by
    intro ops
    induction ops with
    | nil => intro s v _ h hv _; exact ⟨h, hv⟩
    | cons op ops ih =>
      intro s v hi h hv ho
      have hop := ho op List.mem_cons_self
      have hnext : Fresh (s.step casts op) ∧ ∀ k, sectionOf k (s.step casts op).values = sectionOf k (nextFile v op) := by
        cases op with
        | create id ty =>
          have := Fresh.create hi h casts id ty
          exact ⟨this.1, fun k => (this.2 k).trans (hv k)⟩
        | release n =>
          refine ⟨fun i o ho hl => ?_, hv⟩
          rw [show (s.step casts (.release n)) = s.release n from rfl, release_get] at ho
          split at ho
          · cases hx : s.objs[i]? with
            | none => rw [hx] at ho; cases ho
            | some o2 => rw [hx] at ho; cases ho; cases hl
          · exact h i o ho hl
        | prune => exact ⟨h, hv⟩
        | update p => exact Fresh.update hi p hop
      exact ih _ _ (hi.step casts op (wf_of_kv hop)) hnext.1 hnext.2 (fun o hm => ho o (List.mem_cons_of_mem _ hm))
  exact gen ops .init .null .init (fun _ _ h => (nomatch h)) (fun _ => rfl) ho

end Verif.Config
