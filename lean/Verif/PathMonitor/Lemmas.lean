import Verif.PathMonitor.Spec

/-!
# Path monitor: lemmas
-/

namespace Verif.PathMonitor

/-! ## Maps -/

theorem get_put {β : Type} (k : Nat) (v : β) (l : List (Nat × β)) (x : Nat) : get x (put k v l) = if x = k then some v else get x l := by
  induction l with
  | nil => simp only [put, get]; by_cases h : k = x <;> simp [h, eq_comm]
  | cons e l ih =>
    obtain ⟨k', v'⟩ := e
    simp only [put]
    by_cases h : k' = k
    · subst h
      rw [if_pos rfl]
      simp only [get]
      by_cases hx : k' = x
      · subst hx; simp
      · rw [if_neg hx, if_neg hx, if_neg (fun e => hx e.symm)]
    · rw [if_neg h]
      simp only [get]
      rw [ih]
      by_cases hx : k' = x
      · subst hx; rw [if_pos rfl, if_pos rfl, if_neg h]
      · rw [if_neg hx, if_neg hx]

theorem get_del {β : Type} (k : Nat) (l : List (Nat × β)) (x : Nat) : get x (del k l) = if x = k then none else get x l := by
  induction l with
  | nil => simp [del, get]
  | cons e l ih =>
    obtain ⟨k', v⟩ := e
    unfold del at ih ⊢
    by_cases h : k' = k
    · subst h
      rw [List.filter_cons_of_neg (by simp), ih]
      simp only [get]
      by_cases hx : x = k'
      · rw [if_pos hx, if_pos hx]
      · rw [if_neg hx, if_neg hx, if_neg (fun e => hx e.symm)]
    · rw [List.filter_cons_of_pos (by simpa using h)]
      simp only [get]
      rw [ih]
      by_cases hx : k' = x
      · subst hx; rw [if_pos rfl, if_pos rfl, if_neg h]
      · rw [if_neg hx, if_neg hx]

/-- No key twice. -/
def Keys {β : Type} (l : List (Nat × β)) : Prop := (l.map (·.1)).Nodup

theorem get_iff {β : Type} {l : List (Nat × β)} (h : Keys l) (k : Nat) (v : β) : get k l = some v ↔ (k, v) ∈ l := by
  induction l with
  | nil => simp [get]
  | cons e l ih =>
    obtain ⟨k', v'⟩ := e
    have h' : k' ∉ l.map (·.1) ∧ Keys l := by
      have := h; unfold Keys at this ⊢; rw [List.map_cons, List.nodup_cons] at this; exact this
    simp only [get]
    split
    · rename_i e
      subst e
      constructor
      · intro e; cases e; exact List.mem_cons_self
      · intro hm
        rcases List.mem_cons.mp hm with e | hm
        · cases e; rfl
        · exact absurd (List.mem_map.mpr ⟨_, hm, rfl⟩) h'.1
    · rename_i hne
      rw [ih h'.2]
      constructor
      · exact List.mem_cons_of_mem _
      · intro hm
        rcases List.mem_cons.mp hm with e | hm
        · cases e; exact absurd rfl hne
        · exact hm

theorem get_none {β : Type} {l : List (Nat × β)} {k : Nat} (h : get k l = none) : ∀ v, (k, v) ∉ l := by
  induction l with
  | nil => intro v; exact List.not_mem_nil
  | cons e l ih =>
    obtain ⟨k', v'⟩ := e
    simp only [get] at h
    split at h
    · cases h
    · rename_i hne
      intro v hm
      rcases List.mem_cons.mp hm with e | hm
      · cases e; exact hne rfl
      · exact ih h v hm

theorem put_keys {β : Type} (k : Nat) (v : β) (l : List (Nat × β)) :
    (put k v l).map (·.1) = if k ∈ l.map (·.1) then l.map (·.1) else l.map (·.1) ++ [k] := by
  induction l with
  | nil => rfl
  | cons e l ih =>
    obtain ⟨k', v'⟩ := e
    simp only [put]
    by_cases hk : k' = k
    · subst hk; rw [if_pos rfl, if_pos (by simp)]; rfl
    · rw [if_neg hk, List.map_cons, ih]
      by_cases hm : k ∈ l.map (·.1)
      · rw [if_pos hm, if_pos (by simp only [List.map_cons, List.mem_cons]; exact .inr hm)]; rfl
      · rw [if_neg hm, if_neg (by
          simp only [List.map_cons, List.mem_cons]
          rintro (e | e)
          · exact hk e.symm
          · exact hm e)]
        rfl

theorem keys_put {β : Type} {l : List (Nat × β)} (h : Keys l) (k : Nat) (v : β) : Keys (put k v l) := by
  unfold Keys
  rw [put_keys]
  split
  · exact h
  · rename_i hm
    rw [List.nodup_append]
    exact ⟨h, by simp, fun a ha b hb => by simp at hb; subst hb; exact fun e => hm (e ▸ ha)⟩

theorem keys_filter {β : Type} {l : List (Nat × β)} (h : Keys l) (p : Nat × β → Bool) : Keys (l.filter p) :=
  List.Sublist.nodup (List.Sublist.map _ List.filter_sublist) h

theorem del_nil {β : Type} {k : Nat} {l : List (Nat × β)} (h : del k l = []) (x : Nat) (hx : x ≠ k) : get x l = none := by
  have := get_del k l x
  rw [h, if_neg hx] at this
  exact this.symm

/-! ## The invariant -/

/-- Holds in calm executions without aliases; `r` are the registrations. -/
structure MInv (s : Monitor) (r : Reg) : Prop where
  keys : Keys s.info
  alias : NoAlias s.dirs
  watched : ∀ d info, get d s.info = some info → ∃ i, s.dirs d = some i ∧ get i s.watches = some info.wd
  wkeys : Keys s.watches
  wids : ∀ i j w, get i s.watches = some w → get j s.watches = some w → i = j
  wlt : ∀ i w, get i s.watches = some w → w < s.nextWd
  used : ∀ i w, get i s.watches = some w → ∃ d info, get d s.info = some info ∧ s.dirs d = some i
  absent : ∀ d, get d s.info = none → r.path d = none ∧ ∀ f, r.file d f = none
  present : ∀ d info, get d s.info = some info → info.pathHandler = r.path d ∧ ∀ f, get f info.files = r.file d f
  pending : ∀ d ∈ s.pending, r.path d = none ∧ ∀ f, r.file d f = none

theorem MInv.init {dirs : Nat → Option Nat} (h : NoAlias dirs) : MInv (.init dirs) .empty :=
  ⟨List.nodup_nil, h, fun _ _ h => (nomatch h), List.nodup_nil, fun _ _ _ h => (nomatch h), fun _ _ h => (nomatch h),
    fun _ _ h => (nomatch h), fun _ _ => ⟨rfl, fun _ => rfl⟩, fun _ _ h => (nomatch h), fun _ h => absurd h List.not_mem_nil⟩

/-- An entry with the same watch replaces one in the map. -/
theorem MInv.update {s : Monitor} {r r' : Reg} (h : MInv s r) {d : Nat} {info info' : Info} (hg : get d s.info = some info)
    (hw : info'.wd = info.wd) (hother : ∀ x, x ≠ d → r'.path x = r.path x ∧ ∀ f, r'.file x f = r.file x f)
    (hp : info'.pathHandler = r'.path d) (hf : ∀ f, get f info'.files = r'.file d f)
    {pend : List Nat} (hpend : ∀ x ∈ pend, r'.path x = none ∧ ∀ f, r'.file x f = none) :
    MInv { s with
      info := put d info' s.info
      pending := pend } r' := by
  have hget : ∀ x, get x (put d info' s.info) = if x = d then some info' else get x s.info := get_put d info' s.info
  refine ⟨keys_put h.keys _ _, h.alias, fun x i hx => ?_, h.wkeys, h.wids, h.wlt, fun i w hw' => ?_, fun x hx => ?_, fun x i hx => ?_, hpend⟩
  · have hx2 : get x (put d info' s.info) = some i := hx
    rw [hget] at hx2
    split at hx2
    · rename_i e; subst e; cases Option.some.inj hx2
      obtain ⟨j, h1, h2⟩ := h.watched x info hg
      exact ⟨j, h1, by rw [hw]; exact h2⟩
    · exact h.watched x i hx2
  · obtain ⟨x, i2, h1, h2⟩ := h.used i w hw'
    by_cases e : x = d
    · subst e; exact ⟨x, info', by show get x (put x info' s.info) = _; rw [hget, if_pos rfl], h2⟩
    · exact ⟨x, i2, by show get x (put d info' s.info) = _; rw [hget, if_neg e]; exact h1, h2⟩
  · have hx : get x (put d info' s.info) = none := hx
    rw [hget] at hx
    split at hx
    · cases hx
    · rename_i e
      have := h.absent x hx
      rw [(hother x e).1]
      exact ⟨this.1, fun f => by rw [(hother x e).2]; exact this.2 f⟩
  · have hx2 : get x (put d info' s.info) = some i := hx
    rw [hget] at hx2
    split at hx2
    · rename_i e; subst e; cases Option.some.inj hx2; exact ⟨hp, hf⟩
    · rename_i e
      have := h.present x i hx2
      rw [(hother x e).1]
      exact ⟨this.1, fun f => by rw [(hother x e).2]; exact this.2 f⟩

/-- A new entry with its watch. -/
theorem getOrCreate_spec {s s' : Monitor} {r : Reg} (h : MInv s r) {d : Nat} {ok : Bool} {info : Info}
    (hg : s.getOrCreate d ok = some (s', info)) :
    MInv s' r ∧ get d s'.info = some info ∧ s'.pending = s.pending ∧ s'.dirs = s.dirs ∧ s'.queue = s.queue ∧ s'.invoked = s.invoked := by
  unfold Monitor.getOrCreate at hg
  cases hf : get d s.info with
  | some i =>
    rw [hf] at hg
    cases hg
    exact ⟨h, hf, rfl, rfl, rfl, rfl⟩
  | none =>
    rw [hf] at hg
    simp only [] at hg
    unfold Monitor.addWatch at hg
    cases hd : s.dirs d with
    | none => rw [hd] at hg; cases hg
    | some i =>
      rw [hd] at hg
      simp only [] at hg
      cases ok with
      | false => simp at hg
      | true =>
        simp only [if_true] at hg
        cases hw : get i s.watches with
        | some w =>
          obtain ⟨d', info', h1, h2⟩ := h.used i w hw
          have := h.alias d d' i hd h2
          subst this
          rw [hf] at h1; cases h1
        | none =>
          rw [hw] at hg
          simp only [Option.some.injEq, Prod.mk.injEq] at hg
          obtain ⟨rfl, rfl⟩ := hg
          have hgi : ∀ x, get x (put d (⟨s.nextWd, none, []⟩ : Info) s.info) = if x = d then some ⟨s.nextWd, none, []⟩ else get x s.info :=
            get_put d _ s.info
          have hgw : ∀ x, get x (s.watches ++ [(i, s.nextWd)]) = if x = i then some s.nextWd else get x s.watches := by
            have : ∀ l : List (Nat × Nat), get i l = none → ∀ x, get x (l ++ [(i, s.nextWd)]) = if x = i then some s.nextWd else get x l := by
              intro l
              induction l with
              | nil => intro _ x; simp only [List.nil_append, get]; by_cases e : i = x <;> simp [e, eq_comm]
              | cons e l ih =>
                obtain ⟨k, v⟩ := e
                intro hn x
                simp only [get] at hn
                split at hn
                · cases hn
                · rename_i hne
                  simp only [List.cons_append, get]
                  rw [ih hn x]
                  by_cases e : k = x
                  · subst e; rw [if_pos rfl, if_pos rfl, if_neg hne]
                  · rw [if_neg e, if_neg e]
            exact this s.watches hw
          refine ⟨⟨keys_put h.keys _ _, h.alias, fun x j hx => ?_, ?_, fun a b w ha hb => ?_, fun a w ha => ?_, fun a w ha => ?_,
            fun x hx => ?_, fun x j hx => ?_, h.pending⟩, by show get d (put d _ s.info) = _; rw [hgi, if_pos rfl], rfl, rfl, rfl, rfl⟩
          · have hx2 : get x (put d _ s.info) = some j := hx
            rw [hgi] at hx2
            show ∃ i', s.dirs x = some i' ∧ get i' (s.watches ++ [(i, s.nextWd)]) = some j.wd
            split at hx2
            · rename_i e; subst e; cases Option.some.inj hx2
              exact ⟨i, hd, by rw [hgw, if_pos rfl]⟩
            · rename_i e
              obtain ⟨a, h1, h2⟩ := h.watched x j hx2
              refine ⟨a, h1, ?_⟩
              rw [hgw, if_neg]
              · exact h2
              · intro e'; subst e'; exact e (h.alias x d a h1 hd)
          · show Keys (s.watches ++ [(i, s.nextWd)])
            unfold Keys
            rw [List.map_append, List.nodup_append]
            refine ⟨h.wkeys, by simp, fun a ha b hb => ?_⟩
            simp at hb; subst hb
            rintro rfl
            obtain ⟨⟨k, v⟩, hm, rfl⟩ := List.mem_map.mp ha
            exact get_none hw v hm
          · have ha : get a (s.watches ++ [(i, s.nextWd)]) = some w := ha
            have hb : get b (s.watches ++ [(i, s.nextWd)]) = some w := hb
            rw [hgw] at ha hb
            split at ha <;> split at hb
            · rename_i e1 e2; rw [e1, e2]
            · cases ha; exact absurd (h.wlt b _ hb) (Nat.lt_irrefl _)
            · cases hb; exact absurd (h.wlt a _ ha) (Nat.lt_irrefl _)
            · exact h.wids a b w ha hb
          · have ha : get a (s.watches ++ [(i, s.nextWd)]) = some w := ha
            rw [hgw] at ha
            show w < s.nextWd + 1
            split at ha
            · cases ha; exact Nat.lt_succ_self _
            · exact Nat.lt_succ_of_lt (h.wlt a w ha)
          · have ha : get a (s.watches ++ [(i, s.nextWd)]) = some w := ha
            rw [hgw] at ha
            show ∃ x j, get x (put d _ s.info) = some j ∧ s.dirs x = some a
            split at ha
            · rename_i e; subst e; exact ⟨d, _, by rw [hgi, if_pos rfl], hd⟩
            · rename_i e
              obtain ⟨x, j, h1, h2⟩ := h.used a w ha
              refine ⟨x, j, ?_, h2⟩
              rw [hgi, if_neg]
              · exact h1
              · intro e'; subst e'; rw [hf] at h1; cases h1
          · have hx : get x (put d _ s.info) = none := hx
            rw [hgi] at hx
            split at hx
            · cases hx
            · exact h.absent x hx
          · have hx2 : get x (put d _ s.info) = some j := hx
            rw [hgi] at hx2
            split at hx2
            · rename_i e; subst e; cases Option.some.inj hx2
              have := h.absent x hf
              exact ⟨this.1.symm, fun f => (this.2 f).symm⟩
            · exact h.present x j hx2

/-- Removing a directory. -/
theorem MInv.remove {s : Monitor} {r r' : Reg} (h : MInv s r) {d : Nat} {info : Info} (hg : get d s.info = some info)
    (hother : ∀ x, x ≠ d → r'.path x = r.path x ∧ ∀ f, r'.file x f = r.file x f) (hd : r'.path d = none ∧ ∀ f, r'.file d f = none) :
    MInv ({ s with info := del d s.info }.rmWatch info.wd) r' := by
  obtain ⟨i, hi, hiw⟩ := h.watched d info hg
  have hgi : ∀ x, get x (del d s.info) = if x = d then none else get x s.info := get_del d s.info
  have hgw : ∀ x, get x (s.watches.filter fun e => e.2 != info.wd) = if x = i then none else get x s.watches := by
    intro x
    have hk := keys_filter h.wkeys (fun e => e.2 != info.wd)
    split
    · rename_i e; subst e
      cases hx : get x (s.watches.filter fun e => e.2 != info.wd) with
      | none => rfl
      | some w =>
        have := List.mem_filter.mp ((get_iff hk x w).mp hx)
        have hw := (get_iff h.wkeys x w).mpr this.1
        rw [hiw] at hw; cases hw
        simp at this
    · rename_i hne
      cases hx : get x s.watches with
      | none =>
        cases hy : get x (s.watches.filter fun e => e.2 != info.wd) with
        | none => rfl
        | some w => exact absurd (List.mem_filter.mp ((get_iff hk x w).mp hy)).1 (get_none hx w)
      | some w =>
        rw [get_iff hk]
        refine List.mem_filter.mpr ⟨(get_iff h.wkeys x w).mp hx, ?_⟩
        simp only [bne_iff_ne, ne_eq]
        rintro rfl
        exact hne (h.wids x i _ hx hiw)
  refine ⟨keys_filter h.keys _, h.alias, fun x j hx => ?_, keys_filter h.wkeys _, fun a b w ha hb => ?_, fun a w ha => ?_, fun a w ha => ?_,
    fun x hx => ?_, fun x j hx => ?_, fun x hx => ?_⟩
  · have hx : get x (del d s.info) = some j := hx
    rw [hgi] at hx
    split at hx
    · cases hx
    · rename_i e
      obtain ⟨a, h1, h2⟩ := h.watched x j hx
      refine ⟨a, h1, ?_⟩
      show get a (s.watches.filter _) = _
      rw [hgw, if_neg]
      · exact h2
      · rintro rfl; exact e (h.alias x d a h1 hi)
  · have ha : get a (s.watches.filter _) = some w := ha
    have hb : get b (s.watches.filter _) = some w := hb
    rw [hgw] at ha hb
    split at ha
    · cases ha
    · split at hb
      · cases hb
      · exact h.wids a b w ha hb
  · have ha : get a (s.watches.filter _) = some w := ha
    rw [hgw] at ha
    split at ha
    · cases ha
    · exact h.wlt a w ha
  · have ha : get a (s.watches.filter _) = some w := ha
    rw [hgw] at ha
    split at ha
    · cases ha
    · rename_i e
      obtain ⟨x, j, h1, h2⟩ := h.used a w ha
      refine ⟨x, j, ?_, h2⟩
      show get x (del d s.info) = _
      rw [hgi, if_neg]
      · exact h1
      · rintro rfl; rw [hi] at h2; cases h2; exact e rfl
  · have hx : get x (del d s.info) = none := hx
    rw [hgi] at hx
    by_cases e : x = d
    · subst e; exact hd
    · rw [if_neg e] at hx
      rw [(hother x e).1]
      exact ⟨(h.absent x hx).1, fun f => by rw [(hother x e).2]; exact (h.absent x hx).2 f⟩
  · have hx : get x (del d s.info) = some j := hx
    rw [hgi] at hx
    split at hx
    · cases hx
    · rename_i e
      rw [(hother x e).1]
      exact ⟨(h.present x j hx).1, fun f => by rw [(hother x e).2]; exact (h.present x j hx).2 f⟩
  · by_cases e : x = d
    · subst e; exact hd
    · rw [(hother x e).1]
      exact ⟨(h.pending x hx).1, fun f => by rw [(hother x e).2]; exact (h.pending x hx).2 f⟩

theorem removeAll_fields (l : List (Nat × Info)) : ∀ s : Monitor,
    (l.foldl (fun s e => s.rmWatch e.2.wd) s).info = s.info ∧ (l.foldl (fun s e => s.rmWatch e.2.wd) s).dirs = s.dirs ∧
    (l.foldl (fun s e => s.rmWatch e.2.wd) s).nextWd = s.nextWd ∧ (l.foldl (fun s e => s.rmWatch e.2.wd) s).pending = s.pending ∧
    (l.foldl (fun s e => s.rmWatch e.2.wd) s).queue = s.queue ∧ (l.foldl (fun s e => s.rmWatch e.2.wd) s).invoked = s.invoked ∧
    (l.foldl (fun s e => s.rmWatch e.2.wd) s).watches = s.watches.filter (fun e => l.all fun p => e.2 != p.2.wd) := by
  induction l with
  | nil => intro s; exact ⟨rfl, rfl, rfl, rfl, rfl, rfl, (List.filter_eq_self.mpr (by simp)).symm⟩
  | cons e l ih =>
    intro s
    obtain ⟨h1, h2, h3, h4, h5, h6, h7⟩ := ih (s.rmWatch e.2.wd)
    refine ⟨h1, h2, h3, h4, h5, h6, ?_⟩
    rw [List.foldl_cons, h7]
    show (s.watches.filter _).filter _ = _
    rw [List.filter_filter]
    apply List.filter_congr
    intro x _
    simp only [List.all_cons, Bool.and_comm]

theorem MInv.removeAll {s : Monitor} {r : Reg} (h : MInv s r) : MInv s.removeAll .empty := by
  obtain ⟨h1, h2, h3, h4, _, _, h7⟩ := removeAll_fields s.info { s with info := [] }
  have hw : s.removeAll.watches = [] := by
    show (s.info.foldl _ { s with info := [] }).watches = []
    rw [h7]
    apply List.filter_eq_nil_iff.mpr
    rintro ⟨i, w⟩ hm
    obtain ⟨d, info, g1, g2⟩ := h.used i w ((get_iff h.wkeys i w).mpr hm)
    obtain ⟨j, g3, g4⟩ := h.watched d info g1
    rw [g2] at g3; cases g3
    rw [(get_iff h.wkeys i w).mpr hm] at g4
    have : w = info.wd := Option.some.inj g4
    simp only [List.all_eq_true, bne_iff_ne, ne_eq]
    intro hall
    exact hall (d, info) ((get_iff h.keys d info).mp g1) this
  have hi : s.removeAll.info = [] := h1
  refine ⟨by rw [hi]; exact List.nodup_nil, by rw [show s.removeAll.dirs = s.dirs from h2]; exact h.alias, ?_, by rw [hw]; exact List.nodup_nil,
    ?_, ?_, ?_, fun _ _ => ⟨rfl, fun _ => rfl⟩, ?_, fun _ _ => ⟨rfl, fun _ => rfl⟩⟩
  · intro d i hg; rw [hi] at hg; cases hg
  · intro a b w ha; rw [hw] at ha; cases ha
  · intro a w ha; rw [hw] at ha; cases ha
  · intro a w ha; rw [hw] at ha; cases ha
  · intro d i hg; rw [hi] at hg; cases hg

theorem MInv.step {s : Monitor} {r : Reg} (h : MInv s r) (op : Op) (ha : s.allowed op) (hc : Calm s op) :
    MInv (s.step op).1 ((s.step op).2.foldl Reg.after r) := by
  cases op with
  | addPath d c ok =>
    simp only [Monitor.step, Monitor.addPath]
    split
    · exact h
    · cases hg : s.getOrCreate d ok with
      | none => exact h
      | some p =>
        obtain ⟨s', info⟩ := p
        obtain ⟨h1, h2, h3, _⟩ := getOrCreate_spec h hg
        have hp := h1.present d info h2
        refine h1.update (info' := { info with pathHandler := some c }) (r' := r.after (.pathAdded d c)) h2 rfl ?_ ?_ ?_ (pend := s'.pending) ?_
        · intro x hx; exact ⟨if_neg hx, fun _ => rfl⟩
        · exact (if_pos rfl).symm
        · exact hp.2
        · intro x hx
          have hx' : x ≠ d := by rintro rfl; exact hc (by rw [← h3]; exact hx)
          have := h1.pending x hx
          exact ⟨(if_neg hx').trans this.1, this.2⟩
  | addFile d f c isDir ok =>
    simp only [Monitor.step, Monitor.addFile]
    split
    · exact h
    · split
      · exact h
      · cases hg : s.getOrCreate d ok with
        | none => exact h
        | some p =>
          obtain ⟨s', info⟩ := p
          obtain ⟨h1, h2, h3, _⟩ := getOrCreate_spec h hg
          have hp := h1.present d info h2
          refine h1.update (info' := { info with files := put f c info.files }) (r' := r.after (.fileAdded d f c)) h2 rfl ?_ ?_ ?_ (pend := s'.pending) ?_
          · intro x hx; exact ⟨rfl, fun y => if_neg fun e => hx e.1⟩
          · exact hp.1
          · intro y
            show get y (put f c info.files) = if d = d ∧ y = f then some c else r.file d y
            rw [get_put]
            by_cases e : y = f
            · rw [if_pos e, if_pos ⟨rfl, e⟩]
            · rw [if_neg e, if_neg fun h => e h.2]; exact hp.2 y
          · intro x hx
            have hx' : x ≠ d := by rintro rfl; exact hc (by rw [← h3]; exact hx)
            have := h1.pending x hx
            exact ⟨this.1, fun y => (if_neg fun e => hx' e.1).trans (this.2 y)⟩
  | removePath d =>
    simp only [Monitor.step, Monitor.removePath]
    cases hg : get d s.info with
    | none => exact h
    | some info =>
      refine h.remove hg ?_ ?_
      · intro x hx; exact ⟨if_neg hx, fun f => if_neg hx⟩
      · exact ⟨if_pos rfl, fun f => if_pos rfl⟩
  | removeAll => exact h.removeAll
  | removeFile d f =>
    simp only [Monitor.step, Monitor.removeFile]
    cases hg : get d s.info with
    | none => exact h
    | some info =>
      simp only []
      cases hf : get f info.files with
      | none => exact h
      | some c =>
        simp only []
        have hp := h.present d info hg
        have hother : ∀ x, x ≠ d → (r.after (.fileRemoved d f)).path x = r.path x ∧ ∀ y, (r.after (.fileRemoved d f)).file x y = r.file x y :=
          fun x hx => ⟨rfl, fun y => if_neg fun e => hx e.1⟩
        have hfiles : ∀ y, get y (del f info.files) = (r.after (.fileRemoved d f)).file d y := by
          intro y
          show _ = if d = d ∧ y = f then none else r.file d y
          rw [get_del]
          by_cases e : y = f
          · rw [if_pos e, if_pos ⟨rfl, e⟩]
          · rw [if_neg e, if_neg fun h => e h.2]; exact hp.2 y
        have hpd : ∀ x ∈ s.pending, (r.after (.fileRemoved d f)).path x = none ∧ ∀ y, (r.after (.fileRemoved d f)).file x y = none := by
          intro x hx
          have := h.pending x hx
          refine ⟨this.1, fun y => ?_⟩
          show (if x = d ∧ y = f then none else r.file x y) = none
          split
          · rfl
          · exact this.2 y
        split
        · rename_i he
          refine h.update (info' := { info with files := del f info.files }) hg rfl hother hp.1 hfiles (pend := d :: s.pending) ?_
          intro x hx
          rcases List.mem_cons.mp hx with rfl | hx
          · refine ⟨?_, fun y => ?_⟩
            · show r.path x = none
              rw [← hp.1]; exact he.2
            · rw [← hfiles y, show del f info.files = [] from he.1]; rfl
          · exact hpd x hx
        · exact h.update (info' := { info with files := del f info.files }) hg rfl hother hp.1 hfiles (pend := s.pending) hpd
  | prune d =>
    have hp := h.pending d ha
    have h' : MInv { s with pending := s.pending.erase d } r :=
      ⟨h.keys, h.alias, h.watched, h.wkeys, h.wids, h.wlt, h.used, h.absent, h.present, fun x hx => h.pending x (List.mem_of_mem_erase hx)⟩
    simp only [Monitor.step, Monitor.prune, Monitor.removePath, List.foldl_nil]
    cases hg : get d s.info with
    | none => exact h'
    | some info => exact h'.remove hg (fun _ _ => ⟨rfl, fun _ => rfl⟩) hp
  | occur i name mask =>
    simp only [Monitor.step]
    cases get i s.watches with
    | none => exact h
    | some w => exact ⟨h.keys, h.alias, h.watched, h.wkeys, h.wids, h.wlt, h.used, h.absent, h.present, h.pending⟩
  | rmdir i =>
    have hno : ∀ d info, get d s.info = some info → s.dirs d ≠ some i := fun d info hg => hc d info ((get_iff h.keys d info).mp hg)
    have hdirs : ∀ d info, get d s.info = some info → (if s.dirs d = some i then none else s.dirs d) = s.dirs d :=
      fun d info hg => if_neg (hno d info hg)
    have hgw : ∀ x, get x (s.watches.filter fun e => e.1 != i) = get x s.watches := by
      intro x
      have : get x (del i s.watches) = _ := get_del i s.watches x
      rw [show (s.watches.filter fun e => e.1 != i) = del i s.watches from rfl, this]
      split
      · rename_i e; subst e
        cases hx : get x s.watches with
        | none => rfl
        | some w =>
          obtain ⟨d, info, g1, g2⟩ := h.used x w hx
          exact absurd g2 (hno d info g1)
      · rfl
    refine ⟨h.keys, fun d d' j h1 h2 => ?_, fun d info hg => ?_, keys_filter h.wkeys _, fun a b w ha hb => ?_, fun a w ha => ?_,
      fun a w ha => ?_, h.absent, h.present, h.pending⟩
    · have h1 : (if s.dirs d = some i then none else s.dirs d) = some j := h1
      have h2 : (if s.dirs d' = some i then none else s.dirs d') = some j := h2
      split at h1
      · cases h1
      · split at h2
        · cases h2
        · exact h.alias d d' j h1 h2
    · obtain ⟨j, g1, g2⟩ := h.watched d info hg
      exact ⟨j, (hdirs d info hg).trans g1, (hgw j).trans g2⟩
    · exact h.wids a b w ((hgw a).symm.trans ha) ((hgw b).symm.trans hb)
    · exact h.wlt a w ((hgw a).symm.trans ha)
    · obtain ⟨d, info, g1, g2⟩ := h.used a w ((hgw a).symm.trans ha)
      exact ⟨d, info, g1, (hdirs d info g1).trans g2⟩
  | mkdir d i =>
    obtain ⟨hn, hnew, _⟩ := ha
    have hdirs : ∀ x j, s.dirs x = some j → (if x = d then some i else s.dirs x) = some j := by
      intro x j hx
      rw [if_neg]
      · exact hx
      · rintro rfl; rw [hn] at hx; cases hx
    refine ⟨h.keys, fun x y j h1 h2 => ?_, fun x info hg => ?_, h.wkeys, h.wids, h.wlt, fun a w ha => ?_, h.absent, h.present, h.pending⟩
    · have h1 : (if x = d then some i else s.dirs x) = some j := h1
      have h2 : (if y = d then some i else s.dirs y) = some j := h2
      split at h1 <;> split at h2
      · rename_i e1 e2; rw [e1, e2]
      · cases h1; exact absurd h2 (hnew y)
      · cases h2; exact absurd h1 (hnew x)
      · exact h.alias x y j h1 h2
    · obtain ⟨j, g1, g2⟩ := h.watched x info hg
      exact ⟨j, hdirs x j g1, g2⟩
    · obtain ⟨x, info, g1, g2⟩ := h.used a w ha
      exact ⟨x, info, g1, hdirs x a g2⟩
  | dispatch order =>
    simp only [Monitor.step, Monitor.dispatch]
    cases s.queue with
    | nil => exact h
    | cons e q => exact ⟨h.keys, h.alias, h.watched, h.wkeys, h.wids, h.wlt, h.used, h.absent, h.present, h.pending⟩

theorem mInv {dirs : Nat → Option Nat} (hd : NoAlias dirs) {s : Monitor} {h : List Done} (he : CalmExec dirs s h) :
    MInv s (registered h) := by
  induction he with
  | init => exact .init hd
  | step op _ ha hc ih =>
    unfold registered
    rw [List.foldl_append]
    exact ih.step op ha hc

/-- The entry found for a watch descriptor. -/
theorem find_wd {s : Monitor} {r : Reg} (h : MInv s r) {order : List (Nat × Info)} (ho : order.Perm s.info) {d : Nat} {info : Info}
    (hg : get d s.info = some info) : order.find? (fun p => p.2.wd == info.wd) = some (d, info) := by
  have hm : (d, info) ∈ order := ho.mem_iff.mpr ((get_iff h.keys d info).mp hg)
  cases hf : order.find? (fun p => p.2.wd == info.wd) with
  | none => exact absurd (List.find?_eq_none.mp hf _ hm) (by simp)
  | some p =>
    obtain ⟨d', info'⟩ := p
    have hw : info'.wd = info.wd := by simpa using List.find?_some hf
    have hm' : (d', info') ∈ s.info := ho.mem_iff.mp (List.mem_of_find?_eq_some hf)
    have hg' := (get_iff h.keys d' info').mpr hm'
    obtain ⟨i, h1, h2⟩ := h.watched d info hg
    obtain ⟨j, h3, h4⟩ := h.watched d' info' hg'
    rw [hw] at h4
    have := h.wids i j _ h2 h4
    subst this
    have := h.alias d d' i h1 h3
    subst this
    rw [hg] at hg'; cases hg'; rfl

/-! ## In any execution, what the monitor knows was registered -/

/-- What holds in every execution. -/
def Below (s : Monitor) (r : Reg) : Prop :=
  Keys s.info ∧ ∀ d info, get d s.info = some info →
    (∀ c, info.pathHandler = some c → r.path d = some c) ∧ ∀ f c, get f info.files = some c → r.file d f = some c

theorem Below.put {s s' : Monitor} {r r' : Reg} (h : Below s r) {d : Nat} {info' : Info} (hs : s'.info = put d info' s.info)
    (hother : ∀ x, x ≠ d → r'.path x = r.path x ∧ ∀ f, r'.file x f = r.file x f)
    (hp : ∀ c, info'.pathHandler = some c → r'.path d = some c) (hf : ∀ f c, get f info'.files = some c → r'.file d f = some c) :
    Below s' r' := by
  unfold Below
  rw [hs]
  refine ⟨keys_put h.1 _ _, fun x i hx => ?_⟩
  rw [get_put] at hx
  split at hx
  · rename_i e; subst e; cases Option.some.inj hx; exact ⟨hp, hf⟩
  · rename_i e
    obtain ⟨h1, h2⟩ := h.2 x i hx
    rw [(hother x e).1]
    exact ⟨h1, fun f c hc => by rw [(hother x e).2]; exact h2 f c hc⟩

theorem Below.del {s s' : Monitor} {r r' : Reg} (h : Below s r) {d : Nat} (hs : s'.info = del d s.info)
    (hother : ∀ x, x ≠ d → r'.path x = r.path x ∧ ∀ f, r'.file x f = r.file x f) : Below s' r' := by
  unfold Below
  rw [hs]
  refine ⟨keys_filter h.1 _, fun x i hx => ?_⟩
  rw [get_del] at hx
  split at hx
  · cases hx
  · rename_i e
    obtain ⟨h1, h2⟩ := h.2 x i hx
    rw [(hother x e).1]
    exact ⟨h1, fun f c hc => by rw [(hother x e).2]; exact h2 f c hc⟩

theorem Below.same {s s' : Monitor} {r : Reg} (h : Below s r) (hs : s'.info = s.info) : Below s' r := by
  unfold Below; rw [hs]; exact h

theorem Below.getOrCreate {s s' : Monitor} {r : Reg} (h : Below s r) {d : Nat} {ok : Bool} {info : Info}
    (hg : s.getOrCreate d ok = some (s', info)) : Below s' r ∧ get d s'.info = some info := by
  unfold Monitor.getOrCreate at hg
  cases hf : get d s.info with
  | some i => rw [hf] at hg; cases hg; exact ⟨h, hf⟩
  | none =>
    rw [hf] at hg
    simp only [] at hg
    cases hw : s.addWatch d ok with
    | none => rw [hw] at hg; cases hg
    | some p =>
      obtain ⟨s2, w⟩ := p
      rw [hw] at hg
      simp only [Option.some.injEq, Prod.mk.injEq] at hg
      obtain ⟨rfl, rfl⟩ := hg
      have hi : s2.info = s.info := by
        unfold Monitor.addWatch at hw
        split at hw
        · cases hw
        · split at hw
          · split at hw <;> (cases hw; rfl)
          · cases hw
      refine ⟨h.put (d := d) (info' := ⟨w, none, []⟩) (by rw [← hi]) (fun _ _ => ⟨rfl, fun _ => rfl⟩) (fun _ hc => (nomatch hc))
        (fun _ _ hc => (nomatch hc)), ?_⟩
      show get d (Verif.PathMonitor.put d _ s2.info) = _
      rw [get_put, if_pos rfl]

theorem Below.step {s : Monitor} {r : Reg} (h : Below s r) (op : Op) : Below (s.step op).1 ((s.step op).2.foldl Reg.after r) := by
  cases op with
  | addPath d c ok =>
    simp only [Monitor.step, Monitor.addPath]
    split
    · exact h
    · cases hg : s.getOrCreate d ok with
      | none => exact h
      | some p =>
        obtain ⟨s', info⟩ := p
        obtain ⟨h1, h2⟩ := h.getOrCreate hg
        have hp := h1.2 d info h2
        exact h1.put (info' := { info with pathHandler := some c }) (r' := r.after (.pathAdded d c)) rfl
          (fun x hx => ⟨if_neg hx, fun _ => rfl⟩) (fun _ hc => (if_pos rfl).trans hc) hp.2
  | addFile d f c isDir ok =>
    simp only [Monitor.step, Monitor.addFile]
    split
    · exact h
    · split
      · exact h
      · cases hg : s.getOrCreate d ok with
        | none => exact h
        | some p =>
          obtain ⟨s', info⟩ := p
          obtain ⟨h1, h2⟩ := h.getOrCreate hg
          have hp := h1.2 d info h2
          refine h1.put (info' := { info with files := Verif.PathMonitor.put f c info.files }) (r' := r.after (.fileAdded d f c)) rfl
            (fun x hx => ⟨rfl, fun y => if_neg fun e => hx e.1⟩) hp.1 ?_
          intro y c' hy
          show (if d = d ∧ y = f then some c else r.file d y) = some c'
          have hy : get y (Verif.PathMonitor.put f c info.files) = some c' := hy
          rw [get_put] at hy
          by_cases e : y = f
          · rw [if_pos e] at hy; rw [if_pos ⟨rfl, e⟩]; exact hy
          · rw [if_neg e] at hy; rw [if_neg fun h => e h.2]; exact hp.2 y c' hy
  | removePath d =>
    simp only [Monitor.step, Monitor.removePath]
    cases hg : get d s.info with
    | none => exact h
    | some info => exact h.del (d := d) rfl fun x hx => ⟨if_neg hx, fun _ => if_neg hx⟩
  | removeAll =>
    have hi : s.removeAll.info = [] := (removeAll_fields s.info { s with info := [] }).1
    unfold Below
    simp only [Monitor.step, hi]
    exact ⟨List.nodup_nil, fun _ _ hx => (nomatch hx)⟩
  | removeFile d f =>
    simp only [Monitor.step, Monitor.removeFile]
    cases hg : get d s.info with
    | none => exact h
    | some info =>
      simp only []
      cases hf : get f info.files with
      | none => exact h
      | some c =>
        simp only []
        have hp := h.2 d info hg
        have hn : ∀ s' : Monitor, s'.info = Verif.PathMonitor.put d { info with files := Verif.PathMonitor.del f info.files } s.info →
            Below s' (r.after (.fileRemoved d f)) := by
          intro s' hs
          refine h.put hs (fun x hx => ⟨rfl, fun y => if_neg fun e => hx e.1⟩) hp.1 ?_
          intro y c' hy
          show (if d = d ∧ y = f then none else r.file d y) = some c'
          have hy : get y (Verif.PathMonitor.del f info.files) = some c' := hy
          rw [get_del] at hy
          by_cases e : y = f
          · rw [if_pos e] at hy; cases hy
          · rw [if_neg e] at hy; rw [if_neg fun h => e h.2]; exact hp.2 y c' hy
        split <;> exact hn _ rfl
  | prune d =>
    simp only [Monitor.step, Monitor.prune, Monitor.removePath, List.foldl_nil]
    cases hg : get d s.info with
    | none => exact h.same rfl
    | some info => exact h.del (d := d) rfl fun _ _ => ⟨rfl, fun _ => rfl⟩
  | occur i name mask =>
    simp only [Monitor.step]
    cases get i s.watches <;> exact h.same rfl
  | rmdir i => exact h.same rfl
  | mkdir d i => exact h.same rfl
  | dispatch order =>
    simp only [Monitor.step, Monitor.dispatch]
    cases s.queue <;> exact h.same rfl

theorem below {dirs : Nat → Option Nat} {s : Monitor} {h : List Done} (he : Exec dirs s h) : Below s (registered h) := by
  induction he with
  | init => exact ⟨List.nodup_nil, fun _ _ hx => (nomatch hx)⟩
  | step op _ _ ih =>
    unfold registered
    rw [List.foldl_append]
    exact ih.step op

theorem testBit_and (m k : Nat) : (m &&& 2 ^ k ≠ 0) ↔ m.testBit k = true := by
  constructor
  · intro h
    cases hb : m.testBit k with
    | true => rfl
    | false =>
      exfalso; apply h
      apply Nat.eq_of_testBit_eq
      intro i
      rw [Nat.testBit_and, Nat.zero_testBit, Nat.testBit_two_pow]
      by_cases e : k = i
      · subst e; rw [hb]; rfl
      · simp [e]
  · intro hb h
    have := congrArg (Nat.testBit · k) h
    simp only [Nat.testBit_and, Nat.zero_testBit, Nat.testBit_two_pow_self, hb] at this
    cases this

end Verif.PathMonitor
