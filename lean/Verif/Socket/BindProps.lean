import Verif.Socket.Bind

/-!
# C157: the theorems
-/

namespace Verif.Socket.Bind

theorem socketOf_handle {t : List Held} {h : Nat} {o : Held} (e : socketOf t h = some o) : o.handle = h ∧ o ∈ t := by
  unfold socketOf at e
  exact ⟨by simpa using List.find?_some e, List.mem_of_find?_eq_some e⟩

theorem socketOf_cons (x : Held) (t : List Held) (k : Nat) :
    socketOf (x :: t) k = if x.handle = k then some x else socketOf t k := by
  unfold socketOf
  rw [List.find?_cons]
  by_cases h : x.handle = k
  · simp [h]
  · have : (x.handle == k) = false := by simpa using h
    rw [if_neg h, this]

theorem socketOf_mem {t : List Held} (hn : (t.map (·.handle)).Nodup) {o : Held} (h : o ∈ t) : socketOf t o.handle = some o := by
  induction t with
  | nil => cases h
  | cons x t ih =>
    rw [List.map_cons, List.nodup_cons] at hn
    rw [socketOf_cons]
    rcases List.mem_cons.1 h with e | e
    · rw [e]; simp
    · have : x.handle ≠ o.handle := fun e' => hn.1 (e' ▸ List.mem_map_of_mem e)
      rw [if_neg this]
      exact ih hn.2 e

theorem socketOf_change {f : Held → Held} (hf : ∀ o, (f o).handle = o.handle) (t : List Held) (h k : Nat) :
    socketOf (change t h f) k = if k = h then (socketOf t h).map f else socketOf t k := by
  induction t with
  | nil => simp [socketOf, change]
  | cons x t ih =>
    show socketOf ((if x.handle = h then f x else x) :: change t h f) k = _
    rw [socketOf_cons, socketOf_cons, socketOf_cons, ih]
    by_cases e1 : x.handle = h
    · by_cases e2 : k = h
      · subst e2
        simp [e1, hf]
      · have : h ≠ k := Ne.symm e2
        simp [e1, e2, hf, this]
    · by_cases e2 : k = h
      · subst e2
        simp [e1]
      · simp [e1, e2]

theorem change_handles {f : Held → Held} (hf : ∀ o, (f o).handle = o.handle) (t : List Held) (h : Nat) :
    (change t h f).map (·.handle) = t.map (·.handle) := by
  unfold change
  rw [List.map_map]
  apply List.map_congr_left
  intro o _
  show (if o.handle = h then f o else o).handle = o.handle
  split
  · exact hf o
  · rfl

theorem socketOf_filter (t : List Held) (h k : Nat) :
    socketOf (t.filter (·.handle != h)) k = if k = h then none else socketOf t k := by
  induction t with
  | nil => simp [socketOf]
  | cons x t ih =>
    rw [List.filter_cons, socketOf_cons]
    by_cases e : x.handle = h
    · simp only [e, bne_self_eq_false, Bool.false_eq_true, if_false, ih]
      by_cases e2 : k = h
      · simp [e2]
      · simp [e2, Ne.symm e2]
    · have : (x.handle != h) = true := by simpa using e
      rw [if_pos this, socketOf_cons, ih]
      by_cases e2 : k = h
      · subst e2; simp [e]
      · simp [e2]

/-- The system's table, the view of the specification and the modes used so far. -/
structure Rel (t : List Held) (v : View) (g : Nat → Option Mode) (used : Nat → Prop) : Prop where
  nodup : (t.map (·.handle)).Nodup
  inUse : ∀ h, used h ↔ ∃ o, socketOf t h = some o
  view : ∀ h, (v h).map (fun b => b.map (·.1)) = (socketOf t h).map (·.bound)
  flag : ∀ h o, socketOf t h = some o → o.reuse = true → g h = some .allowReuse
  mode : ∀ h o e m, socketOf t h = some o → v h = some (some (e, m)) → g h = some m ∧ o.reuse = decide (m = .allowReuse)

theorem view_closed {t v g used} (r : Rel t v g used) (h : Nat) : v h = none ↔ socketOf t h = none := by
  have := r.view h
  cases hv : v h <;> cases hs : socketOf t h <;> simp_all

theorem view_open {t v g used} (r : Rel t v g used) {h : Nat} {o : Held} (hs : socketOf t h = some o) :
    (v h = some none ↔ o.bound = none) := by
  have := r.view h
  rw [hs] at this
  cases hv : v h with
  | none => rw [hv] at this; cases this
  | some b =>
    rw [hv] at this
    cases b <;> simp_all <;> cases ho : o.bound <;> simp_all

theorem view_bound {t v g used} (r : Rel t v g used) {h : Nat} {o : Held} (hs : socketOf t h = some o) {e : Ep}
    (hb : o.bound = some e) : ∃ m, v h = some (some (e, m)) := by
  have := r.view h
  rw [hs] at this
  cases hv : v h with
  | none => rw [hv] at this; cases this
  | some b =>
    rw [hv] at this
    cases b with
    | none => simp [hb] at this
    | some p =>
      obtain ⟨e', m⟩ := p
      simp [hb] at this
      exact ⟨m, by rw [this]⟩

theorem clash_iff (a b : Ep) : clash a b = true ↔ Overlap a b := by
  simp [clash, Overlap, or_assoc]

theorem taken_iff {t v g used} (r : Rel t v g used) {h : Nat} {ep : Ep} {me : Held} {mode : Mode}
    (hm : me.reuse = decide (mode = .allowReuse)) :
    t.any (fun o => o.handle != h && o.bound.any (clash ep) && !System.linux.share me.reuse o.reuse) = true ↔
      Taken v h ep mode := by
  rw [List.any_eq_true]
  constructor
  · rintro ⟨o, ho, hc⟩
    simp only [Bool.and_eq_true, bne_iff_ne, ne_eq, Bool.not_eq_true', System.share] at hc
    obtain ⟨⟨h1, h2⟩, h3⟩ := hc
    have hs := socketOf_mem r.nodup ho
    cases hb : o.bound with
    | none => simp [hb] at h2
    | some e =>
      obtain ⟨m, hv⟩ := view_bound r hs hb
      refine ⟨o.handle, e, m, h1, hv, (clash_iff _ _).1 (by simpa [hb] using h2), ?_⟩
      rintro ⟨rfl, rfl⟩
      have := (r.mode _ _ _ _ hs hv).2
      rw [hm, this] at h3
      cases h3
  · rintro ⟨k, e, m, h1, hv, h2, h3⟩
    have hb := r.view k
    rw [hv] at hb
    cases hs : socketOf t k with
    | none => rw [hs] at hb; cases hb
    | some o =>
      rw [hs] at hb
      have hb : some e = o.bound := by simpa using hb
      obtain ⟨hk, ho⟩ := socketOf_handle hs
      refine ⟨o, ho, ?_⟩
      have hr := (r.mode _ _ _ _ hs hv).2
      simp only [Bool.and_eq_true, bne_iff_ne, ne_eq, Bool.not_eq_true', System.share, hm, hr, ← hb, hk]
      refine ⟨⟨h1, (clash_iff _ _).2 h2⟩, ?_⟩
      cases mode <;> cases m <;> simp_all

/-- The calls of `::bind` after the flag is as the mode wants it. -/
theorem osBind_ok {t v g used} (r : Rel t v g used) {h : Nat} {e : Ep} {mode : Mode} {fits : Bool} (hg : g h = some mode)
    (hf : ∀ o, socketOf t h = some o → o.bound = none → o.reuse = decide (mode = .allowReuse)) :
    (∃ t', osBind .linux t h e fits = (t', true) ∧ v h = some none ∧ ¬ Taken v h e mode ∧ fits = true ∧
      Rel t' (v.set h (some (some (e, mode)))) g used) ∨
    (osBind .linux t h e fits = (t, false) ∧ (v h ≠ some none ∨ Taken v h e mode ∨ fits = false)) := by
  unfold osBind
  cases hs : socketOf t h with
  | none =>
    right
    exact ⟨rfl, .inl (by rw [(view_closed r h).2 hs]; simp)⟩
  | some me =>
    cases hb : me.bound with
    | some e0 =>
      right
      refine ⟨by simp [hb], .inl ?_⟩
      rw [ne_eq, view_open r hs, hb]; simp
    | none =>
      have hv := (view_open r hs).2 hb
      have hm := hf me hs hb
      cases fits with
      | false => right; exact ⟨by simp, .inr (.inr rfl)⟩
      | true =>
        have ht := taken_iff r (h := h) (ep := e) hm
        by_cases hT : Taken v h e mode
        · right
          refine ⟨?_, .inr (.inl hT)⟩
          simp only [ht.2 hT, Bool.or_true, if_true]
        · left
          have hany := Bool.eq_false_iff.2 (fun h' => hT (ht.1 h'))
          refine ⟨change t h fun o => { o with bound := some e }, ?_, hv, hT, rfl, ?_⟩
          · simp only [hb, hany, Option.isSome_none, Bool.not_true, Bool.or_false, Bool.false_eq_true, if_false]
          · have hsoc := socketOf_change (f := fun o => { o with bound := some e }) (fun _ => rfl) t h
            refine ⟨?_, ?_, ?_, ?_, ?_⟩
            · rw [change_handles (f := fun o => { o with bound := some e }) (fun _ => rfl)]; exact r.nodup
            · intro k
              rw [hsoc, r.inUse]
              by_cases ek : k = h
              · subst ek; simp [hs]
              · simp [ek]
            · intro k
              rw [hsoc]
              by_cases ek : k = h
              · subst ek; simp [View.set, hs]
              · simp only [View.set, ek, if_false]; exact r.view k
            · intro k o hk hr
              rw [hsoc] at hk
              by_cases ek : k = h
              · subst ek
                rw [if_pos rfl, hs] at hk
                cases hk
                exact r.flag k me hs hr
              · rw [if_neg ek] at hk
                exact r.flag k o hk hr
            · intro k o e' m hk hv'
              rw [hsoc] at hk
              by_cases ek : k = h
              · subst ek
                rw [if_pos rfl, hs] at hk
                cases hk
                simp only [View.set, if_true] at hv'
                cases hv'
                exact ⟨hg, hm⟩
              · rw [if_neg ek] at hk
                simp only [View.set, ek, if_false] at hv'
                exact r.mode k o e' m hk hv'

theorem step_ok {t v g used} (r : Rel t v g used) (op : Op) (os : List Op) (hu : FreshHandles used (op :: os))
    (hg : OneMode g (op :: os)) :
    ∃ v' g' used', Expected v op v' (step .linux t op).2 ∧ Rel (step .linux t op).1 v' g' used' ∧ FreshHandles used' os ∧
      OneMode g' os := by
  cases op with
  | create h =>
    have hno : socketOf t h = none := by
      cases hs : socketOf t h with
      | none => rfl
      | some o => exact absurd ((r.inUse h).2 ⟨o, hs⟩) hu.1
    refine ⟨v.set h (some none), _, _, ⟨rfl, rfl⟩, ?_, hu.2, hg⟩
    show Rel (⟨h, false, none⟩ :: t) _ _ _
    refine ⟨?_, ?_, ?_, ?_, ?_⟩
    · rw [List.map_cons, List.nodup_cons]
      refine ⟨fun hm => ?_, r.nodup⟩
      obtain ⟨o, ho, e⟩ := List.mem_map.1 hm
      have := socketOf_mem r.nodup ho
      rw [e] at this
      exact absurd (hno.symm.trans this) (by simp)
    · intro k
      rw [socketOf_cons]
      by_cases e : h = k
      · simp [e]
      · simp [e, Ne.symm e, r.inUse]
    · intro k
      rw [socketOf_cons]
      by_cases e : h = k
      · simp [e, View.set]
      · simp only [View.set, Ne.symm e, if_false, e]; exact r.view k
    · intro k o hk hr
      rw [socketOf_cons] at hk
      by_cases e : h = k
      · rw [if_pos e] at hk; cases hk; cases hr
      · rw [if_neg e] at hk; simp only [Ne.symm e, if_false]; exact r.flag k o hk hr
    · intro k o e' m hk hv
      rw [socketOf_cons] at hk
      by_cases e : h = k
      · simp [View.set, e] at hv
      · rw [if_neg e] at hk
        simp only [View.set, Ne.symm e, if_false] at hv ⊢
        exact r.mode k o e' m hk hv
  | close h =>
    refine ⟨v.set h none, g, _, ⟨rfl, rfl⟩, ?_, hu, hg⟩
    show Rel (t.filter (·.handle != h)) _ _ _
    have hsoc := socketOf_filter t h
    refine ⟨?_, ?_, ?_, ?_, ?_⟩
    · exact r.nodup.sublist (List.filter_sublist.map _)
    · intro k
      rw [hsoc]
      by_cases e : k = h
      · simp [e]
      · simp [e, r.inUse]
    · intro k
      rw [hsoc]
      by_cases e : k = h
      · simp [e, View.set]
      · simp only [View.set, e, if_false]; exact r.view k
    · intro k o hk hr
      rw [hsoc] at hk
      by_cases e : k = h
      · rw [if_pos e] at hk; cases hk
      · rw [if_neg e] at hk; exact r.flag k o hk hr
    · intro k o e' m hk hv
      rw [hsoc] at hk
      by_cases e : k = h
      · rw [if_pos e] at hk; cases hk
      · rw [if_neg e] at hk
        simp only [View.set, e, if_false] at hv
        exact r.mode k o e' m hk hv
  | «local» h =>
    refine ⟨v, g, used, ⟨rfl, ?_⟩, r, hu, hg⟩
    show Ans.endpoint ((socketOf t h).map fun o => o.bound.getD (0, 0)) = _
    have := r.view h
    cases hv : v h with
    | none => rw [(view_closed r h).1 hv]; rfl
    | some b =>
      cases hs : socketOf t h with
      | none => rw [(view_closed r h).2 hs] at hv; cases hv
      | some o =>
        rw [hv, hs] at this
        simp only [Option.map_some, Option.some.injEq] at this
        simp only [Option.map_some, this]
  | bind h ep mode chosen settable fits =>
    obtain ⟨h1, h2⟩ := hg
    -- the modes used so far, with this one
    have r' : Rel t v (fun k => if k = h then some mode else g k) used := by
      refine ⟨r.nodup, r.inUse, r.view, ?_, ?_⟩
      · intro k o hk hr
        have := r.flag k o hk hr
        by_cases e : k = h
        · subst e
          rcases h1 with h1 | h1 <;> rw [h1] at this <;> simp_all
        · simp [e, this]
      · intro k o e' m hk hv
        have := r.mode k o e' m hk hv
        by_cases e : k = h
        · subst e
          rcases h1 with h1 | h1 <;> rw [h1] at this <;> simp_all
        · simpa [e] using this
    have hgh : (fun k => if k = h then some mode else g k) h = some mode := by simp
    generalize he : ((ep.1, if ep.2 = 0 then chosen else ep.2) : Ep) = e
    have e1 : e.1 = ep.1 := by rw [← he]
    have e2 : ep.2 ≠ 0 → e.2 = ep.2 := fun hne => by rw [← he]; simp [hne]
    have e3 : ep.2 = 0 → e.2 = chosen := fun hne => by rw [← he]; simp [hne]
    cases mode with
    | singleUse =>
      have hf : ∀ o, socketOf t h = some o → o.bound = none → o.reuse = decide (Mode.singleUse = .allowReuse) := by
        intro o ho _
        cases hr : o.reuse with
        | false => rfl
        | true => have := r'.flag h o ho hr; simp at this
      rcases osBind_ok r' hgh hf (e := e) (fits := fits) with ⟨t', p1, p2, p3, p4, p5⟩ | ⟨p1, p2⟩
      · refine ⟨_, _, used, ⟨e, e1, e2, e3, .inl ⟨p2, p3, p4, by simp, rfl, ?_⟩⟩, ?_, hu, h2⟩
        · simp only [step, bind, he, p1]
        · simp only [step, bind, he, p1]; exact p5
      · refine ⟨v, _, used, ⟨e, e1, e2, e3, .inr ⟨?_, rfl, ?_⟩⟩, ?_, hu, h2⟩
        · rcases p2 with p | p | p
          · exact .inl p
          · exact .inr (.inl p)
          · exact .inr (.inr (.inl p))
        · simp only [step, bind, he, p1]
        · simp only [step, bind, he, p1]; exact r'
    | allowReuse =>
      cases hs : socketOf t h with
      | none =>
        refine ⟨v, _, used, ⟨e, e1, e2, e3, .inr ⟨.inl ?_, rfl, ?_⟩⟩, ?_, hu, h2⟩
        · rw [(view_closed r h).2 hs]; simp
        · simp [step, bind, osReuse, hs]
        · simp only [step, bind, osReuse, hs]; exact r'
      | some o =>
        cases settable with
        | false =>
          refine ⟨v, _, used, ⟨e, e1, e2, e3, .inr ⟨.inr (.inr (.inr ⟨rfl, rfl⟩)), rfl, ?_⟩⟩, ?_, hu, h2⟩
          · simp [step, bind, osReuse, hs]
          · simp only [step, bind, osReuse, hs]; exact r'
        | true =>
          have hsoc := socketOf_change (f := fun o => { o with reuse := true }) (fun _ => rfl) t h
          have r2 : Rel (change t h fun o => { o with reuse := true }) v
              (fun k => if k = h then some .allowReuse else g k) used := by
            refine ⟨?_, ?_, ?_, ?_, ?_⟩
            · rw [change_handles (f := fun o => { o with reuse := true }) (fun _ => rfl)]; exact r'.nodup
            · intro k
              rw [hsoc, r'.inUse]
              by_cases ek : k = h
              · subst ek; simp [hs]
              · simp [ek]
            · intro k
              rw [hsoc]
              by_cases ek : k = h
              · subst ek
                have := r'.view k
                rw [hs] at this
                simp [hs, this]
              · rw [if_neg ek]; exact r'.view k
            · intro k x hk hr
              rw [hsoc] at hk
              by_cases ek : k = h
              · simp [ek]
              · rw [if_neg ek] at hk
                exact r'.flag k x hk hr
            · intro k x e' m hk hv
              rw [hsoc] at hk
              by_cases ek : k = h
              · subst ek
                rw [if_pos rfl, hs] at hk
                cases hk
                have := (r'.mode k o e' m hs hv).1
                simp only [if_true] at this
                cases this
                exact ⟨by simp, rfl⟩
              · rw [if_neg ek] at hk
                exact r'.mode k x e' m hk hv
          have hf : ∀ x, socketOf (change t h fun o => { o with reuse := true }) h = some x → x.bound = none →
              x.reuse = decide (Mode.allowReuse = .allowReuse) := by
            intro x hx _
            rw [hsoc, if_pos rfl, hs] at hx
            cases hx
            rfl
          have hb : (bind .linux t h e .allowReuse true fits) =
              osBind .linux (change t h fun o => { o with reuse := true }) h e fits := by
            simp [bind, osReuse, hs]
          rcases osBind_ok r2 hgh hf (e := e) (fits := fits) with ⟨t', p1, p2, p3, p4, p5⟩ | ⟨p1, p2⟩
          · refine ⟨_, _, used, ⟨e, e1, e2, e3, .inl ⟨p2, p3, p4, fun _ => rfl, rfl, ?_⟩⟩, ?_, hu, h2⟩
            · simp only [step, he, hb, p1]
            · simp only [step, he, hb, p1]; exact p5
          · refine ⟨v, _, used, ⟨e, e1, e2, e3, .inr ⟨?_, rfl, ?_⟩⟩, ?_, hu, h2⟩
            · rcases p2 with p | p | p
              · exact .inl p
              · exact .inr (.inl p)
              · exact .inr (.inr (.inl p))
            · simp only [step, he, hb, p1]
            · simp only [step, he, hb, p1]; exact r2

/-- **C157** on Linux, for programs that call `bind` on each socket with one mode only: every history of calls has the
documented results. -/
theorem bind_modes_partial (ops : List Op) (hu : FreshHandles (fun _ => False) ops) (hg : OneMode (fun _ => none) ops) :
    ∃ v', History (fun _ => none) ops v' (run .linux [] ops).2 := by
  have go : ∀ (ops : List Op) (t : List Held) (v : View) (g : Nat → Option Mode) (used : Nat → Prop), Rel t v g used →
      FreshHandles used ops → OneMode g ops → ∃ v', History v ops v' (run .linux t ops).2 := by
    intro ops
    induction ops with
    | nil => intro t v g used _ _ _; exact ⟨v, .nil⟩
    | cons op os ih =>
      intro t v g used r hu hg
      obtain ⟨v1, g1, u1, h1, h2, h3, h4⟩ := step_ok r op os hu hg
      obtain ⟨v2, h5⟩ := ih _ _ _ _ h2 h3 h4
      exact ⟨v2, .cons h1 h5⟩
  refine go ops [] _ _ _ ⟨by simp, ?_, ?_, ?_, ?_⟩ hu hg
  · intro h; simp [socketOf]
  · intro h; rfl
  · intro h o hs; cases hs
  · intro h o e m hs; cases hs

/-- In such a history no socket bound for single use shares its endpoint: what the specification says of every state it
reaches. -/
theorem bind_exclusive {v : View} {ops : List Op} {v' : View} {rs : List Ans} (hist : History v ops v' rs)
    (h0 : ∀ h k e e' m m', h ≠ k → v h = some (some (e, m)) → v k = some (some (e', m')) → Overlap e e' →
      m = .allowReuse ∧ m' = .allowReuse) :
    ∀ h k e e' m m', h ≠ k → v' h = some (some (e, m)) → v' k = some (some (e', m')) → Overlap e e' →
      m = .allowReuse ∧ m' = .allowReuse := by
  have sym : ∀ a b : Ep, Overlap a b → Overlap b a := by
    rintro a b ⟨h1, h2 | h2 | h2⟩
    · exact ⟨h1.symm, .inl h2.symm⟩
    · exact ⟨h1.symm, .inr (.inr h2)⟩
    · exact ⟨h1.symm, .inr (.inl h2)⟩
  induction hist with
  | nil => exact h0
  | cons hx _ ih =>
    apply ih
    rename_i v v1 v2 op ops r rs _
    cases op with
    | create x =>
      obtain ⟨rfl, -⟩ := hx
      intro h k e e' m m' hne h1 h2
      simp only [View.set] at h1 h2
      by_cases a : h = x
      · simp [a] at h1
      · by_cases b : k = x
        · simp [b] at h2
        · simp only [a, b, if_false] at h1 h2; exact h0 h k e e' m m' hne h1 h2
    | close x =>
      obtain ⟨rfl, -⟩ := hx
      intro h k e e' m m' hne h1 h2
      simp only [View.set] at h1 h2
      by_cases a : h = x
      · simp [a] at h1
      · by_cases b : k = x
        · simp [b] at h2
        · simp only [a, b, if_false] at h1 h2; exact h0 h k e e' m m' hne h1 h2
    | «local» x => obtain ⟨rfl, -⟩ := hx; exact h0
    | bind x ep mode chosen settable fits =>
      obtain ⟨e0, -, -, -, h | h⟩ := hx
      · obtain ⟨-, hT, -, -, rfl, -⟩ := h
        intro h k e e' m m' hne h1 h2 hc
        simp only [View.set] at h1 h2
        by_cases a : h = x
        · by_cases b : k = x
          · exact absurd (a.trans b.symm) hne
          · simp only [a, b, if_true, if_false] at h1 h2
            cases h1
            exact Classical.not_not.1 fun hn => hT ⟨k, e', m', b, h2, hc, hn⟩
        · by_cases b : k = x
          · simp only [a, b, if_true, if_false] at h1 h2
            cases h2
            have := Classical.not_not.1 fun hn => hT ⟨h, e, m, a, h1, sym _ _ hc, hn⟩
            exact ⟨this.2, this.1⟩
          · simp only [a, b, if_false] at h1 h2; exact h0 h k e e' m m' hne h1 h2 hc
      · obtain ⟨-, rfl, -⟩ := h
        exact h0

/-- A history that meets the hypotheses: two sockets share an endpoint, a third is refused, also after a close. -/
def sampleOps : List Op :=
  [.create 3, .create 4, .create 5, .bind 3 (7, 80) .allowReuse 0 true true, .bind 4 (0, 80) .allowReuse 0 true true,
   .bind 5 (7, 80) .singleUse 0 true true, .close 3, .bind 5 (7, 80) .singleUse 0 true true, .bind 5 (7, 0) .singleUse 9 true true,
   .local 5]

example : FreshHandles (fun _ => False) sampleOps ∧ OneMode (fun _ => none) sampleOps ∧
    (run .linux [] sampleOps).2 = [.done, .done, .done, .ok true, .ok true, .ok false, .done, .ok false, .ok true,
      .endpoint (some (7, 9))] := by
  refine ⟨?_, ?_, by decide +kernel⟩
  · simp [sampleOps, FreshHandles]
  · simp [sampleOps, OneMode]

/-- C157 fails.
1. On Linux a call of `bind` that fails still permits reuse for good: a socket bound for single use afterwards (here to
another endpoint, after the first was refused by the system) shares it with a socket that allows reuse;
2. also one bound for single use before, on which `bind` is called again and fails;
3. on Windows a socket that allows reuse takes the endpoint of one bound for single use in any case. -/
theorem bind_modes_violated (h k : Nat) (hk : h ≠ k) (e e' : Ep) (he : e.2 ≠ 0) (hc : e'.2 ≠ 0) :
    (run .linux [] [.create h, .create k, .bind h e' .allowReuse 0 true false, .bind h e .singleUse 0 true true,
      .bind k e .allowReuse 0 true true, .local h, .local k]).2 =
      [.done, .done, .ok false, .ok true, .ok true, .endpoint (some e), .endpoint (some e)] ∧
    (run .linux [] [.create h, .create k, .bind h e .singleUse 0 true true, .bind h e .allowReuse 0 true true,
      .bind k e .allowReuse 0 true true, .local h, .local k]).2 =
      [.done, .done, .ok true, .ok false, .ok true, .endpoint (some e), .endpoint (some e)] ∧
    (run .windows [] [.create h, .create k, .bind h e .singleUse 0 true true, .bind k e .allowReuse 0 true true,
      .local h, .local k]).2 =
      [.done, .done, .ok true, .ok true, .endpoint (some e), .endpoint (some e)] := by
  have hk' : k ≠ h := Ne.symm hk
  refine ⟨?_, ?_, ?_⟩ <;>
    simp [run, step, bind, osReuse, osBind, socketOf, change, localEndpoint, System.share, hk, hk', he, hc]

end Verif.Socket.Bind
