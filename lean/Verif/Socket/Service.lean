import Verif.Socket.Spec

/-!
# The socket service: lemmas
-/

namespace Verif.Socket

/-! ## Serving requests -/

/-- Taking out the oldest request of a handle leaves, for every handle, the rest in order. -/
theorem find_erase {h0 : Int} {rs : List Request} {r : Request} (hf : rs.find? (fun r => r.handle == h0) = some r) (h : Int) :
    rs.filter (fun r => r.handle == h) = [r].filter (fun r => r.handle == h) ++ (rs.erase r).filter (fun r => r.handle == h) := by
  induction rs with
  | nil => cases hf
  | cons x xs ih =>
    by_cases hx : x.handle = h0
    · have : r = x := by
        rw [List.find?_cons_of_pos (by simpa using hx)] at hf
        exact (Option.some.inj hf).symm
      subst this
      rw [List.erase_cons_head, ← List.filter_append]
      rfl
    · rw [List.find?_cons_of_neg (by simpa using hx)] at hf
      have hr : r.handle = h0 := by simpa using List.find?_some hf
      have hne : r ≠ x := fun e => hx (by rw [← e]; exact hr)
      rw [List.erase_cons_tail (by simpa using Ne.symm hne)]
      have hi := ih hf
      by_cases hxh : x.handle = h
      · have hrh : ¬ r.handle = h := fun e => hx (by rw [hxh, ← e, hr])
        have e1 : [r].filter (fun r => r.handle == h) = [] := by simp [hrh]
        rw [e1] at hi ⊢
        rw [List.filter_cons_of_pos (by simpa using hxh), List.filter_cons_of_pos (by simpa using hxh), hi]
        rfl
      · rw [List.filter_cons_of_neg (a := x) (by simpa using hxh), List.filter_cons_of_neg (a := x) (by simpa using hxh), hi]

theorem serve_filter (ready : List Int) : ∀ (rs : List Request) (h : Int),
    rs.filter (fun r => r.handle == h) =
      (serve ready rs).2.filter (fun r => r.handle == h) ++ (serve ready rs).1.filter (fun r => r.handle == h) := by
  induction ready with
  | nil => intro rs h; rfl
  | cons h0 hs ih =>
    intro rs h
    unfold serve
    cases hf : rs.find? (fun r => r.handle == h0) with
    | none => exact ih rs h
    | some r =>
      show _ = (r :: (serve hs (rs.erase r)).2).filter _ ++ (serve hs (rs.erase r)).1.filter _
      rw [find_erase hf h, ih (rs.erase r) h, ← List.append_assoc, ← List.filter_append]
      rfl

theorem serve_mem (ready : List Int) : ∀ (rs : List Request) (r : Request),
    (r ∈ (serve ready rs).2 → r ∈ rs ∧ r.handle ∈ ready) ∧ (r ∈ (serve ready rs).1 → r ∈ rs) := by
  induction ready with
  | nil => intro rs r; exact ⟨fun h => absurd h List.not_mem_nil, fun h => h⟩
  | cons h0 hs ih =>
    intro rs r
    unfold serve
    cases hf : rs.find? (fun r => r.handle == h0) with
    | none =>
      have := ih rs r
      exact ⟨fun h => ⟨(this.1 h).1, List.mem_cons_of_mem _ (this.1 h).2⟩, this.2⟩
    | some x =>
      have := ih (rs.erase x) r
      refine ⟨fun h => ?_, fun h => List.mem_of_mem_erase (this.2 h)⟩
      rcases List.mem_cons.mp h with rfl | h
      · exact ⟨List.mem_of_find?_eq_some hf, by
          have : r.handle = h0 := by simpa using List.find?_some hf
          rw [this]; exact List.mem_cons_self⟩
      · exact ⟨List.mem_of_mem_erase (this.1 h).1, List.mem_cons_of_mem _ (this.1 h).2⟩

/-! ## The whole service -/

/-- Requests are in the list of their direction. -/
structure Sorted (s : Service) : Prop where
  writes : ∀ r ∈ s.writes, r.dir = .write
  reads : ∀ r ∈ s.reads, r.dir = .read

theorem Sorted.poll {s : Service} (h : Sorted s) (rw' rr : List Int) (posts : List Task) : Sorted (s.poll rw' rr posts) :=
  ⟨fun r hr => h.writes r ((serve_mem _ _ r).2 hr), fun r hr => h.reads r ((serve_mem _ _ r).2 hr)⟩

theorem Sorted.add {s : Service} (h : Sorted s) (r : Request) : Sorted (s.add r) := by
  unfold Service.add
  cases hd : r.dir with
  | write =>
    refine ⟨fun x hx => ?_, h.reads⟩
    rcases List.mem_append.mp hx with hx | hx
    · exact h.writes x hx
    · rw [List.mem_singleton.mp hx]; exact hd
  | read =>
    refine ⟨h.writes, fun x hx => ?_⟩
    rcases List.mem_append.mp hx with hx | hx
    · exact h.reads x hx
    · rw [List.mem_singleton.mp hx]; exact hd

theorem Sorted.runNext {s : Service} (h : Sorted s) (rw' rr : List Int) (posts : List Task) : Sorted (s.runNext rw' rr posts) := by
  unfold Service.runNext
  cases hq : s.queue with
  | nil => exact h
  | cons t q =>
    have h' : Sorted { s with queue := q } := ⟨h.writes, h.reads⟩
    cases t with
    | notify r =>
      simp only []
      split
      · exact (h'.add r).poll ..
      · have := h'.add r; exact ⟨this.writes, this.reads⟩
    | remove x =>
      exact ⟨fun r hr => h.writes r (List.mem_filter.mp hr).1, fun r hr => h.reads r (List.mem_filter.mp hr).1⟩
    | poll => exact h'.poll ..

theorem sorted {s : Service} {made : List Request} (h : Exec s made) : Sorted s := by
  induction h with
  | refl => exact ⟨fun _ h => absurd h List.not_mem_nil, fun _ h => absurd h List.not_mem_nil⟩
  | post t ht _ ih => exact ⟨ih.writes, ih.reads⟩
  | run rw' rr posts hne hp _ ih => exact ih.runNext ..

/-! ### Filters -/

@[simp] theorem ofHandle_append (d : Dir) (h : Int) (a b : List Request) : ofHandle d h (a ++ b) = ofHandle d h a ++ ofHandle d h b :=
  List.filter_append ..

@[simp] theorem ofHandle_nil (d : Dir) (h : Int) : ofHandle d h [] = [] := rfl

@[simp] theorem requestsOf_append (a b : List Task) : requestsOf (a ++ b) = requestsOf a ++ requestsOf b := List.filterMap_append ..

@[simp] theorem requestsOf_nil : requestsOf [] = [] := rfl

@[simp] theorem requestsOf_notify (r : Request) (ts : List Task) : requestsOf (.notify r :: ts) = r :: requestsOf ts := rfl

@[simp] theorem requestsOf_remove (x : Int) (ts : List Task) : requestsOf (.remove x :: ts) = requestsOf ts := rfl

@[simp] theorem requestsOf_poll (ts : List Task) : requestsOf (.poll :: ts) = requestsOf ts := rfl

theorem ofHandle_other {d d' : Dir} (hd : d ≠ d') (h : Int) {rs : List Request} (hr : ∀ r ∈ rs, r.dir = d') : ofHandle d h rs = [] := by
  apply List.filter_eq_nil_iff.mpr
  intro r hm
  have := hr r hm
  simp [this, Ne.symm hd]

theorem ofHandle_same {d : Dir} (h : Int) {rs : List Request} (hr : ∀ r ∈ rs, r.dir = d) :
    ofHandle d h rs = rs.filter (fun r => r.handle == h) := by
  apply List.filter_congr
  intro r hm
  simp [hr r hm]

theorem serve_of {d : Dir} (ready : List Int) {rs : List Request} (hr : ∀ r ∈ rs, r.dir = d) (h : Int) :
    ofHandle d h rs = ofHandle d h (serve ready rs).2 ++ ofHandle d h (serve ready rs).1 := by
  rw [ofHandle_same h hr, ofHandle_same h (fun r hm => hr r ((serve_mem ready rs r).1 hm).1),
    ofHandle_same h (fun r hm => hr r ((serve_mem ready rs r).2 hm))]
  exact serve_filter ready rs h

/-- The requests of a poll: for each direction and handle, those that were waiting are the invoked ones followed
by those still waiting. -/
theorem poll_of {s : Service} (hs : Sorted s) (rw' rr : List Int) (posts : List Task) (d : Dir) (h : Int) :
    ∃ new, ofHandle d h (s.list d) = ofHandle d h new ++ ofHandle d h ((s.poll rw' rr posts).list d) ∧
      (s.poll rw' rr posts).invoked = s.invoked ++ new ∧
      requestsOf (s.poll rw' rr posts).queue = requestsOf s.queue ++ requestsOf posts ∧
      (∀ r ∈ new, (r.dir = .write → r.handle ∈ rw' ∧ r ∈ s.writes) ∧ (r.dir = .read → r.handle ∈ rr ∧ r ∈ s.reads)) := by
  let w := serve ((handlesOf s.writes).filter (· ∈ rw')) s.writes
  let r := serve ((handlesOf s.reads).filter (· ∈ rr)) s.reads
  refine ⟨w.2 ++ r.2, ?_, ?_, ?_, ?_⟩
  · rw [ofHandle_append]
    cases d with
    | write =>
      rw [ofHandle_other (d := .write) (d' := .read) (by decide) h (rs := r.2) (fun x hx => hs.reads x ((serve_mem _ _ x).1 hx).1)]
      rw [List.append_nil]
      exact serve_of _ hs.writes h
    | read =>
      rw [ofHandle_other (d := .read) (d' := .write) (by decide) h (rs := w.2) (fun x hx => hs.writes x ((serve_mem _ _ x).1 hx).1)]
      rw [List.nil_append]
      exact serve_of _ hs.reads h
  · show s.invoked ++ w.2 ++ r.2 = _
    rw [List.append_assoc]
  · show requestsOf (s.queue ++ posts ++ _) = _
    rw [requestsOf_append, requestsOf_append]
    split <;> simp
  · intro x hx
    rcases List.mem_append.mp hx with hx | hx
    · have := (serve_mem _ _ x).1 hx
      have hd := hs.writes x this.1
      refine ⟨fun _ => ⟨by simpa using (List.mem_filter.mp this.2).2, this.1⟩, fun e => by rw [hd] at e; cases e⟩
    · have := (serve_mem _ _ x).1 hx
      have hd := hs.reads x this.1
      refine ⟨fun e => (by rw [hd] at e; cases e), fun _ => ⟨by simpa using (List.mem_filter.mp this.2).2, this.1⟩⟩

theorem add_of {s : Service} (r : Request) (d : Dir) (h : Int) :
    ofHandle d h ((s.add r).list d) = ofHandle d h (s.list d) ++ ofHandle d h [r] := by
  unfold Service.add
  cases hd : r.dir <;> cases d <;> simp [Service.list, ofHandle, hd]

theorem add_fields (s : Service) (r : Request) : (s.add r).queue = s.queue ∧ (s.add r).invoked = s.invoked ∧ (s.add r).selects = s.selects := by
  unfold Service.add; cases r.dir <;> exact ⟨rfl, rfl, rfl⟩

/-- What one task does to the requests of a direction and handle: `more` are those that leave the service, with a
flag for those whose callback is invoked. -/
theorem runNext_of {s : Service} (hs : Sorted s) (rw' rr : List Int) (posts : List Task) (d : Dir) (h : Int) :
    ∃ (more : List (Request × Bool)) (new : List Request),
      ofHandle d h (s.list d) ++ ofHandle d h (requestsOf s.queue) ++ (if s.queue = [] then [] else ofHandle d h (requestsOf posts)) =
        more.map (·.1) ++ ofHandle d h ((s.runNext rw' rr posts).list d) ++ ofHandle d h (requestsOf (s.runNext rw' rr posts).queue) ∧
      (s.runNext rw' rr posts).invoked = s.invoked ++ new ∧
      ofHandle d h new = (more.filter (·.2)).map (·.1) ∧
      (∀ r ∈ new, (r.dir = .write → r.handle ∈ rw') ∧ (r.dir = .read → r.handle ∈ rr)) := by
  have allTrue : ∀ l : List Request, ((l.map fun r => (r, true)).filter (·.2)).map (·.1) = l := by
    intro l; induction l with
    | nil => rfl
    | cons x xs ih => simp only [List.map_cons, List.filter_cons, if_true]; rw [ih]
  have mapFst : ∀ (l : List Request) (b : Bool), (l.map fun r => (r, b)).map (·.1) = l := by
    intro l b; induction l with
    | nil => rfl
    | cons x xs ih => simp only [List.map_cons]; rw [ih]
  unfold Service.runNext
  cases hq : s.queue with
  | nil =>
    refine ⟨[], [], ?_, by simp, rfl, fun r hr => absurd hr List.not_mem_nil⟩
    simp [hq]
  | cons t q =>
    have hs' : Sorted { s with queue := q } := ⟨hs.writes, hs.reads⟩
    simp only [List.cons_ne_nil, if_false]
    cases t with
    | notify r =>
      simp only []
      split
      · obtain ⟨new, p1, p2, p3, p4⟩ := poll_of (hs'.add r) rw' rr posts d h
        obtain ⟨f1, f2, _⟩ := add_fields { s with queue := q } r
        refine ⟨(ofHandle d h new).map fun r => (r, true), new, ?_, by rw [p2, f2], (allTrue _).symm,
          fun x hx => ⟨fun e => ((p4 x hx).1 e).1, fun e => ((p4 x hx).2 e).1⟩⟩
        rw [mapFst, ← p1, p3, f1, add_of, requestsOf_notify, ofHandle_append]
        have e : ofHandle d h (r :: requestsOf q) = ofHandle d h [r] ++ ofHandle d h (requestsOf q) := by
          rw [← ofHandle_append]; rfl
        rw [e]
        simp only [List.append_assoc]
        rfl
      · obtain ⟨f1, f2, _⟩ := add_fields { s with queue := q } r
        refine ⟨[], [], ?_, by simp [f2], rfl, fun r hr => absurd hr List.not_mem_nil⟩
        have e : ofHandle d h (r :: requestsOf q) = ofHandle d h [r] ++ ofHandle d h (requestsOf q) := by
          rw [← ofHandle_append]; rfl
        have l : ({ ({ s with queue := q } : Service).add r with queue := q ++ posts } : Service).list d =
            (({ s with queue := q } : Service).add r).list d := by cases d <;> rfl
        rw [l, add_of, requestsOf_notify, e, requestsOf_append, ofHandle_append]
        simp only [List.append_assoc, List.map_nil, List.nil_append]
        rfl
    | remove x =>
      by_cases hx : x = h
      · refine ⟨(ofHandle d h (s.list d)).map fun r => (r, false), [], ?_, by simp, ?_, fun r hr => absurd hr List.not_mem_nil⟩
        · rw [mapFst]
          have e : ofHandle d h (({ s with
              writes := s.writes.filter (fun r => r.handle != x)
              reads := s.reads.filter (fun r => r.handle != x)
              queue := q ++ posts } : Service).list d) = [] := by
            apply List.filter_eq_nil_iff.mpr
            intro r hr
            cases d <;> (simp only [Service.list, List.mem_filter] at hr; simp at hr ⊢; intro _ e; exact hr.2 (by rw [hx, e]))
          rw [e, requestsOf_remove]
          simp
        · rw [ofHandle_nil]
          induction ofHandle d h (s.list d) with
          | nil => rfl
          | cons y ys ih => simp
      · refine ⟨[], [], ?_, by simp, rfl, fun r hr => absurd hr List.not_mem_nil⟩
        have e : ofHandle d h (({ s with
            writes := s.writes.filter (fun r => r.handle != x)
            reads := s.reads.filter (fun r => r.handle != x)
            queue := q ++ posts } : Service).list d) = ofHandle d h (s.list d) := by
          cases d <;> (
            simp only [Service.list, ofHandle, List.filter_filter]
            apply List.filter_congr
            intro r _
            by_cases e : r.handle = h
            · have : ¬ h = x := fun e => hx e.symm
              simp [e, this]
            · simp [e])
        rw [e, requestsOf_remove]
        simp
    | poll =>
      obtain ⟨new, p1, p2, p3, p4⟩ := poll_of hs' rw' rr posts d h
      refine ⟨(ofHandle d h new).map fun r => (r, true), new, ?_, p2, (allTrue _).symm,
        fun x hx => ⟨fun e => ((p4 x hx).1 e).1, fun e => ((p4 x hx).2 e).1⟩⟩
      rw [mapFst, ← p1, p3, requestsOf_poll, ofHandle_append]
      simp only [List.append_assoc]
      rfl

/-- The fate of all requests. -/
theorem fates {s : Service} {made : List Request} (he : Exec s made) (d : Dir) (h : Int) :
    ∃ fate : List (Request × Bool),
      ofHandle d h made = fate.map (·.1) ++ ofHandle d h (s.list d) ++ ofHandle d h (requestsOf s.queue) ∧
      ofHandle d h s.invoked = (fate.filter (·.2)).map (·.1) := by
  induction he with
  | refl => exact ⟨[], by cases d <;> rfl, rfl⟩
  | @post s made t ht _ ih =>
    obtain ⟨fate, h1, h2⟩ := ih
    refine ⟨fate, ?_, h2⟩
    rw [ofHandle_append, h1]
    have l : ({ s with queue := s.queue ++ [t] } : Service).list d = s.list d := by cases d <;> rfl
    rw [l]
    show _ = _ ++ _ ++ ofHandle d h (requestsOf (s.queue ++ [t]))
    rw [requestsOf_append, ofHandle_append]
    simp only [List.append_assoc]
  | @run s made rw' rr posts hne hp hx ih =>
    obtain ⟨fate, h1, h2⟩ := ih
    obtain ⟨more, new, g1, g2, g3, _⟩ := runNext_of (sorted hx) rw' rr posts d h
    refine ⟨fate ++ more, ?_, ?_⟩
    · rw [if_neg hne] at g1
      rw [ofHandle_append, h1, List.map_append]
      simp only [List.append_assoc] at g1 ⊢
      rw [g1]
    · rw [g2, ofHandle_append, h2, g3, List.filter_append, List.map_append]

/-! ## Ready requests are served -/

theorem serve_serves (ready : List Int) : ∀ (rs : List Request) (h : Int) (r : Request) (rest : List Request), h ∈ ready →
    rs.filter (fun r => r.handle == h) = r :: rest → r ∈ (serve ready rs).2 := by
  induction ready with
  | nil => intro _ _ _ _ h; exact absurd h List.not_mem_nil
  | cons h0 hs ih =>
    intro rs h r rest hh hf
    unfold serve
    cases h0f : rs.find? (fun r => r.handle == h0) with
    | none =>
      have hne : h ≠ h0 := by
        intro e; subst e
        have hr : r ∈ rs ∧ r.handle = h := by
          have : r ∈ rs.filter (fun r => r.handle == h) := by rw [hf]; exact List.mem_cons_self
          simpa using this
        have := List.find?_eq_none.mp h0f r hr.1
        exact this (by simpa using hr.2)
      exact ih rs h r rest ((List.mem_cons.mp hh).resolve_left hne) hf
    | some x =>
      show r ∈ x :: (serve hs (rs.erase x)).2
      have e := find_erase h0f h
      by_cases hx : x.handle = h
      · have e1 : [x].filter (fun r => r.handle == h) = [x] := by simp [hx]
        rw [hf, e1] at e
        rw [(List.cons.inj e).1]; exact List.mem_cons_self
      · have e1 : [x].filter (fun r => r.handle == h) = [] := by simp [hx]
        rw [hf, e1] at e
        have hne : h ≠ h0 := by
          intro eq; subst eq; exact hx (by simpa using List.find?_some h0f)
        exact List.mem_cons_of_mem _ (ih _ h r rest ((List.mem_cons.mp hh).resolve_left hne) e.symm)

/-! ## Polls -/

/-- There are requests. -/
def Service.busy (s : Service) : Prop := s.writes ≠ [] ∨ s.reads ≠ []

theorem poll_mem {s : Service} (rw' rr : List Int) (posts : List Task) (h : (s.poll rw' rr posts).busy) :
    Task.poll ∈ (s.poll rw' rr posts).queue := by
  have h' : (serve ((handlesOf s.writes).filter (· ∈ rw')) s.writes).1 ≠ [] ∨
      (serve ((handlesOf s.reads).filter (· ∈ rr)) s.reads).1 ≠ [] := h
  show Task.poll ∈ s.queue ++ posts ++ _
  rw [if_pos h']
  simp

theorem armed_step {s : Service} (rw' rr : List Int) (posts : List Task) (h : s.busy → Task.poll ∈ s.queue) :
    (s.runNext rw' rr posts).busy → Task.poll ∈ (s.runNext rw' rr posts).queue := by
  unfold Service.runNext
  cases hq : s.queue with
  | nil => rw [hq] at h; simp only []; rw [hq]; exact h
  | cons t q =>
    rw [hq] at h
    cases t with
    | notify r =>
      simp only []
      split
      · exact poll_mem _ _ _
      · rename_i hb
        intro _
        have : s.busy := by
          by_cases e : s.writes = []
          · by_cases e' : s.reads = []
            · exact absurd ⟨e, e'⟩ hb
            · exact .inr e'
          · exact .inl e
        have := h this
        rcases List.mem_cons.mp this with e | e
        · cases e
        · exact List.mem_append_left _ e
    | remove x =>
      intro hb
      have : s.busy := by
        rcases hb with hb | hb
        · exact .inl fun e => hb (by simp [e])
        · exact .inr fun e => hb (by simp [e])
      have := h this
      rcases List.mem_cons.mp this with e | e
      · cases e
      · exact List.mem_append_left _ e
    | poll => exact poll_mem _ _ _

theorem armed {s : Service} (hr : Reach s) : s.busy → Task.poll ∈ s.queue := by
  induction hr with
  | init => intro h; rcases h with h | h <;> exact absurd rfl h
  | step _ hs ih =>
    cases hs with
    | post t ht => intro h; exact List.mem_append_left _ (ih h)
    | run rw' rr posts hne hp => exact armed_step rw' rr posts ih

instance (s : Service) : Decidable s.busy := inferInstanceAs (Decidable (_ ∨ _))

theorem polls_poll {s : Service} (rw' rr : List Int) (posts : List Request) :
    (s.poll rw' rr (posts.map .notify)).polls = s.polls + if (s.poll rw' rr (posts.map .notify)).busy then 1 else 0 := by
  have hn : (posts.map Task.notify).count .poll = 0 := by
    apply List.count_eq_zero_of_not_mem; simp
  have e : (s.poll rw' rr (posts.map .notify)).queue = s.queue ++ posts.map .notify ++
      (if (s.poll rw' rr (posts.map .notify)).busy then [.poll] else []) := rfl
  unfold Service.polls
  rw [e, List.count_append, List.count_append, hn]
  split <;> simp

theorem polls_keep {s : Service} (hr : ExecKeep s) : (∀ x, Task.remove x ∉ s.queue) ∧ s.polls = if s.busy then 1 else 0 := by
  induction hr with
  | init => exact ⟨fun x h => absurd h List.not_mem_nil, rfl⟩
  | @post s r _ ih =>
    refine ⟨fun x h => ?_, ?_⟩
    · rcases List.mem_append.mp h with h | h
      · exact ih.1 x h
      · simp at h
    · have e : ({ s with queue := s.queue ++ [.notify r] } : Service).polls = s.polls := by
        simp [Service.polls, List.count_append]
      rw [e]; exact ih.2
  | @run s rw' rr posts hne hx ih =>
    obtain ⟨ih1, ih2⟩ := ih
    have hn : ∀ x, Task.remove x ∉ posts.map Task.notify := by intro x h; simp at h
    have hn0 : (posts.map Task.notify).count .poll = 0 := by
      apply List.count_eq_zero_of_not_mem; simp
    unfold Service.runNext
    cases hq : s.queue with
    | nil => exact absurd hq hne
    | cons t q =>
      have hpq : ∀ s' : Service, s'.queue = q → ∀ x, Task.remove x ∉ (s'.poll rw' rr (posts.map .notify)).queue := by
        intro s' hs' x h
        have h : Task.remove x ∈ s'.queue ++ posts.map .notify ++ _ := h
        rw [hs'] at h
        rcases List.mem_append.mp h with h | h
        · rcases List.mem_append.mp h with h | h
          · exact ih1 x (by rw [hq]; exact List.mem_cons_of_mem _ h)
          · exact hn x h
        · split at h
          · simp at h
          · exact absurd h List.not_mem_nil
      have ih2' : s.polls = (t :: q).count .poll := by unfold Service.polls; rw [hq]
      cases t with
      | notify r =>
        have hc : q.count .poll = if s.busy then 1 else 0 := by
          rw [← ih2, ih2', List.count_cons_of_ne (by simp)]
        obtain ⟨f1, _, _⟩ := add_fields { s with queue := q } r
        simp only []
        split
        · rename_i hb
          refine ⟨hpq _ f1, ?_⟩
          rw [polls_poll]
          have : (({ s with queue := q } : Service).add r).polls = 0 := by
            unfold Service.polls; rw [f1]; show q.count .poll = 0
            rw [hc, if_neg]; intro h; rcases h with h | h
            · exact h hb.1
            · exact h hb.2
          rw [this, Nat.zero_add]
        · rename_i hb
          have hbusy : s.busy := by
            by_cases e : s.writes = []
            · by_cases e' : s.reads = []
              · exact absurd ⟨e, e'⟩ hb
              · exact .inr e'
            · exact .inl e
          refine ⟨fun x h => ?_, ?_⟩
          · rcases List.mem_append.mp h with h | h
            · exact ih1 x (by rw [hq]; exact List.mem_cons_of_mem _ h)
            · exact hn x h
          · have hb' : ({ ({ s with queue := q } : Service).add r with queue := q ++ posts.map .notify } : Service).busy := by
              unfold Service.add
              cases r.dir with
              | write => exact .inl (by simp)
              | read => exact .inr (by simp)
            rw [if_pos hb']
            show (q ++ posts.map Task.notify).count Task.poll = 1
            rw [List.count_append, hn0, hc, if_pos hbusy]
      | remove x => exact absurd (by rw [hq]; exact List.mem_cons_self) (ih1 x)
      | poll =>
        refine ⟨hpq _ rfl, ?_⟩
        simp only []
        rw [polls_poll]
        have h1 : q.count .poll + 1 = if s.busy then 1 else 0 := by rw [← ih2, ih2', List.count_cons_self]
        have h0 : q.count .poll = 0 := by split at h1 <;> omega
        have : ({ s with queue := q } : Service).polls = 0 := h0
        rw [this, Nat.zero_add]

/-! ## Many polls -/

/-- A request used as witness. -/
def witness : Request := ⟨.read, 5, 0⟩

theorem idle_filter (l : List Int) : l.filter (· ∈ ([] : List Int)) = [] := by
  apply List.filter_eq_nil_iff.mpr; intro x _; simp

/-- One poll that finds nothing ready. -/
theorem idle_poll {s : Service} {q : List Task} (hr : Reach s) (hw : s.writes = []) (hd : s.reads = [witness])
    (hq : s.queue = .poll :: q) :
    ∃ s', Reach s' ∧ s'.writes = [] ∧ s'.reads = [witness] ∧ s'.queue = q ++ [.poll] := by
  refine ⟨s.runNext [] [] [], hr.step (.run s [] [] [] (by rw [hq]; exact List.cons_ne_nil _ _) List.not_mem_nil), ?_⟩
  unfold Service.runNext
  rw [hq]
  simp only [Service.poll, hw, hd]
  refine ⟨rfl, rfl, ?_⟩
  rw [idle_filter, idle_filter]
  simp [serve]

theorem idle_polls (k : Nat) : ∀ {s : Service} {q : List Task}, Reach s → s.writes = [] → s.reads = [witness] →
    s.queue = List.replicate k .poll ++ q →
    ∃ s', Reach s' ∧ s'.writes = [] ∧ s'.reads = [witness] ∧ s'.queue = q ++ List.replicate k .poll := by
  induction k with
  | zero => intro s q hr hw hd hq; exact ⟨s, hr, hw, hd, by simpa using hq⟩
  | succ k ih =>
    intro s q hr hw hd hq
    rw [List.replicate_succ, List.cons_append] at hq
    obtain ⟨s1, h1, h2, h3, h4⟩ := idle_poll hr hw hd hq
    rw [List.append_assoc] at h4
    obtain ⟨s2, g1, g2, g3, g4⟩ := ih h1 h2 h3 h4
    refine ⟨s2, g1, g2, g3, ?_⟩
    rw [g4, List.append_assoc, List.replicate_succ]
    rfl

theorem many_polls (k : Nat) : ∃ s, Reach s ∧ s.writes = [] ∧ s.reads = [witness] ∧ s.queue = List.replicate (k + 1) .poll := by
  induction k with
  | zero =>
    have h1 : Reach _ := .step .init (.post _ (.notify witness) (by decide))
    have h2 := h1.step (.run _ [] [] [] (by decide) List.not_mem_nil)
    exact ⟨_, h2, by decide +kernel, by decide +kernel, by decide +kernel⟩
  | succ k ih =>
    obtain ⟨s, h1, h2, h3, h4⟩ := ih
    have p1 : Reach _ := h1.step (.post s (.remove 5) (by decide))
    have p2 : Reach _ := p1.step (.post _ (.notify witness) (by decide))
    obtain ⟨s1, g1, g2, g3, g4⟩ := idle_polls (k + 1) p2 h2 h3 (q := [.remove 5, .notify witness])
      (by simp only [h4, List.append_assoc]; rfl)
    have r1 := g1.step (.run s1 [] [] [] (by rw [g4]; simp) List.not_mem_nil)
    have e1 : s1.runNext [] [] [] = { s1 with
        writes := []
        reads := []
        queue := .notify witness :: List.replicate (k + 1) .poll } := by
      unfold Service.runNext
      rw [g4]
      simp [g2, g3, witness]
    rw [e1] at r1
    have r2 := r1.step (.run _ [] [] [] (by simp) List.not_mem_nil)
    have e2 : ({ s1 with
        writes := []
        reads := []
        queue := Task.notify witness :: List.replicate (k + 1) Task.poll } : Service).runNext [] [] [] = { s1 with
        writes := []
        reads := [witness]
        queue := List.replicate (k + 1) Task.poll ++ [] ++ [Task.poll]
        invoked := s1.invoked ++ [] ++ []
        selects := (handlesOf [] ++ handlesOf [witness]) :: s1.selects } := by
      simp only [Service.runNext, Service.poll, Service.add, witness]
      simp only [idle_filter, serve, List.nil_append]
      simp
    rw [e2] at r2
    refine ⟨_, r2, rfl, rfl, ?_⟩
    show List.replicate (k + 1) Task.poll ++ [] ++ [Task.poll] = _
    rw [List.append_nil, ← List.replicate_succ']

/-! ## Handles passed to `select` -/

theorem mem_eraseDups {l : List Int} {h : Int} (hm : h ∈ l.eraseDups) : h ∈ l := List.mem_eraseDups.mp hm

/-- Everything in the service was requested. -/
structure Requested (s : Service) (made : List Request) : Prop where
  writes : ∀ r ∈ s.writes, r ∈ made
  reads : ∀ r ∈ s.reads, r ∈ made
  queue : ∀ r ∈ requestsOf s.queue, r ∈ made
  selects : ∀ l ∈ s.selects, ∀ h ∈ l, ∃ r ∈ made, r.handle = h

theorem Requested.poll {s : Service} {made : List Request} (h : Requested s made) (rw' rr : List Int) (posts : List Task) :
    Requested (s.poll rw' rr posts) (made ++ requestsOf posts) := by
  refine ⟨fun r hr => ?_, fun r hr => ?_, fun r hr => ?_, fun l hl x hx => ?_⟩
  · exact List.mem_append_left _ (h.writes r ((serve_mem _ _ r).2 hr))
  · exact List.mem_append_left _ (h.reads r ((serve_mem _ _ r).2 hr))
  · have hr : r ∈ requestsOf (s.queue ++ posts ++ _) := hr
    rw [requestsOf_append, requestsOf_append] at hr
    rcases List.mem_append.mp hr with hr | hr
    · rcases List.mem_append.mp hr with hr | hr
      · exact List.mem_append_left _ (h.queue r hr)
      · exact List.mem_append_right _ hr
    · split at hr
      · exact absurd hr List.not_mem_nil
      · exact absurd hr List.not_mem_nil
  · rcases List.mem_cons.mp hl with rfl | hl
    · rcases List.mem_append.mp hx with hx | hx
      · obtain ⟨r, hr, e⟩ := List.mem_map.mp (mem_eraseDups hx)
        exact ⟨r, List.mem_append_left _ (h.writes r hr), e⟩
      · obtain ⟨r, hr, e⟩ := List.mem_map.mp (mem_eraseDups hx)
        exact ⟨r, List.mem_append_left _ (h.reads r hr), e⟩
    · obtain ⟨r, hr, e⟩ := h.selects l hl x hx
      exact ⟨r, List.mem_append_left _ hr, e⟩

theorem Requested.add {s : Service} {made : List Request} (h : Requested s made) (r : Request) (hr : r ∈ made) :
    Requested (s.add r) made := by
  unfold Service.add
  cases r.dir with
  | write =>
    refine ⟨fun x hx => ?_, h.reads, h.queue, h.selects⟩
    rcases List.mem_append.mp hx with hx | hx
    · exact h.writes x hx
    · rw [List.mem_singleton.mp hx]; exact hr
  | read =>
    refine ⟨h.writes, fun x hx => ?_, h.queue, h.selects⟩
    rcases List.mem_append.mp hx with hx | hx
    · exact h.reads x hx
    · rw [List.mem_singleton.mp hx]; exact hr

theorem Requested.more {s : Service} {made : List Request} (h : Requested s made) (l : List Request) : Requested s (made ++ l) :=
  ⟨fun r hr => List.mem_append_left _ (h.writes r hr), fun r hr => List.mem_append_left _ (h.reads r hr),
    fun r hr => List.mem_append_left _ (h.queue r hr), fun l hl x hx => by
      obtain ⟨r, hr, e⟩ := h.selects l hl x hx
      exact ⟨r, List.mem_append_left _ hr, e⟩⟩

theorem requested {s : Service} {made : List Request} (he : Exec s made) : Requested s made := by
  induction he with
  | refl =>
    exact ⟨fun _ h => absurd h List.not_mem_nil, fun _ h => absurd h List.not_mem_nil, fun _ h => absurd h List.not_mem_nil,
      fun _ h => absurd h List.not_mem_nil⟩
  | @post s made t ht _ ih =>
    have := ih.more (requestsOf [t])
    refine ⟨this.writes, this.reads, fun r hr => ?_, this.selects⟩
    have hr : r ∈ requestsOf (s.queue ++ [t]) := hr
    rw [requestsOf_append] at hr
    rcases List.mem_append.mp hr with hr | hr
    · exact this.queue r hr
    · exact List.mem_append_right _ hr
  | @run s made rw' rr posts hne hp _ ih =>
    unfold Service.runNext
    cases hq : s.queue with
    | nil => exact absurd hq hne
    | cons t q =>
      have hqr : ∀ r ∈ requestsOf q, r ∈ made := by
        intro r hr
        apply ih.queue r
        rw [hq]
        cases t with
        | notify x => exact List.mem_cons_of_mem _ hr
        | remove x => exact hr
        | poll => exact hr
      have ih' : Requested { s with queue := q } made := ⟨ih.writes, ih.reads, hqr, ih.selects⟩
      have app : ∀ r ∈ requestsOf (q ++ posts), r ∈ made ++ requestsOf posts := by
        intro r hr
        rw [requestsOf_append] at hr
        rcases List.mem_append.mp hr with hr | hr
        · exact List.mem_append_left _ (hqr r hr)
        · exact List.mem_append_right _ hr
      cases t with
      | notify r =>
        have hr : r ∈ made := ih.queue r (by rw [hq]; exact List.mem_cons_self)
        simp only []
        split
        · exact (ih'.add r hr).poll ..
        · have := (ih'.add r hr).more (requestsOf posts)
          exact ⟨this.writes, this.reads, app, this.selects⟩
      | remove x =>
        have := ih'.more (requestsOf posts)
        exact ⟨fun r hr => this.writes r (List.mem_filter.mp hr).1, fun r hr => this.reads r (List.mem_filter.mp hr).1, app, this.selects⟩
      | poll => exact ih'.poll ..

/-! ## Removed requests -/

theorem mem_ofHandle {r : Request} {l : List Request} : r ∈ ofHandle r.dir r.handle l ↔ r ∈ l := by simp [ofHandle]

/-- The request is no longer anywhere, and was not invoked. -/
structure Dead (r : Request) (s : Service) (made : List Request) : Prop where
  made : r ∈ made
  list : r ∉ s.list r.dir
  queue : r ∉ requestsOf s.queue
  invoked : r ∉ s.invoked

theorem dead_stays {s0 s' : Service} {made0 made' : List Request} {r : Request} (hs0 : Sorted s0) (h0 : Dead r s0 made0)
    (he : ExecFrom s0 made0 s' made') : (made'.Nodup → Dead r s' made') ∧ Sorted s' := by
  induction he with
  | refl => exact ⟨fun _ => h0, hs0⟩
  | @post s made t ht _ ih =>
    refine ⟨fun hn => ?_, ⟨ih.2.writes, ih.2.reads⟩⟩
    have hd := ih.1 (List.nodup_append.mp hn).1
    refine ⟨List.mem_append_left _ hd.made, ?_, ?_, hd.invoked⟩
    · have : ({ s with queue := s.queue ++ [t] } : Service).list r.dir = s.list r.dir := by cases r.dir <;> rfl
      rw [this]; exact hd.list
    · show r ∉ requestsOf (s.queue ++ [t])
      rw [requestsOf_append]
      intro h
      rcases List.mem_append.mp h with h | h
      · exact hd.queue h
      · exact (List.nodup_append.mp hn).2.2 r hd.made r h rfl
  | @run s made rw' rr posts hne hp _ ih =>
    refine ⟨fun hn => ?_, ih.2.runNext ..⟩
    have hd := ih.1 (List.nodup_append.mp hn).1
    obtain ⟨more, new, g1, g2, g3, _⟩ := runNext_of ih.2 rw' rr posts r.dir r.handle
    rw [if_neg hne] at g1
    have hno : r ∉ ofHandle r.dir r.handle (s.list r.dir) ++ ofHandle r.dir r.handle (requestsOf s.queue) ++
        ofHandle r.dir r.handle (requestsOf posts) := by
      simp only [List.mem_append, mem_ofHandle, not_or]
      exact ⟨⟨hd.list, hd.queue⟩, fun h => (List.nodup_append.mp hn).2.2 r hd.made r h rfl⟩
    rw [g1] at hno
    simp only [List.mem_append, mem_ofHandle, not_or] at hno
    refine ⟨List.mem_append_left _ hd.made, hno.1.2, hno.2, ?_⟩
    rw [g2]
    intro h
    rcases List.mem_append.mp h with h | h
    · exact hd.invoked h
    · have := mem_ofHandle.mpr h
      rw [g3] at this
      obtain ⟨p, hp1, hp2⟩ := List.mem_map.mp this
      exact hno.1.1 (List.mem_map.mpr ⟨p, (List.mem_filter.mp hp1).1, hp2⟩)

end Verif.Socket
