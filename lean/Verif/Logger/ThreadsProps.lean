import Verif.Logger.Threads

/-!
# C154: the theorems
-/

namespace Verif.Logger.Threads

theorem start_inv_sync (n : Nat) : Inv (syncStart n) ∧ Kept (syncStart n) [] := by
  have all : ∀ (t : Nat) (p : Pc), (syncStart n).pcs[t]? = some p → p = .out := by
    intro t p hp
    exact (List.mem_replicate.1 (List.mem_of_getElem? hp)).2
  refine ⟨⟨?_, nofun, fun _ => rfl, rfl, fun _ => rfl, ?_, ?_⟩, ⟨List.prefix_refl _, ?_, ?_, fun _ _ => rfl⟩⟩
  · intro t t' p p' h1 _ h3 _
    exact absurd (all t p h1) h3
  · intro t m i h1
    cases all t _ h1
  · intro t m i h1
    cases all t _ h1
  · intro t p h1 h2
    exact absurd (all t p h1) h2
  · intro t p h1 h2
    exact absurd (all t p h1) h2

theorem start_inv_async : Inv asyncStart ∧ Kept asyncStart [] := by
  have all : ∀ (t : Nat) (p : Pc), asyncStart.pcs[t]? = some p → p = .out := by
    intro t p hp
    exact List.mem_singleton.1 (List.mem_of_getElem? hp)
  refine ⟨⟨?_, fun _ => rfl, nofun, rfl, fun _ => rfl, ?_, ?_⟩, ⟨List.prefix_refl _, ?_, ?_, fun _ _ => rfl⟩⟩
  · intro t t' p p' h1 _ h3 _
    exact absurd (all t p h1) h3
  · intro t m i h1
    cases all t _ h1
  · intro t m i h1
    cases all t _ h1
  · intro t p h1 h2
    exact absurd (all t p h1) h2
  · intro t p h1 h2
    exact absurd (all t p h1) h2

/-- What a user expects of the sink after a history. -/
structure Good (s : State) (ops : List Op) : Prop where
  indices : Consecutive s.offered
  one : OneInSink s
  /-- the records come in the order of the calls, none is left out or repeated -/
  order : s.offered.map (·.1) <+: calls ops
  /-- and when everything is done and the sink has refused none, they are all there -/
  complete : NoRefusal ops → Quiet s → s.offered.map (·.1) = calls ops

theorem good_of {s : State} {ops : List Op} (h : Inv s) (k : Kept s (calls ops))
    (hn : NoRefusal ops → s.failed = false) : Good s ops := by
  refine ⟨h.indices, ?_, k.pre, ?_⟩
  · intro t t' m i m' i' h1 h2
    exact h.one t t' _ _ h1 h2 (by simp) (by simp)
  · intro hf hq
    have := k.quiet (hn hf) hq.1
    rwa [hq.2, List.append_nil] at this

/-- **C154.** With a sequenced task runner, however many threads log and however they interleave with the runner. -/
theorem async_logger (ops : List Op) (s : State) (hr : run asyncStart ops = some s) : Good s ops := by
  obtain ⟨h, k⟩ := both_run ops _ _ _ start_inv_async.1 start_inv_async.2 (.inl rfl) hr
  refine good_of h (by simpa using k) fun hn => never_fails ops _ _ rfl ?_ hn hr
  intro t ht
  exact absurd (List.mem_singleton.1 (List.mem_of_getElem? ht)) (by simp)

/-- Without a task runner the same holds if the calls do not overlap. -/
theorem sync_serial_partial (threads : Nat) (ops : List Op) (s : State) (hs : Serial (syncStart threads) ops)
    (hr : run (syncStart threads) ops = some s) : Good s ops := by
  obtain ⟨h, k⟩ := both_run ops _ _ _ (start_inv_sync threads).1 (start_inv_sync threads).2 (.inr hs) hr
  refine good_of h (by simpa using k) fun hn => never_fails ops _ _ rfl ?_ hn hr
  intro t ht
  exact absurd (List.mem_replicate.1 (List.mem_of_getElem? ht)).2 (by simp)

/-- Two threads at work at the same time: both records get the same index and the sink works on both at once. And if
it then refuses the first of them, the logger can go on as if nothing had happened. From every state of a synchronous
logger in which two threads are free. -/
theorem sync_violated (s : State) (t u a b : Nat) (hu : t ≠ u) (hsync : s.async = false) (hf : s.failed = false)
    (ht : s.pcs[t]? = some Pc.out) (hu' : s.pcs[u]? = some Pc.out) :
    ∃ ops s', run s ops = some s' ∧ calls ops = [a, b] ∧ s'.offered = s.offered ++ [(a, s.index), (b, s.index)] ∧
      ¬ OneInSink s' ∧
      ∃ s'', run s' [.answer t false, .answer u true, .finish t, .finish u] = some s'' ∧ s''.failed = false := by
  have lt := (List.getElem?_eq_some_iff.1 ht).1
  have lu := (List.getElem?_eq_some_iff.1 hu').1
  let pcs (p q : Pc) := (s.pcs.set t p).set u q
  have g1 : ∀ p q, (pcs p q)[t]? = some p := fun p q => by
    rw [List.getElem?_set_ne (Ne.symm hu)]; exact List.getElem?_set_self lt
  have g2 : ∀ p q, (pcs p q)[u]? = some q := fun p q => List.getElem?_set_self (by simpa using lu)
  have w1 : ∀ p q r, (pcs p q).set t r = pcs r q := fun p q r => by
    show ((s.pcs.set t p).set u q).set t r = (s.pcs.set t r).set u q
    rw [List.set_comm _ _ (Ne.symm hu), List.set_set]
  have w2 : ∀ p q r, (pcs p q).set u r = pcs p r := fun p q r => List.set_set ..
  have e : s.pcs = pcs .out .out := by
    have e1 : s.pcs.set t .out = s.pcs := by
      apply List.ext_getElem?
      intro i
      by_cases hi : i = t
      · subst hi; rw [ht, List.getElem?_set_self lt]
      · rw [List.getElem?_set_ne (Ne.symm hi)]
    have e2 : s.pcs.set u .out = s.pcs := by
      apply List.ext_getElem?
      intro i
      by_cases hi : i = u
      · subst hi; rw [hu', List.getElem?_set_self lu]
      · rw [List.getElem?_set_ne (Ne.symm hi)]
    show s.pcs = (s.pcs.set t .out).set u .out
    rw [e1, e2]
  obtain ⟨as, fl, ix, ps, qu, off⟩ := s
  simp only at hsync hf e
  subst hsync hf
  clear_value pcs
  subst e
  refine ⟨[.call t a, .call u b, .load t, .load u, .store t, .store u, .stream t, .stream u],
    ⟨false, false, ix + 1, pcs (.inSink a ix) (.inSink b ix), qu, off ++ [(a, ix), (b, ix)]⟩, ?_, rfl, rfl, ?_,
    ⟨false, false, ix + 1, pcs .out .out, qu, off ++ [(a, ix), (b, ix)]⟩, ?_, rfl⟩
  · simp [run, step, State.set, g1, g2, w1, w2]
  · intro h
    exact hu (h t u a ix b ix (g1 _ _) (g2 _ _))
  · simp [run, step, State.set, g1, g2, w1, w2]

/-- Nothing more is offered: the logger has failed and nobody is at work, or the executor is about to note that. -/
structure Stopped (s : State) : Prop where
  only : ∀ (t : Nat) (p : Pc), s.pcs[t]? = some p → p = .out ∨ p = .answered false
  single : s.pcs.length = 1
  async : s.async = true
  failed : s.failed = true ∨ s.pcs[0]? = some (Pc.answered false)

theorem Stopped.step {s s' : State} {o : Op} (h : Stopped s) (hs : step s o = some s') :
    Stopped s' ∧ s'.offered = s.offered := by
  cases o with
  | call t m =>
    simp only [Threads.step, h.async] at hs
    split at hs
    · injection hs with hs; subst hs; exact ⟨h, rfl⟩
    · simp only [if_true] at hs
      injection hs with hs; subst hs
      exact ⟨⟨h.only, h.single, rfl, h.failed⟩, rfl⟩
  | take =>
    simp only [Threads.step] at hs
    split at hs
    · cases hs
    · split at hs
      · rename_i hx
        injection hs with hs
        subst hs
        have hf : s.failed = true := by
          rcases h.failed with e | e
          · exact e
          · rw [hx.2] at e; cases e
        rw [if_pos hf]
        exact ⟨⟨h.only, h.single, h.async, .inl hf⟩, rfl⟩
      · cases hs
  | load t | store t | stream t | answer t ok =>
    simp only [Threads.step] at hs
    split at hs
    · rename_i ht
      rcases h.only _ _ ht with e | e <;> cases e
    · cases hs
  | finish t =>
    simp only [Threads.step] at hs
    split at hs
    · rename_i ok ht
      injection hs with hs
      subst hs
      have hok : ok = false := by
        rcases h.only _ _ ht with e | e
        · cases e
        · cases e; rfl
      subst hok
      refine ⟨⟨?_, ?_, h.async, .inl rfl⟩, rfl⟩
      · intro u p hu
        rcases set_get hu with ⟨-, e⟩ | ⟨e, x⟩
        · exact .inl e
        · exact h.only _ _ x
      · simpa [State.set] using h.single
    · cases hs

/-- Once the sink has refused a record of an asynchronous logger, it is offered no other: neither one already posted
nor one of a later call. -/
theorem async_stops (ops more : List Op) (t : Nat) (s s' : State) (hr : run asyncStart ops = some s)
    (hm : run s (.answer t false :: more) = some s') : s'.offered = s.offered := by
  obtain ⟨h, -⟩ := both_run ops _ _ _ start_inv_async.1 start_inv_async.2 (.inl rfl) hr
  have hasync : ∀ (l : List Op) (a b : State), run a l = some b → b.async = a.async := by
    intro l
    induction l with
    | nil => intro a b e; cases e; rfl
    | cons o r ih =>
      intro a b e
      cases hs : step a o with
      | none => simp [run, hs] at e
      | some a1 =>
        simp only [run, hs, Option.bind_some] at e
        exact (ih _ _ e).trans (step_async hs)
  have ha : s.async = true := hasync _ _ _ hr
  cases hs : step s (.answer t false) with
  | none => simp [run, hs] at hm
  | some s1 =>
    simp only [run, hs, Option.bind_some] at hm
    have h1 : Stopped s1 ∧ s1.offered = s.offered := by
      simp only [step] at hs
      split at hs
      · rename_i m i ht
        injection hs with hs
        subst hs
        have hl := h.single ha
        have hlt := (List.getElem?_eq_some_iff.1 ht).1
        have ht0 : t = 0 := by omega
        obtain ⟨-, o2⟩ := one_set h (b := .answered false) ht (by simp)
        refine ⟨⟨?_, by simpa [State.set] using hl, ha, .inr ?_⟩, rfl⟩
        · intro u p hu
          by_cases e : u = t
          · subst e
            rw [show (s.set u (.answered false)).pcs = s.pcs.set u (.answered false) from rfl,
              List.getElem?_set_self hlt] at hu
            exact .inr (Option.some.inj hu).symm
          · exact .inl (o2 u p e hu)
        · subst ht0
          exact List.getElem?_set_self hlt
      · cases hs
    obtain ⟨k, e⟩ := h1
    rw [← e]
    clear e hs hr
    induction more generalizing s1 with
    | nil => cases hm; rfl
    | cons o r ih =>
      cases hs : step s1 o with
      | none => simp [run, hs] at hm
      | some s2 =>
        simp only [run, hs, Option.bind_some] at hm
        obtain ⟨k2, e2⟩ := k.step hs
        rw [ih s2 hm k2, e2]

/-! ## Concrete histories -/

/-- Three calls, from whatever threads; the runner is at work on the first one when the third is made. -/
def threeCalls : List Op :=
  [.call 0 7, .take, .load 0, .call 1 8, .store 0, .stream 0, .call 2 9, .answer 0 true, .finish 0, .take, .load 0,
   .store 0, .stream 0, .answer 0 true, .finish 0, .take, .load 0, .store 0, .stream 0, .answer 0 true, .finish 0]

example : (run asyncStart threeCalls).map (fun s => (s.offered, s.failed, s.queue)) =
    some ([(7, 0), (8, 1), (9, 2)], false, []) := by decide

example (s : State) (h : run asyncStart threeCalls = some s) : Good s threeCalls := async_logger _ _ h

/-- The second record is refused: the third one, already posted, is not offered. -/
example : (run asyncStart [.call 0 7, .call 1 8, .call 2 9, .take, .load 0, .store 0, .stream 0, .answer 0 true,
    .finish 0, .take, .load 0, .store 0, .stream 0, .answer 0 false, .finish 0, .take]).map
    (fun s => (s.offered, s.failed, s.queue)) = some ([(7, 0), (8, 1)], true, []) := by decide

/-- Two threads, one after the other. -/
def twoTurns : List Op :=
  [.call 0 7, .load 0, .store 0, .stream 0, .answer 0 true, .finish 0, .call 1 8, .load 1, .store 1, .stream 1,
   .answer 1 true, .finish 1]

example : Serial (syncStart 2) twoTurns ∧ (run (syncStart 2) twoTurns).map (·.offered) = some [(7, 0), (8, 1)] :=
  ⟨by simp [Serial, Alone, twoTurns, syncStart, step, State.set], by decide⟩

/-- Overlapping, the index may also be handed out twice although the sink is used by one thread at a time; and a
record may be lost for the numbering. -/
example : (run (syncStart 2) [.call 0 7, .load 0, .call 1 8, .load 1, .store 0, .stream 0, .answer 0 true, .finish 0,
    .store 1, .stream 1, .answer 1 true, .finish 1]).map (·.offered) = some [(7, 0), (8, 0)] := by decide

end Verif.Logger.Threads
