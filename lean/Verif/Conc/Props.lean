import Verif.Conc.Lemmas

/-!
# Properties C42-C44
-/

namespace Verif.Conc

variable {α : Type}

/-- C42: every history of any number of threads using a `ConcurrentQueue` is linearizable to a
first-in first-out queue. -/
theorem queue_linearizable (n : Nat) (e : List (Ev α)) (s : State α) (h : Run .fifo n e s) :
    Linearizable .fifo (e.filter Ev.visible) :=
  ⟨e, rfl, fun t => ⟨_, run_thread h t⟩, s.items, run_legal h⟩

/-- C43: the same for `ConcurrentStack` and last-in first-out order. -/
theorem stack_linearizable (n : Nat) (e : List (Ev α)) (s : State α) (h : Run .lifo n e s) :
    Linearizable .lifo (e.filter Ev.visible) :=
  ⟨e, rfl, fun t => ⟨_, run_thread h t⟩, s.items, run_legal h⟩

theorem pushes_snoc (h : List (Op α × Res α)) (x) : pushes (h ++ [x]) = pushes h ++ pushes [x] :=
  List.filterMap_append
theorem pops_snoc (h : List (Op α × Res α)) (x) : pops (h ++ [x]) = pops h ++ pops [x] :=
  List.filterMap_append

theorem legal_fifo {h : List (Op α × Res α)} {l : List α} (hl : Legal .fifo h l) :
    pops h ++ l = pushes h := by
  induction hl with
  | nil => rfl
  | snoc _ hs ih =>
    rw [pushes_snoc, pops_snoc]
    cases hs with
    | push_fifo _ => rw [← ih]; simp [pushes, pops]
    | push_lifo h => simp at h
    | pop => simpa [pushes, pops] using ih
    | popTimed => simpa [pushes, pops] using ih
    | popTimed_nothing => simpa [pushes, pops] using ih
    | size => simpa [pushes, pops] using ih
    | empty => simpa [pushes, pops] using ih

theorem legal_lifo {h : List (Op α × Res α)} {l : List α} (hl : Legal .lifo h l) :
    (pops h ++ l).Perm (pushes h) := by
  induction hl with
  | nil => exact .nil
  | @snoc h l op r l' _ hs ih =>
    rw [pushes_snoc, pops_snoc]
    cases hs with
    | push_fifo h => simp at h
    | @push_lifo _ v _ =>
      have h1 : pops [(Op.push v, (Res.unit : Res α))] = [] := rfl
      have h2 : pushes [(Op.push v, (Res.unit : Res α))] = [v] := rfl
      rw [h1, h2, List.append_nil]
      refine List.perm_middle.trans ?_
      refine (ih.cons v).trans ?_
      exact (List.perm_append_singleton v (pushes h)).symm
    | pop => simpa [pushes, pops] using ih
    | popTimed => simpa [pushes, pops] using ih
    | popTimed_nothing => simpa [pushes, pops] using ih
    | size => simpa [pushes, pops] using ih
    | empty => simpa [pushes, pops] using ih

/-- C42: in every execution the values popped so far, followed by the values still in the queue, are
the values pushed so far, in order: nothing is lost, duplicated, invented or reordered. -/
theorem queue_fifo (n : Nat) (e : List (Ev α)) (s : State α) (h : Run .fifo n e s) :
    pops (effects e) ++ s.items = pushes (effects e) := legal_fifo (run_legal h)

/-- C43: on a stack the values popped so far together with the values still on it are exactly the
values pushed so far (as multisets). -/
theorem stack_conserves (n : Nat) (e : List (Ev α)) (s : State α) (h : Run .lifo n e s) :
    (pops (effects e) ++ s.items).Perm (pushes (effects e)) := legal_lifo (run_legal h)

/-- C42/C43: at most one thread is inside a section that touches the container. -/
theorem container_mutual_exclusion (k : Kind) (n : Nat) (e : List (Ev α)) (s : State α)
    (h : Run k n e s) (t u : Nat) (p q : PC α) (hp : s.pcs[t]? = some p) (hq : s.pcs[u]? = some q)
    (h1 : holds p = true) (h2 : holds q = true) : t = u := by
  have a := (run_holder h t p hp).mp h1
  have b := (run_holder h u q hq).mp h2
  rw [a] at b; simpa using b

theorem legal_nothing {k : Kind} {h : List (Op α × Res α)} {l} (hl : Legal k h l) :
    ∀ h1 h2, h = h1 ++ (Op.popTimed, Res.nothing) :: h2 → Legal k h1 [] := by
  induction hl with
  | nil => intro h1 h2 e; simp at e
  | @snoc h l op r l' hp hs ih =>
    intro h1 h2 e
    rcases List.eq_nil_or_concat h2 with rfl | ⟨h2', x, rfl⟩
    · have e' := List.append_inj' e rfl
      obtain ⟨rfl, e2⟩ := e'
      simp at e2
      obtain ⟨rfl, rfl⟩ := e2
      cases hs
      exact hp
    · rw [List.concat_eq_append, ← List.cons_append, ← List.append_assoc] at e
      have e' := List.append_inj' e rfl
      exact ih h1 h2' e'.1

/-- C44: a timed pop that reports failure gave up at a moment when the container was empty: the
effects before it leave no item. -/
theorem timed_pop_fails_only_on_empty (k : Kind) (n : Nat) (e : List (Ev α)) (s : State α)
    (h : Run k n e s) (h1 h2 : List (Op α × Res α))
    (he : effects e = h1 ++ (Op.popTimed, Res.nothing) :: h2) : Legal k h1 [] :=
  legal_nothing (run_legal h) h1 h2 he

/-- C44: whenever a thread is blocked, there are at least as many threads about to notify a waiter or
to look at the container as there are items. -/
theorem no_lost_wakeup (k : Kind) (n : Nat) (e : List (Ev α)) (s : State α) (h : Run k n e s)
    (hw : ∃ (t : Nat) (timed : Bool), s.pcs[t]? = some (PC.popWait timed)) : s.items.length ≤ s.pcs.countP active := by
  rcases run_wakeups h with h0 | h0
  · obtain ⟨t, timed, ht⟩ := hw
    rw [List.countP_eq_zero] at h0
    exact absurd rfl (h0 _ (List.mem_of_getElem? ht))
  · exact h0

theorem run_holder_lt {k : Kind} {n : Nat} {e : List (Ev α)} {s : State α} (h : Run k n e s) :
    s.pcs.length = n ∧ ∀ t, s.holder = some t → t < n := by
  induction h with
  | init => simp [init]
  | @step e s ev s' hr hs ih =>
    have hb : ∀ {t : Nat} {pc : PC α}, s.pcs[t]? = some pc → t < n := by
      intro t pc h
      have := (List.getElem?_eq_some_iff.mp h).1
      rw [ih.1] at this; exact this
    cases hs with
    | pushAcquire h _ => have := hb h; refine ⟨by simp [State.at_, ih.1], ?_⟩; intro t e; simp at e; omega
    | popAcquire h _ => have := hb h; refine ⟨by simp [State.at_, ih.1], ?_⟩; intro t e; simp at e; omega
    | reacquire h _ => have := hb h; refine ⟨by simp [State.at_, ih.1], ?_⟩; intro t e; simp at e; omega
    | reacquireLast h _ => have := hb h; refine ⟨by simp [State.at_, ih.1], ?_⟩; intro t e; simp at e; omega
    | queryAcquire h _ => have := hb h; refine ⟨by simp [State.at_, ih.1], ?_⟩; intro t e; simp at e; omega
    | pushRelease h => exact ⟨by simp [State.at_, ih.1], by simp⟩
    | popBlock h _ => exact ⟨by simp [State.at_, ih.1], by simp⟩
    | popRelease h => exact ⟨by simp [State.at_, ih.1], by simp⟩
    | popReleaseFail h => exact ⟨by simp [State.at_, ih.1], by simp⟩
    | queryRelease h => exact ⟨by simp [State.at_, ih.1], by simp⟩
    | _ => exact ⟨by simp [State.at_, ih.1], ih.2⟩

theorem set_ne {l : List (PC α)} {t : Nat} {old pc : PC α} (h : l[t]? = some old) (hne : pc ≠ old) :
    (l.set t pc)[t]? ≠ some old := by
  rw [getElem?_set' h, if_pos rfl]; simpa using hne

/-- C44: no execution gets stuck with an item available and a thread blocked: some thread that is
neither blocked nor outside the library can take a step. -/
theorem no_stuck_waiter (k : Kind) (n : Nat) (e : List (Ev α)) (s : State α) (h : Run k n e s)
    (hi : s.items ≠ []) (hw : ∃ (t : Nat) (timed : Bool), s.pcs[t]? = some (PC.popWait timed)) :
    ∃ (t : Nat) (pc : PC α) (ev : Option (Ev α)) (s' : State α), s.pcs[t]? = some pc ∧ pc ≠ .idle ∧
      waits pc = false ∧ Step k s ev s' ∧ s'.pcs[t]? ≠ some pc := by
  obtain ⟨v, l, hvl⟩ : ∃ v l, s.items = v :: l := by
    cases hs : s.items with
    | nil => exact absurd hs hi
    | cons v l => exact ⟨v, l, rfl⟩
  cases hh : s.holder with
  | some t =>
    have ht := run_holder_lt h
    have htl : t < s.pcs.length := by rw [ht.1]; exact ht.2 t hh
    have hpc : s.pcs[t]? = some s.pcs[t] := List.getElem?_eq_getElem htl
    have hold := (run_holder h t _ hpc).mpr hh
    generalize s.pcs[t] = pc at hpc hold
    cases pc <;> simp [holds] at hold
    · exact ⟨t, _, _, _, hpc, by simp, rfl, .pushDo hpc, set_ne hpc (by simp)⟩
    · exact ⟨t, _, _, _, hpc, by simp, rfl, .pushRelease hpc, set_ne hpc (by simp)⟩
    · exact ⟨t, _, _, _, hpc, by simp, rfl, .popDo hpc hvl, set_ne hpc (by simp)⟩
    · exact ⟨t, _, _, _, hpc, by simp, rfl, .lastDo hpc hvl, set_ne hpc (by simp)⟩
    · exact ⟨t, _, _, _, hpc, by simp, rfl, .popRelease hpc, set_ne hpc (by simp)⟩
    · exact ⟨t, _, _, _, hpc, by simp, rfl, .popReleaseFail hpc, set_ne hpc (by simp)⟩
    · exact ⟨t, _, _, _, hpc, by simp, rfl, .queryDo hpc, set_ne hpc (by simp)⟩
    · exact ⟨t, _, _, _, hpc, by simp, rfl, .queryRelease hpc, set_ne hpc (by simp)⟩
  | none =>
    have hn := no_lost_wakeup k n e s h hw
    have hpos : 0 < s.pcs.countP active := by
      rw [hvl] at hn; simp at hn; omega
    obtain ⟨pc, hmem, hact⟩ := List.countP_pos_iff.mp hpos
    obtain ⟨t, hpc⟩ := List.getElem?_of_mem hmem
    have hnh : holds pc = false := by
      cases hb : holds pc with
      | false => rfl
      | true => have := (run_holder h t pc hpc).mp hb; rw [hh] at this; simp at this
    cases pc <;> simp [active] at hact <;> simp [holds] at hnh
    · rename_i v'
      obtain ⟨w, timed, hw⟩ := hw
      refine ⟨t, _, _, _, hpc, by simp, rfl, .notify hpc hw, ?_⟩
      have hne : w ≠ t := by intro e; rw [e, hpc] at hw; simp at hw
      have h3 : (s.pcs.set t (.pushRet v'))[w]? = some (.popWait timed) := by
        rw [getElem?_set' hpc, if_neg hne, hw]
      show ((s.pcs.set t (.pushRet v')).set w _)[t]? ≠ _
      rw [getElem?_set' h3, if_neg (fun e => hne e.symm)]
      exact set_ne hpc (by simp)
    · exact ⟨t, _, _, _, hpc, by simp, rfl, .reacquire hpc hh, set_ne hpc (by simp)⟩
    · exact ⟨t, _, _, _, hpc, by simp, rfl, .reacquireLast hpc hh, set_ne hpc (by simp)⟩

/-- A non-trivial execution the theorems apply to: thread 0 pops an empty queue and blocks, thread 1
pushes 7 and is about to notify. An item is there, a thread is blocked, and nothing is stuck. -/
example : ∃ e s, Run (α := Nat) .fifo 2 e s ∧ s.items = [7] ∧ s.pcs[0]? = some (PC.popWait false) ∧
    pushes (effects e) = [7] := by
  refine ⟨_, _, .step (.step (.step (.step (.step (.step (.step .init
    (.callPop false (t := 0) rfl)) (.popAcquire (t := 0) rfl rfl)) (.popBlock (t := 0) rfl rfl))
    (.callPush (t := 1) (v := 7) rfl)) (.pushAcquire (t := 1) rfl rfl)) (.pushDo (t := 1) rfl))
    (.pushRelease (t := 1) rfl), rfl, rfl, rfl⟩

end Verif.Conc
