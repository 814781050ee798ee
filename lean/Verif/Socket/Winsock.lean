/-!
# C132: the network is up while a socket service exists (Windows)

Source: `/repo/fly/net/socket/detail/win/socket_operations.cpp` 101-127, called by the constructor and the destructor of
`SocketService` (`/repo/fly/net/socket/socket_service.cpp` 31-45). Services are created and destroyed by any threads; a
step is one atomic operation or one call of the system.
-/

namespace Verif.Socket.Winsock

/-! ## Model -/

/-- Where a service is. -/
inductive Phase where
  /-- not yet created -/
  | idle
  /-- in its constructor: the counter was 0, `WSAStartup` is to be called -/
  | starting
  /-- in its constructor: `WSAStartup` failed, `deinitialize` is to be called -/
  | failed
  /-- in its constructor: `WSACleanup` is to be called after the failure -/
  | undoing
  /-- created -/
  | alive
  /-- in its destructor: the counter was 1, `WSACleanup` is to be called -/
  | cleaning
  /-- destroyed -/
  | gone
deriving DecidableEq, Repr

/-- `s_initialized_services_count`, the number of times Winsock was started and not yet cleaned up (its own counter),
and the services. -/
structure State where
  count : Nat
  winsock : Nat
  phases : List Phase
deriving DecidableEq, Repr

/-- `fetch_sub(1)`: unsigned 64-bit. -/
def dec (n : Nat) : Nat := (n + (2 ^ 64 - 1)) % 2 ^ 64

/-- `fetch_add(1)`. -/
def inc (n : Nat) : Nat := (n + 1) % 2 ^ 64

/-- One step of one service. -/
inductive Op where
  /-- the constructor begins: `fetch_add` (win/socket_operations.cpp 108) -/
  | create (i : Nat)
  /-- `WSAStartup` (win/socket_operations.cpp 110-113) -/
  | startup (i : Nat) (ok : Bool)
  /-- `deinitialize` after a failure: `fetch_sub` (win/socket_operations.cpp 115, 123) -/
  | undo (i : Nat)
  /-- `WSACleanup` (win/socket_operations.cpp 125) -/
  | cleanup (i : Nat)
  /-- the destructor begins: `fetch_sub` (win/socket_operations.cpp 123) -/
  | destroy (i : Nat)
deriving DecidableEq, Repr

/-- The effect of a step; `none` if the service is elsewhere. `WSACleanup` without a start fails and changes nothing. -/
def step (s : State) : Op → Option State
  | .create i =>
    if s.phases[i]? = some .idle then
      some { s with count := inc s.count, phases := s.phases.set i (if s.count = 0 then .starting else .alive) }
    else none
  | .startup i ok =>
    if s.phases[i]? = some .starting then
      some (if ok then { s with winsock := s.winsock + 1, phases := s.phases.set i .alive }
        else { s with phases := s.phases.set i .failed })
    else none
  | .undo i =>
    if s.phases[i]? = some .failed then
      some { s with count := dec s.count, phases := s.phases.set i (if s.count = 1 then .undoing else .alive) }
    else none
  | .cleanup i =>
    if s.phases[i]? = some .undoing then
      some { s with winsock := s.winsock - 1, phases := s.phases.set i .alive }
    else if s.phases[i]? = some .cleaning then
      some { s with winsock := s.winsock - 1, phases := s.phases.set i .gone }
    else none
  | .destroy i =>
    if s.phases[i]? = some .alive then
      some { s with count := dec s.count, phases := s.phases.set i (if s.count = 1 then .cleaning else .gone) }
    else none

/-- A run. -/
def run (s : State) : List Op → Option State
  | [] => some s
  | o :: r => (step s o).bind fun s' => run s' r

/-- A program with `n` services to be created. -/
def start (n : Nat) : State := ⟨0, 0, List.replicate n .idle⟩

/-! ## Specification -/

/-- Nobody is in a constructor or destructor. -/
def Quiet (s : State) : Prop := ∀ p ∈ s.phases, p = .idle ∨ p = .alive ∨ p = .gone

/-- A service exists: its constructor has returned and its destructor has not begun. -/
def Exists (s : State) : Prop := .alive ∈ s.phases

/-- The network can be used. -/
def Up (s : State) : Prop := 0 < s.winsock

/-- No `WSAStartup` fails. -/
def NoFailure (ops : List Op) : Prop := ∀ i, .startup i false ∉ ops

/-! ## Proofs -/

/-- The number of services in a phase. -/
def num (p : Phase) (s : State) : Nat := s.phases.count p

theorem count_move {l : List Phase} {i : Nat} {a : Phase} (h : l[i]? = some a) (b p : Phase) :
    (l.set i b).count p + (if a = p then 1 else 0) = l.count p + (if b = p then 1 else 0) := by
  obtain ⟨hi, hg⟩ := List.getElem?_eq_some_iff.1 h
  have h1 : (if a = p then 1 else 0) ≤ l.count p := by
    split
    · rename_i e
      subst e
      exact List.count_pos_iff.2 (hg ▸ List.getElem_mem hi)
    · exact Nat.zero_le _
  rw [List.count_set hi, hg]
  simp only [beq_iff_eq]
  omega

/-- The invariant of runs without failures. -/
structure Inv (s : State) : Prop where
  none1 : num .failed s = 0
  none2 : num .undoing s = 0
  count : s.count = num .starting s + num .alive s
  small : s.phases.length < 2 ^ 64
  balance : s.winsock + num .starting s = num .cleaning s + (if s.count = 0 then 0 else 1)
  one : num .starting s ≤ 1

theorem Inv.bound {s : State} (h : Inv s) : s.count + num .idle s < 2 ^ 64 := by
  have h1 : ∀ l : List Phase, l.count .starting + l.count .alive + l.count .idle ≤ l.length := by
    intro l
    induction l with
    | nil => simp
    | cons a l ih =>
      rw [List.count_cons, List.count_cons, List.count_cons, List.length_cons]
      cases a <;> simp <;> omega
  have := h1 s.phases
  have h2 := h.count
  have h3 := h.small
  unfold num at h2 ⊢
  omega

/-- What a step must do to the numbers. -/
theorem Inv.moved {s : State} (h : Inv s) {i : Nat} {a b : Phase} (hi : s.phases[i]? = some a) (c w : Nat)
    (hb : b ≠ .failed ∧ b ≠ .undoing)
    (hc : c + (if a = .starting ∨ a = .alive then 1 else 0) = s.count + (if b = .starting ∨ b = .alive then 1 else 0))
    (h1 : num .starting s + (if b = .starting then 1 else 0) ≤ 1 + (if a = .starting then 1 else 0))
    (hw : w + (if b = .starting then 1 else 0) + (if a = .cleaning then 1 else 0) + (if s.count = 0 then 0 else 1) =
      s.winsock + (if a = .starting then 1 else 0) + (if b = .cleaning then 1 else 0) + (if c = 0 then 0 else 1)) :
    Inv ⟨c, w, s.phases.set i b⟩ := by
  obtain ⟨n1, n2, c', sm, bal, one⟩ := h
  unfold num at n1 n2 c' bal one h1
  have a1 := count_move hi b .failed
  have a2 := count_move hi b .undoing
  have a3 := count_move hi b .starting
  have a4 := count_move hi b .alive
  have a5 := count_move hi b .cleaning
  rw [if_neg hb.1, n1] at a1
  rw [if_neg hb.2, n2] at a2
  refine ⟨?_, ?_, ?_, ?_, ?_, ?_⟩
  · show (s.phases.set i b).count .failed = 0
    omega
  · show (s.phases.set i b).count .undoing = 0
    omega
  · show c = (s.phases.set i b).count .starting + (s.phases.set i b).count .alive
    have e1 : (if a = .starting ∨ a = .alive then 1 else 0) = (if a = .starting then 1 else 0) + (if a = .alive then 1 else 0) := by
      cases a <;> rfl
    have e2 : (if b = .starting ∨ b = .alive then 1 else 0) = (if b = .starting then 1 else 0) + (if b = .alive then 1 else 0) := by
      cases b <;> rfl
    rw [e1, e2] at hc
    omega
  · show (s.phases.set i b).length < _
    rw [List.length_set]
    exact sm
  · show w + (s.phases.set i b).count .starting = (s.phases.set i b).count .cleaning + (if c = 0 then 0 else 1)
    omega
  · show (s.phases.set i b).count .starting ≤ 1
    omega

theorem num_pos {s : State} {i : Nat} {a : Phase} (h : s.phases[i]? = some a) : 0 < num a s :=
  List.count_pos_iff.2 (List.mem_of_getElem? h)

theorem Inv.step {s s' : State} (h : Inv s) {o : Op} (hs : step s o = some s') (hf : ∀ i, o ≠ .startup i false) : Inv s' := by
  have hb := h.bound
  have hc := h.count
  have one := h.one
  have bal := h.balance
  cases o with
  | create i =>
    unfold Winsock.step at hs
    simp only at hs
    split at hs
    · rename_i hi
      cases hs
      have hp := num_pos hi
      have hinc : inc s.count = s.count + 1 := Nat.mod_eq_of_lt (by omega)
      by_cases h0 : s.count = 0
      · rw [if_pos h0]
        have : num .starting s = 0 := by omega
        refine h.moved hi _ _ ⟨by decide, by decide⟩ ?_ ?_ ?_ <;> simp [hinc, h0, this] <;> (rw [h0] at hinc; omega)
      · rw [if_neg h0]
        refine h.moved hi _ _ ⟨by decide, by decide⟩ ?_ ?_ ?_ <;> simp [hinc, h0, one]
    · cases hs
  | startup i ok =>
    unfold Winsock.step at hs
    simp only at hs
    split at hs
    · rename_i hi
      cases ok with
      | false => exact absurd rfl (hf i)
      | true =>
        cases hs
        refine h.moved hi _ _ ⟨by decide, by decide⟩ ?_ ?_ ?_ <;> simp <;> omega
    · cases hs
  | undo i =>
    unfold Winsock.step at hs
    simp only at hs
    split at hs
    · rename_i hi
      have := num_pos hi
      have := h.none1
      omega
    · cases hs
  | cleanup i =>
    unfold Winsock.step at hs
    simp only at hs
    split at hs
    · rename_i hi
      have := num_pos hi
      have := h.none2
      omega
    · split at hs
      · rename_i hi
        cases hs
        have hp := num_pos hi
        have hw : 1 ≤ s.winsock := by
          by_cases h0 : s.count = 0
          · rw [if_pos h0] at bal; omega
          · rw [if_neg h0] at bal; omega
        refine h.moved hi _ _ ⟨by decide, by decide⟩ ?_ ?_ ?_ <;> simp <;> omega
      · cases hs
  | destroy i =>
    unfold Winsock.step at hs
    simp only at hs
    split at hs
    · rename_i hi
      have hp := num_pos hi
      have hdec : dec s.count = s.count - 1 := by unfold dec; omega
      injection hs with hs
      subst hs
      by_cases h1 : s.count = 1
      · rw [if_pos h1]
        have hz : dec s.count = 0 := by rw [hdec, h1]
        refine h.moved hi _ _ ⟨by decide, by decide⟩ ?_ ?_ ?_ <;> (try rw [hz]) <;> simp [h1] <;> omega
      · rw [if_neg h1]
        have e1 : ¬ s.count = 0 := by omega
        have e2 : ¬ s.count - 1 = 0 := by omega
        refine h.moved hi _ _ ⟨by decide, by decide⟩ ?_ ?_ ?_
        · simp [hdec]; omega
        · simp; omega
        · rw [hdec, if_neg e1, if_neg e2]; simp
    · cases hs

theorem inv_start {n : Nat} (hn : n < 2 ^ 64) : Inv (start n) := by
  constructor <;> simp [num, start, List.count_replicate, hn]

theorem Inv.run {s s' : State} {ops : List Op} (h : Inv s) (hr : run s ops = some s') (hf : NoFailure ops) : Inv s' := by
  induction ops generalizing s with
  | nil => cases hr; exact h
  | cons o r ih =>
    unfold Winsock.run at hr
    cases hs : Winsock.step s o with
    | none => rw [hs] at hr; cases hr
    | some t =>
      rw [hs] at hr
      refine ih (h.step hs (fun i e => hf i (e ▸ List.mem_cons_self))) hr (fun i hi => hf i (List.mem_cons_of_mem _ hi))

/-- C132, as far as it holds: if starting the network never fails, then whenever no constructor or destructor of a
service is running, the network is up exactly if a service exists, and it was then started exactly once more than it
was cleaned up. This is so for every interleaving. -/
theorem winsock_up_partial (n : Nat) (hn : n < 2 ^ 64) (ops : List Op) (s : State) (hr : run (start n) ops = some s)
    (hf : NoFailure ops) (hq : Quiet s) : (Up s ↔ Exists s) ∧ s.winsock ≤ 1 := by
  have h := (inv_start hn).run hr hf
  have hs : num .starting s = 0 := List.count_eq_zero.2 fun hm => by rcases hq _ hm with h | h | h <;> cases h
  have hc : num .cleaning s = 0 := List.count_eq_zero.2 fun hm => by rcases hq _ hm with h | h | h <;> cases h
  have hb := h.balance
  have hn := h.count
  rw [hs, hc] at hb
  rw [hs] at hn
  have ha : Exists s ↔ 0 < num .alive s := List.count_pos_iff.symm
  unfold Up
  rw [ha]
  split at hb <;> omega

/-- Two services, the first of which is destroyed. -/
example : ∃ s, run (start 2) [.create 0, .create 1, .startup 0 true, .destroy 0] = some s ∧
    NoFailure [.create 0, .create 1, .startup 0 true, .destroy 0] ∧ Quiet s ∧ Up s ∧ Exists s :=
  ⟨⟨1, 1, [.gone, .alive]⟩, by decide +kernel, by unfold NoFailure; simp, by unfold Quiet; simp, by unfold Up; decide,
    by unfold Exists; simp⟩

/-- C132: without failures, the network is down while a service exists only as long as the first service is still in
its constructor; and it is never cleaned up more often than it was started. -/
theorem winsock_down_only_while_starting (n : Nat) (hn : n < 2 ^ 64) (ops : List Op) (s : State)
    (hr : run (start n) ops = some s) (hf : NoFailure ops) (he : Exists s) (hd : ¬ Up s) : .starting ∈ s.phases := by
  have h := (inv_start hn).run hr hf
  have hb := h.balance
  have hn := h.count
  have ha : 0 < num .alive s := List.count_pos_iff.2 he
  rw [if_neg (by omega)] at hb
  unfold Up at hd
  exact List.count_pos_iff.1 (show 0 < num .starting s by omega)

/-- How often the network was started successfully in a run. -/
def starts (ops : List Op) : Nat := ops.countP fun o => match o with | .startup _ true => true | _ => false

/-- How often `WSACleanup` was called in a run. -/
def cleanups (ops : List Op) : Nat := ops.countP fun o => match o with | .cleanup _ => true | _ => false

theorem step_account {s s' : State} {o : Op} (hs : step s o = some s') :
    s.winsock + starts [o] ≤ s'.winsock + cleanups [o] ∧ s'.winsock ≤ s.winsock + starts [o] := by
  cases o with
  | create i | undo i | destroy i =>
    unfold step at hs
    simp only at hs
    split at hs
    · injection hs with hs
      subst hs
      exact ⟨Nat.le_refl s.winsock, Nat.le_refl s.winsock⟩
    · cases hs
  | startup i ok =>
    unfold step at hs
    simp only at hs
    split at hs
    · cases hs
      cases ok
      · exact ⟨Nat.le_refl _, Nat.le_refl _⟩
      · exact ⟨Nat.le_refl _, Nat.le_refl _⟩
    · cases hs
  | cleanup i =>
    unfold step at hs
    simp only at hs
    have e : starts [Op.cleanup i] = 0 := rfl
    have e' : cleanups [Op.cleanup i] = 1 := rfl
    rw [e, e']
    split at hs
    · cases hs
      simp only
      omega
    · split at hs
      · cases hs
        simp only
        omega
      · cases hs

/-- C132: in every run, failures included, the network was not cleaned up more than once for each call of
`WSACleanup`, and is not up more often than it was started. -/
theorem winsock_accounting (ops : List Op) (s s' : State) (hr : run s ops = some s') :
    s.winsock + starts ops ≤ s'.winsock + cleanups ops ∧ s'.winsock ≤ s.winsock + starts ops := by
  induction ops generalizing s with
  | nil =>
    cases hr
    exact ⟨Nat.le_refl _, Nat.le_refl _⟩
  | cons o r ih =>
    unfold run at hr
    cases hs : step s o with
    | none =>
      rw [hs] at hr
      cases hr
    | some t =>
      rw [hs] at hr
      have h1 := ih t hr
      have h2 := step_account hs
      have e1 : starts (o :: r) = starts [o] + starts r := by
        unfold starts
        rw [← List.countP_append]
        rfl
      have e2 : cleanups (o :: r) = cleanups [o] + cleanups r := by
        unfold cleanups
        rw [← List.countP_append]
        rfl
      omega

/-- C132 fails:
1. while one thread is still starting the network, another one's service is created at once and finds it down;
2. if starting the network fails once, the counter is decremented twice: after that service is gone, the next one
   does not even try;
3. a service whose start failed calls `WSACleanup` although it started nothing: it takes down the network that another
   service has started in the meantime. -/
theorem winsock_up_violated :
    (∃ s, run (start 2) [.create 0, .create 1] = some s ∧ s.phases[1]? = some .alive ∧ ¬ Up s) ∧
    (∃ s, run (start 2) [.create 0, .startup 0 false, .undo 0, .cleanup 0, .destroy 0, .create 1] = some s ∧
      Quiet s ∧ Exists s ∧ ¬ Up s) ∧
    (∃ s t, run (start 2) [.create 0, .startup 0 false, .undo 0, .create 1, .startup 1 true] = some s ∧ Up s ∧
      s.phases[1]? = some .alive ∧
      run s [.cleanup 0] = some t ∧ Quiet t ∧ t.phases[1]? = some .alive ∧ ¬ Up t) := by
  refine ⟨⟨⟨2, 0, [.starting, .alive]⟩, by decide +kernel, by decide, Nat.lt_irrefl 0⟩,
    ⟨⟨0, 0, [.gone, .alive]⟩, by decide +kernel, ?_, ?_, Nat.lt_irrefl 0⟩,
    ⟨⟨1, 1, [.undoing, .alive]⟩, ⟨1, 0, [.alive, .alive]⟩, by decide +kernel, Nat.zero_lt_one, by decide,
      by decide +kernel, ?_, by decide, Nat.lt_irrefl 0⟩⟩
  · intro p hp
    simp at hp
    rcases hp with h | h <;> simp [h]
  · show Phase.alive ∈ _
    decide
  · intro p hp
    simp at hp
    simp [hp]

/-- Two services, the second one created while the first is destroyed. -/
example : ∃ s, run (start 2) [.create 0, .startup 0 true, .destroy 0, .create 1, .startup 1 true, .cleanup 0] = some s ∧
    s.winsock = 1 ∧ s.phases = [.gone, .alive] := ⟨⟨1, 1, [.gone, .alive]⟩, by decide +kernel⟩

end Verif.Socket.Winsock
