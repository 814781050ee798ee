import Verif.Task.Spec

/-!
# What one step means for one runner
-/

namespace Verif.Task

/-- A worker that carries a task of `r` not yet begun. -/
def Worker.carrier (r : Nat) : Worker → Bool
  | .popped r' _ => r' == r
  | .checked r' _ => r' == r
  | .holding r' _ => r' == r
  | _ => false

/-- A worker occupied by a task of `r` that is begun, or discarded but not completed. -/
def Worker.other (r : Nat) : Worker → Bool
  | .running r' _ => r' == r
  | .finished r' _ _ => r' == r
  | .completing r' => r' == r
  | _ => false

/-- A runner's share of the state. -/
structure View where
  hr : Bool
  pending : List Work
  q : List Work
  carry : Work → Nat
  carrN : Nat
  others : Nat
  acc : List Work
  taken : List Work

/-- Entries of the queue for `r`. -/
def queueOf (r : Nat) (q : List (Nat × Work)) : List Work :=
  q.filterMap fun x => if x.1 = r then some x.2 else none

def view (s : State) (r : Nat) : View where
  hr := (s.runners r).hasRunning
  pending := (s.runners r).pending
  q := queueOf r s.queue
  carry := fun w => s.workers.countP (Worker.carries r w)
  carrN := s.workers.countP (Worker.carrier r)
  others := s.workers.countP (Worker.other r)
  acc := acceptedOn r s.log
  taken := takenOn r s.log

/-- The possible effects of a step on one runner's view. `ok = true` rules out those that need a
stop, a dead runner or a dead manager. -/
inductive LStep (sq ok : Bool) : View → View → Prop
  | refl {v} : LStep sq ok v v
  | held {v w} : sq = true → v.hr = true →
      LStep sq ok v { v with pending := v.pending ++ [w], acc := v.acc ++ [w] }
  | direct {v w} : sq = true → v.hr = false → v.pending = [] →
      LStep sq ok v { v with hr := true, q := v.q ++ [w], acc := v.acc ++ [w] }
  | directPar {v w} : sq = false → LStep sq ok v { v with q := v.q ++ [w], acc := v.acc ++ [w] }
  | shift {v w p rest} : sq = true → v.hr = false → v.pending = p :: rest →
      LStep sq ok v { v with hr := true, pending := rest ++ [w], q := v.q ++ [p], acc := v.acc ++ [w] }
  | shiftLost {v w p rest} : sq = true → ok = false → v.hr = false → v.pending = p :: rest →
      LStep sq ok v { v with pending := rest ++ [w], taken := v.taken ++ [p], acc := v.acc ++ [w] }
  | pop {v w q' c'} : v.q = w :: q' → (∀ x, c' x = v.carry x + if x = w then 1 else 0) →
      LStep sq ok v { v with q := q', carry := c', carrN := v.carrN + 1 }
  | begin_ {v w c' m} : (∀ x, v.carry x = c' x + if x = w then 1 else 0) → v.carrN = m + 1 →
      LStep sq ok v { v with carry := c', carrN := m, others := v.others + 1, taken := v.taken ++ [w] }
  | drop {v w c' m} : ok = false → (∀ x, v.carry x = c' x + if x = w then 1 else 0) → v.carrN = m + 1 →
      LStep sq ok v { v with carry := c', carrN := m, taken := v.taken ++ [w] }
  | complete {v m p rest} : sq = true → v.pending = p :: rest → v.others = m + 1 →
      LStep sq ok v { v with hr := true, pending := rest, q := v.q ++ [p], others := m }
  | completeNone {v m} : sq = true → v.pending = [] → v.others = m + 1 →
      LStep sq ok v { v with hr := false, others := m }
  | completeLost {v m p rest} : sq = true → ok = false → v.pending = p :: rest → v.others = m + 1 →
      LStep sq ok v { v with hr := false, pending := rest, taken := v.taken ++ [p], others := m }
  | completePar {v m} : sq = false → v.others = m + 1 → LStep sq ok v { v with others := m }

/-- Everything a runner relies on. -/
structure LInv (sq : Bool) (v : View) : Prop where
  one : sq = true → v.q.length + v.carrN + v.others ≤ 1
  free : sq = true → v.hr = false → v.q.length + v.carrN + v.others = 0
  order : sq = true → ∃ mid : List Work, mid.length ≤ 1 ∧ v.acc = v.taken ++ (mid ++ v.pending) ∧
    ∀ w, mid.count w = v.q.count w + v.carry w
  par : sq = false → v.pending = [] ∧ ∀ w, v.acc.count w = v.taken.count w + (v.q.count w + v.carry w)

/-- The progress invariant, as long as nothing is lost. -/
structure LLive (sq : Bool) (v : View) : Prop where
  busy : sq = true → v.hr = true → v.q.length + v.carrN + v.others = 1
  wait : sq = true → v.pending ≠ [] → v.hr = true

theorem eq_nil_of_count {l : List Work} (h : ∀ w, l.count w = 0) : l = [] := by
  cases l with
  | nil => rfl
  | cons a l => have := h a; simp at this

theorem eq_single {l : List Work} {w : Work} (h : l.length ≤ 1) (hw : 0 < l.count w) : l = [w] := by
  match l with
  | [] => simp at hw
  | [a] =>
    have : a = w := by
      by_cases e : a = w
      · exact e
      · simp [e] at hw
    rw [this]
  | a :: b :: r => simp at h

theorem linv_step {sq ok : Bool} {v v' : View} (hwf : ∀ w, v.carry w ≤ v.carrN) (h : LInv sq v)
    (hs : LStep sq ok v v') : LInv sq v' := by
  have empty : v.q.length + v.carrN = 0 → ∀ mid : List Work,
      (∀ w, mid.count w = v.q.count w + v.carry w) → mid = [] := by
    intro h0 mid hm
    apply eq_nil_of_count
    intro w
    have hq : v.q = [] := List.eq_nil_of_length_eq_zero (by omega)
    have := hwf w
    rw [hm w, hq]; simp; omega
  cases hs with
  | refl => exact h
  | @held w h1 h2 =>
    refine ⟨h.one, fun _ e => ?_, ?_, fun e => by simp [h1] at e⟩
    · exact absurd (h2.symm.trans e) (by simp)
    · intro _
      obtain ⟨mid, a, b, c⟩ := h.order h1
      exact ⟨mid, a, by simp [b], c⟩
  | @direct w h1 h2 h3 =>
    have h0 := h.free h1 h2
    refine ⟨fun _ => ?_, fun _ e => by simp at e, fun _ => ?_, fun e => by simp [h1] at e⟩
    · simp; omega
    · obtain ⟨mid, a, b, c⟩ := h.order h1
      have hm := empty (by omega) mid c
      subst hm
      have hq : v.q = [] := List.eq_nil_of_length_eq_zero (by omega)
      refine ⟨[w], by simp, by simp [b, h3], ?_⟩
      intro x
      have := c x
      simp only [List.count_nil] at this
      have hc : v.carry x = 0 := by omega
      simp [hq, hc]
  | @directPar w h1 =>
    refine ⟨fun e => by simp [h1] at e, fun e => by simp [h1] at e, fun e => by simp [h1] at e, fun _ => ?_⟩
    obtain ⟨a, b⟩ := h.par h1
    refine ⟨a, fun x => ?_⟩
    have := b x
    simp only [List.count_append]
    omega
  | @shift w p rest h1 h2 h3 =>
    have h0 := h.free h1 h2
    refine ⟨fun _ => ?_, fun _ e => by simp at e, fun _ => ?_, fun e => by simp [h1] at e⟩
    · simp; omega
    · obtain ⟨mid, a, b, c⟩ := h.order h1
      have hm := empty (by omega) mid c
      subst hm
      have hq : v.q = [] := List.eq_nil_of_length_eq_zero (by omega)
      refine ⟨[p], by simp, by simp [b, h3], ?_⟩
      intro x
      have := c x
      simp only [List.count_nil] at this
      have hc : v.carry x = 0 := by omega
      simp [hq, hc]
  | @shiftLost w p rest h1 _ h2 h3 =>
    have h0 := h.free h1 h2
    refine ⟨h.one, h.free, fun _ => ?_, fun e => by simp [h1] at e⟩
    obtain ⟨mid, a, b, c⟩ := h.order h1
    have hm := empty (by omega) mid c
    subst hm
    exact ⟨[], by simp, by simp [b, h3], c⟩
  | @pop w q' c' h1 h2 =>
    have hl : v.q.length = q'.length + 1 := by rw [h1]; simp
    refine ⟨fun e => ?_, fun e e2 => ?_, fun e => ?_, fun e => ?_⟩
    · have := h.one e; simp only; omega
    · have := h.free e e2; omega
    · obtain ⟨mid, a, b, c⟩ := h.order e
      refine ⟨mid, a, b, fun x => ?_⟩
      have := c x
      rw [h1, List.count_cons] at this
      simp only [h2 x]
      by_cases hx : x = w
      · subst hx; simp at this ⊢; omega
      · have hx' : (w == x) = false := by simpa using fun e => hx e.symm
        simp [hx'] at this; simp [hx]; omega
    · obtain ⟨a, b⟩ := h.par e
      refine ⟨a, fun x => ?_⟩
      have := b x
      rw [h1, List.count_cons] at this
      simp only [h2 x]
      by_cases hx : x = w
      · subst hx; simp at this ⊢; omega
      · have hx' : (w == x) = false := by simpa using fun e => hx e.symm
        simp [hx'] at this; simp [hx]; omega
  | @begin_ w c' m h1 h2 =>
    refine ⟨fun e => ?_, fun e e2 => ?_, fun e => ?_, fun e => ?_⟩
    · have := h.one e; simp only; omega
    · have := h.free e e2; omega
    · obtain ⟨mid, a, b, c⟩ := h.order e
      have hw := c w
      rw [h1 w] at hw
      simp only [if_true] at hw
      have hm := eq_single (w := w) a (by omega)
      subst hm
      refine ⟨[], by simp, by simp [b], fun x => ?_⟩
      have := c x
      rw [h1 x] at this
      by_cases hx : x = w
      · subst hx; simp at this ⊢; omega
      · have hx' : (w == x) = false := by simpa using fun e => hx e.symm
        simp [List.count_cons, hx', hx] at this ⊢; exact this
    · obtain ⟨a, b⟩ := h.par e
      refine ⟨a, fun x => ?_⟩
      have := b x
      rw [h1 x] at this
      simp only [List.count_append, List.count_cons, List.count_nil]
      by_cases hx : x = w
      · subst hx; simp at this ⊢; omega
      · have hx' : (w == x) = false := by simpa using fun e => hx e.symm
        simp [hx', hx] at this ⊢; omega
  | @drop w c' m _ h1 h2 =>
    refine ⟨fun e => ?_, fun e e2 => ?_, fun e => ?_, fun e => ?_⟩
    · have := h.one e; simp only; omega
    · have := h.free e e2; omega
    · obtain ⟨mid, a, b, c⟩ := h.order e
      have hw := c w
      rw [h1 w] at hw
      simp only [if_true] at hw
      have hm := eq_single (w := w) a (by omega)
      subst hm
      refine ⟨[], by simp, by simp [b], fun x => ?_⟩
      have := c x
      rw [h1 x] at this
      by_cases hx : x = w
      · subst hx; simp at this ⊢; omega
      · have hx' : (w == x) = false := by simpa using fun e => hx e.symm
        simp [List.count_cons, hx', hx] at this ⊢; exact this
    · obtain ⟨a, b⟩ := h.par e
      refine ⟨a, fun x => ?_⟩
      have := b x
      rw [h1 x] at this
      simp only [List.count_append, List.count_cons, List.count_nil]
      by_cases hx : x = w
      · subst hx; simp at this ⊢; omega
      · have hx' : (w == x) = false := by simpa using fun e => hx e.symm
        simp [hx', hx] at this ⊢; omega
  | @complete m p rest h1 h2 h3 =>
    have h0 := h.one h1
    refine ⟨fun _ => ?_, fun _ e => by simp at e, fun _ => ?_, fun e => by simp [h1] at e⟩
    · simp; omega
    · obtain ⟨mid, a, b, c⟩ := h.order h1
      have hm := empty (by omega) mid c
      subst hm
      have hq : v.q = [] := List.eq_nil_of_length_eq_zero (by omega)
      refine ⟨[p], by simp, by simp [b, h2], ?_⟩
      intro x
      have := c x
      simp only [List.count_nil] at this
      have hc : v.carry x = 0 := by omega
      simp [hq, hc]
  | @completeNone m h1 h2 h3 =>
    have h0 := h.one h1
    refine ⟨fun _ => ?_, fun _ e => ?_, fun _ => h.order h1, fun e => by simp [h1] at e⟩
    · simp only; omega
    · simp only; omega
  | @completeLost m p rest h1 _ h2 h3 =>
    have h0 := h.one h1
    refine ⟨fun _ => ?_, fun _ e => ?_, fun _ => ?_, fun e => by simp [h1] at e⟩
    · simp only; omega
    · simp only; omega
    · obtain ⟨mid, a, b, c⟩ := h.order h1
      have hm := empty (by omega) mid c
      subst hm
      exact ⟨[], by simp, by simp [b, h2], c⟩
  | @completePar m h1 h2 =>
    exact ⟨fun e => by simp [h1] at e, fun e => by simp [h1] at e, fun e => by simp [h1] at e, fun _ => h.par h1⟩

theorem llive_step {sq : Bool} {v v' : View} (h : LInv sq v) (hl : LLive sq v)
    (hs : LStep sq true v v') : LLive sq v' := by
  cases hs with
  | refl => exact hl
  | held h1 h2 => exact ⟨hl.busy, fun _ _ => h2⟩
  | direct h1 h2 h3 =>
    have h0 := h.free h1 h2
    exact ⟨fun _ _ => by simp; omega, fun _ _ => rfl⟩
  | directPar h1 => exact ⟨fun e => by simp [h1] at e, fun e => by simp [h1] at e⟩
  | shift h1 h2 h3 => have := hl.wait h1 (by simp [h3]); rw [h2] at this; simp at this
  | shiftLost _ h _ _ => simp at h
  | pop h1 h2 =>
    refine ⟨fun e e2 => ?_, hl.wait⟩
    have := hl.busy e e2
    rw [h1] at this; simp at this ⊢; omega
  | begin_ h1 h2 =>
    refine ⟨fun e e2 => ?_, hl.wait⟩
    have := hl.busy e e2
    simp only; omega
  | drop h _ _ => simp at h
  | complete h1 h2 h3 =>
    have h0 := h.one h1
    exact ⟨fun _ _ => by simp; omega, fun _ _ => rfl⟩
  | completeNone h1 h2 h3 => exact ⟨fun _ e => by simp at e, fun _ e => by simp [h2] at e⟩
  | completeLost _ h _ _ => simp at h
  | completePar h1 h2 => exact ⟨fun e => by simp [h1] at e, fun e => by simp [h1] at e⟩

end Verif.Task
