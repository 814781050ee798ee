import Verif.Socket.Spec

/-!
# Sending and receiving: lemmas
-/

namespace Verif.Socket

theorem sendLoop_prefix (packet : Nat) (st : List Status) : ∀ msg, ∃ rest, (sendLoop packet msg st).chunks.flatten ++ rest = msg := by
  induction st with
  | nil => intro msg; cases msg <;> exact ⟨_, rfl⟩
  | cons x st ih =>
    intro msg
    cases msg with
    | nil => exact ⟨[], rfl⟩
    | cons b bs =>
      cases x with
      | sent n =>
        obtain ⟨rest, h⟩ := ih ((b :: bs).drop (min n ((b :: bs).take packet).length))
        refine ⟨rest, ?_⟩
        simp only [sendLoop, List.flatten_cons, List.append_assoc]
        rw [h, List.take_take, Nat.min_eq_left (by
          have := List.length_take (i := packet) (l := b :: bs); omega), List.take_append_drop]
      | zero => exact ⟨_, rfl⟩
      | wouldBlock => exact ⟨_, rfl⟩
      | error => exact ⟨_, rfl⟩

theorem sendLoop_take (packet : Nat) (st : List Status) (msg : List Nat) :
    (sendLoop packet msg st).chunks.flatten ++ msg.drop (sendLoop packet msg st).chunks.flatten.length = msg := by
  obtain ⟨rest, h⟩ := sendLoop_prefix packet st msg
  have : msg.drop (sendLoop packet msg st).chunks.flatten.length = rest := by
    have := congrArg (List.drop (sendLoop packet msg st).chunks.flatten.length) h
    rw [List.drop_left] at this
    exact this.symm
  rw [this]; exact h

theorem sendLoop_packets (packet : Nat) (st : List Status) : ∀ msg, ∀ c ∈ (sendLoop packet msg st).chunks, c.length ≤ packet := by
  induction st with
  | nil => intro msg; cases msg <;> (intro c h; exact absurd h List.not_mem_nil)
  | cons x st ih =>
    intro msg
    cases msg with
    | nil => intro c h; exact absurd h List.not_mem_nil
    | cons b bs =>
      cases x with
      | sent n =>
        intro c hc
        simp only [sendLoop, List.mem_cons] at hc
        rcases hc with rfl | hc
        · simp only [List.length_take]; omega
        · exact ih _ c hc
      | zero => intro c h; exact absurd h List.not_mem_nil
      | wouldBlock => intro c h; exact absurd h List.not_mem_nil
      | error => intro c h; exact absurd h List.not_mem_nil

theorem sendLoop_healthy {packet : Nat} (hp : 0 < packet) (st : List Status) : ∀ msg, Healthy msg.length st →
    (sendLoop packet msg st).wouldBlock = true ∨ (sendLoop packet msg st).chunks.flatten = msg := by
  induction st with
  | nil =>
    intro msg h
    cases msg with
    | nil => exact .inr rfl
    | cons b bs =>
      rcases h.2 with h | h
      · exact absurd h List.not_mem_nil
      · simp at h
  | cons x st ih =>
    intro msg h
    cases msg with
    | nil => exact .inr rfl
    | cons b bs =>
      rcases h.1 x List.mem_cons_self with rfl | ⟨k, hk, rfl⟩
      · exact .inl rfl
      · simp only [sendLoop]
        have hlen : 0 < min k ((b :: bs).take packet).length := by
          rw [List.length_take]; simp only [List.length_cons]; omega
        have := ih ((b :: bs).drop (min k ((b :: bs).take packet).length)) ⟨fun y hy => h.1 y (List.mem_cons_of_mem _ hy), by
          rcases h.2 with h | h
          · rcases List.mem_cons.mp h with e | e
            · cases e
            · exact .inl e
          · right
            rw [List.length_drop]
            simp only [List.length_cons] at h ⊢
            omega⟩
        rcases this with e | e
        · exact .inl e
        · right
          rw [List.flatten_cons, e, List.take_take, Nat.min_eq_left (by
            have := List.length_take (i := packet) (l := b :: bs); omega), List.take_append_drop]

/-- What holds at any time of an asynchronous send. -/
structure SendInv (message : List Nat) (a : AsyncSend) : Prop where
  split : a.wire ++ a.rest = message
  count : a.bytesSent = a.wire.length
  pending : a.waiting = true → a.callbacks = [] ∧ a.closed = false
  done : a.waiting = false → a.callbacks = [a.wire.length] ∧ (a.closed = false ↔ a.rest = [])

theorem SendInv.ready {message : List Nat} {a : AsyncSend} (h : SendInv message a) (packet : Nat) (st : List Status) :
    SendInv message (a.ready packet st) := by
  have ht := sendLoop_take packet st a.rest
  have hsplit : a.wire ++ (sendLoop packet a.rest st).chunks.flatten ++
      a.rest.drop (sendLoop packet a.rest st).chunks.flatten.length = message := by
    rw [List.append_assoc, ht]; exact h.split
  have hle : (sendLoop packet a.rest st).chunks.flatten.length ≤ a.rest.length := by
    have := congrArg List.length ht; rw [List.length_append] at this; omega
  unfold AsyncSend.ready
  by_cases hw : a.waiting = true
  · have hp := h.pending hw
    rw [if_pos hw]
    simp only []
    split
    · rename_i hc
      refine ⟨hsplit, by simp [h.count], (fun h => nomatch h), fun _ => ⟨by simp [hp.1, h.count], ?_⟩⟩
      simp only [hp.2, true_iff]
      rw [hc, List.drop_length]
    · rename_i hc
      split
      · exact ⟨hsplit, by simp [h.count], fun _ => hp, fun h' => by rw [hw] at h'; cases h'⟩
      · refine ⟨hsplit, by simp [h.count], (fun h => nomatch h), fun _ => ⟨by simp [hp.1, h.count], ?_⟩⟩
        simp only [Bool.true_eq_false, false_iff]
        intro e
        have := congrArg List.length e
        rw [List.length_drop, List.length_nil] at this
        omega
  · rw [if_neg hw]; exact h

theorem sendInv (packet : Nat) (message : List Nat) (rounds : List (List Status)) :
    SendInv message ((AsyncSend.start message).run packet rounds) := by
  have gen : ∀ a, SendInv message a → SendInv message (a.run packet rounds) := by
    induction rounds with
    | nil => intro a h; exact h
    | cons st rounds ih => intro a h; exact ih _ (h.ready packet st)
  exact gen _ ⟨rfl, rfl, fun _ => ⟨rfl, rfl⟩, fun h => nomatch h⟩

end Verif.Socket
