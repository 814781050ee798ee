import Verif.Socket.Props

/-!
# Two sockets and the network between them

Synchronous `send` and `receive` of two UDP sockets, and of two connected TCP sockets, over a network that loses,
repeats and reorders nothing (what the OS guarantees for TCP and for local UDP).
-/

namespace Verif.Socket

/-! ## Model -/

/-- One call by one of the two programs. -/
inductive UdpOp
  /-- `send(endpoint, message)`; the OS answers the calls of `sendto` so -/
  | send (message : List Nat) (st : List Status)
  /-- `receive()` -/
  | receive

/-- The datagrams under way, the strings that `receive()` returned, and whether the receiving socket closed itself. -/
structure UdpLink where
  queue : List (List Nat)
  received : List (List Nat)
  closed : Bool
  deriving DecidableEq, Repr

/-- `UdpSocket::send`, udp_socket.cpp 72-90, with `sendto` making one datagram of what one call accepted;
`UdpSocket::receive`, udp_socket.cpp 149-167, with `recv_from`, nix/socket_operations.cpp 477-514: `recvfrom` gives the first
`packet` bytes of the oldest datagram and throws away the rest of it. A `receive()` with nothing under way waits: no
step. `ps` and `pr` are the configured packet sizes of the sender and of the receiver. -/
def UdpLink.step (ps pr : Nat) (l : UdpLink) : UdpOp → UdpLink
  | .send message st => { l with queue := l.queue ++ (sendLoop ps message st).chunks }
  | .receive =>
    match l.closed, l.queue with
    | false, d :: queue =>
      let (text, close) := receiveSync (.data (d.take pr))
      ⟨queue, l.received ++ [text], close⟩
    | _, _ => l

/-- One call by one of two programs with connected TCP sockets. -/
inductive TcpLinkOp
  /-- `send(message)`; the OS answers so -/
  | send (message : List Nat) (st : List Status)
  /-- `receive()`; the OS hands over at most `k` bytes, at least one if there are any -/
  | receive (k : Nat)

/-- The bytes under way, the strings that `receive()` returned, and whether the receiving socket closed itself. -/
structure TcpLink where
  wire : List Nat
  received : List (List Nat)
  closed : Bool
  deriving DecidableEq, Repr

/-- `TcpSocket::send`, tcp_socket.cpp 239-255 (everything left is offered in each call of `send(2)`);
`TcpSocket::receive`, tcp_socket.cpp 277-293, with `recv`, nix/socket_operations.cpp 453-475. A `receive()` with nothing under
way waits: no step. -/
def TcpLink.step (pr : Nat) (l : TcpLink) : TcpLinkOp → TcpLink
  | .send message st => { l with wire := l.wire ++ (sendSync message.length message st).1 }
  | .receive k =>
    if l.closed || l.wire.isEmpty then l
    else
      let n := min (max k 1) pr
      let (text, close) := receiveSync (.data (l.wire.take n))
      ⟨l.wire.drop n, l.received ++ [text], close⟩

/-! ## Specification -/

/-- The messages sent by a program, in order. -/
def udpMessages : List UdpOp → List (List Nat)
  | [] => []
  | .send m _ :: ops => m :: udpMessages ops
  | .receive :: ops => udpMessages ops

/-- The messages sent by a program, in order. -/
def tcpMessages : List TcpLinkOp → List (List Nat)
  | [] => []
  | .send m _ :: ops => m :: tcpMessages ops
  | .receive _ :: ops => tcpMessages ops

/-- `Pieces p m ds`: the datagrams `ds` are the message `m` cut every `p` bytes: their concatenation is `m`, none is empty,
all but the last have `p` bytes and the last has at most `p`. -/
def Pieces (p : Nat) (m : List Nat) (ds : List (List Nat)) : Prop :=
  ds.flatten = m ∧ (∀ d ∈ ds, d ≠ [] ∧ d.length ≤ p) ∧ ∀ d ∈ ds.dropLast, d.length = p

/-- `CutAll p ms ds`: the datagrams `ds` are the messages `ms`, each cut every `p` bytes, one after the other. -/
inductive CutAll (p : Nat) : List (List Nat) → List (List Nat) → Prop
  | nil : CutAll p [] []
  | cons {m ms ds rest} : Pieces p m ds → CutAll p ms rest → CutAll p (m :: ms) (ds ++ rest)

/-- The OS takes every datagram it is offered, as a whole: each call is answered with the size of what it was given (a count of
at least the packet size), for as many calls as can be needed. -/
def TakesAll (p : Nat) (m : List Nat) (st : List Status) : Prop :=
  (∀ x ∈ st, ∃ k, p ≤ k ∧ x = .sent k) ∧ m.length ≤ st.length

/-! ## Properties -/

theorem sendLoop_pieces {p : Nat} (hp : 0 < p) (st : List Status) : ∀ m, TakesAll p m st →
    Pieces p m (sendLoop p m st).chunks := by
  induction st with
  | nil =>
    intro m h
    have : m = [] := List.length_eq_zero_iff.mp (Nat.le_zero.mp h.2)
    subst this
    exact ⟨rfl, fun d hd => absurd hd List.not_mem_nil, fun d hd => absurd hd List.not_mem_nil⟩
  | cons x st ih =>
    intro m h
    cases m with
    | nil => exact ⟨rfl, fun d hd => absurd hd List.not_mem_nil, fun d hd => absurd hd List.not_mem_nil⟩
    | cons b bs =>
      obtain ⟨k, hk, rfl⟩ := h.1 x List.mem_cons_self
      have hlen : ((b :: bs).take p).length = min p (bs.length + 1) := by rw [List.length_take, List.length_cons]
      have hmin : min k ((b :: bs).take p).length = min p (bs.length + 1) := by rw [hlen]; omega
      have hrest := ih ((b :: bs).drop (min p (bs.length + 1))) ⟨fun y hy => h.1 y (List.mem_cons_of_mem _ hy), by
        have := h.2
        simp only [List.length_cons, List.length_drop] at this ⊢
        omega⟩
      simp only [sendLoop, hmin]
      have ht : ((b :: bs).take p).take (min p (bs.length + 1)) = (b :: bs).take (min p (bs.length + 1)) := by
        rw [List.take_take]; congr 1; omega
      rw [ht]
      generalize hc : (sendLoop p ((b :: bs).drop (min p (bs.length + 1))) st).chunks = cs at hrest
      have hl1 : ((b :: bs).take (min p (bs.length + 1))).length = min p (bs.length + 1) := by
        rw [List.length_take, List.length_cons]; omega
      refine ⟨?_, ?_, ?_⟩
      · rw [List.flatten_cons, hrest.1, List.take_append_drop]
      · intro d hd
        rcases List.mem_cons.mp hd with rfl | hd
        · refine ⟨?_, by rw [hl1]; omega⟩
          intro e
          rw [e, List.length_nil] at hl1
          omega
        · exact hrest.2.1 d hd
      · intro d hd
        cases hcs : cs with
        | nil => rw [hcs] at hd; exact absurd hd List.not_mem_nil
        | cons c cs' =>
          rw [hcs, List.dropLast_cons_cons] at hd
          rcases List.mem_cons.mp hd with rfl | hd
          · rw [hl1]
            have h1 := hrest.1
            have hne : (b :: bs).drop (min p (bs.length + 1)) ≠ [] := by
              intro e
              rw [e, hcs, List.flatten_cons] at h1
              exact (hrest.2.1 c (by rw [hcs]; exact List.mem_cons_self)).1 (List.append_eq_nil_iff.mp h1).1
            have := List.length_pos_iff.mpr hne
            rw [List.length_drop, List.length_cons] at this
            omega
          · exact hrest.2.2 d (by rw [hcs]; exact hd)

/-- C109, UDP: as long as the OS takes every datagram whole, and the receiver's packet size is not smaller than the
sender's, the strings returned by `receive()` so far followed by the datagrams under way are exactly the messages sent, in order, each
cut into pieces of the packet size; nothing is lost, repeated or merged, and the receiving socket stays open. -/
theorem udp_delivery_partial {ps pr : Nat} (hps : 0 < ps) (hpr : ps ≤ pr) (ops : List UdpOp)
    (hst : ∀ m st, UdpOp.send m st ∈ ops → TakesAll ps m st) :
    let l := ops.foldl (UdpLink.step ps pr) ⟨[], [], false⟩
    CutAll ps (udpMessages ops) (l.received ++ l.queue) ∧ l.closed = false := by
  have happ : ∀ {ms ds ms' ds'}, CutAll ps ms ds → CutAll ps ms' ds' → CutAll ps (ms ++ ms') (ds ++ ds') := by
    intro ms ds ms' ds' h1 h2
    induction h1 with
    | nil => exact h2
    | cons hp _ ih => rw [List.append_assoc]; exact .cons hp ih
  have hall : ∀ {ms ds}, CutAll ps ms ds → ∀ d ∈ ds, d ≠ [] ∧ d.length ≤ ps := by
    intro ms ds h
    induction h with
    | nil => intro d hd; exact absurd hd List.not_mem_nil
    | cons hp _ ih =>
      intro d hd
      rcases List.mem_append.mp hd with hd | hd
      · exact hp.2.1 d hd
      · exact ih d hd
  have gen : ∀ (ops : List UdpOp) (l : UdpLink) (ms : List (List Nat)),
      (∀ m st, UdpOp.send m st ∈ ops → TakesAll ps m st) → CutAll ps ms (l.received ++ l.queue) → l.closed = false →
      CutAll ps (ms ++ udpMessages ops) ((ops.foldl (UdpLink.step ps pr) l).received ++
        (ops.foldl (UdpLink.step ps pr) l).queue) ∧ (ops.foldl (UdpLink.step ps pr) l).closed = false := by
    intro ops
    induction ops with
    | nil => intro l ms _ h hc; exact ⟨by simpa [udpMessages] using h, hc⟩
    | cons op ops ih =>
      intro l ms hst h hc
      rw [List.foldl_cons]
      have hst' : ∀ m st, UdpOp.send m st ∈ ops → TakesAll ps m st := fun m st hm => hst m st (List.mem_cons_of_mem _ hm)
      cases op with
      | send m st =>
        have := ih (l.step ps pr (.send m st)) (ms ++ [m]) hst' (by
          show CutAll ps (ms ++ [m]) (l.received ++ (l.queue ++ (sendLoop ps m st).chunks))
          rw [← List.append_assoc]
          have h1 : CutAll ps [m] ((sendLoop ps m st).chunks ++ []) :=
            .cons (sendLoop_pieces hps st m (hst m st List.mem_cons_self)) .nil
          rw [List.append_nil] at h1
          exact happ h h1) hc
        simpa [udpMessages, List.append_assoc] using this
      | receive =>
        refine ih (l.step ps pr .receive) ms hst' ?_ ?_
        · unfold UdpLink.step
          obtain ⟨queue, received, closed⟩ := l
          cases hc
          cases queue with
          | nil => exact h
          | cons d queue =>
            have hd := hall h d (List.mem_append_right _ List.mem_cons_self)
            simp only [receiveSync, recvOnce, List.take_of_length_le (Nat.le_trans hd.2 hpr)]
            rw [List.append_assoc]; exact h
        · unfold UdpLink.step
          obtain ⟨queue, received, closed⟩ := l
          cases hc
          cases queue with
          | nil => rfl
          | cons d queue =>
            have hd := hall h d (List.mem_append_right _ List.mem_cons_self)
            simp only [receiveSync, recvOnce, List.take_of_length_le (Nat.le_trans hd.2 hpr)]
            cases d with
            | nil => exact absurd rfl hd.1
            | cons _ _ => rfl
  have := gen ops ⟨[], [], false⟩ [] hst .nil rfl
  exact this

/-- In particular a message that fits the packet size is one datagram: one `receive()` returns it whole. -/
theorem udp_message_whole {p : Nat} {m : List Nat} {ds : List (List Nat)} (h : Pieces p m ds) (hm : m ≠ []) (hl : m.length ≤ p) :
    ds = [m] := by
  obtain ⟨h1, h2, h3⟩ := h
  cases ds with
  | nil => exact absurd h1.symm hm
  | cons d ds =>
    cases ds with
    | nil => rw [List.flatten_cons, List.flatten_nil, List.append_nil] at h1; rw [h1]
    | cons e ds =>
      have hd := h3 d (by rw [List.dropLast_cons_cons]; exact List.mem_cons_self)
      have he := (h2 e (by simp)).1
      have := congrArg List.length h1
      simp only [List.flatten_cons, List.length_append] at this
      have := List.length_pos_iff.mpr he
      omega

/-- C109 fails if the receiver's packet size is smaller than the sender's: the end of the message is lost without a
trace, and the socket stays open. (nix/socket_operations.cpp 492-500) -/
theorem udp_delivery_violated :
    [UdpOp.send [1, 2, 3] [.sent 4], .send [4] [.sent 4], .receive, .receive].foldl (UdpLink.step 4 2) ⟨[], [], false⟩ =
      ⟨[], [[1, 2], [4]], false⟩ := by decide

/-- C110, TCP: whatever the OS accepts and however it hands the bytes over, what `receive()` returned so far followed by
the bytes under way is exactly what was accepted from the messages sent, in order, and the receiving socket stays open; no string is empty or longer than the
packet size. -/
theorem tcp_delivery {pr : Nat} (hpr : 0 < pr) (ops : List TcpLinkOp) :
    let l := ops.foldl (TcpLink.step pr) ⟨[], [], false⟩
    ∃ accepted : List (List Nat), accepted.length = (tcpMessages ops).length ∧
      (∀ (i : Nat) (a m : List Nat), accepted[i]? = some a → (tcpMessages ops)[i]? = some m → ∃ rest, a ++ rest = m) ∧
      l.received.flatten ++ l.wire = accepted.flatten ∧ l.closed = false ∧
      ∀ t ∈ l.received, t ≠ [] ∧ t.length ≤ pr := by
  have gen : ∀ (ops : List TcpLinkOp) (l : TcpLink) (acc ms : List (List Nat)), acc.length = ms.length →
      (∀ (i : Nat) (a m : List Nat), acc[i]? = some a → ms[i]? = some m → ∃ rest, a ++ rest = m) →
      l.received.flatten ++ l.wire = acc.flatten → l.closed = false → (∀ t ∈ l.received, t ≠ [] ∧ t.length ≤ pr) →
      ∃ accepted : List (List Nat), accepted.length = (ms ++ tcpMessages ops).length ∧
        (∀ (i : Nat) (a m : List Nat), accepted[i]? = some a → (ms ++ tcpMessages ops)[i]? = some m → ∃ rest, a ++ rest = m) ∧
        (ops.foldl (TcpLink.step pr) l).received.flatten ++ (ops.foldl (TcpLink.step pr) l).wire = accepted.flatten ∧
        (ops.foldl (TcpLink.step pr) l).closed = false ∧
        ∀ t ∈ (ops.foldl (TcpLink.step pr) l).received, t ≠ [] ∧ t.length ≤ pr := by
    intro ops
    induction ops with
    | nil =>
      intro l acc ms h1 h2 h3 h4 h5
      exact ⟨acc, by simpa [tcpMessages] using h1, by simpa [tcpMessages] using h2, h3, h4, h5⟩
    | cons op ops ih =>
      intro l acc ms h1 h2 h3 h4 h5
      rw [List.foldl_cons]
      cases op with
      | send m st =>
        have := ih (l.step pr (.send m st)) (acc ++ [(sendSync m.length m st).1]) (ms ++ [m]) (by simp [h1]) (by
          intro i a b ha hb
          by_cases hi : i < acc.length
          · rw [List.getElem?_append_left hi] at ha
            rw [List.getElem?_append_left (by omega)] at hb
            exact h2 i a b ha hb
          · rw [List.getElem?_append_right (by omega)] at ha
            rw [List.getElem?_append_right (by omega), ← h1] at hb
            cases hj : i - acc.length with
            | zero =>
              rw [hj] at ha hb
              simp only [List.getElem?_cons_zero, Option.some.injEq] at ha hb
              subst ha; subst hb
              exact sendLoop_prefix _ _ _
            | succ j => rw [hj] at ha; simp at ha) (by
          show l.received.flatten ++ (l.wire ++ (sendSync m.length m st).1) = _
          rw [← List.append_assoc, h3]; simp) h4 h5
        simpa [tcpMessages, List.append_assoc] using this
      | receive k =>
        refine ih (l.step pr (.receive k)) acc ms h1 h2 ?_ ?_ ?_
        · unfold TcpLink.step
          dsimp only
          split
          · exact h3
          · simp only [receiveSync, recvOnce, List.flatten_append, List.flatten_cons, List.flatten_nil, List.append_nil,
              List.append_assoc, List.take_append_drop]
            exact h3
        · unfold TcpLink.step
          dsimp only
          split
          · exact h4
          · rename_i hn
            simp only [receiveSync, recvOnce]
            rw [h4, Bool.false_or] at hn
            cases hw : l.wire with
            | nil => rw [hw] at hn; exact absurd rfl hn
            | cons b bs =>
              have : min (max k 1) pr = (min (max k 1) pr - 1) + 1 := by omega
              rw [this, List.take_succ_cons]; rfl
        · unfold TcpLink.step
          dsimp only
          split
          · exact h5
          · rename_i hn
            intro t ht
            simp only [receiveSync, recvOnce, List.mem_append, List.mem_singleton] at ht
            rcases ht with ht | rfl
            · exact h5 t ht
            · rw [h4, Bool.false_or] at hn
              refine ⟨?_, by rw [List.length_take]; omega⟩
              cases hw : l.wire with
              | nil => rw [hw] at hn; exact absurd rfl hn
              | cons b bs =>
                have : min (max k 1) pr = (min (max k 1) pr - 1) + 1 := by omega
                rw [this, List.take_succ_cons]
                exact (fun h => nomatch h)
  have := gen ops ⟨[], [], false⟩ [] [] rfl (fun i a m h => by simp at h) rfl rfl (fun t ht => absurd ht List.not_mem_nil)
  simpa using this

/-- C110: if moreover the OS takes everything it is offered (it never says it would block, and reports no error), nothing of the
messages is missing: received and under way together are the messages. -/
theorem tcp_delivery_complete (pr : Nat) (ops : List TcpLinkOp)
    (hst : ∀ m st, TcpLinkOp.send m st ∈ ops → Healthy m.length st ∧ Status.wouldBlock ∉ st) :
    let l := ops.foldl (TcpLink.step pr) ⟨[], [], false⟩
    l.received.flatten ++ l.wire = (tcpMessages ops).flatten := by
  have hwb : ∀ (p : Nat) (st : List Status) msg, Status.wouldBlock ∉ st → (sendLoop p msg st).wouldBlock = false := by
    intro p st
    induction st with
    | nil => intro msg _; cases msg <;> rfl
    | cons x st ih =>
      intro msg hn
      cases msg with
      | nil => rfl
      | cons b bs =>
        cases x with
        | sent n => exact ih _ (fun h => hn (List.mem_cons_of_mem _ h))
        | zero => rfl
        | wouldBlock => exact absurd List.mem_cons_self hn
        | error => rfl
  have gen : ∀ (ops : List TcpLinkOp) (l : TcpLink) (ms : List (List Nat)),
      (∀ m st, TcpLinkOp.send m st ∈ ops → Healthy m.length st ∧ Status.wouldBlock ∉ st) →
      l.received.flatten ++ l.wire = ms.flatten →
      (ops.foldl (TcpLink.step pr) l).received.flatten ++ (ops.foldl (TcpLink.step pr) l).wire =
        (ms ++ tcpMessages ops).flatten := by
    intro ops
    induction ops with
    | nil => intro l ms _ h; simpa [tcpMessages] using h
    | cons op ops ih =>
      intro l ms hst h
      rw [List.foldl_cons]
      have hst' := fun m st (hm : TcpLinkOp.send m st ∈ ops) => hst m st (List.mem_cons_of_mem _ hm)
      cases op with
      | send m st =>
        have hm := hst m st List.mem_cons_self
        have hall : (sendSync m.length m st).1 = m := by
          cases hmm : m with
          | nil => rw [← hmm]; subst hmm; cases st <;> rfl
          | cons b bs =>
            rw [← hmm]
            rcases sendLoop_healthy (packet := m.length) (by rw [hmm]; simp) st m hm.1 with e | e
            · rw [hwb _ _ _ hm.2] at e; cases e
            · exact e
        have := ih (l.step pr (.send m st)) (ms ++ [m]) hst' (by
          show l.received.flatten ++ (l.wire ++ (sendSync m.length m st).1) = _
          rw [hall, ← List.append_assoc, h]; simp)
        simpa [tcpMessages, List.append_assoc] using this
      | receive k =>
        refine ih (l.step pr (.receive k)) ms hst' ?_
        unfold TcpLink.step
        dsimp only
        split
        · exact h
        · simp only [receiveSync, recvOnce, List.flatten_append, List.flatten_cons, List.flatten_nil, List.append_nil,
            List.append_assoc, List.take_append_drop]
          exact h
  simpa using gen ops ⟨[], [], false⟩ [] hst rfl

/-- With a configured packet size of 0 (nothing refuses it) the receiving socket closes itself although data is waiting. -/
theorem tcp_zero_packet_violated (m : List Nat) (st : List Status) (k : Nat)
    (ha : (sendSync m.length m st).1 ≠ []) :
    ([TcpLinkOp.send m st, .receive k].foldl (TcpLink.step 0) ⟨[], [], false⟩) =
      ⟨(sendSync m.length m st).1, [[]], true⟩ := by
  have : ((sendSync m.length m st).1).isEmpty = false := by
    cases h : (sendSync m.length m st).1 with
    | nil => exact absurd h ha
    | cons _ _ => rfl
  simp only [List.foldl_cons, List.foldl_nil, TcpLink.step, List.nil_append, Bool.false_or]
  rw [if_neg (by rw [this]; decide)]
  simp [receiveSync, recvOnce]

/-- A message of five bytes sent with packet size 2, and a short one, received in between. -/
example : [UdpOp.send [1, 2, 3, 4, 5] [.sent 2, .sent 2, .sent 2, .sent 2, .sent 2], .receive, .send [6] [.sent 2],
      .receive, .receive].foldl (UdpLink.step 2 2) ⟨[], [], false⟩ = ⟨[[6]], [[1, 2], [3, 4], [5]], false⟩ := by decide +kernel

example : TakesAll 2 [1, 2, 3] [.sent 2, .sent 2, .sent 2] :=
  ⟨fun x hx => ⟨2, Nat.le_refl _, by simpa using hx⟩, by decide⟩

/-- Two messages on a TCP connection, received in pieces that do not respect their bounds. -/
example : [TcpLinkOp.send [1, 2] [.sent 2], .send [3] [.sent 1], .receive 9, .send [4] [.sent 1], .receive 9].foldl
    (TcpLink.step 2) ⟨[], [], false⟩ = ⟨[], [[1, 2], [3, 4]], false⟩ := by decide +kernel

end Verif.Socket
