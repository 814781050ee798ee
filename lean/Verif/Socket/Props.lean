import Verif.Socket.Handles
import Verif.Socket.Send
import Verif.Socket.Service

/-!
# Sockets: the properties
-/

namespace Verif.Socket

/-! ## C68: handles are closed once -/

/-- In every history of constructions, moves, closes and destructions: a handle is held by at most one socket, a handle
held by a socket is open, and no handle is closed more often than it was opened (what was opened is either closed or
still open, handle by handle and with multiplicity). -/
theorem handles_closed_at_most_once {s : Handles} (h : HandleReach s) :
    (∀ i j x, s.objects i = some x → s.objects j = some x → x ≠ -1 → i = j) ∧
      (∀ i x, s.objects i = some x → x ≠ -1 → x ∈ s.osOpen) ∧
      (∀ x, s.closed.count x ≤ s.opened.count x) ∧
      (∀ x, s.opened.count x = s.closed.count x + s.osOpen.count x) ∧ s.osOpen.Nodup := by
  have hi := hInv h
  refine ⟨hi.unique, fun i x hx hne => ((hi.owned i x hx).resolve_left hne).2, fun x => ?_, hi.count, hi.nodup⟩
  have := hi.count x
  omega

/-- Closing or destroying a socket closes exactly the handle it holds, once, which no other socket holds; closing a
socket without a handle closes nothing. -/
theorem close_closes_own {s : Handles} (h : HandleReach s) (i : Nat) (x : Int) (hx : s.objects i = some x) (op : HandleOp)
    (ho : op = .close i ∨ op = .destroy i) :
    (s.step op).closed = (if x = -1 then s.closed else x :: s.closed) ∧
      (x ≠ -1 → x ∈ s.osOpen ∧ x ∉ (s.step op).osOpen ∧ ∀ j, j ≠ i → s.objects j ≠ some x) ∧
      (∀ j, j ≠ i → (s.step op).objects j = s.objects j) := by
  have hi := hInv h
  have hother : ∀ o : Option Int, ∀ j, j ≠ i → upd s.objects i o j = s.objects j := fun o j hj => upd_ne _ _ hj
  have hcl : (s.closeHandle x).closed = (if x = -1 then s.closed else x :: s.closed) ∧
      (x ≠ -1 → x ∈ s.osOpen ∧ x ∉ (s.closeHandle x).osOpen ∧ ∀ j, j ≠ i → s.objects j ≠ some x) := by
    unfold Handles.closeHandle
    by_cases e : x = -1
    · rw [if_pos e, if_pos e]; exact ⟨rfl, fun h => absurd e h⟩
    · rw [if_neg e, if_neg e]
      refine ⟨rfl, fun _ => ⟨((hi.owned i x hx).resolve_left e).2, ?_, fun j hj hjx => hj (hi.unique j i x hjx hx e)⟩⟩
      exact fun hm => absurd hm (List.Nodup.not_mem_erase hi.nodup)
  rcases ho with rfl | rfl
  · have e : s.step (.close i) = { s.closeHandle x with objects := upd s.objects i (some (-1)) } := by
      simp only [Handles.step, hx]
    rw [e]; exact ⟨hcl.1, hcl.2, hother _⟩
  · have e : s.step (.destroy i) = { s.closeHandle x with objects := upd s.objects i none } := by
      simp only [Handles.step, hx]
    rw [e]; exact ⟨hcl.1, hcl.2, hother _⟩

/-- C68, as far as it holds: if no socket is moved onto one that holds a handle (or onto itself), then once all sockets
are gone every handle opened has been closed exactly as often as it was opened, and none is open. -/
theorem handles_closed_exactly_once_partial {s : Handles} (h : HandleReachD s) (hgone : ∀ i, s.objects i = none) :
    s.osOpen = [] ∧ ∀ x, s.opened.count x = s.closed.count x := by
  have hl := no_leak h
  have e : s.osOpen = [] := by
    cases ho : s.osOpen with
    | nil => rfl
    | cons x xs =>
      obtain ⟨i, hi⟩ := hl x (by rw [ho]; exact List.mem_cons_self)
      rw [hgone i] at hi; cases hi
  refine ⟨e, fun x => ?_⟩
  have := (hInv h.reach).count x
  rw [e] at this
  simpa using this

/-- C68 fails in general: assigning a socket to another one that is open loses the handle the latter held; it stays open
after all sockets are gone. (base_socket.cpp 65-77) -/
theorem handles_closed_exactly_once_violated :
    ∃ s, HandleReach s ∧ (∀ i, s.objects i = none) ∧ s.osOpen = [3] ∧ s.opened = [4, 3] ∧ s.closed = [4] := by
  have h1 : HandleReach _ := .step (.construct 0 3 true) .init ⟨rfl, .inr ⟨by decide, by decide⟩⟩
  have h2 : HandleReach _ := .step (.construct 1 4 true) h1 ⟨rfl, .inr ⟨by decide, by decide⟩⟩
  have h3 : HandleReach _ := .step (.moveAssign 0 1) h2 ⟨by decide, by decide⟩
  have h4 : HandleReach _ := .step (.destroy 0) h3 (fun h => nomatch h)
  have h5 : HandleReach _ := .step (.destroy 1) h4 (fun h => nomatch h)
  refine ⟨_, h5, fun i => ?_, rfl, rfl, rfl⟩
  have e : ((((((Handles.init.step (.construct 0 3 true)).step (.construct 1 4 true)).step (.moveAssign 0 1)).step
      (.destroy 0)).step (.destroy 1)).objects i) =
      upd (upd (upd (upd (upd (upd (fun _ => none) 0 (some 3)) 1 (some 4)) 0 (some 4)) 1 (some (-1))) 0 none) 1 none i := rfl
  rw [e]
  unfold upd
  by_cases h1 : i = 1
  · simp [h1]
  · by_cases h0 : i = 0 <;> simp [h0, h1]

/-- Assigning a socket to itself loses its handle as well. -/
theorem self_move_leaks : ∃ s, HandleReach s ∧ s.objects 0 = some (-1) ∧ s.osOpen = [3] ∧ s.closed = [] := by
  have h1 : HandleReach _ := .step (.construct 0 3 true) .init ⟨rfl, .inr ⟨by decide, by decide⟩⟩
  have h2 : HandleReach _ := .step (.moveAssign 0 0) h1 ⟨by decide, by decide⟩
  exact ⟨_, h2, rfl, rfl, rfl⟩

/-- A history meeting the hypotheses of `handles_closed_exactly_once_partial`: construct, move, close, reuse of the
handle by the OS, destroy. -/
example : ∃ s, HandleReachD s ∧ s.opened = [3, 3] ∧ s.closed = [3, 3] ∧ s.osOpen = [] := by
  have h1 : HandleReachD _ := .step (.construct 0 3 true) .init ⟨rfl, .inr ⟨by decide, by decide⟩⟩ (fun _ _ h => nomatch h)
  have h2 : HandleReachD _ := .step (.moveConstruct 1 0) h1 ⟨rfl, by decide⟩ (fun _ _ h => nomatch h)
  have h3 : HandleReachD _ := .step (.close 1) h2 (fun h => nomatch h) (fun _ _ h => nomatch h)
  have h4 : HandleReachD _ := .step (.construct 2 3 true) h3 ⟨rfl, .inr ⟨by decide, by decide⟩⟩ (fun _ _ h => nomatch h)
  have h5 : HandleReachD _ := .step (.moveAssign 0 2) h4 ⟨by decide, by decide⟩ (by
    intro d s' h; cases h; exact ⟨by decide, rfl⟩)
  have h6 : HandleReachD _ := .step (.destroy 0) h5 (fun h => nomatch h) (fun _ _ h => nomatch h)
  exact ⟨_, h6, rfl, rfl, rfl⟩

/-! ## C69: connection state and openness -/

/-- C69, as far as it holds: a socket that was only connected (successfully or not), whose connection was
completed, or that was moved from, is open whenever it reports connecting or connected. -/
theorem connected_is_open_partial (ops : List TcpOp)
    (hops : ∀ op ∈ ops, (∃ r, op = .connect r) ∨ (∃ b, op = .finish b) ∨ op = .io false ∨ op = .movedFrom) :
    ∀ t : Tcp, (t.conn ≠ .disconnected → t.isOpen = true) → Tcp.Plausible t ops →
      (t.run ops).conn ≠ .disconnected → (t.run ops).isOpen = true := by
  induction ops with
  | nil => intro t h _; exact h
  | cons op ops ih =>
    intro t h hp
    refine ih (fun o ho => hops o (List.mem_cons_of_mem _ ho)) (t.step op) ?_ hp.2
    have ha := hp.1
    rcases hops op List.mem_cons_self with ⟨r, rfl⟩ | ⟨b, rfl⟩ | rfl | rfl
    · intro hr
      have hr : r ≠ .disconnected := hr
      show (if r = .disconnected then t.close else t).isOpen = true
      rw [if_neg hr]
      cases ho : t.isOpen with
      | true => rfl
      | false => exact absurd (ha ho) hr
    · simp only [Tcp.step]
      split
      · rename_i hc
        simp only [Bool.and_eq_true] at hc
        intro _; exact hc.1.1
      · intro h; exact absurd rfl h
    · exact h
    · intro h; exact absurd rfl h

example : Tcp.Plausible (.fresh true) [.connect .connecting, .finish true, .io false] ∧
    (Tcp.fresh true).run [.connect .connecting, .finish true, .io false] = ⟨true, .connected⟩ := by
  refine ⟨⟨(fun h => nomatch h), trivial, trivial, trivial⟩, rfl⟩

/-- C69 fails: a connected socket that is closed (by the program, or by a failed send or receive) still reports
connected; and so does an accepted socket whose I/O mode could not be set. (base_socket.cpp 145-158) -/
theorem connected_is_open_violated :
    (∃ ops, Tcp.Plausible (.fresh true) ops ∧ (Tcp.fresh true).run ops = ⟨false, .connected⟩) ∧
      (∃ ops, Tcp.Plausible (.fresh true) ops ∧ TcpOp.close ∉ ops ∧ (Tcp.fresh true).run ops = ⟨false, .connected⟩) ∧
      Tcp.accepted false = ⟨false, .connected⟩ :=
  ⟨⟨[.connect .connected, .close], ⟨(fun h => nomatch h), trivial, trivial⟩, rfl⟩,
    ⟨[.connect .connected, .io true], ⟨(fun h => nomatch h), trivial, trivial⟩, by decide, rfl⟩, rfl⟩

/-- In every history, a socket that reports connected was once told so: by `connect`, or by the completion of a connection that was under way while open. -/
theorem connected_was_connected (ops : List TcpOp) (isOpen : Bool) (h : ((Tcp.fresh isOpen).run ops).conn = .connected) :
    TcpOp.connect .connected ∈ ops ∨ (TcpOp.connect .connecting ∈ ops ∧ TcpOp.finish true ∈ ops) := by
  have gen : ∀ (ops : List TcpOp) (t : Tcp), (t.run ops).conn = .connected → t.conn = .connected ∨
      TcpOp.connect .connected ∈ ops ∨ ((t.conn = .connecting ∨ TcpOp.connect .connecting ∈ ops) ∧ TcpOp.finish true ∈ ops) := by
    intro ops
    induction ops with
    | nil => intro t h; exact .inl h
    | cons op ops ih =>
      intro t h
      have := ih (t.step op) h
      cases op with
      | connect r =>
        have e : (t.step (.connect r)).conn = r := rfl
        rw [e] at this
        rcases this with h | h | ⟨h | h, h'⟩
        · subst h; exact .inr (.inl List.mem_cons_self)
        · exact .inr (.inl (List.mem_cons_of_mem _ h))
        · subst h; exact .inr (.inr ⟨.inr List.mem_cons_self, List.mem_cons_of_mem _ h'⟩)
        · exact .inr (.inr ⟨.inr (List.mem_cons_of_mem _ h), List.mem_cons_of_mem _ h'⟩)
      | finish b =>
        simp only [Tcp.step] at this
        split at this
        · rename_i hc
          simp only [Bool.and_eq_true, decide_eq_true_eq] at hc
          obtain ⟨⟨_, hc⟩, rfl⟩ := hc
          exact .inr (.inr ⟨.inl hc, List.mem_cons_self⟩)
        · rcases this with h | h | ⟨h | h, h'⟩
          · cases h
          · exact .inr (.inl (List.mem_cons_of_mem _ h))
          · cases h
          · exact .inr (.inr ⟨.inr (List.mem_cons_of_mem _ h), List.mem_cons_of_mem _ h'⟩)
      | io b =>
        have e : (t.step (.io b)).conn = t.conn := by cases b <;> rfl
        rw [e] at this
        rcases this with h | h | ⟨h | h, h'⟩
        · exact .inl h
        · exact .inr (.inl (List.mem_cons_of_mem _ h))
        · exact .inr (.inr ⟨.inl h, List.mem_cons_of_mem _ h'⟩)
        · exact .inr (.inr ⟨.inr (List.mem_cons_of_mem _ h), List.mem_cons_of_mem _ h'⟩)
      | close =>
        rcases this with h | h | ⟨h | h, h'⟩
        · exact .inl h
        · exact .inr (.inl (List.mem_cons_of_mem _ h))
        · exact .inr (.inr ⟨.inl h, List.mem_cons_of_mem _ h'⟩)
        · exact .inr (.inr ⟨.inr (List.mem_cons_of_mem _ h), List.mem_cons_of_mem _ h'⟩)
      | movedFrom =>
        rcases this with h | h | ⟨h | h, h'⟩
        · cases h
        · exact .inr (.inl (List.mem_cons_of_mem _ h))
        · cases h
        · exact .inr (.inr ⟨.inr (List.mem_cons_of_mem _ h), List.mem_cons_of_mem _ h'⟩)
  rcases gen ops _ h with h | h | ⟨h | h, h'⟩
  · cases h
  · exact .inl h
  · cases h
  · exact .inr ⟨h, h'⟩

/-! ## C70: asynchronous sends -/

/-- C70: whatever the OS answers, at any time the bytes it accepted are a prefix of the message (in order, without gaps
or repeats); the callback has not been invoked while the send is under way, and afterwards it has been invoked exactly
once, with the number of bytes accepted; this is the length of the message unless the socket was closed. -/
theorem async_send_accounting (packet : Nat) (message : List Nat) (rounds : List (List Status)) :
    let a := (AsyncSend.start message).run packet rounds
    (∃ rest, a.wire ++ rest = message) ∧
      (a.waiting = true → a.callbacks = [] ∧ a.closed = false) ∧
      (a.waiting = false → a.callbacks = [a.wire.length] ∧ (a.closed = false ↔ a.wire = message)) := by
  intro a
  have h := sendInv packet message rounds
  refine ⟨⟨_, h.split⟩, h.pending, fun hw => ⟨(h.done hw).1, (h.done hw).2.trans ⟨fun e => ?_, fun e => ?_⟩⟩⟩
  · have := h.split; rw [show ((AsyncSend.start message).run packet rounds).rest = [] from e, List.append_nil] at this; exact this
  · have := congrArg List.length h.split
    rw [List.length_append, show ((AsyncSend.start message).run packet rounds).wire = message from e] at this
    exact List.length_eq_zero_iff.mp (by omega)

/-- A round in which the OS reports no error (it accepts bytes, or says it would block) never closes the socket, and
the send completes unless the OS would block. -/
theorem async_send_no_error {packet : Nat} (hp : 0 < packet) (a : AsyncSend) (st : List Status)
    (hst : Healthy a.rest.length st) (hw : a.waiting = true) :
    (a.ready packet st).closed = a.closed ∧ (Status.wouldBlock ∉ st → (a.ready packet st).waiting = false) := by
  have hh := sendLoop_healthy hp st a.rest hst
  have hwb : ∀ (st : List Status) msg, Status.wouldBlock ∉ st → (sendLoop packet msg st).wouldBlock = false := by
    intro st
    induction st with
    | nil => intro msg _; cases msg <;> rfl
    | cons x st ih =>
      intro msg hn
      cases msg with
      | nil => rfl
      | cons b bs =>
        cases x with
        | sent n => exact ih _ (fun h => hn (List.mem_cons_of_mem _ h))
        | zero => rfl
        | wouldBlock => exact absurd List.mem_cons_self hn
        | error => rfl
  unfold AsyncSend.ready
  rw [if_pos hw]
  simp only []
  split
  · exact ⟨rfl, fun _ => rfl⟩
  · rename_i hc
    have hwb' : (sendLoop packet a.rest st).wouldBlock = true := by
      rcases hh with h | h
      · exact h
      · rw [h] at hc; exact absurd rfl hc
    rw [if_pos hwb']
    exact ⟨rfl, fun hn => by rw [hwb st a.rest hn] at hwb'; cases hwb'⟩

/-- Progress: a send that the OS finds some room for gets strictly closer to its end. -/
theorem async_send_progress {packet : Nat} (hp : 0 < packet) (a : AsyncSend) (k : Nat) (hk : 0 < k) (st : List Status)
    (hw : a.waiting = true) (hr : a.rest ≠ []) : (a.ready packet (.sent k :: st)).rest.length < a.rest.length := by
  have hpos : 0 < (sendLoop packet a.rest (.sent k :: st)).chunks.flatten.length := by
    cases hm : a.rest with
    | nil => exact absurd hm hr
    | cons b bs =>
      simp only [sendLoop, List.flatten_cons, List.length_append, List.length_take, List.length_cons]
      omega
  have hrl : 0 < a.rest.length := List.length_pos_iff.mpr hr
  unfold AsyncSend.ready
  rw [if_pos hw]
  simp only []
  split
  · simp only [List.length_drop]; omega
  · split <;> (simp only [List.length_drop]; omega)

/-- UDP: no datagram is larger than the configured packet size. -/
theorem datagrams_fit (packet : Nat) (message : List Nat) (st : List Status) :
    ∀ c ∈ (sendLoop packet message st).chunks, c.length ≤ packet := sendLoop_packets packet st message

/-- A send in three rounds, partially accepted, then completed. -/
example : (AsyncSend.start [1, 2, 3, 4, 5]).run 2 [[.sent 2, .wouldBlock], [.wouldBlock], [.sent 1, .sent 2]] =
    { rest := [], bytesSent := 5, callbacks := [5], closed := false, wire := [1, 2, 3, 4, 5], waiting := false } := by
  decide +kernel

example : Healthy 5 [.sent 2, .wouldBlock] :=
  ⟨fun x hx => by
    rcases List.mem_cons.mp hx with rfl | hx
    · exact .inr ⟨2, by decide, rfl⟩
    · exact .inl (by simpa using hx), .inl (by decide)⟩

/-- A synchronous send of the empty message, or one for which a non-blocking socket has no room right now, closes
the socket although nothing is wrong with it. -/
theorem sync_send_closes_healthy_socket_violated (packet : Nat) :
    sendSync packet [] [] = ([], 0, true) ∧
      (∀ message, message ≠ [] → Healthy message.length [.wouldBlock] ∧ sendSync packet message [.wouldBlock] = ([], 0, true)) := by
  refine ⟨rfl, fun message h => ⟨⟨fun x hx => .inl (by simpa using hx), .inl (by decide)⟩, ?_⟩⟩
  cases message with
  | nil => exact absurd rfl h
  | cons b bs => rfl

/-- A synchronous send returns the number of bytes accepted, which are a prefix of the message; the socket is
closed exactly if there are none. -/
theorem sync_send_accounting (packet : Nat) (message : List Nat) (st : List Status) :
    (∃ rest, (sendSync packet message st).1 ++ rest = message) ∧
      (sendSync packet message st).2.1 = (sendSync packet message st).1.length ∧
      ((sendSync packet message st).2.2 = true ↔ (sendSync packet message st).1 = []) := by
  refine ⟨sendLoop_prefix packet st message, rfl, ?_⟩
  simp only [sendSync, beq_iff_eq, List.length_eq_zero_iff]

/-! ## C78: asynchronous sends on one TCP stream -/

/-- C78, as far as it holds: if no round ends with would-block, the messages go out one after the other in the order
of the calls. -/
theorem stream_order_partial {packet : Nat} (hp : 0 < packet) (messages : List (List Nat)) :
    ∀ (s : Stream) (rounds : List (List Status)), s.sends = messages.map AsyncSend.start → rounds.length = messages.length →
      (∀ (i : Nat) (st : List Status) (m : List Nat), rounds[i]? = some st → messages[i]? = some m → Healthy m.length st ∧ Status.wouldBlock ∉ st) →
      (rounds.foldl (Stream.ready packet) s).wire = s.wire ++ messages.flatten ∧
        (rounds.foldl (Stream.ready packet) s).sends = [] := by
  induction messages with
  | nil =>
    intro s rounds hs hl _
    cases rounds with
    | nil => exact ⟨by simp, hs⟩
    | cons => simp at hl
  | cons m ms ih =>
    intro s rounds hs hl hr
    cases rounds with
    | nil => simp at hl
    | cons st rounds =>
      have h0 := hr 0 st m rfl rfl
      have hdone := (async_send_no_error hp (AsyncSend.start m) st h0.1 rfl).2 h0.2
      have hcl := (async_send_no_error hp (AsyncSend.start m) st h0.1 rfl).1
      have hacc := async_send_accounting packet m [st]
      simp only [AsyncSend.run, List.foldl_cons, List.foldl_nil] at hacc
      have hwire : ((AsyncSend.start m).ready packet st).wire = m := (hacc.2.2 hdone).2.mp (by rw [hcl]; rfl)
      have e : s.ready packet st = ⟨ms.map AsyncSend.start, s.wire ++ m⟩ := by
        unfold Stream.ready
        rw [hs]
        simp only [List.map_cons]
        rw [hdone, hwire]
        rfl
      rw [List.foldl_cons, e]
      have := ih ⟨ms.map AsyncSend.start, s.wire ++ m⟩ rounds rfl (by simpa using hl) (fun i st' m' h1 h2 => hr (i + 1) st' m' h1 h2)
      refine ⟨?_, this.2⟩
      rw [this.1, List.flatten_cons, List.append_assoc]

/-- C78 fails: two messages sent asynchronously on one TCP socket are mixed up when the first one finds room for only
a part: its remainder is queued behind the second message. -/
theorem stream_order_violated :
    ∃ rounds : List (List Status), (∀ st ∈ rounds, Healthy 2 st) ∧
      rounds.foldl (Stream.ready 100) ⟨[AsyncSend.start [1, 2], AsyncSend.start [3]], []⟩ = ⟨[], [1, 3, 2]⟩ := by
  refine ⟨[[.sent 1, .wouldBlock], [.sent 1, .wouldBlock], [.sent 1, .wouldBlock]], ?_, by decide +kernel⟩
  intro st hst
  have : st = [.sent 1, .wouldBlock] := by simpa using hst
  subst this
  refine ⟨fun x hx => ?_, .inl (by decide)⟩
  rcases List.mem_cons.mp hx with rfl | hx
  · exact .inr ⟨1, by decide, rfl⟩
  · exact .inl (by simpa using hx)

/-! ## C79: asynchronous receives -/

/-- C79: whatever arrives, an asynchronous receive invokes its callback at most once, with exactly the bytes of the one
arrival that ended it: the first one that is not a would-block. -/
theorem async_receive_delivers (arrivals : List Arrival) :
    let r := arrivals.foldl AsyncReceive.ready AsyncReceive.start
    (r.waiting = true ↔ ∀ a ∈ arrivals, a = .wouldBlock) ∧
      (r.waiting = true → r.callbacks = [] ∧ r.closed = false) ∧
      (∀ k a rest, arrivals = List.replicate k .wouldBlock ++ a :: rest → a ≠ .wouldBlock →
        r.callbacks = [(recvOnce a).1] ∧ (r.closed = true ↔ (recvOnce a).1 = [])) := by
  have stuck : ∀ (l : List Arrival) (r : AsyncReceive), r.waiting = false → l.foldl AsyncReceive.ready r = r := by
    intro l
    induction l with
    | nil => intro r _; rfl
    | cons a l ih =>
      intro r hr
      have : r.ready a = r := by unfold AsyncReceive.ready; rw [hr]; rfl
      rw [List.foldl_cons, this]; exact ih r hr
  have wb : AsyncReceive.start.ready .wouldBlock = AsyncReceive.start := rfl
  have reps : ∀ k, (List.replicate k Arrival.wouldBlock).foldl AsyncReceive.ready AsyncReceive.start = AsyncReceive.start := by
    intro k
    induction k with
    | zero => rfl
    | succ k ih => rw [List.replicate_succ, List.foldl_cons, wb]; exact ih
  have one : ∀ a, a ≠ .wouldBlock → (AsyncReceive.start.ready a).waiting = false ∧
      (AsyncReceive.start.ready a).callbacks = [(recvOnce a).1] ∧
      ((AsyncReceive.start.ready a).closed = true ↔ (recvOnce a).1 = []) := by
    intro a ha
    cases a with
    | wouldBlock => exact absurd rfl ha
    | error => exact ⟨rfl, rfl, by decide⟩
    | data b =>
      cases b with
      | nil => exact ⟨rfl, rfl, by decide⟩
      | cons x xs => exact ⟨rfl, rfl, by simp [AsyncReceive.start, AsyncReceive.ready, recvOnce]⟩
  have shape : ∀ l : List Arrival, l = List.replicate l.length .wouldBlock ∨
      ∃ k a rest, l = List.replicate k .wouldBlock ++ a :: rest ∧ a ≠ .wouldBlock := by
    intro l
    induction l with
    | nil => exact .inl rfl
    | cons a l ih =>
      by_cases ha : a = .wouldBlock
      · subst ha
        rcases ih with h | ⟨k, b, rest, h, hb⟩
        · left; rw [List.length_cons, List.replicate_succ, ← h]
        · exact .inr ⟨k + 1, b, rest, by rw [h, List.replicate_succ]; rfl, hb⟩
      · exact .inr ⟨0, a, l, rfl, ha⟩
  have third : ∀ k a rest, arrivals = List.replicate k .wouldBlock ++ a :: rest → a ≠ .wouldBlock →
      arrivals.foldl AsyncReceive.ready AsyncReceive.start = AsyncReceive.start.ready a := by
    intro k a rest h ha
    rw [h, List.foldl_append, reps, List.foldl_cons, stuck rest _ (one a ha).1]
  intro r
  rcases shape arrivals with h | ⟨k, a, rest, h, ha⟩
  · have e : r = AsyncReceive.start := by show arrivals.foldl _ _ = _; rw [h]; exact reps _
    have hall : ∀ a ∈ arrivals, a = Arrival.wouldBlock := fun a hm => by rw [h] at hm; exact List.eq_of_mem_replicate hm
    refine ⟨⟨fun _ => hall, fun _ => by rw [e]; rfl⟩, fun _ => by rw [e]; exact ⟨rfl, rfl⟩, fun k a rest h' ha => ?_⟩
    exact absurd (hall a (by rw [h']; simp)) ha
  · have e : r = AsyncReceive.start.ready a := third k a rest h ha
    refine ⟨⟨fun hw => ?_, fun hall => absurd (hall a (by rw [h]; simp)) ha⟩, fun hw => ?_, fun k' a' rest' h' ha' => ?_⟩
    · rw [e, (one a ha).1] at hw; cases hw
    · rw [e, (one a ha).1] at hw; cases hw
    · have e' : r = AsyncReceive.start.ready a' := third k' a' rest' h' ha'
      rw [e']; exact (one a' ha').2

example : ([.wouldBlock, .data [7, 8], .data [9]] : List Arrival).foldl AsyncReceive.ready .start =
    { received := [7, 8], callbacks := [[7, 8]], closed := false, waiting := false } := rfl

/-- A UDP socket that receives an empty datagram (a legal datagram) is closed. -/
theorem empty_datagram_closes_violated :
    receiveSync (.data []) = ([], true) ∧
      [Arrival.data []].foldl AsyncReceive.ready AsyncReceive.start =
        { received := [], callbacks := [[]], closed := true, waiting := false } := ⟨rfl, rfl⟩

/-- A synchronous receive on a non-blocking socket with nothing to receive yet closes it. -/
theorem sync_receive_would_block_closes_violated : receiveSync .wouldBlock = ([], true) := rfl

/-- C80, exactly, for synchronous calls: a send closes the socket exactly when the message is empty or the very
first answer of the OS accepted nothing (0, would-block or an error); a receive exactly when nothing was received. -/
theorem sync_close_exact (packet : Nat) (hp : 0 < packet) (message : List Nat) (st : List Status)
    (hst : ∀ n, .sent n ∈ st → 0 < n) (a : Arrival) :
    ((sendSync packet message st).2.2 = true ↔ message = [] ∨ ∀ n, st.head? ≠ some (.sent n)) ∧
    ((receiveSync a).2 = true ↔ a = .data [] ∨ a = .wouldBlock ∨ a = .error) := by
  constructor
  · unfold sendSync
    cases message with
    | nil => simp [sendLoop]
    | cons b bs =>
      cases st with
      | nil => simp [sendLoop]
      | cons x st =>
        cases x with
        | sent n =>
          simp only [sendLoop, List.flatten_cons, List.length_append, List.length_take, List.length_cons, beq_iff_eq,
            reduceCtorEq, false_or, List.head?_cons, Option.some.injEq, Status.sent.injEq]
          have := hst n (by simp)
          constructor
          · intro h; omega
          · intro h; exact absurd rfl (h n)
        | zero => simp [sendLoop]
        | wouldBlock => simp [sendLoop]
        | error => simp [sendLoop]
  · cases a with
    | data bytes => cases bytes <;> simp [receiveSync, recvOnce]
    | wouldBlock => simp [receiveSync, recvOnce]
    | error => simp [receiveSync, recvOnce]

example : (sendSync 2 [1, 2, 3] [.sent 1, .error]).2.2 = false ∧ (sendSync 2 [1, 2, 3] [.error]).2.2 = true := by decide

/-! ## C71: each request once, in order -/

/-- C71: in every execution, for each direction and handle, the requests made split (in the order in which they were
made) into those that have left the service, those it holds and those not yet registered; the callbacks
invoked are, in order, those of some of the requests that left, each once. -/
theorem requests_once_in_order {s : Service} {made : List Request} (he : Exec s made) (d : Dir) (h : Int) :
    ∃ left waiting : List Request, ofHandle d h made = left ++ waiting ∧
      waiting = ofHandle d h (s.list d) ++ ofHandle d h (requestsOf s.queue) ∧
      (ofHandle d h s.invoked).Sublist left := by
  obtain ⟨fate, h1, h2⟩ := fates he d h
  refine ⟨fate.map (·.1), _, ?_, rfl, ?_⟩
  · rw [h1, List.append_assoc]
  · rw [h2]; exact List.Sublist.map _ List.filter_sublist

/-- In particular no request is invoked twice if all requests made are different. -/
theorem requests_at_most_once {s : Service} {made : List Request} (he : Exec s made) (hn : made.Nodup) : s.invoked.Nodup := by
  rw [List.nodup_iff_count]
  intro r
  obtain ⟨left, waiting, h1, _, h3⟩ := requests_once_in_order he r.dir r.handle
  have e : ∀ l : List Request, (ofHandle r.dir r.handle l).count r = l.count r := by
    intro l; unfold ofHandle; exact List.count_filter (by simp)
  rw [← e]
  refine Nat.le_trans (h3.count_le r) ?_
  refine Nat.le_trans ?_ (List.nodup_iff_count.mp hn r)
  rw [← e made, h1, List.count_append]
  omega

/-- C71: a callback is invoked only in a poll for which the OS reported its handle ready in its direction. -/
theorem requests_only_when_ready {s : Service} {made : List Request} (he : Exec s made) (readyW readyR : List Int) (posts : List Task) :
    ∃ new, (s.runNext readyW readyR posts).invoked = s.invoked ++ new ∧
      ∀ r ∈ new, (r.dir = .write → r.handle ∈ readyW) ∧ (r.dir = .read → r.handle ∈ readyR) := by
  obtain ⟨_, new, _, h2, _, h4⟩ := runNext_of (sorted he) readyW readyR posts .write 0
  exact ⟨new, h2, h4⟩

/-- C71: a poll serves the oldest request of every handle that is ready. -/
theorem ready_requests_are_served {s : Service} {made : List Request} (he : Exec s made) (readyW readyR : List Int)
    (posts queue : List Task) (hq : s.queue = .poll :: queue) (d : Dir) (h : Int) (r : Request) (rest : List Request)
    (hr : ofHandle d h (s.list d) = r :: rest) (hready : h ∈ (match d with | .write => readyW | .read => readyR)) :
    r ∈ (s.runNext readyW readyR posts).invoked := by
  have hs := sorted he
  have hmem : ∀ l : List Request, (∀ x ∈ l, x.dir = d) → ofHandle d h l = r :: rest → h ∈ handlesOf l := by
    intro l _ hl
    have : r ∈ ofHandle d h l := by rw [hl]; exact List.mem_cons_self
    have hr' : r ∈ l ∧ r.handle = h := by
      have := List.mem_filter.mp this
      simp at this; exact ⟨this.1, this.2.2⟩
    exact List.mem_eraseDups.mpr (List.mem_map.mpr ⟨r, hr'.1, hr'.2⟩)
  unfold Service.runNext
  rw [hq]
  show r ∈ s.invoked ++ _ ++ _
  cases d with
  | write =>
    have hl := hmem s.writes hs.writes hr
    refine List.mem_append_left _ (List.mem_append_right _ ?_)
    refine serve_serves _ _ h r rest (List.mem_filter.mpr ⟨hl, by simpa using hready⟩) ?_
    rw [← ofHandle_same h hs.writes]; exact hr
  | read =>
    have hl := hmem s.reads hs.reads hr
    refine List.mem_append_right _ ?_
    refine serve_serves _ _ h r rest (List.mem_filter.mpr ⟨hl, by simpa using hready⟩) ?_
    rw [← ofHandle_same h hs.reads]; exact hr

/-- C71: once the service has processed `remove_socket(h)`, no request it held for `h` is ever invoked (unless the very
same request is made again). -/
theorem removed_requests_never_invoked {s : Service} {made : List Request} (he : Exec s made) (h : Int) (queue : List Task)
    (hq : s.queue = .remove h :: queue) (posts : List Task) (r : Request) (hr : r ∈ s.list r.dir) (hh : r.handle = h)
    {s' : Service} {made' : List Request} (he' : ExecFrom (s.runNext [] [] posts) (made ++ requestsOf posts) s' made')
    (hn : made'.Nodup) : r ∉ s'.invoked := by
  have hprefix : ∀ {s0 s' : Service} {m0 m' : List Request}, ExecFrom s0 m0 s' m' → m'.Nodup → m0.Nodup := by
    intro s0 s' m0 m' h
    induction h with
    | refl => exact id
    | post _ _ _ ih => exact fun hn => ih (List.nodup_append.mp hn).1
    | run _ _ _ _ _ _ ih => exact fun hn => ih (List.nodup_append.mp hn).1
  have hn1 := hprefix he' hn
  have hn0 := (List.nodup_append.mp hn1).1
  obtain ⟨left, waiting, h1, h2, h3⟩ := requests_once_in_order he r.dir r.handle
  have hno : (ofHandle r.dir r.handle made).Nodup := hn0.sublist List.filter_sublist
  have hmade : r ∈ made := by
    have : r ∈ ofHandle r.dir r.handle made := by
      rw [h1, h2]; exact List.mem_append_right _ (List.mem_append_left _ (mem_ofHandle.mpr hr))
    exact mem_ofHandle.mp this
  rw [h1, h2] at hno
  have hq' : r ∉ requestsOf s.queue := by
    intro hm
    exact (List.nodup_append.mp (List.nodup_append.mp hno).2.1).2.2 r (mem_ofHandle.mpr hr) r (mem_ofHandle.mpr hm) rfl
  have hinv : r ∉ s.invoked := by
    intro hm
    exact (List.nodup_append.mp hno).2.2 r (h3.subset (mem_ofHandle.mpr hm)) r
      (List.mem_append_left _ (mem_ofHandle.mpr hr)) rfl
  have hdead : Dead r (s.runNext [] [] posts) (made ++ requestsOf posts) := by
    have e : s.runNext [] [] posts = { s with
        writes := s.writes.filter (fun r => r.handle != h)
        reads := s.reads.filter (fun r => r.handle != h)
        queue := queue ++ posts } := by unfold Service.runNext; rw [hq]
    rw [e]
    refine ⟨List.mem_append_left _ hmade, ?_, ?_, hinv⟩
    · intro hm
      cases hd : r.dir <;> (rw [hd] at hm; have := (List.mem_filter.mp hm).2; simp [hh] at this)
    · intro hm
      have hm : r ∈ requestsOf (queue ++ posts) := hm
      rw [requestsOf_append] at hm
      rcases List.mem_append.mp hm with hm | hm
      · rw [hq] at hq'; exact hq' hm
      · exact (List.nodup_append.mp hn1).2.2 r hmade r hm rfl
  have hs : Sorted (s.runNext [] [] posts) := (sorted he).runNext ..
  exact ((dead_stays hs hdead he').1 hn).invoked

/-- An execution meeting the hypotheses: two requests for handle 5, of which the first is served and the second removed. -/
example : ∃ s, Exec s [⟨.read, 5, 0⟩, ⟨.read, 5, 1⟩] ∧ s.invoked = [⟨.read, 5, 0⟩] ∧ s.reads = [⟨.read, 5, 1⟩] ∧
    s.queue = [.remove 5, .poll] := by
  have h1 : Exec _ _ := .post (.notify ⟨.read, 5, 0⟩) (by decide) .refl
  have h2 : Exec _ _ := .run [] [] [] (by decide) (by decide) h1
  have h3 : Exec _ _ := .post (.notify ⟨.read, 5, 1⟩) (by decide) h2
  have h4 : Exec _ _ := .run [] [] [] (by decide) (by decide) h3
  have h5 : Exec _ _ := .run [] [] [] (by decide) (by decide) h4
  have h6 : Exec _ _ := .post (.remove 5) (by decide) h5
  have h7 : Exec _ _ := .run [] [5] [] (by decide) (by decide) h6
  refine ⟨_, h7, by decide +kernel, by decide +kernel, by decide +kernel⟩

/-! ## C72: polling -/

/-- C72, first half: while there are requests, a poll is waiting to run. -/
theorem polling_armed {s : Service} (hr : Reach s) (h : s.writes ≠ [] ∨ s.reads ≠ []) : Task.poll ∈ s.queue := armed hr h

/-- C72, second half, as far as it holds: without `remove_socket` exactly one poll is waiting while there are requests, and
none otherwise. -/
theorem polling_once_partial {s : Service} (h : ExecKeep s) :
    s.polls = if s.writes ≠ [] ∨ s.reads ≠ [] then 1 else 0 := (polls_keep h).2

/-- C72 fails in general: closing a socket and using a new one again and again makes polls pile up without bound. -/
theorem polling_once_violated (k : Nat) : ∃ s, Reach s ∧ s.polls = k + 1 := by
  obtain ⟨s, h1, _, _, h4⟩ := many_polls k
  refine ⟨s, h1, ?_⟩
  unfold Service.polls
  rw [h4]; exact List.count_replicate_self

/-! ## C73: handles given to `select` -/

/-- C73, as far as it holds: only handles that were requested are passed to `select`; so if every request made was for a
handle with some property (such as being valid), only such handles are. -/
theorem select_handles_partial {s : Service} {made : List Request} (he : Exec s made) (P : Int → Prop)
    (hp : ∀ r ∈ made, P r.handle) : ∀ l ∈ s.selects, ∀ h ∈ l, P h := by
  intro l hl h hh
  obtain ⟨r, hr, e⟩ := (requested he).selects l hl h hh
  rw [← e]; exact hp r hr

/-- C73 fails: an asynchronous operation on a closed socket makes a request for handle -1, which is passed to
`select` (`FD_SET(-1)`, undefined behaviour), in every poll to come. -/
theorem select_handles_violated :
    ∃ s, Exec s [⟨.write, -1, 0⟩] ∧ (∃ l ∈ s.selects, -1 ∈ l) ∧ ⟨.write, -1, 0⟩ ∈ s.writes ∧ Task.poll ∈ s.queue := by
  have h1 : Exec _ _ := .post (.notify ⟨.write, -1, 0⟩) (by decide) .refl
  have h2 : Exec _ _ := .run [] [] [] (by decide) (by decide) h1
  exact ⟨_, h2, ⟨[-1], by decide +kernel, by decide⟩, by decide +kernel, by decide +kernel⟩

end Verif.Socket
