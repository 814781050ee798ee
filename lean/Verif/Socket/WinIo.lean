import Verif.Socket.Select

/-!
# C135, C136: sending, receiving and polling on Windows

Source: `/repo/fly/net/socket/detail/win/socket_operations.cpp` 374-608. What Winsock answers is an input; `SOCKET` handles
are opaque (`UINT_PTR`), an `fd_set` is an array of at most 64 of them.
-/

namespace Verif.Socket.Win

open Verif.Socket

/-! ## Model -/

/-- `static_cast<int>` of a `std::size_t` (32-bit `int`). -/
def toInt (n : Nat) : Int :=
  let m : Nat := n % 2 ^ 32
  if m < 2 ^ 31 then (m : Int) else (m : Int) - 2 ^ 32

/-- `::send` / `::sendto` with a length: a negative length is refused (`WSAEFAULT`), of a length of zero nothing is
accepted; otherwise Winsock answers. -/
def osSend (len : Int) (s : Status) : Status :=
  if len < 0 then .error
  else match s with
    | .sent n => if len = 0 then .zero else .sent (min n len.toNat)
    | x => x

/-- The loop of `send` and `send_to` (win/socket_operations.cpp 381-407, 424-447). `size` is the length handed to the OS
for a message of so many bytes. -/
def loop (size : Nat → Int) : List Nat → List Status → Sent
  | [], _ => ⟨[], false⟩
  | _ :: _, [] => ⟨[], false⟩
  | b :: bs, s :: st =>
    match osSend (size (b :: bs).length) s with
    | .sent n =>
      let r := loop size ((b :: bs).drop n) st
      ⟨(b :: bs).take n :: r.chunks, r.wouldBlock⟩
    | .zero => ⟨[], false⟩
    | .wouldBlock => ⟨[], true⟩
    | .error => ⟨[], false⟩

/-- `send` (win/socket_operations.cpp 374-411): at most `INT_MAX` bytes at a time. -/
def send (message : List Nat) (st : List Status) : Sent := loop (fun n => toInt (min n (2 ^ 31 - 1))) message st

/-- `send_to` (win/socket_operations.cpp 415-451). -/
def sendTo (packet : Nat) (message : List Nat) (st : List Status) : Sent := loop (fun n => toInt (min packet n)) message st

/-- `recv` / `recv_from` (win/socket_operations.cpp 466-495, 499-531): the string and `would_block`. Winsock refuses a
negative length, and delivers at most as many bytes as it is asked for (`stream`: the rest stays for the next call;
otherwise what does not fit makes the call fail, `WSAEMSGSIZE`). -/
def recv (stream : Bool) (packet : Nat) (a : Arrival) : List Nat × Bool :=
  let size := toInt packet
  if size < 0 then ([], false)
  else match a with
    | .data bytes =>
      if bytes.length ≤ size.toNat then (bytes, false)
      else if stream then (bytes.take size.toNat, false)
      else ([], false)
    | .wouldBlock => ([], true)
    | .error => ([], false)

/-- `FD_SETSIZE` of Winsock. -/
def fdSetSize : Nat := 64

/-- `FD_SET` of Winsock: a handle that is in the set already, or for which there is no room, is not added. -/
def fdSet (set : List Int) (h : Int) : List Int :=
  if h ∈ set then set else if set.length < fdSetSize then set ++ [h] else set

/-- The `fd_set` after the loops over the handles (win/socket_operations.cpp 551-562). -/
def fdSetAll (hs : List Int) : List Int := hs.foldl fdSet []

/-- `::select` of Winsock: it fails if both sets are empty, a handle is not a socket or the network is down (`interrupted`);
otherwise the sets keep the ready ones, and their number is returned. -/
def osSelect (k : Kernel) (w r : List Int) : Int × List Int × List Int :=
  if k.interrupted || (w.isEmpty && r.isEmpty) || (w ++ r).any (fun h => !k.isOpen h) then (-1, w, r)
  else (Int.ofNat ((w.filter k.writable).length + (r.filter k.readable).length), w.filter k.writable, r.filter k.readable)

/-- `select` (win/socket_operations.cpp 546-594): the sets afterwards. (`status` is the truth value of `> 0`, 568.) -/
def select (k : Kernel) (writing reading : List Int) : List Int × List Int :=
  let (n, writeSet, readSet) := osSelect k (fdSetAll writing) (fdSetAll reading)
  let status : Int := if n > 0 then 1 else 0
  if status > 0 then (writing.filter (fun h => writeSet.contains h), reading.filter (fun h => readSet.contains h))
  else ([], [])

/-! ## Lemmas -/

theorem toInt_small {n : Nat} (h : n < 2 ^ 31) : toInt n = n := by
  unfold toInt
  have : n % 2 ^ 32 = n := Nat.mod_eq_of_lt (by omega)
  simp only [this, if_pos h]

theorem loop_eq_sendLoop {size : Nat → Int} {packet : Nat} (hp : 0 < packet) (st : List Status) : ∀ (message : List Nat),
    (∀ n, 0 < n → n ≤ message.length → size n = (min packet n : Nat)) → (∀ s ∈ st, s ≠ .sent 0) →
    loop size message st = sendLoop packet message st := by
  induction st with
  | nil => intro m _ _; cases m <;> rfl
  | cons s st ih =>
    intro m hm hs
    cases m with
    | nil => rfl
    | cons b bs =>
      have hsz := hm (b :: bs).length (by simp) (Nat.le_refl _)
      have hmin : 0 < min packet (b :: bs).length := by simp only [List.length_cons]; omega
      unfold loop sendLoop
      rw [hsz]
      cases s with
      | sent n =>
        have e : osSend ((min packet (b :: bs).length : Nat) : Int) (.sent n) = .sent (min n (min packet (b :: bs).length)) := by
          unfold osSend
          rw [if_neg (by omega)]
          simp only [Int.toNat_natCast]
          rw [if_neg (by omega)]
        rw [e]
        simp only []
        have hl : ((b :: bs).take packet).length = min packet (b :: bs).length := List.length_take
        rw [hl]
        rw [ih _ (fun k hk hle => hm k hk (by rw [List.length_drop] at hle; omega)) (fun x hx => hs x (List.mem_cons_of_mem _ hx))]
        rw [List.take_take, Nat.min_eq_left (Nat.le_trans (Nat.min_le_right _ _) (Nat.min_le_left _ _))]
      | zero => unfold osSend; rw [if_neg (by omega)]
      | wouldBlock => unfold osSend; rw [if_neg (by omega)]
      | error => unfold osSend; rw [if_neg (by omega)]

theorem loop_refused {size : Nat → Int} {message : List Nat} (hm : message ≠ []) (hz : size message.length ≤ 0) (st : List Status)
    (hst : ∀ s ∈ st, ∃ n, s = .sent n) : loop size message st = ⟨[], false⟩ := by
  cases message with
  | nil => exact absurd rfl hm
  | cons b bs =>
    cases st with
    | nil => rfl
    | cons s st =>
      obtain ⟨n, rfl⟩ := hst s List.mem_cons_self
      unfold loop osSend
      by_cases h : size (b :: bs).length < 0
      · rw [if_pos h]
      · rw [if_neg h]
        simp only [if_pos (show size (b :: bs).length = 0 by omega)]

theorem mem_fdSet {set : List Int} {h x : Int} (hm : x ∈ fdSet set h) : x ∈ set ∨ x = h := by
  unfold fdSet at hm
  split at hm
  · exact .inl hm
  · split at hm
    · rcases List.mem_append.mp hm with hm | hm
      · exact .inl hm
      · exact .inr (List.mem_singleton.mp hm)
    · exact .inl hm

/-- Of ascending handles the first 64 get into the set. -/
theorem fdSetAll_eq (hs : List Int) (hp : hs.Pairwise (· < ·)) : fdSetAll hs = hs.take 64 := by
  have gen : ∀ (hs set : List Int), set.length ≤ 64 → hs.Pairwise (· < ·) → (∀ x ∈ set, ∀ h ∈ hs, x < h) →
      hs.foldl fdSet set = set ++ hs.take (64 - set.length) := by
    intro hs
    induction hs with
    | nil => intro set _ _ _; simp
    | cons h hs ih =>
      intro set hl hp hlt
      have hp' := List.pairwise_cons.mp hp
      have hnot : h ∉ set := fun hin => by have := hlt h hin h List.mem_cons_self; omega
      rw [List.foldl_cons]
      by_cases hroom : set.length < 64
      · have e : fdSet set h = set ++ [h] := by
          unfold fdSet fdSetSize; rw [if_neg hnot, if_pos hroom]
        rw [e, ih (set ++ [h]) (by simp; omega) hp'.2 (by
          intro x hx y hy
          rcases List.mem_append.mp hx with hx | hx
          · exact hlt x hx y (List.mem_cons_of_mem _ hy)
          · rw [List.mem_singleton.mp hx]; exact hp'.1 y hy)]
        have : 64 - set.length = (64 - (set ++ [h]).length) + 1 := by simp; omega
        rw [this, List.take_succ_cons, List.append_assoc]; rfl
      · have e : fdSet set h = set := by
          unfold fdSet fdSetSize; rw [if_neg hnot, if_neg hroom]
        rw [e, ih set hl hp'.2 (fun x hx y hy => hlt x hx y (List.mem_cons_of_mem _ hy))]
        have : 64 - set.length = 0 := by omega
        rw [this]; simp
  have := gen hs [] (by simp) hp (by simp)
  simpa [fdSetAll] using this

theorem contains_filter (l s : List Int) (p : Int → Bool) (hsub : ∀ x ∈ l, x ∈ s ∨ p x = false) :
    l.filter (fun h => (s.filter p).contains h) = l.filter p := by
  refine List.filter_congr fun h hh => ?_
  cases hp : p h with
  | true =>
    rw [List.contains_iff_mem]
    rcases hsub h hh with hs | hs
    · exact List.mem_filter.mpr ⟨hs, hp⟩
    · rw [hp] at hs; cases hs
  | false =>
    rw [Bool.eq_false_iff]
    intro hcon
    have := (List.mem_filter.mp (List.contains_iff_mem.mp hcon)).2
    rw [hp] at this; cases this

/-! ## Properties -/

/-- C135: on Windows a message of any length is handed over in order, without gaps or repeats, in calls of at most
2147483647 bytes, and completely unless the OS says it would block, as long as it makes progress. -/
theorem win_send_all (message : List Nat) (st : List Status) (hs : ∀ s ∈ st, s ≠ .sent 0) :
    (∃ rest, (send message st).chunks.flatten ++ rest = message) ∧
      (∀ c ∈ (send message st).chunks, c.length ≤ 2147483647) ∧
      (Healthy message.length st → (send message st).wouldBlock = true ∨ (send message st).chunks.flatten = message) := by
  have e : send message st = sendLoop (2 ^ 31 - 1) message st := by
    refine loop_eq_sendLoop (by decide) st message ?_ hs
    intro n _ _
    rw [Nat.min_comm]
    exact toInt_small (by omega)
  rw [e]
  exact ⟨sendLoop_prefix _ st message, fun c hc => sendLoop_packets _ st message c hc, sendLoop_healthy (by decide) st message⟩

/-- C135 for datagrams (missing: packets of 2 GiB and more, see `win_send_to_violated`): the same, in packets of at most the
packet size. -/
theorem win_send_to_partial (packet : Nat) (message : List Nat) (st : List Status) (hs : ∀ s ∈ st, s ≠ .sent 0)
    (hp : 0 < packet) (h : packet < 2 ^ 31 ∨ message.length < 2 ^ 31) :
    (∃ rest, (sendTo packet message st).chunks.flatten ++ rest = message) ∧
      (∀ c ∈ (sendTo packet message st).chunks, c.length ≤ packet) ∧
      (Healthy message.length st →
        (sendTo packet message st).wouldBlock = true ∨ (sendTo packet message st).chunks.flatten = message) := by
  have e : sendTo packet message st = sendLoop packet message st := by
    refine loop_eq_sendLoop hp st message ?_ hs
    intro n _ hn
    exact toInt_small (by omega)
  rw [e]
  exact ⟨sendLoop_prefix _ st message, fun c hc => sendLoop_packets _ st message c hc, sendLoop_healthy hp st message⟩

/-- C135 fails for every packet size from 2147483648 to 4294967296 and every message at least as long: nothing is sent
although the OS would accept all of it, and the caller is not told that it could try again (so the socket is closed). -/
theorem win_send_to_violated (packet : Nat) (message : List Nat) (h1 : 2 ^ 31 ≤ packet) (h2 : packet ≤ 2 ^ 32)
    (hl : packet ≤ message.length) (n : Nat) (hn : 0 < n) :
    Healthy message.length (List.replicate message.length (.sent n)) ∧
      sendTo packet message (List.replicate message.length (.sent n)) = ⟨[], false⟩ := by
  refine ⟨⟨fun x hx => .inr ⟨n, hn, List.eq_of_mem_replicate hx⟩, .inr (by rw [List.length_replicate]; exact Nat.le_refl _)⟩, ?_⟩
  refine loop_refused ?_ ?_ _ (fun s hs => ⟨n, List.eq_of_mem_replicate hs⟩)
  · intro e; rw [e] at hl; simp at hl; omega
  · show toInt (min packet message.length) ≤ 0
    rw [Nat.min_eq_left hl]
    unfold toInt
    simp only []
    by_cases he : packet = 2 ^ 32
    · rw [he]; decide
    · rw [Nat.mod_eq_of_lt (show packet < 2 ^ 32 by omega), if_neg (by omega)]
      omega

/-- C135 for receiving (missing: packet sizes of 2 GiB and more, see `win_recv_violated`): what arrives is returned unchanged
if it fits the packet size; of a stream that has more, as much as the packet size; a string is only empty if nothing
arrived. -/
theorem win_recv_partial (stream : Bool) (packet : Nat) (hp : 0 < packet) (h : packet < 2 ^ 31) (bytes : List Nat) :
    (bytes.length ≤ packet → recv stream packet (.data bytes) = (bytes, false)) ∧
      (recv true packet (.data bytes) = (bytes.take packet, false)) ∧
      ((recv true packet (.data bytes)).1 = [] → bytes = []) ∧
      recv stream packet .wouldBlock = ([], true) ∧ recv stream packet .error = ([], false) := by
  have e := toInt_small h
  have hneg : ¬ ((packet : Int) < 0) := by omega
  have ht : recv true packet (.data bytes) = (bytes.take packet, false) := by
    simp only [recv, e, if_neg hneg, Int.toNat_natCast, if_true]
    split
    · rw [List.take_of_length_le (by assumption)]
    · rfl
  refine ⟨fun hl => ?_, ht, fun he => ?_, ?_, ?_⟩
  · simp only [recv, e, if_neg hneg, Int.toNat_natCast, if_pos hl]
  · rw [ht] at he
    cases bytes with
    | nil => rfl
    | cons b bs =>
      obtain ⟨p, rfl⟩ : ∃ p, packet = p + 1 := ⟨packet - 1, by omega⟩
      simp at he
  · simp only [recv, e, if_neg hneg]
  · simp only [recv, e, if_neg hneg]

/-- C135 fails for packet sizes from 2147483648 below 4294967296: whatever arrives, an empty string is returned, and not
because the call would block; with 4294967296 nothing of a stream is ever delivered. -/
theorem win_recv_violated (packet : Nat) (a : Arrival) (stream : Bool) :
    (2 ^ 31 ≤ packet → packet < 2 ^ 32 → recv stream packet a = ([], false)) ∧
      (∀ bytes, recv true (2 ^ 32) (.data bytes) = ([], false)) := by
  constructor
  · intro h1 h2
    have : toInt packet < 0 := by
      unfold toInt
      simp only []
      rw [Nat.mod_eq_of_lt h2, if_neg (by omega)]
      omega
    simp only [recv, if_pos this]
  · intro bytes
    have e : toInt (2 ^ 32) = 0 := by decide
    simp only [recv, e]
    cases bytes <;> simp

/-- C136 (missing: more than 64 handles, see `win_select_violated`). On Windows too a poll reports exactly the handles that
are ready, and none if the call fails. -/
theorem win_select_partial (k : Kernel) (writing reading : List Int) (hw : writing.Pairwise (· < ·))
    (hr : reading.Pairwise (· < ·)) (hlw : writing.length ≤ 64) (hlr : reading.length ≤ 64) :
    (k.interrupted = false → (∀ h ∈ writing ++ reading, k.isOpen h = true) →
        select k writing reading = (writing.filter k.writable, reading.filter k.readable)) ∧
      ((k.interrupted = true ∨ ∃ h ∈ writing ++ reading, k.isOpen h = false) → select k writing reading = ([], [])) := by
  unfold select
  rw [fdSetAll_eq writing hw, fdSetAll_eq reading hr, List.take_of_length_le hlw, List.take_of_length_le hlr]
  constructor
  · intro hi ho
    by_cases hempty : (writing.isEmpty && reading.isEmpty) = true
    · rw [Bool.and_eq_true, List.isEmpty_iff, List.isEmpty_iff] at hempty
      rw [hempty.1, hempty.2]
      simp [osSelect]
    · have hs : osSelect k writing reading = (Int.ofNat ((writing.filter k.writable).length + (reading.filter k.readable).length),
          writing.filter k.writable, reading.filter k.readable) := by
        unfold osSelect
        rw [if_neg]
        rw [hi, Bool.false_or, Bool.or_eq_true]
        rintro (h | h)
        · exact hempty h
        · rw [List.any_eq_true] at h
          obtain ⟨x, hx, hc⟩ := h
          rw [ho x hx] at hc; cases hc
      rw [hs]
      simp only [Int.ofNat_eq_natCast]
      by_cases hpos : ((writing.filter k.writable).length + (reading.filter k.readable).length : Nat) > 0
      · rw [if_pos (show ((if ((((writing.filter k.writable).length + (reading.filter k.readable).length : Nat)) : Int) > 0 then (1 : Int) else 0) > 0) by
          rw [if_pos (by omega)]; decide)]
        rw [contains_filter writing writing k.writable (fun x hx => .inl hx),
          contains_filter reading reading k.readable (fun x hx => .inl hx)]
      · rw [if_neg (by rw [if_neg (by omega)]; decide)]
        have h1 : (writing.filter k.writable).length = 0 := by omega
        have h2 : (reading.filter k.readable).length = 0 := by omega
        rw [List.length_eq_zero_iff.mp h1, List.length_eq_zero_iff.mp h2]
  · intro hbad
    have hs : osSelect k writing reading = (-1, writing, reading) := by
      unfold osSelect
      rw [if_pos]
      rw [Bool.or_eq_true, Bool.or_eq_true]
      rcases hbad with h | ⟨h, hh, ho⟩
      · exact .inl (.inl h)
      · exact .inr (List.any_eq_true.mpr ⟨h, hh, by rw [ho]; rfl⟩)
    rw [hs]
    rfl

/-- C136 fails with more than 64 handles in a direction: whatever the OS finds ready, of the handles in ascending order those after
the first 64 are never reported. -/
theorem win_select_violated (k : Kernel) (writing reading : List Int) (hw : writing.Pairwise (· < ·))
    (hr : reading.Pairwise (· < ·)) :
    (∀ h ∈ writing.drop 64, h ∉ (select k writing reading).1) ∧ (∀ h ∈ reading.drop 64, h ∉ (select k writing reading).2) := by
  have hnot : ∀ (hs : List Int), hs.Pairwise (· < ·) → ∀ h ∈ hs.drop 64, h ∉ hs.take 64 := by
    intro hs hp h hd ht
    have := (List.pairwise_append.mp (by rw [List.take_append_drop]; exact hp : (hs.take 64 ++ hs.drop 64).Pairwise (· < ·))).2.2
      h ht h hd
    omega
  unfold select
  rw [fdSetAll_eq writing hw, fdSetAll_eq reading hr]
  have hsub : ∀ w r : List Int, (∀ x ∈ (osSelect k w r).2.1, x ∈ w) ∧ (∀ x ∈ (osSelect k w r).2.2, x ∈ r) := by
    intro w r
    unfold osSelect
    split
    · exact ⟨fun _ h => h, fun _ h => h⟩
    · exact ⟨fun _ h => (List.mem_filter.mp h).1, fun _ h => (List.mem_filter.mp h).1⟩
  have hs := hsub (writing.take 64) (reading.take 64)
  rcases hsel : osSelect k (writing.take 64) (reading.take 64) with ⟨n, w, r⟩
  rw [hsel] at hs
  simp only []
  split
  · refine ⟨fun h hd hm => hnot writing hw h hd (hs.1 h ?_), fun h hd hm => hnot reading hr h hd (hs.2 h ?_)⟩
    · exact List.contains_iff_mem.mp (List.mem_filter.mp hm).2
    · exact List.contains_iff_mem.mp (List.mem_filter.mp hm).2
  · exact ⟨fun _ _ hm => (nomatch hm), fun _ _ hm => (nomatch hm)⟩

/-- C136 fails for the service: a request for a socket to be read whose handle comes after 64 others that are waited for is
not served by a poll, ready or not; so it is never served as long as the others are waited for. -/
theorem win_poll_starves_violated {s : Service} {made : List Request} (he : Exec s made) (k : Kernel) (posts : List Task)
    (w r : List Int) (hsel : select k (toSet (s.writes.map (·.handle))) (toSet (s.reads.map (·.handle))) = (w, r))
    (h : Int) (hh : h ∈ (toSet (s.reads.map (·.handle))).drop 64) :
    ∃ new, (s.runNext w r posts).invoked = s.invoked ++ new ∧ ∀ q ∈ new, q.dir = .read → q.handle ≠ h := by
  obtain ⟨new, h1, h2⟩ := requests_only_when_ready he w r posts
  refine ⟨new, h1, fun q hq hd e => ?_⟩
  have := (win_select_violated k (toSet (s.writes.map (·.handle))) (toSet (s.reads.map (·.handle))) (toSet_spec _).1 (toSet_spec _).1).2 h hh
  rw [hsel] at this
  exact this (e ▸ (h2 q hq).2 hd)

/-! ## Examples -/

/-- A message of five bytes, two and three at a time. -/
example : send [1, 2, 3, 4, 5] [.sent 2, .sent 9] = ⟨[[1, 2], [3, 4, 5]], false⟩ := by decide +kernel

/-- Datagrams of two bytes; the third would block. -/
example : sendTo 2 [1, 2, 3, 4, 5] [.sent 2, .sent 2, .wouldBlock] = ⟨[[1, 2], [3, 4]], true⟩ := by decide +kernel

/-- A packet size of 3 GiB. -/
example : recv true (3 * 2 ^ 30) (.data [1, 2, 3]) = ([], false) := by decide +kernel

/-- 65 handles, all readable: the last one is not reported. -/
example : ((select ⟨fun _ => true, fun _ => true, fun _ => true, false⟩ []
    ((List.range 65).map Int.ofNat)).2).contains 64 = false := by decide +kernel

/-- Three handles, two of them ready. -/
example : select ⟨fun _ => true, fun h => h == 7, fun h => h == 5, false⟩ [5, 7] [5, 9] = ([7], [5]) := by decide +kernel

end Verif.Socket.Win
