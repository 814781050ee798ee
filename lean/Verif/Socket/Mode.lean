/-!
# C133: the I/O mode of a socket; C134: sockets and host names

Sources: `/repo/fly/net/socket/detail/nix/socket_operations.cpp` 117-145 and 197-217,
`/repo/fly/net/socket/detail/base_socket.cpp` 21-34, 79-90, 116-136, 146-159 and 168-178,
`/repo/fly/net/socket/tcp_socket.cpp` 152-161, `/repo/fly/net/socket/udp_socket.cpp` 94-104.
-/

namespace Verif.Socket.Mode

/-! ## Model of the mode -/

/-- `IOMode` (types.hpp 37-44). -/
inductive Mode where
  | synchronous
  | asynchronous
deriving DecidableEq, Repr

/-- The status flags of the open descriptors. -/
abbrev Table := Int → Option Nat

/-- Changing one entry. -/
def Table.put (t : Table) (h : Int) (x : Option Nat) : Table := fun k => if k = h then x else t k

/-- `O_NONBLOCK` on Linux. -/
def nonBlock : Nat := 0x800

/-- `detail::set_io_mode` (nix/socket_operations.cpp 198-217): `getOk` and `setOk` say whether the two calls of `fcntl`
would succeed for a descriptor that is open. The flags are an `int`: 32 bits. -/
def osSetIoMode (t : Table) (h : Int) (m : Mode) (getOk setOk : Bool) : Table × Bool :=
  match (if getOk then t h else none) with
  | none => (t, false)
  | some flags =>
    let flags := if m = .synchronous then flags &&& (2 ^ 32 - 1 - nonBlock) else flags ||| nonBlock
    if setOk then (t.put h (some flags), true) else (t, false)

/-- The members of `BaseSocket` that matter (base_socket.hpp 176-181) and the operating system. -/
structure World where
  handle : Int
  mode : Mode
  table : Table

/-- `close` (base_socket.cpp 146-159). -/
def World.close (w : World) : World :=
  if w.handle ≠ -1 then { w with handle := -1, table := w.table.put w.handle none } else w

/-- `set_io_mode` (base_socket.cpp 116-129): the world and what the call returns. -/
def World.setIoMode (w : World) (m : Mode) (getOk setOk : Bool) : World × Bool :=
  let (t, ok) := osSetIoMode w.table w.handle m getOk setOk
  let w := if ok then { w with table := t, mode := m } else World.close { w with table := t }
  (w, decide (w.handle ≠ -1))

/-- The constructor (base_socket.cpp 21-32). -/
def construct (handle : Int) (m : Mode) (t : Table) (getOk setOk : Bool) : World :=
  (World.setIoMode ⟨handle, m, t⟩ m getOk setOk).1

/-- What a program does with the socket. -/
inductive Op where
  | setMode (m : Mode) (getOk setOk : Bool)
  | close

/-- A step. -/
def World.step (w : World) : Op → World
  | .setMode m g s => (w.setIoMode m g s).1
  | .close => w.close

/-! ## Specification -/

/-- `f'` is `f` but for the flag that makes calls return at once, which is set exactly for asynchronous sockets. -/
def Flags (m : Mode) (f f' : Nat) : Prop :=
  ∀ k, f'.testBit k = if k = 11 then decide (m = .asynchronous) else f.testBit k

/-- The mode asked for last. -/
def lastMode : Mode → List Op → Mode
  | m, [] => m
  | _, .setMode m _ _ :: r => lastMode m r
  | m, .close :: r => lastMode m r

/-! ## Proofs -/

theorem flags_sync {f : Nat} (hf : f < 2 ^ 32) : Flags .synchronous f (f &&& (2 ^ 32 - 1 - nonBlock)) := by
  intro k
  rw [Nat.testBit_and, show 2 ^ 32 - 1 - nonBlock = 2 ^ 32 - (2 ^ 11 + 1) by decide,
    Nat.testBit_two_pow_sub_succ (by decide), Nat.testBit_two_pow]
  by_cases h : 11 = k
  · subst h; simp
  · rw [if_neg (fun e => h e.symm)]
    by_cases hk : k < 32
    · simp [h, hk]
    · have : f.testBit k = false := Nat.testBit_lt_two_pow (Nat.lt_of_lt_of_le hf (Nat.pow_le_pow_right (by decide) (by omega)))
      simp [this]

theorem flags_async {f : Nat} : Flags .asynchronous f (f ||| nonBlock) := by
  intro k
  rw [Nat.testBit_or, show nonBlock = 2 ^ 11 by decide, Nat.testBit_two_pow]
  by_cases h : 11 = k
  · subst h; simp
  · rw [if_neg (fun e => h e.symm)]; simp [h]

theorem flags_lt {m : Mode} {f f' : Nat} (hf : f < 2 ^ 32) (h : Flags m f f') : f' < 2 ^ 32 := by
  apply Nat.lt_pow_two_of_testBit
  intro k hk
  rw [h k, if_neg (by omega)]
  exact Nat.testBit_lt_two_pow (Nat.lt_of_lt_of_le hf (Nat.pow_le_pow_right (by decide) hk))

theorem flags_again {m m' : Mode} {f f' f'' : Nat} (h : Flags m f f') (h' : Flags m' f' f'') : Flags m' f f'' := by
  intro k
  rw [h' k]
  split
  · rfl
  · rename_i hk
    rw [h k, if_neg hk]

/-- The socket is open with its flags right, or closed and gone from the table. -/
def Good (h0 : Int) (f : Nat) (m : Mode) (t0 : Table) (w : World) : Prop :=
  (∀ k, k ≠ h0 → w.table k = t0 k) ∧
  ((w.handle = h0 ∧ w.mode = m ∧ ∃ f', w.table h0 = some f' ∧ Flags m f f') ∨ (w.handle = -1 ∧ w.table h0 = none))

theorem os_flags {t : Table} {h : Int} {f' : Nat} (ht : t h = some f') (m : Mode) (g s : Bool) :
    (osSetIoMode t h m g s = (t, false)) ∨
    (osSetIoMode t h m g s = (t.put h (some (if m = .synchronous then f' &&& (2 ^ 32 - 1 - nonBlock) else f' ||| nonBlock)), true)) := by
  cases g <;> cases s <;> simp [osSetIoMode, ht]

theorem close_good {h0 : Int} (hh : h0 ≠ -1) {f : Nat} {m m' : Mode} {t0 : Table} {w : World} (h : Good h0 f m t0 w) :
    Good h0 f m' t0 w.close := by
  obtain ⟨h1, h2⟩ := h
  unfold World.close
  rcases h2 with ⟨a, -, -⟩ | ⟨a, b⟩
  · rw [if_pos (by rw [a]; exact hh)]
    refine ⟨fun k hk => ?_, .inr ⟨rfl, ?_⟩⟩
    · show (if k = w.handle then _ else _) = _
      rw [a, if_neg hk, h1 k hk]
    · show (if h0 = w.handle then _ else _) = _
      rw [a, if_pos rfl]
  · rw [if_neg (by rw [a]; simp)]
    exact ⟨h1, .inr ⟨a, b⟩⟩

theorem set_ok {w : World} {m : Mode} {g s : Bool} {t : Table} (h : osSetIoMode w.table w.handle m g s = (t, true)) :
    (w.setIoMode m g s).1 = { w with table := t, mode := m } := by
  unfold World.setIoMode; rw [h]; rfl

theorem set_fail {w : World} {m : Mode} {g s : Bool} {t : Table} (h : osSetIoMode w.table w.handle m g s = (t, false)) :
    (w.setIoMode m g s).1 = World.close { w with table := t } := by
  unfold World.setIoMode; rw [h]; rfl

theorem set_good {h0 : Int} (hh : h0 ≠ -1) {f : Nat} (hf : f < 2 ^ 32) {m : Mode} {t0 : Table} (hn : t0 (-1) = none)
    {w : World} {f' : Nat} (hw : (∀ k, k ≠ h0 → w.table k = t0 k) ∧
      ((w.handle = h0 ∧ w.table h0 = some f' ∧ f' < 2 ^ 32 ∧ ∀ m f'', Flags m f' f'' → Flags m f f'') ∨
        (w.handle = -1 ∧ w.table h0 = none))) (g s : Bool) :
    Good h0 f m t0 (w.setIoMode m g s).1 := by
  obtain ⟨h1, h2⟩ := hw
  rcases h2 with ⟨a, b, c, d⟩ | ⟨a, b⟩
  · rcases os_flags b m g s with e | e
    · rw [← a] at e
      rw [set_fail e]
      unfold World.close
      rw [if_pos (by show w.handle ≠ -1; rw [a]; exact hh)]
      refine ⟨fun k hk => ?_, .inr ⟨rfl, ?_⟩⟩
      · show (if k = w.handle then _ else _) = _
        rw [a, if_neg hk, h1 k hk]
      · show (if h0 = w.handle then _ else _) = _
        rw [a, if_pos rfl]
    · have e' := e
      rw [← a] at e'
      rw [set_ok (t := w.table.put h0 _) (by rw [e', a])]
      refine ⟨fun k hk => ?_, .inl ⟨a, rfl, (if m = .synchronous then f' &&& (2 ^ 32 - 1 - nonBlock) else f' ||| nonBlock), ?_, ?_⟩⟩
      · show (if k = h0 then _ else _) = _
        rw [if_neg hk, h1 k hk]
      · exact if_pos rfl
      · apply d
        cases m with
        | synchronous => rw [if_pos rfl]; exact flags_sync c
        | asynchronous => rw [if_neg (by decide)]; exact flags_async
  · have e : osSetIoMode w.table w.handle m g s = (w.table, false) := by
      have : w.table w.handle = none := by rw [a, h1 _ (Ne.symm hh), hn]
      unfold osSetIoMode
      rw [this]
      cases g <;> rfl
    rw [set_fail e]
    unfold World.close
    rw [if_neg (by show ¬ w.handle ≠ -1; rw [a]; simp)]
    exact ⟨h1, .inr ⟨a, b⟩⟩

/-- C133: for every history of calls, whatever the operating system refuses: while the socket is open, `io_mode` is the
mode asked for last, calls on the socket block exactly in the synchronous mode, and its other flags are those the system
gave it; when a change is refused, the socket is closed and its descriptor with it. Descriptors of others are not
touched, and `set_io_mode` tells whether the socket is open. -/
theorem io_mode_truthful (h0 : Int) (hh : h0 ≠ -1) (f : Nat) (hf : f < 2 ^ 32) (t0 : Table) (ht : t0 h0 = some f)
    (hn : t0 (-1) = none) (m : Mode) (g s : Bool) (ops : List Op) :
    let w := ops.foldl World.step (construct h0 m t0 g s)
    (∀ k, k ≠ h0 → w.table k = t0 k) ∧
    ((w.handle = h0 ∧ w.mode = lastMode m ops ∧ ∃ f', w.table h0 = some f' ∧ Flags (lastMode m ops) f f') ∨
      (w.handle = -1 ∧ w.table h0 = none)) ∧
    (∀ m' g' s', (w.setIoMode m' g' s').2 = true ↔ (w.setIoMode m' g' s').1.handle ≠ -1) ∧
    (∀ m', w.handle = h0 → (w.setIoMode m' true true).2 = true ∧ (w.setIoMode m' false s).2 = false ∧
      (w.setIoMode m' g false).2 = false) := by
  intro w
  have base : Good h0 f m t0 (construct h0 m t0 g s) := by
    unfold construct
    exact set_good hh hf hn ⟨fun _ _ => rfl, .inl ⟨rfl, ht, hf, fun _ _ h => h⟩⟩ g s
  have go : ∀ (ops : List Op) (w : World) (m : Mode), Good h0 f m t0 w →
      Good h0 f (lastMode m ops) t0 (ops.foldl World.step w) := by
    intro ops
    induction ops with
    | nil => intro w m h; exact h
    | cons o r ih =>
      intro w m h
      rw [List.foldl_cons]
      cases o with
      | close => exact ih _ m (close_good hh h)
      | setMode m' g' s' =>
        refine ih _ m' ?_
        obtain ⟨h1, h2⟩ := h
        rcases h2 with ⟨a, b, f', c, d⟩ | h2
        · exact set_good hh hf hn ⟨h1, .inl ⟨a, c, flags_lt hf d, fun _ _ h => flags_again d h⟩⟩ g' s'
        · exact set_good (f' := 0) hh hf hn ⟨h1, .inr h2⟩ g' s'
  have hw : Good h0 f (lastMode m ops) t0 w := go ops _ m base
  refine ⟨hw.1, hw.2, fun m' g' s' => ?_, fun m' ho => ?_⟩
  · unfold World.setIoMode
    exact decide_eq_true_iff
  · rcases hw.2 with ⟨a, b, f', c, d⟩ | ⟨a, -⟩
    · have close : (World.close { w with table := w.table }).handle = -1 := by
        unfold World.close
        rw [if_pos (by show w.handle ≠ -1; rw [a]; exact hh)]
      have ret : ∀ g' s', (w.setIoMode m' g' s').2 = decide ((w.setIoMode m' g' s').1.handle ≠ -1) := fun _ _ => rfl
      refine ⟨?_, ?_, ?_⟩
      · rw [ret, set_ok (t := w.table.put h0 _) (by unfold osSetIoMode; rw [a]; simp only [c, if_true]; rfl)]
        simp [a, hh]
      · rw [ret, set_fail (t := w.table) rfl, close]
        rfl
      · rw [ret, set_fail (t := w.table) (by unfold osSetIoMode; rw [a]; cases g <;> simp [c]), close]
        rfl
    · exact absurd (ho.symm.trans a) hh

example : (construct 5 .asynchronous (fun k => if k = 5 then some 2 else none) true true).table 5 = some 0x802 ∧
    ((construct 5 .asynchronous (fun k => if k = 5 then some 2 else none) true true).setIoMode .synchronous true true).1.table 5
      = some 2 := by decide

/-! ## Host names -/

/-- `getaddrinfo` with a C string: the characters up to the first zero. `dns` gives the addresses of a host name, in the
order of the system. -/
def getAddrInfo {α : Type} (dns : List Nat → List α) (c : List Nat) : Option (List α) :=
  match dns (c.takeWhile (· ≠ 0)) with
  | [] => none
  | l => some l

/-- `hostname_to_address` (nix/socket_operations.cpp 118-145): the first result. -/
def hostnameToAddress {α : Type} (dns : List Nat → List α) (name : List Nat) : Option α :=
  match getAddrInfo dns name with
  | some (a :: _) => some a
  | _ => none

/-- `connect`, `bind` and `send` with a host name (tcp_socket.cpp 153-161, base_socket.cpp 168-178, udp_socket.cpp
95-104): the call for an endpoint if there is an address, `refused` if not. -/
def byName {α β : Type} (dns : List Nat → List α) (call : α → Nat → β) (refused : β) (name : List Nat) (port : Nat) : β :=
  match hostnameToAddress dns name with
  | some a => call a port
  | none => refused

theorem take_host (host rest : List Nat) (hz : 0 ∉ host) :
    host.takeWhile (· ≠ 0) = host ∧ (host ++ 0 :: rest).takeWhile (· ≠ 0) = host := by
  induction host with
  | nil => exact ⟨rfl, rfl⟩
  | cons c l ih =>
    have hc : c ≠ 0 := fun h => hz (h ▸ List.mem_cons_self)
    obtain ⟨h1, h2⟩ := ih (fun h => hz (List.mem_cons_of_mem _ h))
    have hd : (fun x : Nat => decide (x ≠ 0)) c = true := decide_eq_true hc
    constructor
    · rw [List.takeWhile_cons_of_pos (p := fun x : Nat => decide (x ≠ 0)) hd, h1]
    · rw [List.cons_append, List.takeWhile_cons_of_pos (p := fun x : Nat => decide (x ≠ 0)) hd, h2]

/-- C134, for host names without a zero character: the call is made for the first address of that very host and the
port given, and refused if the host has none. -/
theorem by_name_partial {α β : Type} (dns : List Nat → List α) (call : α → Nat → β) (refused : β) (name : List Nat)
    (port : Nat) (hz : 0 ∉ name) :
    (∀ a r, dns name = a :: r → byName dns call refused name port = call a port) ∧
    (dns name = [] → byName dns call refused name port = refused) := by
  have e : name.takeWhile (· ≠ 0) = name := by
    have := take_host name [] hz
    exact this.1
  constructor
  · intro a r h
    simp only [byName, hostnameToAddress, getAddrInfo, e, h]
  · intro h
    simp only [byName, hostnameToAddress, getAddrInfo, e, h]

/-- C134 fails for names with a zero character: the call goes to the host named by what precedes it, although no host
has the name given. -/
theorem by_name_violated {α β : Type} (call : α → Nat → β) (refused : β) (host rest : List Nat) (hz : 0 ∉ host)
    (dns : List Nat → List α) (a : α) (r : List α) (hd : dns host = a :: r) (hn : dns (host ++ 0 :: rest) = [])
    (port : Nat) : byName dns call refused (host ++ 0 :: rest) port = call a port := by
  have e : (host ++ 0 :: rest).takeWhile (· ≠ 0) = host := by
    exact (take_host host rest hz).2
  simp only [byName, hostnameToAddress, getAddrInfo, e, hd]

/-- Host 1 is known, nothing else. -/
example : let dns : List Nat → List Nat := fun n => if n = [1] then [7] else []
    dns [1] = [7] ∧ dns [1, 0, 2] = [] ∧ byName dns (fun a p => some (a, p)) none [1, 0, 2] 80 = some (7, 80) := by decide

end Verif.Socket.Mode
