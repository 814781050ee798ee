import Verif.Net.Props
import Verif.Net.Format6

/-!
# Endpoints and the addresses of the operating system

`endpoint_to_address` and `address_to_endpoint` of `fly/net/socket/detail/nix/socket_operations.cpp`: every endpoint the
library hands to the OS (`bind`, `connect`, `sendto`) and gets back (`getsockname`, `getpeername`, `accept`, `recvfrom`)
goes through them. The machine is little-endian.
-/

namespace Verif.Socket

open Verif.Net Verif.Numeric Verif.Str

/-- `sockaddr_in` (Linux): the family, and the 16-bit and 32-bit integers stored in it. -/
structure SockAddr4 where
  family : Nat
  port : Nat
  addr : Nat
  deriving DecidableEq, Repr

/-- `sockaddr_in6`. -/
structure SockAddr6 where
  family : Nat
  port : Nat
  flowInfo : Nat
  /-- the 16 bytes of `sin6_addr` -/
  addr : List Nat
  scopeId : Nat
  deriving DecidableEq, Repr

/-- `AF_INET` and `AF_INET6` on Linux. -/
def afInet : Nat := 2
@[inherit_doc afInet] def afInet6 : Nat := 10

/-- `htons` / `ntohs` of libc on a little-endian machine: the two bytes exchanged. -/
def htons (v : Nat) : Nat := v % 256 * 256 + v / 256 % 256

/-- `endpoint_to_address(Endpoint<IPv4Address>)`, nix/socket_operations.cpp 49-58. An endpoint is its
`network_order()` (ipv4_address.hpp 195-198) and its port. -/
def toSockAddr4 (e : Nat × Nat) : SockAddr4 where
  family := afInet
  addr := e.1
  port := htons e.2

/-- `endpoint_to_address(Endpoint<IPv6Address>)`, nix/socket_operations.cpp 60-69; the fields that are not set
are zero. -/
def toSockAddr6 (e : List Nat × Nat) : SockAddr6 where
  family := afInet6
  addr := e.1
  port := htons e.2
  flowInfo := 0
  scopeId := 0

/-- `address_to_endpoint(sockaddr_in)`, nix/socket_operations.cpp 71-77, with `create_address`, 39-42. -/
def ofSockAddr4 (a : SockAddr4) : Nat × Nat := (a.addr, htons a.port)

/-- `address_to_endpoint(sockaddr_in6)`, nix/socket_operations.cpp 79-86, with `create_address`, 44-47. -/
def ofSockAddr6 (a : SockAddr6) : List Nat × Nat := (a.addr, htons a.port)

/-- The bytes of a `sockaddr_in` in memory that matter: port, then address. -/
def SockAddr4.bytes (a : SockAddr4) : List Nat := memLE 2 a.port ++ memLE 4 a.addr

/-- The bytes of a `sockaddr_in6` in memory that matter here: port, then address. -/
def SockAddr6.bytes (a : SockAddr6) : List Nat := memLE 2 a.port ++ a.addr

theorem htons_parts (p : Nat) : htons p % 256 = p / 256 % 256 ∧ htons p / 256 = p % 256 := by
  unfold htons
  have h1 : p / 256 % 256 < 256 := Nat.mod_lt _ (by decide)
  generalize p / 256 % 256 = m at h1
  generalize p % 256 = l
  omega

theorem htons_bytes {p : Nat} : memLE 2 (htons p) = bigEndian 2 p := by
  have h := htons_parts p
  simp only [memLE, bigEndian, byteAt, List.range, List.range.loop, List.map_cons, List.map_nil,
    Nat.pow_zero, Nat.pow_one, Nat.div_one, Nat.reduceSub, Nat.sub_zero, h.1, h.2, Nat.mod_mod]

theorem htons_htons {p : Nat} (hp : p < 2 ^ 16) : htons (htons p) = p := by
  have h := htons_parts p
  show htons p % 256 * 256 + htons p / 256 % 256 = p
  rw [h.1, h.2]
  omega

/-- C107, IPv4: what the endpoint's text says is what the OS is given. For every text `address:port` (the address in
any of the spellings of `V4Text`, denoting `h`; the port any decimal numeral up to 65535) the endpoint parsed from it is
handed over as family `AF_INET` with the port and the address stored most significant byte first. -/
theorem endpoint4_given_to_os (addr port : List Nat) (h : Nat) (ht : V4Text addr h) (hne : port ≠ [])
    (hd : ∀ c ∈ port, AsciiDigit c) (hp : numeral 10 port ≤ 0xffff) (hl : (addr ++ 0x3a :: port).length < 2 ^ 64) :
    ∃ e, endpoint4FromString (addr ++ 0x3a :: port) = some e ∧ (toSockAddr4 e).family = 2 ∧
      (toSockAddr4 e).bytes = bigEndian 2 (numeral 10 port) ++ bigEndian 4 h := by
  have ha : ∀ u ∈ addr, u < 0x80 := fun u hu => by
    rcases v4Text_mem ht u hu with h | rfl
    · unfold AsciiDigit at h; omega
    · decide
  have hs : ∀ u ∈ addr ++ 0x3a :: port, u < 0x80 := by
    intro u hu
    rcases List.mem_append.mp hu with hu | hu
    · exact ha u hu
    · rcases List.mem_cons.mp hu with rfl | hu
      · decide
      · have := hd u hu; unfold AsciiDigit at this; omega
  have hal : addr.length < 2 ^ 64 := by simp only [List.length_append, List.length_cons] at hl; omega
  obtain ⟨a, h1, h2⟩ : ∃ a, v4FromString addr = some a ∧ endianSwap 4 h = some a := by
    have ht' := ht
    obtain ⟨_, _, _, hv⟩ := ht'
    obtain ⟨r, hr, _⟩ := endian_swap_bytes 4 h (by omega) (Nat.lt_of_lt_of_eq (v4Value_lt hv) (by decide))
    exact ⟨r, v4FromString_of_text ha hal ht hr, hr⟩
  have hh : h < 256 ^ 4 := by
    obtain ⟨_, _, _, hv⟩ := ht
    exact Nat.lt_of_lt_of_eq (v4Value_lt hv) (by decide)
  refine ⟨(a, numeral 10 port), (endpoint4_iff _ hs hl a _).2 ⟨addr, port, rfl, h1, hne, hd, by omega, hp⟩, rfl, ?_⟩
  obtain ⟨⟨r, hr, hm⟩, _⟩ := endian_swap_if_non_native_memory 4 h (by omega) hh
  have hra : r = a := by
    have : endianSwap 4 h = some r := hr
    rw [h2] at this; exact (Option.some.inj this).symm
  subst hra
  show memLE 2 (htons (numeral 10 port)) ++ memLE 4 r = _
  rw [htons_bytes, hm]

/-- C107, IPv6: likewise; the address is given to the OS as the bytes of its eight groups, most significant byte
first. -/
theorem endpoint6_given_to_os (addr port gs : List Nat) (ht : V6Text addr gs) (hne : port ≠ [])
    (hd : ∀ c ∈ port, AsciiDigit c) (hp : numeral 10 port ≤ 0xffff)
    (hl : (0x5b :: addr ++ 0x5d :: 0x3a :: port).length < 2 ^ 64) :
    ∃ e, endpoint6FromString (0x5b :: addr ++ 0x5d :: 0x3a :: port) = some e ∧ (toSockAddr6 e).family = 10 ∧
      (toSockAddr6 e).scopeId = 0 ∧ (toSockAddr6 e).bytes = bigEndian 2 (numeral 10 port) ++ groupBytes gs := by
  have ha : ∀ u ∈ addr, u < 0x80 := fun u hu => (ascii_of_text ht u hu).1
  have hs : ∀ u ∈ 0x5b :: addr ++ 0x5d :: 0x3a :: port, u < 0x80 := by
    intro u hu
    rcases List.mem_append.mp hu with hu | hu
    · rcases List.mem_cons.mp hu with rfl | hu
      · decide
      · exact ha u hu
    · rcases List.mem_cons.mp hu with rfl | hu
      · decide
      · rcases List.mem_cons.mp hu with rfl | hu
        · decide
        · have := hd u hu; unfold AsciiDigit at this; omega
  refine ⟨(groupBytes gs, numeral 10 port), (endpoint6_iff _ hs hl _ _).2
    ⟨addr, port, rfl, v6_parse_complete addr gs ht, hne, hd, by omega, hp⟩, rfl, rfl, ?_⟩
  show memLE 2 (htons (numeral 10 port)) ++ groupBytes gs = _
  rw [htons_bytes]

/-- C107: an endpoint given to the OS and read back (`local_endpoint` after `bind`, `remote_endpoint` after `connect`)
is the same endpoint. -/
theorem endpoint_round_trip_os :
    (∀ a p, p < 2 ^ 16 → ofSockAddr4 (toSockAddr4 (a, p)) = (a, p)) ∧
      ∀ a p, p < 2 ^ 16 → ofSockAddr6 (toSockAddr6 (a, p)) = (a, p) :=
  ⟨fun a p h => by simp only [toSockAddr4, ofSockAddr4, htons_htons h],
    fun a p h => by simp only [toSockAddr6, ofSockAddr6, htons_htons h]⟩

/-- C107: an IPv4 address obtained from the OS (the sender of a datagram, the peer of an accepted connection) and handed
back to it, to reply, is the same address; and so is an IPv6 address without flow label and scope. -/
theorem endpoint_reply_partial :
    (∀ k : SockAddr4, k.family = 2 → k.port < 2 ^ 16 → toSockAddr4 (ofSockAddr4 k) = k) ∧
      ∀ k : SockAddr6, k.family = 10 → k.port < 2 ^ 16 → k.flowInfo = 0 → k.scopeId = 0 →
        toSockAddr6 (ofSockAddr6 k) = k := by
  constructor
  · rintro ⟨f, p, a⟩ hf hp
    simp only [toSockAddr4, ofSockAddr4, htons_htons hp, afInet]
    simp only at hf; rw [hf]
  · rintro ⟨f, p, fl, a, sc⟩ hf hp h1 h2
    simp only [toSockAddr6, ofSockAddr6, htons_htons hp, afInet6]
    simp only at hf h1 h2; rw [hf, h1, h2]

/-- C107 fails for link-local IPv6 peers: the scope (the interface) is dropped. Two different peers, `fe80::1` on
interfaces 2 and 3, are the same endpoint to the program, and a reply to either is handed to the OS without an interface.
(nix/socket_operations.cpp 44-47, 60-69) -/
theorem endpoint_reply_violated :
    ∃ k₁ k₂ : SockAddr6, k₁ ≠ k₂ ∧ k₁.family = 10 ∧ k₂.family = 10 ∧ k₁.addr.length = 16 ∧
      ofSockAddr6 k₁ = ofSockAddr6 k₂ ∧ toSockAddr6 (ofSockAddr6 k₁) ≠ k₁ ∧ toSockAddr6 (ofSockAddr6 k₂) ≠ k₂ := by
  refine ⟨⟨10, 0x5000, 0, [0xfe, 0x80, 0, 0, 0, 0, 0, 0, 0, 0, 0, 0, 0, 0, 0, 1], 2⟩,
    ⟨10, 0x5000, 0, [0xfe, 0x80, 0, 0, 0, 0, 0, 0, 0, 0, 0, 0, 0, 0, 0, 1], 3⟩, ?_⟩
  decide

/-- `127.0.0.1:8080` in memory: port `1f 90`, address `7f 00 00 01`. -/
example : (endpoint4FromString ("127.0.0.1:8080".toList.map Char.toNat)).map (fun e => (toSockAddr4 e).bytes) =
    some [0x1f, 0x90, 0x7f, 0, 0, 1] := by decide +kernel

/-- Hypotheses of `endpoint4_given_to_os` met by `127.1` and port `80`. -/
example : V4Text ("127.1".toList.map Char.toNat) 0x7f000001 :=
  ⟨["127".toList.map Char.toNat, "1".toList.map Char.toNat], by decide, by decide,
    V4Value.two (a := 127) (b := 1) (by decide) (by decide)⟩

/-- Hypotheses of `endpoint6_given_to_os` met by `::1`. -/
example : V6Text ("::1".toList.map Char.toNat) [0, 0, 0, 0, 0, 0, 0, 1] :=
  V6Text.short (ls := []) (rs := ["1".toList.map Char.toNat]) (by decide) (fun _ h => nomatch h) (by
    intro t ht
    rw [List.mem_singleton.mp ht]
    exact ⟨by decide, by decide, by decide⟩)

end Verif.Socket
