import Verif.Net.Exact6
import Verif.Net.Format6
import Verif.Unicode.Memory

/-!
# C163: the arrays of the address and endpoint functions

Source: `/repo/fly/net/ipv4_address.hpp` 138-195, `/repo/fly/net/ipv6_address.hpp` 154-204 and 266-302,
`/repo/fly/net/endpoint.hpp` 148-190.

`Verif.Net.Model` lets the parts of an address grow as a list and pads it at the end. Here they are fixed arrays with an index:
loading or storing beyond the end, ranges of iterators out of order, and views cut beyond their end are errors, and the loops end
only if they do.
-/

namespace Verif.Net.Arrays

open Verif.Str Verif.Digits Verif.Net Verif.Unicode.Memory

/-! ## Model -/

/-- `array[index]`, read: defined within the array (ipv4_address.hpp 164-186, ipv6_address.hpp 276). -/
def load (a : List Nat) (i : Nat) : Run Nat :=
  match a[i]? with
  | some v => .ok v
  | none => .ub

/-- `array[index] = value`: defined within the array (ipv4_address.hpp 152, ipv6_address.hpp 181-182). -/
def store (a : List Nat) (i v : Nat) : Run (List Nat) := if i < a.length then .ok (a.set i v) else .ub

/-- The `do ... while` loop of `IPv4Address::from_string` (ipv4_address.hpp 148-158) over `parts` and `index`; the first argument
is the number of rounds it is given. -/
def v4LoopAt : Nat → Lexer → List Nat → Nat → Run (Option (Lexer × List Nat × Nat))
  | 0, _, _, _ => .spin
  | rounds + 1, l, parts, index =>
    match l.consumeNumber charK with
    | (some v, l1) =>
      if v ≤ 0xffffffff then do
        let parts ← store parts index v
        if index + 1 < 4 then
          match l1.consumeIf 0x2e with
          | (true, l2) => v4LoopAt rounds l2 parts (index + 1)
          | (false, l2) => .ok (some (l2, parts, index + 1))
        else .ok (some (l1, parts, index + 1))
      else .ok none
    | (none, _) => .ok none

/-- Combination of the parts (ipv4_address.hpp 160-188): only the parts the branch names are read; 32-bit shifts. -/
def v4CombineAt (parts : List Nat) (index : Nat) : Run (Option Nat) :=
  if index = 1 then do
    let a ← load parts 0
    .ok (some a)
  else if index = 2 then do
    let a ← load parts 0
    let b ← load parts 1
    .ok (if a ≤ 0xff ∧ b ≤ 0xffffff then some (((a <<< 24) % 2 ^ 32) ||| b) else none)
  else if index = 3 then do
    let a ← load parts 0
    let b ← load parts 1
    let c ← load parts 2
    .ok (if a ≤ 0xff ∧ b ≤ 0xff ∧ c ≤ 0xffff then
      some (((a <<< 24) % 2 ^ 32) ||| ((b <<< 16) % 2 ^ 32) ||| c) else none)
  else if index = 4 then do
    let a ← load parts 0
    let b ← load parts 1
    let c ← load parts 2
    let d ← load parts 3
    .ok (if a ≤ 0xff ∧ b ≤ 0xff ∧ c ≤ 0xff ∧ d ≤ 0xff then
      some (((a <<< 24) % 2 ^ 32) ||| ((b <<< 16) % 2 ^ 32) ||| ((c <<< 8) % 2 ^ 32) ||| d) else none)
  else .ok none

/-- `IPv4Address::from_string` (ipv4_address.hpp 138-195). -/
def v4ParseAt (rounds : Nat) (s : List Nat) : Run (Option Nat) := do
  match ← v4LoopAt rounds ⟨s, 0⟩ [0, 0, 0, 0] 0 with
  | none => .ok none
  | some (l, parts, index) =>
    match ← v4CombineAt parts index with
    | none => .ok none
    | some h => .ok (if (l.peek 0).isSome then none else Numeric.endianSwapIfNonNative false 4 h)

/-- The `do ... while` loop of `IPv6Address::from_string` (ipv6_address.hpp 166-189) over `parts`, `index` and
`index_after_short_form`. -/
def v6LoopAt : Nat → Lexer → List Nat → Nat → Option Nat → Run (Option (Lexer × List Nat × Nat × Option Nat))
  | 0, _, _, _, _ => .spin
  | rounds + 1, l, parts, index, short =>
    let next (l : Lexer) (parts : List Nat) (index : Nat) (short : Option Nat) :=
      if (l.peek 0).isSome && index < 16 then v6LoopAt rounds l parts index short
      else .ok (some (l, parts, index, short))
    match l.consumeIf 0x3a with
    | (true, l1) =>
      match l1.consumeIf 0x3a with
      | (true, l2) => if short.isSome then .ok none else next l2 parts index (some index)
      | (false, l2) => next l2 parts index short
    | (false, l1) =>
      match l1.consumeHexNumber charK with
      | (some v, l2) =>
        if v ≤ 0xffff then do
          let parts ← store parts index ((v >>> 8) &&& 0xff)
          let parts ← store parts (index + 1) (v &&& 0xff)
          next l2 parts (index + 2) short
        else .ok none
      | (none, _) => .ok none

/-- `std::rotate(first, middle, last)` at ipv6_address.hpp 200 over the reversed array, iterators as distances from `rbegin()`:
each must be within the array and they must be in order. -/
def rotateAt (r : List Nat) (first middle last : Nat) : Run (List Nat) :=
  if first ≤ middle ∧ middle ≤ last ∧ last ≤ r.length then
    .ok (r.take first ++ (r.take last).drop middle ++ ((r.take last).take middle).drop first ++ r.drop last)
  else .ub

/-- `16 - n` as `std::size_t` (ipv6_address.hpp 197, 200): it wraps around. -/
def sizeSub (n m : Nat) : Nat := (n + 2 ^ 64 - m) % 2 ^ 64

/-- `IPv6Address::from_string` (ipv6_address.hpp 154-204). -/
def v6ParseAt (rounds : Nat) (s : List Nat) : Run (Option (List Nat)) := do
  match ← v6LoopAt rounds ⟨s, 0⟩ (List.replicate 16 0) 0 none with
  | none => .ok none
  | some (l, parts, index, short) =>
    if (l.peek 0).isSome || (index != 16 && short.isNone) then .ok none
    else match short with
      | some i => do
        let r ← rotateAt parts.reverse 0 (sizeSub 16 index) (sizeSub 16 i)
        .ok (some r.reverse)
      | none => .ok (some parts)

/-- `join_segments` (ipv6_address.hpp 275-277). -/
def segmentAt (a : List Nat) (i : Nat) : Run Nat := do
  let h ← load a i
  let l ← load a (i + 1)
  .ok (((h <<< 8) ||| l) % 2 ^ 16)

/-- The inner `do ... while` (ipv6_address.hpp 287-290). -/
def skipZerosAt (a : List Nat) : Nat → Nat → Run Nat
  | 0, _ => .spin
  | rounds + 1, i =>
    if i + 2 < 16 then do
      let s ← segmentAt a (i + 2)
      if s = 0 then skipZerosAt a rounds (i + 2) else .ok (i + 2)
    else .ok (i + 2)

/-- The formatter's loop (ipv6_address.hpp 281-301). -/
def formatLoopAt (a : List Nat) : Nat → Nat → Bool → Run (List Nat)
  | 0, _, _ => .spin
  | rounds + 1, i, used =>
    if i < 16 then do
      let s ← segmentAt a i
      if s = 0 ∧ used = false then do
        let i ← skipZerosAt a rounds i
        let rest ← formatLoopAt a rounds i true
        .ok ((if i < 16 then [0x3a] else [0x3a, 0x3a]) ++ rest)
      else do
        let rest ← formatLoopAt a rounds (i + 2) used
        .ok ((if 0 < i then [0x3a] else []) ++ digits 16 s ++ rest)
    else .ok []

/-- `view.substr(pos, count)` (endpoint.hpp 161-162, 171): throws, and in these `constexpr` functions nothing catches it, when `pos`
is beyond the end. -/
def substrAt (s : List Nat) (pos count : Nat) : Run (List Nat) :=
  if pos ≤ s.length then .ok ((s.drop pos).take count) else .ub

/-- `npos` of `std::string_view` (endpoint.hpp 156). -/
def npos : Nat := 2 ^ 64 - 1

/-- The separator, as `find_last_of` returns it (endpoint.hpp 154). -/
def separator (s : List Nat) : Nat := (lastColon s).getD npos

/-- `Endpoint<IPv4Address>::from_string` (endpoint.hpp 148-190). -/
def endpoint4ParseAt (rounds : Nat) (s : List Nat) : Run (Option (Nat × Nat)) :=
  if separator s = npos ∨ separator s = 0 ∨ separator s = s.length then .ok none
  else do
    let av ← substrAt s 0 (separator s)
    let pv ← substrAt s (separator s + 1) npos
    let a ← v4ParseAt rounds av
    .ok (match a, parsePort pv with
      | some a, some p => some (a, p)
      | _, _ => none)

/-- `Endpoint<IPv6Address>::from_string` (endpoint.hpp 148-190). -/
def endpoint6ParseAt (rounds : Nat) (s : List Nat) : Run (Option (List Nat × Nat)) :=
  if separator s = npos ∨ separator s = 0 ∨ separator s = s.length then .ok none
  else do
    let av ← substrAt s 0 (separator s)
    let pv ← substrAt s (separator s + 1) npos
    if av.head? = some 0x5b ∧ av.getLast? = some 0x5d then do
      let av ← substrAt av 1 (sizeSub av.length 2)
      let a ← v6ParseAt rounds av
      .ok (match a, parsePort pv with
        | some a, some p => some (a, p)
        | _, _ => none)
    else .ok none

/-! ## Proof -/

@[simp] theorem ok_bind {α β : Type} (a : α) (f : α → Run β) : (Run.ok a >>= f) = f a := rfl

theorem load_ok {a : List Nat} {i : Nat} (h : i < a.length) : load a i = .ok (a.getD i 0) := by
  unfold load; simp [h]

theorem store_pad {ps : List Nat} {n v : Nat} (h : 0 < n) :
    store (ps ++ List.replicate n 0) ps.length v = .ok ((ps ++ [v]) ++ List.replicate (n - 1) 0) := by
  unfold store
  rw [if_pos (by simp; omega)]
  congr 1
  obtain ⟨m, rfl⟩ : ∃ m, n = m + 1 := ⟨n - 1, by omega⟩
  simp [List.replicate_succ]

/-- What the loop over the array leaves, from what the loop over the list leaves. -/
def v4Padded (r : Lexer × List Nat) : Lexer × List Nat × Nat :=
  (r.1, r.2 ++ List.replicate (4 - r.2.length) 0, r.2.length)

theorem v4LoopAt_eq : ∀ (n rounds : Nat) (l : Lexer) (ps : List Nat), ps.length + (n + 1) = 4 → n + 1 ≤ rounds →
    v4LoopAt rounds l (ps ++ List.replicate (n + 1) 0) ps.length =
      .ok ((v4Loop (n + 1) l ps).map v4Padded) := by
  intro n
  induction n with
  | zero =>
    intro rounds l ps hn hr
    obtain ⟨r, rfl⟩ : ∃ r, rounds = r + 1 := ⟨rounds - 1, by omega⟩
    rw [v4LoopAt, v4Loop]
    rcases hc : l.consumeNumber charK with ⟨_ | v, l1⟩
    · rfl
    · simp only
      by_cases hv : v ≤ 0xffffffff
      · rw [if_pos hv, if_pos hv, store_pad (by omega), ok_bind, if_neg (by omega), if_neg (by simp; omega)]
        simp [v4Padded]
        omega
      · rw [if_neg hv, if_neg hv]; rfl
  | succ n ih =>
    intro rounds l ps hn hr
    obtain ⟨r, rfl⟩ : ∃ r, rounds = r + 1 := ⟨rounds - 1, by omega⟩
    rw [v4LoopAt, v4Loop]
    rcases hc : l.consumeNumber charK with ⟨_ | v, l1⟩
    · rfl
    · simp only
      by_cases hv : v ≤ 0xffffffff
      · rw [if_pos hv, if_pos hv, store_pad (by omega), ok_bind, if_pos (by omega), if_pos (by simp; omega)]
        rcases hd : l1.consumeIf 0x2e with ⟨_ | _, l2⟩
        · simp only [Option.map_some, v4Padded]
          rw [show n + 1 + 1 - 1 = 4 - (ps ++ [v]).length by simp; omega, List.length_append, List.length_singleton]
        · simp only
          have := ih r l2 (ps ++ [v]) (by simp; omega) (by omega)
          rw [List.length_append] at this
          exact this
      · rw [if_neg hv, if_neg hv]; rfl

theorem v4Loop_length : ∀ (n : Nat) (l : Lexer) (ps : List Nat) (l' : Lexer) (ps' : List Nat), ps.length + (n + 1) = 4 →
    v4Loop (n + 1) l ps = some (l', ps') → 1 ≤ ps'.length ∧ ps'.length ≤ 4 := by
  intro n
  induction n with
  | zero =>
    intro l ps l' ps' hn h
    rw [v4Loop] at h
    rcases hc : l.consumeNumber charK with ⟨_ | v, l1⟩ <;> rw [hc] at h
    · exact absurd h (by simp)
    · simp only at h
      split at h
      · rw [if_neg (by simp; omega)] at h
        simp only [Option.some.injEq, Prod.mk.injEq] at h
        rw [← h.2]; simp; omega
      · exact absurd h (by simp)
  | succ n ih =>
    intro l ps l' ps' hn h
    rw [v4Loop] at h
    rcases hc : l.consumeNumber charK with ⟨_ | v, l1⟩ <;> rw [hc] at h
    · exact absurd h (by simp)
    · simp only at h
      split at h
      · rw [if_pos (by simp; omega)] at h
        rcases hd : l1.consumeIf 0x2e with ⟨_ | _, l2⟩ <;> rw [hd] at h
        · simp only [Option.some.injEq, Prod.mk.injEq] at h
          rw [← h.2]; simp; omega
        · exact ih l2 (ps ++ [v]) l' ps' (by simp; omega) h
      · exact absurd h (by simp)

theorem shift_mod {a k : Nat} (ha : a ≤ 0xff) (hk : k ≤ 24) : (a <<< k) % 2 ^ 32 = a <<< k := by
  apply Nat.mod_eq_of_lt
  rw [Nat.shiftLeft_eq]
  calc a * 2 ^ k ≤ 0xff * 2 ^ 24 := Nat.mul_le_mul ha (Nat.pow_le_pow_right (by omega) hk)
    _ < 2 ^ 32 := by decide

theorem v4CombineAt_eq (ps : List Nat) (h1 : 1 ≤ ps.length) (h4 : ps.length ≤ 4) :
    v4CombineAt (ps ++ List.replicate (4 - ps.length) 0) ps.length = .ok (v4Combine ps) := by
  match ps, h1, h4 with
  | [a], _, _ => rfl
  | [a, b], _, _ =>
    simp only [v4CombineAt, v4Combine, List.length_cons, List.length_nil, load]
    simp only [show ¬ ((0 + 1 + 1 : Nat) = 1) by omega, if_false, if_true]
    simp
    by_cases h : a ≤ 255 ∧ b ≤ 16777215
    · rw [if_pos h, if_pos h]
      have := shift_mod (k := 24) h.1 (by omega)
      simp at this; rw [Nat.mod_eq_of_lt this]
    · rw [if_neg h, if_neg h]
  | [a, b, c], _, _ =>
    simp only [v4CombineAt, v4Combine, List.length_cons, List.length_nil, load]
    simp
    by_cases h : a ≤ 255 ∧ b ≤ 255 ∧ c ≤ 65535
    · rw [if_pos h, if_pos h]
      have e1 := shift_mod (k := 24) h.1 (by omega)
      have e2 := shift_mod (k := 16) h.2.1 (by omega)
      simp at e1 e2; rw [Nat.mod_eq_of_lt e1, Nat.mod_eq_of_lt e2]
    · rw [if_neg h, if_neg h]
  | [a, b, c, d], _, _ =>
    simp only [v4CombineAt, v4Combine, List.length_cons, List.length_nil, load]
    simp
    by_cases h : a ≤ 255 ∧ b ≤ 255 ∧ c ≤ 255 ∧ d ≤ 255
    · rw [if_pos h, if_pos h]
      have e1 := shift_mod (k := 24) h.1 (by omega)
      have e2 := shift_mod (k := 16) h.2.1 (by omega)
      have e3 := shift_mod (k := 8) h.2.2.1 (by omega)
      simp at e1 e2 e3; rw [Nat.mod_eq_of_lt e1, Nat.mod_eq_of_lt e2, Nat.mod_eq_of_lt e3]
    · rw [if_neg h, if_neg h]

theorem v4ParseAt_eq (s : List Nat) (rounds : Nat) (hr : 4 ≤ rounds) : v4ParseAt rounds s = .ok (v4FromString s) := by
  unfold v4ParseAt v4FromString
  have h := v4LoopAt_eq 3 rounds ⟨s, 0⟩ [] rfl hr
  simp only [List.nil_append, List.length_nil] at h
  rw [show ([0, 0, 0, 0] : List Nat) = List.replicate (3 + 1) 0 from rfl, h, ok_bind]
  cases hv : v4Loop 4 ⟨s, 0⟩ [] with
  | none => rfl
  | some r =>
    obtain ⟨l, ps⟩ := r
    have hl := v4Loop_length 3 _ _ _ _ rfl hv
    simp only [Option.map_some, v4Padded]
    rw [v4CombineAt_eq ps hl.1 hl.2, ok_bind]
    cases v4Combine ps <;> rfl

/-! ### IPv6 -/

/-- What the loop over the array leaves, from what the loop over the list leaves. -/
def v6Padded (r : Lexer × List Nat × Option Nat) : Lexer × List Nat × Nat × Option Nat :=
  (r.1, r.2.1 ++ List.replicate (16 - r.2.1.length) 0, r.2.1.length, r.2.2)

/-- The loop keeps this. -/
structure Parts (ps : List Nat) (short : Option Nat) : Prop where
  even : ps.length % 2 = 0
  most : ps.length ≤ 16
  short : ∀ i, short = some i → i ≤ ps.length

theorem v6LoopAt_eq : ∀ (fuel rounds : Nat) (l : Lexer) (ps : List Nat) (short : Option Nat), LexB l →
    (rest l).length < fuel → (rest l).length < rounds → Parts ps short → ps.length < 16 →
    v6LoopAt rounds l (ps ++ List.replicate (16 - ps.length) 0) ps.length short =
        .ok ((v6Loop fuel l ps short).map v6Padded) ∧
      (∀ l' ps' short', v6Loop fuel l ps short = some (l', ps', short') → Parts ps' short') := by
  intro fuel
  induction fuel with
  | zero => intro rounds l ps short _ h; omega
  | succ fuel ih =>
    intro rounds l ps short hok hf hr hp hlt
    obtain ⟨r, rfl⟩ : ∃ r, rounds = r + 1 := ⟨rounds - 1, by omega⟩
    have hnext : ∀ (l' : Lexer) (ps : List Nat) (short : Option Nat), LexB l' →
        (rest l').length < (rest l).length → Parts ps short →
        (if (l'.peek 0).isSome && ps.length < 16 then
            v6LoopAt r l' (ps ++ List.replicate (16 - ps.length) 0) ps.length short
          else .ok (some (l', ps ++ List.replicate (16 - ps.length) 0, ps.length, short))) =
          .ok ((if (l'.peek 0).isSome && ps.length < 16 then v6Loop fuel l' ps short
            else some (l', ps, short)).map v6Padded) ∧
        (∀ l'' ps' short', (if (l'.peek 0).isSome && ps.length < 16 then v6Loop fuel l' ps short
            else some (l', ps, short)) = some (l'', ps', short') → Parts ps' short') := by
      intro l' ps short hok' hlt hp
      by_cases hc : ((l'.peek 0).isSome && decide (ps.length < 16)) = true
      · simp only [if_pos hc]
        simp only [Bool.and_eq_true, decide_eq_true_eq] at hc
        exact ih r l' ps short hok' (by omega) (by omega) hp hc.2
      · simp only [if_neg hc]
        refine ⟨rfl, ?_⟩
        intro l'' ps' short' h
        simp only [Option.some.injEq, Prod.mk.injEq] at h
        obtain ⟨-, rfl, rfl⟩ := h
        exact hp
    rw [v6LoopAt, v6Loop]
    simp only
    rcases hok.consumeIf_rest 0x3a with ⟨c1, c2, c3, c4⟩ | ⟨c1, c2⟩
    · have he : l.consumeIf 0x3a = (true, (l.consumeIf 0x3a).2) := by rw [← c2]
      have hlt1 : (rest (l.consumeIf 0x3a).2).length < (rest l).length := by
        rw [c4]; cases hr : rest l with
        | nil => rw [hr] at c1; simp at c1
        | cons x t => simp
      rw [he]
      simp only
      rcases c3.consumeIf_rest 0x3a with ⟨d1, d2, d3, d4⟩ | ⟨d1, d2⟩
      · have he2 : (l.consumeIf 0x3a).2.consumeIf 0x3a =
            (true, ((l.consumeIf 0x3a).2.consumeIf 0x3a).2) := by rw [← d2]
        rw [he2]
        simp only
        by_cases hsh : short.isSome = true
        · rw [if_pos hsh, if_pos hsh]; exact ⟨rfl, by intro _ _ _ h; exact absurd h (by simp)⟩
        · rw [if_neg hsh, if_neg hsh]
          exact hnext _ _ _ d3 (by rw [d4, List.length_drop]; omega)
            ⟨hp.even, hp.most, by intro i h; simp only [Option.some.injEq] at h; omega⟩
      · rw [d2]
        simp only
        exact hnext _ _ _ c3 hlt1 hp
    · rw [c2]
      simp only
      rcases hok.consumeHex_rest with ⟨h1, h2⟩ | ⟨h1, l', h2, h3, h4⟩
      · rw [h2]; exact ⟨rfl, by intro _ _ _ h; exact absurd h (by simp)⟩
      · rw [h2]
        simp only
        generalize wrapped charK 16 (takenHexRun (rest l)) = v
        by_cases hv : v ≤ 0xffff
        · have he := hp.even
          rw [if_pos hv, if_pos hv, store_pad (by omega), ok_bind]
          have e1 : store (ps ++ [(v >>> 8) &&& 0xff] ++ List.replicate (16 - ps.length - 1) 0) (ps.length + 1)
              (v &&& 0xff) = .ok ((ps ++ [(v >>> 8) &&& 0xff, v &&& 0xff]) ++ List.replicate (16 - (ps.length + 2)) 0) := by
            have := store_pad (ps := ps ++ [(v >>> 8) &&& 0xff]) (n := 16 - ps.length - 1) (v := v &&& 0xff) (by omega)
            rw [List.length_append, List.length_singleton] at this
            rw [this]
            congr 2
            simp
          rw [e1, ok_bind]
          have := hnext l' (ps ++ [(v >>> 8) &&& 0xff, v &&& 0xff]) short h3
            (by rw [h4]; exact takenHexRun_drop_lt h1)
            ⟨by simp; omega, by simp; omega, by intro i h; have := hp.short i h; simp; omega⟩
          have e : (ps ++ [(v >>> 8) &&& 0xff, v &&& 0xff]).length = ps.length + 2 := by simp
          rw [e] at this
          simp only [e]
          exact this
        · rw [if_neg hv, if_neg hv]; exact ⟨rfl, by intro _ _ _ h; exact absurd h (by simp)⟩

theorem sizeSub_of_le {n m : Nat} (h : m ≤ n) (hn : n < 2 ^ 64) : sizeSub n m = n - m := by
  unfold sizeSub
  rw [show n + 2 ^ 64 - m = (n - m) + 2 ^ 64 by omega, Nat.add_mod_right, Nat.mod_eq_of_lt (by omega)]

theorem v6ParseAt_eq (s : List Nat) (hb : ∀ u ∈ s, u < 256) (hl : s.length < 2 ^ 64) (rounds : Nat)
    (hr : s.length < rounds) : v6ParseAt rounds s = .ok (v6FromString s) := by
  unfold v6ParseAt v6FromString
  have hrest : (rest ⟨s, 0⟩).length = s.length := by simp [rest]
  have h := v6LoopAt_eq (s.length + 1) rounds ⟨s, 0⟩ [] none ⟨hb, by simp, hl⟩ (by omega) (by omega)
    ⟨by simp, by simp, by simp⟩ (by simp)
  simp only [List.nil_append, List.length_nil] at h
  rw [show 16 - 0 = 16 from rfl] at h
  rw [h.1, ok_bind]
  cases hv : v6Loop (s.length + 1) ⟨s, 0⟩ [] none with
  | none => rfl
  | some r =>
    obtain ⟨l, ps, short⟩ := r
    have hp := h.2 _ _ _ hv
    simp only [Option.map_some, v6Padded]
    have hm := hp.most
    by_cases hc : ((l.peek 0).isSome || (ps.length != 16 && short.isNone)) = true
    · rw [if_pos hc, if_pos hc]
    · rw [if_neg hc, if_neg hc]
      cases short with
      | none =>
        simp only [Option.isNone_none, Bool.and_true, Bool.or_eq_true, not_or, bne_iff_ne, ne_eq,
          Decidable.not_not] at hc
        simp [hc.2]
      | some i =>
        have hi := hp.short i rfl
        simp only
        rw [sizeSub_of_le hm (by omega), sizeSub_of_le (by omega) (by omega)]
        unfold rotateAt
        rw [if_pos ⟨by omega, by omega, by simp; omega⟩]
        simp [v6Rotate, rotateRange]

theorem segmentAt_eq {a : List Nat} (ha : a.length = 16) {i : Nat} (hi : i + 1 < 16) :
    segmentAt a i = .ok (v6Segment a i) := by
  unfold segmentAt v6Segment
  rw [load_ok (by omega), load_ok (by omega)]
  rfl

theorem skipZerosAt_eq {a : List Nat} (ha : a.length = 16) : ∀ (rounds i : Nat), i % 2 = 0 → i < 16 →
    16 - i ≤ 2 * rounds → skipZerosAt a rounds i = .ok (v6SkipZeros a i) ∧ v6SkipZeros a i % 2 = 0 := by
  intro rounds
  induction rounds with
  | zero => intro i _ h1 h2; omega
  | succ rounds ih =>
    intro i he hi hr
    rw [skipZerosAt, v6SkipZeros]
    by_cases h : i + 2 < 16
    · rw [if_pos h, segmentAt_eq ha (by omega), ok_bind]
      by_cases hz : v6Segment a (i + 2) = 0
      · rw [if_pos hz, dif_pos ⟨h, hz⟩]
        exact ih (i + 2) (by omega) h (by omega)
      · rw [if_neg hz, dif_neg (fun c => hz c.2)]
        exact ⟨rfl, by omega⟩
    · rw [if_neg h, dif_neg (fun c => h c.1)]
      exact ⟨rfl, by omega⟩

theorem formatLoopAt_eq {a : List Nat} (ha : a.length = 16) : ∀ (rounds i : Nat) (used : Bool), i % 2 = 0 →
    18 - i ≤ 2 * rounds → 0 < rounds → formatLoopAt a rounds i used = .ok (v6FormatLoop a i used) := by
  intro rounds
  induction rounds with
  | zero => intro i _ _ _ h; omega
  | succ rounds ih =>
    intro i used he hr _
    rw [formatLoopAt, v6FormatLoop]
    by_cases h : i < 16
    · rw [if_pos h, dif_pos h, segmentAt_eq ha (by omega), ok_bind]
      by_cases hz : v6Segment a i = 0 ∧ used = false
      · have hs := skipZerosAt_eq ha rounds i he h (by omega)
        have hg := v6SkipZeros_gt a _ i rfl
        rw [if_pos hz, if_pos hz, hs.1, ok_bind, ih _ true hs.2 (by omega) (by omega)]
        rfl
      · rw [if_neg hz, if_neg hz, ih (i + 2) used (by omega) (by omega) (by omega)]
        rfl
    · rw [if_neg h, dif_neg h]

/-! ### Endpoints -/

theorem lastColon_lt {s : List Nat} {i : Nat} (h : lastColon s = some i) : i < s.length := by
  unfold lastColon at h
  split at h
  · simp only [Option.some.injEq] at h; omega
  · exact absurd h (by simp)

theorem separator_cases (s : List Nat) (hl : s.length < 2 ^ 64 - 1) :
    (lastColon s = none ∧ separator s = npos) ∨
    (∃ i, lastColon s = some i ∧ separator s = i ∧ i < s.length ∧ i ≠ npos) := by
  unfold separator
  cases h : lastColon s with
  | none => exact .inl ⟨rfl, rfl⟩
  | some i =>
    have := lastColon_lt h
    exact .inr ⟨i, rfl, rfl, this, by unfold npos; omega⟩

theorem endpoint4ParseAt_eq (s : List Nat) (hl : s.length < 2 ^ 64 - 1) (rounds : Nat) (hr : 4 ≤ rounds) :
    endpoint4ParseAt rounds s = .ok (endpoint4FromString s) := by
  unfold endpoint4ParseAt endpoint4FromString
  rcases separator_cases s hl with ⟨h1, h2⟩ | ⟨i, h1, h2, h3, h4⟩
  · rw [h1, if_pos (.inl h2)]
  · rw [h1, h2]
    simp only
    by_cases h0 : i = 0
    · rw [if_pos (.inr (.inl h0)), if_pos h0]
    · rw [if_neg (by omega), if_neg h0]
      unfold substrAt
      rw [if_pos (by omega), ok_bind, if_pos (by omega), ok_bind, v4ParseAt_eq _ _ hr, ok_bind, List.drop_zero,
        List.take_of_length_le (l := s.drop (i + 1)) (by rw [List.length_drop]; unfold npos; omega)]
      rfl

theorem endpoint6ParseAt_eq (s : List Nat) (hb : ∀ u ∈ s, u < 256) (hl : s.length < 2 ^ 64 - 1) (rounds : Nat)
    (hr : s.length < rounds) : endpoint6ParseAt rounds s = .ok (endpoint6FromString s) := by
  unfold endpoint6ParseAt endpoint6FromString
  rcases separator_cases s hl with ⟨h1, h2⟩ | ⟨i, h1, h2, h3, h4⟩
  · rw [h1, if_pos (.inl h2)]
  · rw [h1, h2]
    simp only
    by_cases h0 : i = 0
    · rw [if_pos (.inr (.inl h0)), if_pos h0]
    · rw [if_neg (by omega), if_neg h0]
      unfold substrAt
      rw [if_pos (by omega), ok_bind, if_pos (by omega), ok_bind, List.drop_zero,
        List.take_of_length_le (l := s.drop (i + 1)) (by rw [List.length_drop]; unfold npos; omega)]
      by_cases hbr : (s.take i).head? = some 0x5b ∧ (s.take i).getLast? = some 0x5d
      · have h2 : 2 ≤ (s.take i).length := by
          match hav : s.take i with
          | [] => rw [hav] at hbr; simp at hbr
          | [x] => rw [hav] at hbr; simp at hbr; omega
          | x :: y :: t => simp
        rw [if_pos hbr, if_pos hbr, if_pos (by omega), ok_bind,
          sizeSub_of_le h2 (by rw [List.length_take]; omega),
          v6ParseAt_eq _ (fun u hu => hb u (List.mem_of_mem_take (List.mem_of_mem_drop (List.mem_of_mem_take hu))))
            (by rw [List.length_take, List.length_drop, List.length_take]; omega) _
            (by rw [List.length_take, List.length_drop, List.length_take]; omega), ok_bind]
        rfl
      · rw [if_neg hbr, if_neg hbr]

/-! ## C163 -/

/-- C163: parsing an IPv4 address stays within its four parts and needs at most four rounds, for every text; what it returns is
exactly what `V4Read` says of the text. -/
theorem v4_arrays (s : List Nat) (hb : ∀ u ∈ s, u < 256) (hl : s.length < 2 ^ 64) (rounds : Nat) (hr : 4 ≤ rounds) :
    ∃ r, v4ParseAt rounds s = .ok r ∧ ∀ h, (∃ a, r = some a ∧ v4HostOrder a = h) ↔ V4Read s h :=
  ⟨v4FromString s, v4ParseAt_eq s rounds hr, fun h => v4_parse_exact s hb hl h⟩

/-- C163: parsing an IPv6 address stays within its sixteen bytes, rotates ranges in order, and needs at most one round more than
the text is long, for every text; what it returns is exactly what `V6Read` says of the text. -/
theorem v6_arrays (s : List Nat) (hb : ∀ u ∈ s, u < 256) (hl : s.length < 2 ^ 64) (rounds : Nat) (hr : s.length < rounds) :
    ∃ r, v6ParseAt rounds s = .ok r ∧ ∀ a, r = some a ↔ V6Read s a :=
  ⟨v6FromString s, v6ParseAt_eq s hb hl rounds hr, fun a => v6_parse_exact s hb hl a⟩

/-- C163: formatting an IPv6 address reads its sixteen bytes only, needs at most nine rounds, and gives a text of that address, for
every address. -/
theorem v6_format_arrays (a : List Nat) (ha : a.length = 16) (hb : ∀ b ∈ a, b < 256) (rounds : Nat) (hr : 9 ≤ rounds) :
    ∃ t gs, formatLoopAt a rounds 0 false = .ok t ∧ V6Text t gs ∧ groupBytes gs = a :=
  ⟨v6Format a, groups a, formatLoopAt_eq ha rounds 0 false rfl (by omega) (by omega), v6Format_text a,
    groupBytes_groups ha hb⟩

/-- C163: parsing an endpoint cuts its views within their bounds, for every text shorter than `npos`, and returns an address and a
port exactly when the text is an address, a colon and a port, the IPv6 address in brackets. -/
theorem endpoint_arrays (s : List Nat) (hb : ∀ u ∈ s, u < 256) (hl : s.length < 2 ^ 64 - 1) (rounds : Nat)
    (h4 : 4 ≤ rounds) (hr : s.length < rounds) :
    (∃ r, endpoint4ParseAt rounds s = .ok r ∧ ∀ h p, (∃ a, r = some (a, p) ∧ v4HostOrder a = h) ↔
      ∃ x y, s = x ++ 0x3a :: y ∧ V4Read x h ∧ ReadNumber y p ∧ p ≤ 0xffff) ∧
    (∃ r, endpoint6ParseAt rounds s = .ok r ∧ ∀ a p, r = some (a, p) ↔
      ∃ x y, s = 0x5b :: x ++ 0x5d :: 0x3a :: y ∧ V6Read x a ∧ ReadNumber y p ∧ p ≤ 0xffff) := by
  refine ⟨⟨_, endpoint4ParseAt_eq s hl rounds h4, ?_⟩, ⟨_, endpoint6ParseAt_eq s hb hl rounds hr, ?_⟩⟩
  · intro h p
    constructor
    · rintro ⟨a, h1, h2⟩
      obtain ⟨x, y, rfl, h3, h5⟩ := (endpoint4_exact s hb (by omega) a p).1 h1
      exact ⟨x, y, rfl, (v4_parse_exact x (fun u hu => hb u (by simp [hu])) (by simp at hl; omega) h).1 ⟨a, h3, h2⟩, h5⟩
    · rintro ⟨x, y, rfl, h3, h5⟩
      obtain ⟨a, h6, h7⟩ := (v4_parse_exact x (fun u hu => hb u (by simp [hu])) (by simp at hl; omega) h).2 h3
      exact ⟨a, (endpoint4_exact _ hb (by omega) a p).2 ⟨x, y, rfl, h6, h5⟩, h7⟩
  · intro a p
    rw [endpoint6_exact s hb (by omega)]
    constructor
    · rintro ⟨x, y, rfl, h1, h2⟩
      exact ⟨x, y, rfl, (v6_parse_exact x (fun u h => hb u (by simp [h])) (by simp at hl; omega) a).1 h1, h2⟩
    · rintro ⟨x, y, rfl, h1, h2⟩
      exact ⟨x, y, rfl, (v6_parse_exact x (fun u h => hb u (by simp [h])) (by simp at hl; omega) a).2 h1, h2⟩

/-- Five parts; "1.2.3.4"; "::1"; nine groups; a colon, then eight groups and a long run of zeros. -/
example : v4ParseAt 4 [0x31, 0x2e, 0x32, 0x2e, 0x33, 0x2e, 0x34, 0x2e, 0x35] = .ok none ∧
    v4ParseAt 4 [0x31, 0x2e, 0x32, 0x2e, 0x33, 0x2e, 0x34] = .ok (some 0x04030201) ∧
    v6ParseAt 4 [0x3a, 0x3a, 0x31] = .ok (some (List.replicate 15 0 ++ [1])) ∧
    v6ParseAt 20 [0x31, 0x3a, 0x31, 0x3a, 0x31, 0x3a, 0x31, 0x3a, 0x31, 0x3a, 0x31, 0x3a, 0x31, 0x3a, 0x31, 0x3a, 0x31] =
      .ok none ∧
    formatLoopAt (List.replicate 16 0) 9 0 false = .ok [0x3a, 0x3a] ∧
    formatLoopAt (List.replicate 15 0) 9 0 false = .ub := by decide +kernel

/-- "[::1]:80" and "]:80". -/
example : endpoint6ParseAt 9 [0x5b, 0x3a, 0x3a, 0x31, 0x5d, 0x3a, 0x38, 0x30] =
      .ok (some (List.replicate 15 0 ++ [1], 80)) ∧
    endpoint6ParseAt 9 [0x5d, 0x3a, 0x38, 0x30] = .ok none ∧
    endpoint4ParseAt 9 [0x31, 0x3a, 0x38, 0x30] = .ok (some (0x01000000, 80)) := by decide +kernel

end Verif.Net.Arrays
