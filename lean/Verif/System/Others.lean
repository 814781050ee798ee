import Verif.System.Props

/-!
# C130: the processor usage on Windows and macOS

Sources: `/repo/fly/system/win/system_monitor_impl.cpp` 96-123 and `/repo/fly/system/mac/system_monitor_impl.mm` 11-15,
37-111. What the operating system answers is an input.
-/

namespace Verif.System

/-! ## Model -/

/-- A `double` divided by a positive or zero count of processors. -/
def Double.over (rn : Rat → Rat) : Double → Nat → Double
  | .num q, n => if n = 0 then (if q = 0 then .nan else .inf) else .num (rn (q / rn n))
  | .inf, _ => .inf
  | .nan, _ => .nan

/-- `100.0 * cpu / time / count` (win/system_monitor_impl.cpp 112, mac/system_monitor_impl.mm 87). -/
def share (rn : Rat → Rat) (cpu time count : Nat) : Double := (percent rn cpu time).over rn count

/-- What the operating system tells of the process: the time, and the time it spent in the system and in itself. On
Windows all three in units of 100 ns (win/system_monitor_impl.cpp 98-107), on macOS the first in nanoseconds and the
others in microseconds (mac/system_monitor_impl.mm 72-74). -/
structure Reading where
  now : Nat
  system : Nat
  user : Nat
deriving DecidableEq, Repr

/-- The members for the usage of the process: win/system_monitor_impl.hpp 52-54, mac/system_monitor_impl.hpp 47-49 (the
time point of macOS begins at the epoch of its clock). -/
structure ProcessState where
  prev : Reading := ⟨0, 0, 0⟩
  usage : Double := .num 0

/-- Unsigned 64-bit subtraction. -/
def minus (a b : Nat) : Nat := wrap (a + (2 ^ 64 - wrap b))

/-- `update_process_cpu_usage` on Windows (win/system_monitor_impl.cpp 96-123); `none` if `GetProcessTimes` fails. -/
def winUpdate (rn : Rat → Rat) (s : ProcessState) : Nat × Option Reading → ProcessState
  | (_, none) => s
  | (count, some x) =>
    let cpu := wrap (minus x.system s.prev.system + minus x.user s.prev.user)
    let time := minus x.now s.prev.now
    ⟨x, share rn cpu time count⟩

/-- `update_process_cpu_usage` on macOS (mac/system_monitor_impl.mm 64-94); `none` if `task_info` fails. The conversion
to microseconds truncates. -/
def macUpdate (rn : Rat → Rat) (s : ProcessState) : Nat × Option Reading → ProcessState
  | (_, none) => s
  | (count, some x) =>
    let usage :=
      if s.prev.user ≠ 0 ∧ s.prev.now < x.now ∧ s.prev.user ≤ x.user ∧ s.prev.system ≤ x.system then
        share rn (wrap ((x.user - s.prev.user) + (x.system - s.prev.system))) ((x.now - s.prev.now) / 1000) count
      else s.usage
    ⟨x, usage⟩

/-- `update_system_cpu_usage` on macOS (mac/system_monitor_impl.mm 33-61); `none` if `host_statistics` fails. -/
def macSystemUpdate (rn : Rat → Rat) (s : Monitor) : Option Sample → Monitor
  | none => s
  | some x =>
    if x.user ≥ s.prev.user ∧ x.system ≥ s.prev.system ∧ x.idle ≥ s.prev.idle ∧ x.nice ≥ s.prev.nice then
      let active := wrap (wrap ((x.user - s.prev.user) + (x.system - s.prev.system)) + (x.nice - s.prev.nice))
      let total := wrap (active + (x.idle - s.prev.idle))
      ⟨x, percent rn active total⟩
    else ⟨x, s.usage⟩

/-- `update_system_memory_usage` on Windows (win/system_monitor_impl.cpp 126-140): the total and the memory used. -/
def winMemory (total available : Nat) : Nat × Nat := (total, minus total available)

/-- `update_system_memory_usage` on macOS (mac/system_monitor_impl.mm 97-122). -/
def macMemory (total freePages pageSize : Nat) : Nat × Nat := (total, minus total (wrap (freePages * pageSize)))

/-! ## Specification -/

/-- The readings that succeeded. -/
def readings (xs : List (Nat × Option Reading)) : List Reading := xs.filterMap (·.2)

/-- Processor time used between two readings. -/
def used (a b : Reading) : Nat := (b.system - a.system) + (b.user - a.user)

/-- An honest system with `count` processors, whose clock ticks `unit` times per unit of processor time: time has
passed, the counters do not fall, no more time was used than there was, and everything fits (`100 * used` in a
`double`). -/
structure Honest (unit count : Nat) (a b : Reading) : Prop where
  time : a.now + unit ≤ b.now
  system : a.system ≤ b.system
  user : a.user ≤ b.user
  some : 0 < count
  used : Verif.System.used a b ≤ (b.now - a.now) / unit * count
  bounds : b.now < 2 ^ 64 ∧ b.system < 2 ^ 64 ∧ b.user < 2 ^ 64
  exact : 100 * Verif.System.used a b ≤ 2 ^ 53 ∧ 100 * count ≤ 2 ^ 53

/-- All readings of a history are honest, seen from the one before. -/
def HonestAll (unit : Nat) : Reading → List (Nat × Option Reading) → Prop
  | _, [] => True
  | a, (_, none) :: xs => HonestAll unit a xs
  | a, (count, some b) :: xs => Honest unit count a b ∧ HonestAll unit b xs

/-! ## Proofs -/

theorem minus_sub {a b : Nat} (ha : a < 2 ^ 64) (h : b ≤ a) : minus a b = a - b := by
  unfold minus wrap
  rw [Nat.mod_eq_of_lt (show b < 2 ^ 64 by omega)]
  omega

theorem share_ok {rn : Rat → Rat} (hr : Rounding rn) {cpu time count : Nat} (ht : 0 < time) (hc : 0 < count)
    (hu : cpu ≤ time * count) (h1 : 100 * cpu ≤ 2 ^ 53) (h2 : 100 * count ≤ 2 ^ 53) :
    (share rn cpu time count).IsPercentage ∧
      (time ≤ 2 ^ 53 → share rn cpu time count = .num (rn (rn ((100 * cpu : Nat) / (time : Rat)) / count))) := by
  have r1 : rn (cpu : Rat) = cpu := hr.exact cpu (by omega)
  have r3 : rn (count : Rat) = count := hr.exact count (by omega)
  have r4 : rn (100 * (cpu : Rat)) = (100 * cpu : Nat) := by
    have : (100 * (cpu : Rat)) = ((100 * cpu : Nat) : Rat) := by rw [Rat.natCast_mul]; rfl
    rw [this]; exact hr.exact _ h1
  have e : share rn cpu time count = .num (rn (rn ((100 * cpu : Nat) / rn (time : Rat)) / count)) := by
    unfold share percent Double.over
    rw [if_neg (by omega)]
    simp only
    rw [if_neg (by omega), r1, r3, r4]
  refine ⟨?_, fun ht53 => by rw [e, hr.exact time ht53]⟩
  rw [e]
  have pcount : (0 : Rat) < count := by exact_mod_cast hc
  have z : rn 0 = 0 := hr.exact 0 (by decide)
  -- the divisor, exact or at least 2^53
  have hd : (0 : Rat) < rn (time : Rat) ∧ ((100 * cpu : Nat) : Rat) ≤ ((100 * count : Nat) : Rat) * rn (time : Rat) := by
    by_cases h : time ≤ 2 ^ 53
    · rw [hr.exact time h]
      refine ⟨by exact_mod_cast ht, ?_⟩
      rw [← Rat.natCast_mul]
      have : 100 * cpu ≤ 100 * count * time := by
        rw [Nat.mul_assoc, Nat.mul_comm count time]; exact Nat.mul_le_mul_left 100 hu
      exact_mod_cast this
    · have hm : ((2 ^ 53 : Nat) : Rat) ≤ rn (time : Rat) := by
        rw [← hr.exact (2 ^ 53) (Nat.le_refl _)]
        apply hr.mono
        exact_mod_cast (by omega : 2 ^ 53 ≤ time)
      have h3 : (0 : Rat) < ((2 ^ 53 : Nat) : Rat) := by decide +kernel
      refine ⟨by grind, ?_⟩
      have h4 : ((100 * cpu : Nat) : Rat) ≤ ((2 ^ 53 : Nat) : Rat) := by exact_mod_cast h1
      have h5 : (1 : Rat) ≤ ((100 * count : Nat) : Rat) := by
        have : 1 ≤ 100 * count := by omega
        exact_mod_cast this
      have h6 : 0 ≤ (((100 * count : Nat) : Rat) - 1) * rn (time : Rat) :=
        Rat.mul_nonneg (by grind) (by grind)
      grind
  have a0 : (0 : Rat) ≤ rn ((100 * cpu : Nat) / rn (time : Rat)) := by
    rw [← z]
    apply hr.mono
    rw [le_div_iff hd.1, Rat.zero_mul]; exact_mod_cast Nat.zero_le _
  have a1 : rn ((100 * cpu : Nat) / rn (time : Rat)) ≤ (100 * count : Nat) := by
    rw [← hr.exact (100 * count) h2]
    apply hr.mono
    rw [div_le_iff hd.1]
    exact hd.2
  constructor
  · rw [← z]
    apply hr.mono
    rw [le_div_iff pcount, Rat.zero_mul]; exact a0
  · have e : (100 : Rat) = ((100 : Nat) : Rat) := rfl
    rw [e, ← hr.exact 100 (by decide)]
    apply hr.mono
    rw [div_le_iff pcount, ← Rat.natCast_mul]
    exact a1

theorem win_share {rn : Rat → Rat} {count : Nat} {s : ProcessState} {b : Reading} (h : Honest 1 count s.prev b) :
    winUpdate rn s (count, some b) = ⟨b, share rn (used s.prev b) (b.now - s.prev.now) count⟩ := by
  obtain ⟨b1, b2, b3⟩ := h.bounds
  have e := h.exact
  have e1 := h.time
  have e2 := h.system
  have e3 := h.user
  unfold winUpdate
  simp only [minus_sub b1 (Nat.le_of_succ_le e1), minus_sub b2 e2, minus_sub b3 e3]
  unfold used at e ⊢
  rw [show wrap (b.system - s.prev.system + (b.user - s.prev.user)) = b.system - s.prev.system + (b.user - s.prev.user) by
    unfold wrap; omega]

theorem win_prev (rn : Rat → Rat) (xs : List (Nat × Option Reading)) (s : ProcessState) :
    (xs.foldl (winUpdate rn) s).prev = (readings xs).getLast?.getD s.prev := by
  induction xs generalizing s with
  | nil => rfl
  | cons x xs ih =>
    rw [List.foldl_cons, ih]
    rcases x with ⟨c, _ | b⟩
    · rfl
    · have : readings ((c, some b) :: xs) = b :: readings xs := rfl
      rw [this]
      cases h : readings xs with
      | nil => rfl
      | cons y ys =>
        rw [List.getLast?_cons_cons]
        cases hl : (y :: ys).getLast? with
        | none => simp at hl
        | some z => rfl

/-- C130 on Windows, as far as it holds: after every history of polls, also with failed ones, in which time passed
between two readings, the usage is between 0 and 100; and it is the share of the processors' time that the process used
since the last reading, if there was one. -/
theorem windows_usage_partial (rn : Rat → Rat) (hr : Rounding rn) (xs : List (Nat × Option Reading))
    (h : HonestAll 1 ⟨0, 0, 0⟩ xs) :
    (xs.foldl (winUpdate rn) {}).usage.IsPercentage ∧
    (∀ a b count, (readings xs).getLast? = some a → Honest 1 count a b → b.now - a.now ≤ 2 ^ 53 →
      ((xs ++ [(count, some b)]).foldl (winUpdate rn) {}).usage =
        .num (rn (rn ((100 * used a b : Nat) / (b.now - a.now : Nat)) / count))) := by
  constructor
  · have go : ∀ (xs : List (Nat × Option Reading)) (s : ProcessState), s.usage.IsPercentage →
        HonestAll 1 s.prev xs → (xs.foldl (winUpdate rn) s).usage.IsPercentage := by
      intro xs
      induction xs with
      | nil => intro s hs _; exact hs
      | cons x xs ih =>
        intro s hs hx
        rw [List.foldl_cons]
        rcases x with ⟨c, _ | b⟩
        · exact ih s hs hx
        · obtain ⟨h1, h2⟩ := hx
          rw [win_share h1]
          refine ih _ ?_ h2
          have := h1.used
          rw [Nat.div_one] at this
          exact (share_ok hr (by have := h1.time; omega) h1.some this h1.exact.1 h1.exact.2).1
    exact go xs {} ⟨by decide, by decide⟩ h
  · intro a b count ha hb ht
    rw [List.foldl_append]
    have hp : (xs.foldl (winUpdate rn) {}).prev = a := by rw [win_prev, ha]; rfl
    generalize xs.foldl (winUpdate rn) {} = s at hp
    subst hp
    rw [List.foldl_cons, List.foldl_nil, win_share hb]
    have := hb.used
    rw [Nat.div_one] at this
    exact (share_ok hr (by have := hb.time; omega) hb.some this hb.exact.1 hb.exact.2).2 ht

/-- A history with a failed poll: nothing is known before the first reading but zeroes, and time passes since. -/
example : HonestAll 1 ⟨0, 0, 0⟩ [(2, some ⟨10000000, 10, 20⟩), (2, none), (2, some ⟨20000000, 2000010, 3000020⟩)] :=
  ⟨⟨by decide, by decide, by decide, by decide, by decide, by decide, by decide⟩,
    ⟨by decide, by decide, by decide, by decide, by decide, by decide, by decide⟩, trivial⟩

/-- C130 fails on Windows:
1. two polls within one tick of the clock, as with a short poll interval: the usage is not a number, or infinite;
2. the clock is set back between two polls: a process that used all of the second reported is said to have used less
   than one percent;
3. the first poll divides by the time since 1601: a process that was busy from its start is said to have used less than one
   percent. -/
theorem windows_usage_violated (rn : Rat → Rat) (hr : Rounding rn) (a b : Reading) :
    (a.now = b.now → a.now < 2 ^ 64 → ∀ c d, ¬ ([(c, some a), (d, some b)].foldl (winUpdate rn) {}).usage.IsPercentage) ∧
    (∃ q, ([(1, some ⟨132500000000000000, 0, 0⟩), (1, some ⟨132499990000000000, 0, 10000000⟩)].foldl
        (winUpdate rn) {}).usage = .num q ∧ q ≤ 1) ∧
    (∃ q, ([(1, some ⟨132500000000000000, 0, 10000000⟩)].foldl (winUpdate rn) {}).usage = .num q ∧ q ≤ 1) := by
  have big : ∀ cpu time : Nat, cpu ≤ 10000000 → 2 ^ 53 ≤ time → ∃ q, share rn cpu time 1 = .num q ∧ q ≤ 1 := by
    intro cpu time hc ht
    have r1 : rn (cpu : Rat) = cpu := hr.exact cpu (by omega)
    have r3 : rn ((1 : Nat) : Rat) = (1 : Nat) := hr.exact 1 (by decide)
    have r4 : rn (100 * (cpu : Rat)) = (100 * cpu : Nat) := by
      have : (100 * (cpu : Rat)) = ((100 * cpu : Nat) : Rat) := by rw [Rat.natCast_mul]; rfl
      rw [this]; exact hr.exact _ (by omega)
    have hm : ((2 ^ 53 : Nat) : Rat) ≤ rn (time : Rat) := by
      rw [← hr.exact (2 ^ 53) (Nat.le_refl _)]
      apply hr.mono
      exact_mod_cast ht
    have h3 : (0 : Rat) < ((2 ^ 53 : Nat) : Rat) := by decide +kernel
    refine ⟨rn (rn ((100 * cpu : Nat) / rn (time : Rat)) / (1 : Nat)), ?_, ?_⟩
    · unfold share percent Double.over
      rw [if_neg (by omega)]
      simp only
      rw [if_neg (by omega), r1, r3, r4]
    · have a1 : rn ((100 * cpu : Nat) / rn (time : Rat)) ≤ (1 : Nat) := by
        rw [← r3]
        apply hr.mono
        rw [div_le_iff (by grind)]
        have h4 : ((100 * cpu : Nat) : Rat) ≤ ((2 ^ 53 : Nat) : Rat) := by exact_mod_cast (by omega : 100 * cpu ≤ 2 ^ 53)
        have : ((1 : Nat) : Rat) = 1 := rfl
        grind
      have : rn (rn ((100 * cpu : Nat) / rn (time : Rat)) / (1 : Nat)) ≤ rn ((1 : Nat) : Rat) := by
        apply hr.mono
        rw [div_le_iff (by decide)]
        have : ((1 : Nat) : Rat) = 1 := rfl
        grind
      rw [r3] at this
      exact this
  refine ⟨fun hn hb c d => ?_, ?_, ?_⟩
  · rw [List.foldl_cons, List.foldl_cons, List.foldl_nil]
    have h0 : minus b.now (winUpdate rn {} (c, some a)).prev.now = 0 := by
      show minus b.now a.now = 0
      rw [← hn, minus_sub hb (Nat.le_refl _), Nat.sub_self]
    unfold winUpdate
    simp only
    rw [show minus b.now a.now = 0 from h0]
    unfold share percent
    rw [if_pos rfl]
    split <;> exact id
  · have := big (wrap (minus 0 0 + minus 10000000 0)) (minus 132499990000000000 132500000000000000) (by decide) (by decide)
    exact this
  · have := big (wrap (minus 0 0 + minus 10000000 0)) (minus 132500000000000000 0) (by decide) (by decide)
    exact this

/-- C130 fails on Windows as long as the number of processors is not known (it is 0 until it could be polled): the usage is no
percentage, and "not a number" for a process that has not used any time. -/
theorem windows_no_processors_violated (rn : Rat → Rat) (hr : Rounding rn) (s : ProcessState) (b : Reading) :
    ¬ (winUpdate rn s (0, some b)).usage.IsPercentage ∧
    (s.prev.system = b.system → s.prev.user = b.user → s.prev.now < b.now → b.now < 2 ^ 64 → b.system < 2 ^ 64 → b.user < 2 ^ 64 →
      (winUpdate rn s (0, some b)).usage = .nan) := by
  constructor
  · show ¬ Double.IsPercentage (share rn _ _ 0)
    unfold share
    generalize percent rn _ _ = d
    cases d with
    | num q =>
      by_cases h : q = 0 <;> simp [Double.over, h, Double.IsPercentage]
    | inf => exact id
    | nan => exact id
  · intro h1 h2 h3 hb hs hu
    show share rn (wrap (minus b.system s.prev.system + minus b.user s.prev.user)) (minus b.now s.prev.now) 0 = .nan
    rw [h1, h2, minus_sub hs (Nat.le_refl _), minus_sub hu (Nat.le_refl _), minus_sub hb (by omega)]
    have r0 : rn ((0 : Nat) : Rat) = (0 : Nat) := hr.exact 0 (by decide)
    have z : ((0 : Nat) : Rat) = 0 := rfl
    rw [z] at r0
    have e : percent rn (wrap (b.system - b.system + (b.user - b.user))) (b.now - s.prev.now) = .num 0 := by
      rw [Nat.sub_self, Nat.sub_self]
      unfold percent
      rw [if_neg (by omega), show wrap (0 + 0) = 0 from rfl, z, r0, Rat.mul_zero, r0, Rat.div_def, Rat.zero_mul, r0]
    unfold share
    rw [e]
    rfl

/-- A second on two processors: a quarter of the time was used. -/
example : Honest 1 2 ⟨132500000000000000, 10, 20⟩ ⟨132500000010000000, 2000010, 3000020⟩ ∧
    ([(2, some ⟨132500000000000000, 10, 20⟩), (2, none), (2, some ⟨132500000010000000, 2000010, 3000020⟩)].foldl
      (winUpdate id) {}).usage = .num 25 :=
  ⟨⟨by decide, by decide, by decide, by decide, by decide, by decide, by decide⟩, by decide +kernel⟩

/-! ### macOS -/

theorem mac_prev (rn : Rat → Rat) (xs : List (Nat × Option Reading)) (s : ProcessState) :
    (xs.foldl (macUpdate rn) s).prev = (readings xs).getLast?.getD s.prev := by
  induction xs generalizing s with
  | nil => rfl
  | cons x xs ih =>
    rw [List.foldl_cons, ih]
    rcases x with ⟨c, _ | b⟩
    · rfl
    · have : readings ((c, some b) :: xs) = b :: readings xs := rfl
      rw [this]
      cases h : readings xs with
      | nil => rfl
      | cons y ys =>
        rw [List.getLast?_cons_cons]
        cases hl : (y :: ys).getLast? with
        | none => simp at hl
        | some z => rfl

theorem mac_share {rn : Rat → Rat} {count : Nat} {s : ProcessState} {b : Reading} (h : Honest 1000 count s.prev b)
    (hu : s.prev.user ≠ 0) :
    macUpdate rn s (count, some b) = ⟨b, share rn (used s.prev b) ((b.now - s.prev.now) / 1000) count⟩ := by
  have e := h.exact
  have e1 := h.time
  unfold macUpdate
  simp only
  rw [if_pos ⟨hu, by omega, h.user, h.system⟩]
  unfold used at e ⊢
  rw [show wrap (b.user - s.prev.user + (b.system - s.prev.system)) = b.system - s.prev.system + (b.user - s.prev.user) by
    unfold wrap; omega]

/-- C130 on macOS, as far as it holds: after every history of polls in which at least a microsecond passed between two
readings, the usage is between 0 and 100; and it is the share of the processors' time, in whole microseconds, that the
process used since the last reading, if the process had used time outside the system by then. -/
theorem mac_usage_partial (rn : Rat → Rat) (hr : Rounding rn) (xs : List (Nat × Option Reading))
    (h : HonestAll 1000 ⟨0, 0, 0⟩ xs) :
    (xs.foldl (macUpdate rn) {}).usage.IsPercentage ∧
    (∀ a b count, (readings xs).getLast? = some a → a.user ≠ 0 → Honest 1000 count a b → b.now - a.now ≤ 2 ^ 53 →
      ((xs ++ [(count, some b)]).foldl (macUpdate rn) {}).usage =
        .num (rn (rn ((100 * used a b : Nat) / ((b.now - a.now) / 1000 : Nat)) / count))) := by
  have pos : ∀ {count : Nat} {a b : Reading}, Honest 1000 count a b → 0 < (b.now - a.now) / 1000 :=
    fun h => Nat.div_pos (by have := h.time; omega) (by decide)
  constructor
  · have go : ∀ (xs : List (Nat × Option Reading)) (s : ProcessState), s.usage.IsPercentage →
        HonestAll 1000 s.prev xs → (xs.foldl (macUpdate rn) s).usage.IsPercentage := by
      intro xs
      induction xs with
      | nil => intro s hs _; exact hs
      | cons x xs ih =>
        intro s hs hx
        rw [List.foldl_cons]
        rcases x with ⟨c, _ | b⟩
        · exact ih s hs hx
        · obtain ⟨h1, h2⟩ := hx
          by_cases hu : s.prev.user = 0
          · refine ih _ ?_ h2
            unfold macUpdate
            simp only
            rw [if_neg (fun h => h.1 hu)]
            exact hs
          · rw [mac_share h1 hu]
            exact ih _ (share_ok hr (pos h1) h1.some h1.used h1.exact.1 h1.exact.2).1 h2
    exact go xs {} ⟨by decide, by decide⟩ h
  · intro a b count ha hu hb ht
    rw [List.foldl_append]
    have hp : (xs.foldl (macUpdate rn) {}).prev = a := by rw [mac_prev, ha]; rfl
    generalize xs.foldl (macUpdate rn) {} = s at hp
    subst hp
    rw [List.foldl_cons, List.foldl_nil, mac_share hb hu]
    exact (share_ok hr (pos hb) hb.some hb.used hb.exact.1 hb.exact.2).2
      (Nat.le_trans (Nat.div_le_self _ _) ht)

/-- C130 fails on macOS:
1. a process that has used no time outside the system is never measured, whatever it uses: its usage stays zero for as
   long as that is so, and for one poll more;
2. two polls less than a microsecond apart: the usage is not a number, or infinite;
3. the time between two polls is cut to whole microseconds: the usage can exceed 100 although no more time was used
   than there was (3 of 3.998 microseconds of two processors are 150 %). -/
theorem mac_usage_violated (rn : Rat → Rat) (hr : Rounding rn) :
    (∀ (xs : List (Nat × Option Reading)) (b : Reading) (c : Nat), (∀ a ∈ readings xs, a.user = 0) →
      ((xs ++ [(c, some b)]).foldl (macUpdate rn) {}).usage = .num 0) ∧
    (∀ (a b : Reading) (c d : Nat), a.user ≠ 0 → a.now < b.now → b.now < a.now + 1000 → a.user ≤ b.user →
      a.system ≤ b.system → ¬ ([(c, some a), (d, some b)].foldl (macUpdate rn) {}).usage.IsPercentage) ∧
    (3 * 1000 ≤ 1999 * 2 ∧ ([(2, some ⟨5000000, 100, 100⟩), (2, some ⟨5001999, 101, 102⟩)].foldl (macUpdate rn) {}).usage
      = .num 150) := by
  refine ⟨fun xs b c h => ?_, fun a b c d h1 h2 h3 h4 h5 => ?_, by decide, ?_⟩
  · have go : ∀ (xs : List (Nat × Option Reading)) (s : ProcessState), s.prev.user = 0 → s.usage = .num 0 →
        (∀ a ∈ readings xs, a.user = 0) →
        (xs.foldl (macUpdate rn) s).usage = .num 0 ∧ (xs.foldl (macUpdate rn) s).prev.user = 0 := by
      intro xs
      induction xs with
      | nil => intro s h1 h2 _; exact ⟨h2, h1⟩
      | cons x xs ih =>
        intro s h1 h2 hx
        rw [List.foldl_cons]
        rcases x with ⟨c, _ | b⟩
        · exact ih s h1 h2 hx
        · have e : readings ((c, some b) :: xs) = b :: readings xs := rfl
          rw [e] at hx
          refine ih _ (hx b (by simp)) ?_ (fun a ha => hx a (List.mem_cons_of_mem _ ha))
          unfold macUpdate
          simp only
          rw [if_neg (fun h => h.1 h1)]
          exact h2
    obtain ⟨g1, g2⟩ := go xs {} rfl rfl h
    rw [List.foldl_append]
    generalize xs.foldl (macUpdate rn) {} = s at g1 g2
    rw [List.foldl_cons, List.foldl_nil]
    unfold macUpdate
    simp only
    rw [if_neg (fun h => h.1 g2)]
    exact g1
  · rw [List.foldl_cons, List.foldl_cons, List.foldl_nil]
    have h0 : (b.now - a.now) / 1000 = 0 := Nat.div_eq_of_lt (by omega)
    unfold macUpdate
    simp only
    rw [if_pos ⟨h1, h2, h4, h5⟩, h0]
    unfold share percent
    rw [if_pos rfl]
    split <;> exact id
  · have n : ∀ k : Nat, k ≤ 2 ^ 53 → rn (k : Rat) = k := hr.exact
    rw [List.foldl_cons, List.foldl_cons, List.foldl_nil]
    have e : (macUpdate rn (macUpdate rn {} (2, some ⟨5000000, 100, 100⟩)) (2, some ⟨5001999, 101, 102⟩)).usage =
        share rn 3 1 2 := by
      have : ∀ u, (macUpdate rn ⟨⟨5000000, 100, 100⟩, u⟩ (2, some ⟨5001999, 101, 102⟩)).usage = share rn 3 1 2 := by
        intro u
        unfold macUpdate
        simp only
        rw [if_pos (by decide)]
        rfl
      exact this _
    rw [e]
    unfold share percent Double.over
    rw [if_neg (by decide)]
    simp only
    rw [if_neg (by decide), n 3 (by decide), n 1 (by decide), n 2 (by decide),
      show (100 * ((3 : Nat) : Rat)) = ((300 : Nat) : Rat) by decide +kernel, n 300 (by decide),
      show ((300 : Nat) : Rat) / ((1 : Nat) : Rat) = ((300 : Nat) : Rat) by decide +kernel, n 300 (by decide),
      show ((300 : Nat) : Rat) / ((2 : Nat) : Rat) = ((150 : Nat) : Rat) by decide +kernel, n 150 (by decide)]
    rfl

example : Honest 1000 2 ⟨5000000, 100, 100⟩ ⟨1005000000, 250100, 250100⟩ ∧
    ([(2, some ⟨5000000, 100, 100⟩), (2, some ⟨1005000000, 250100, 250100⟩)].foldl (macUpdate id) {}).usage = .num 25 :=
  ⟨⟨by decide, by decide, by decide, by decide, by decide, by decide, by decide⟩, by decide +kernel⟩

/-- C130, the whole system on macOS: what C67 says of Linux holds here too, with the same exception. -/
theorem mac_system_usage_partial (rn : Rat → Rat) (hr : Rounding rn) (xs : List (Option Sample))
    (hm : Moving ⟨0, 0, 0, 0⟩ (samples xs)) :
    (xs.foldl (macSystemUpdate rn) .init).usage.IsPercentage ∧
    (∀ x : Sample, ([some x, some x].foldl (macSystemUpdate rn) .init).usage = .nan) := by
  have e : macSystemUpdate rn = Monitor.update rn := by
    funext s x
    cases x with
    | none => rfl
    | some x =>
      unfold macSystemUpdate Monitor.update
      simp only
      by_cases h : x.user ≥ s.prev.user ∧ x.nice ≥ s.prev.nice ∧ x.system ≥ s.prev.system ∧ x.idle ≥ s.prev.idle
      · rw [if_pos h, if_pos ⟨h.1, h.2.2.1, h.2.2.2, h.2.1⟩]
        have : wrap (wrap ((x.user - s.prev.user) + (x.system - s.prev.system)) + (x.nice - s.prev.nice)) =
            wrap (wrap ((x.user - s.prev.user) + (x.nice - s.prev.nice)) + (x.system - s.prev.system)) := by
          unfold wrap; omega
        rw [this]
      · rw [if_neg h, if_neg (fun g => h ⟨g.1, g.2.2.2, g.2.1, g.2.2.1⟩)]
  rw [e]
  exact ⟨cpu_usage_percentage_partial rn hr xs hm, fun x => (cpu_usage_percentage_violated rn x).1⟩

/-- C130: the memory used and the memory free add up to the total on both systems. -/
theorem other_memory_exact (total free page : Nat) (ht : total < 2 ^ 64) :
    (free ≤ total → (winMemory total free).1 = total ∧ (winMemory total free).2 + free = total) ∧
    (free * page ≤ total → (macMemory total free page).1 = total ∧ (macMemory total free page).2 + free * page = total) := by
  constructor
  · intro h
    refine ⟨rfl, ?_⟩
    show minus total free + free = total
    rw [minus_sub ht h]
    omega
  · intro h
    refine ⟨rfl, ?_⟩
    show minus total (wrap (free * page)) + free * page = total
    rw [show wrap (free * page) = free * page from Nat.mod_eq_of_lt (by omega), minus_sub ht h]
    omega

example : macMemory 1000000 3 4096 = (1000000, 987712) := by decide +kernel

end Verif.System
