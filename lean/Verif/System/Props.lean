import Verif.System.Spec

/-!
# The system monitor: the properties
-/

namespace Verif.System

theorem div_le_iff {a b c : Rat} (hb : 0 < b) : a / b ≤ c ↔ a ≤ c * b := by
  rw [← Rat.not_lt, Rat.lt_div_iff hb, Rat.not_lt]

theorem le_div_iff {a b c : Rat} (hc : 0 < c) : a ≤ b / c ↔ a * c ≤ b := by
  rw [← Rat.not_lt, Rat.div_lt_iff hc, Rat.not_lt]

/-! ## C67: the processor usage is a percentage -/

theorem percent_ok {rn : Rat → Rat} (hr : Rounding rn) {x y : Nat} (hx : x ≤ y) (hy : 0 < y) (hb : y ≤ 2 ^ 46) :
    percent rn x y = .num (rn ((100 * x : Nat) / (y : Rat))) ∧ (percent rn x y).IsPercentage := by
  have e1 : rn (x : Rat) = x := hr.exact x (by omega)
  have e2 : rn (y : Rat) = y := hr.exact y (by omega)
  have e3 : rn (100 * (x : Rat)) = (100 * x : Nat) := by
    have : (100 * (x : Rat)) = ((100 * x : Nat) : Rat) := by rw [Rat.natCast_mul]; rfl
    rw [this]; exact hr.exact _ (by omega)
  have hy' : (0 : Rat) < y := by exact_mod_cast hy
  have hp : percent rn x y = .num (rn ((100 * x : Nat) / (y : Rat))) := by
    unfold percent
    rw [if_neg (by omega), e1, e2, e3]
  refine ⟨hp, ?_⟩
  rw [hp]
  have h0 : (0 : Rat) ≤ (100 * x : Nat) / (y : Rat) := by
    rw [le_div_iff hy', Rat.zero_mul]; exact_mod_cast Nat.zero_le _
  have h1 : ((100 * x : Nat) : Rat) / (y : Rat) ≤ (100 : Nat) := by
    rw [div_le_iff hy', ← Rat.natCast_mul]
    exact_mod_cast Nat.mul_le_mul_left 100 hx
  constructor
  · have := hr.mono _ _ h0
    rw [show (0 : Rat) = ((0 : Nat) : Rat) from rfl, hr.exact 0 (by decide)] at this
    exact this
  · have := hr.mono _ _ h1
    rw [hr.exact 100 (by decide)] at this
    exact this

theorem update_ok {rn : Rat → Rat} (hr : Rounding rn) (s : Monitor) (hs : s.usage.IsPercentage) (x : Sample)
    (hm : grew s.prev x → 0 < growth s.prev x ∧ growth s.prev x ≤ 2 ^ 46) :
    (s.update rn (some x)).usage.IsPercentage ∧ (s.update rn (some x)).prev = x ∧
      (grew s.prev x → (s.update rn (some x)).usage = .num (rn ((100 * (growth s.prev x - (x.idle - s.prev.idle)) : Nat) / (growth s.prev x : Rat)))) := by
  unfold Monitor.update
  simp only []
  split
  · rename_i hg
    obtain ⟨h1, h2⟩ := hm ⟨hg.1, hg.2.1, hg.2.2.1, hg.2.2.2⟩
    unfold growth at h1 h2 ⊢
    have e1 : wrap (wrap ((x.user - s.prev.user) + (x.nice - s.prev.nice)) + (x.system - s.prev.system)) =
        (x.user - s.prev.user) + (x.nice - s.prev.nice) + (x.system - s.prev.system) := by unfold wrap; omega
    have e2 : wrap ((x.user - s.prev.user) + (x.nice - s.prev.nice) + (x.system - s.prev.system) + (x.idle - s.prev.idle)) =
        (x.user - s.prev.user) + (x.nice - s.prev.nice) + (x.system - s.prev.system) + (x.idle - s.prev.idle) := by unfold wrap; omega
    rw [e1, e2]
    obtain ⟨p1, p2⟩ := percent_ok hr (x := (x.user - s.prev.user) + (x.nice - s.prev.nice) + (x.system - s.prev.system))
      (Nat.le_add_right _ (x.idle - s.prev.idle)) h1 h2
    refine ⟨p2, rfl, fun _ => ?_⟩
    simp only []
    rw [p1, Nat.add_sub_cancel]
  · rename_i hg
    exact ⟨hs, rfl, fun h => absurd ⟨h.1, h.2.1, h.2.2.1, h.2.2.2⟩ hg⟩

theorem run_ok {rn : Rat → Rat} (hr : Rounding rn) (xs : List (Option Sample)) : ∀ s : Monitor, s.usage.IsPercentage →
    Moving s.prev (samples xs) → (xs.foldl (Monitor.update rn) s).usage.IsPercentage := by
  induction xs with
  | nil => intro s hs _; exact hs
  | cons x xs ih =>
    intro s hs hm
    cases x with
    | none => exact ih s hs hm
    | some x =>
      have hm : (grew s.prev x → 0 < growth s.prev x ∧ growth s.prev x ≤ 2 ^ 46) ∧ Moving x (samples xs) := hm
      obtain ⟨h1, h2, _⟩ := update_ok hr s hs x hm.1
      exact ih _ h1 (by rw [h2]; exact hm.2)

/-- C67, as far as it holds: after every history of samples, also with failed reads and decreasing counters, the usage is
between 0 and 100, if the counters do not stand still between two samples. -/
theorem cpu_usage_percentage_partial (rn : Rat → Rat) (hr : Rounding rn) (xs : List (Option Sample))
    (hm : Moving ⟨0, 0, 0, 0⟩ (samples xs)) : (run rn xs).usage.IsPercentage :=
  run_ok hr xs .init ⟨by decide, by decide⟩ hm

/-- The value is the share of the time that was not idle, rounded once. -/
theorem cpu_usage_value_partial (rn : Rat → Rat) (hr : Rounding rn) (xs : List (Option Sample)) (a b : Sample)
    (ha : (run rn xs).prev = a) (hg : grew a b) (h0 : 0 < growth a b) (h1 : growth a b ≤ 2 ^ 46) :
    (run rn (xs ++ [some b])).usage = .num (rn ((100 * ((b.user - a.user) + (b.nice - a.nice) + (b.system - a.system)) : Nat) /
      ((b.user - a.user) + (b.nice - a.nice) + (b.system - a.system) + (b.idle - a.idle) : Nat))) := by
  unfold run at ha ⊢
  rw [List.foldl_append]
  show (Monitor.update rn _ (some b)).usage = _
  generalize xs.foldl (Monitor.update rn) .init = s at ha ⊢
  subst ha
  obtain ⟨g1, g2, g3, g4⟩ := hg
  unfold growth at h0 h1
  have e1 : wrap (wrap ((b.user - s.prev.user) + (b.nice - s.prev.nice)) + (b.system - s.prev.system)) =
      (b.user - s.prev.user) + (b.nice - s.prev.nice) + (b.system - s.prev.system) := by unfold wrap; omega
  have e2 : wrap ((b.user - s.prev.user) + (b.nice - s.prev.nice) + (b.system - s.prev.system) + (b.idle - s.prev.idle)) =
      (b.user - s.prev.user) + (b.nice - s.prev.nice) + (b.system - s.prev.system) + (b.idle - s.prev.idle) := by unfold wrap; omega
  unfold Monitor.update
  simp only []
  rw [if_pos ⟨g1, g2, g3, g4⟩, e1, e2]
  exact (percent_ok hr (Nat.le_add_right _ _) h0 h1).1

/-- Three samples, one of them failed: 30 of 40 units were active. -/
example : Moving ⟨0, 0, 0, 0⟩ (samples [some ⟨1000, 0, 500, 8500⟩, none, some ⟨1020, 3, 507, 8510⟩]) ∧
    (run id [some ⟨1000, 0, 500, 8500⟩, none, some ⟨1020, 3, 507, 8510⟩]).usage = .num 75 := by
  constructor
  · simp [samples, Moving, grew, growth]
  · decide +kernel

/-- C67 fails if two samples are equal, as when the monitor polls more often than the kernel counts: the usage
is then not a number. -/
theorem cpu_usage_percentage_violated (rn : Rat → Rat) (x : Sample) :
    (run rn [some x, some x]).usage = .nan ∧ ¬ (run rn [some x, some x]).usage.IsPercentage := by
  have h : (run rn [some x, some x]).usage = .nan := by
    have e : ((run rn [some x])).prev = x := by simp [run, Monitor.update, Monitor.init]
    show (Monitor.update rn (run rn [some x]) (some x)).usage = _
    unfold Monitor.update
    rw [e]
    simp [wrap, percent]
  exact ⟨h, by rw [h]; exact id⟩

/-! ## C82: the usage of the process -/

/-- C82: after any update the usage of the process is between 0 and 100 if it was before, provided that the process did not use more
time than the processors had. -/
theorem process_usage_percentage (rn : Rat → Rat) (hr : Rounding rn) (count : Nat) (hc : 0 < count) (s : Process)
    (hs : s.usage.IsPercentage) (x : Times) (ht : x.now > s.time → x.now - s.time ≤ 2 ^ 53)
    (hu : x.stime ≥ s.stime → x.utime ≥ s.utime →
      (x.stime - s.stime) + (x.utime - s.utime) ≤ (x.now - s.time) * count ∧ 100 * ((x.stime - s.stime) + (x.utime - s.utime)) ≤ 2 ^ 53)
    (hb : 100 * count ≤ 2 ^ 53) : (s.update rn count x).usage.IsPercentage := by
  unfold Process.update
  split
  · exact hs
  · simp only []
    split
    · rename_i h
      obtain ⟨h1, h2, h3⟩ := h
      obtain ⟨hu1, hu2⟩ := hu h2 h3
      have ht1 := ht h1
      obtain ⟨cpu, hcpu⟩ : ∃ n : Nat, (x.stime - s.stime) + (x.utime - s.utime) = (n : Int) := ⟨((x.stime - s.stime) + (x.utime - s.utime)).toNat, by omega⟩
      obtain ⟨time, htime⟩ : ∃ n : Nat, x.now - s.time = (n : Int) := ⟨(x.now - s.time).toNat, by omega⟩
      have e1 : ((((x.stime - s.stime) + (x.utime - s.utime) : Int)) : Rat) = (cpu : Rat) := by rw [hcpu]; rfl
      have e2 : (((x.now - s.time : Int)) : Rat) = (time : Rat) := by rw [htime]; rfl
      rw [hcpu] at hu1 hu2
      rw [htime] at hu1 ht1
      have htp : 0 < time := by omega
      have hcb : 100 * cpu ≤ 2 ^ 53 := by omega
      have hct : cpu ≤ time * count := by exact_mod_cast hu1
      rw [e1, e2]
      have r1 : rn (cpu : Rat) = cpu := hr.exact cpu (by omega)
      have r2 : rn (time : Rat) = time := hr.exact time (by omega)
      have r3 : rn (count : Rat) = count := hr.exact count (by omega)
      have r4 : rn (100 * (cpu : Rat)) = (100 * cpu : Nat) := by
        have : (100 * (cpu : Rat)) = ((100 * cpu : Nat) : Rat) := by rw [Rat.natCast_mul]; rfl
        rw [this]; exact hr.exact _ hcb
      rw [r1, r2, r3, r4]
      have ptime : (0 : Rat) < time := by exact_mod_cast htp
      have pcount : (0 : Rat) < count := by exact_mod_cast hc
      have z : rn 0 = 0 := by
        have := hr.exact 0 (by decide)
        exact this
      have a0 : (0 : Rat) ≤ rn ((100 * cpu : Nat) / (time : Rat)) := by
        rw [← z]
        apply hr.mono
        rw [le_div_iff ptime, Rat.zero_mul]; exact_mod_cast Nat.zero_le _
      have a1 : rn ((100 * cpu : Nat) / (time : Rat)) ≤ (100 * count : Nat) := by
        rw [← hr.exact (100 * count) hb]
        apply hr.mono
        rw [div_le_iff ptime, ← Rat.natCast_mul]
        have : 100 * cpu ≤ 100 * count * time := by
          rw [Nat.mul_assoc, Nat.mul_comm count time]; exact Nat.mul_le_mul_left 100 hct
        exact_mod_cast this
      constructor
      · rw [← z]
        apply hr.mono
        rw [le_div_iff pcount, Rat.zero_mul]; exact a0
      · have e : (100 : Rat) = ((100 : Nat) : Rat) := rfl
        rw [e, ← hr.exact 100 (by decide)]
        apply hr.mono
        rw [div_le_iff pcount, ← Rat.natCast_mul]
        exact a1
    · exact hs

/-- A second in which a process used 1.5 of 4 processors. -/
example : (Process.update id 4 ⟨10, 20, 1000, .num 0⟩ ⟨1100, 60, 120⟩).usage = .num (75 / 2) := by decide +kernel

/-! ## C83: memory and processor count -/

/-- C83: if the amounts of memory fit in 64 bits and no more is free than there is, the memory used and the memory free add up to the
total. -/
theorem memory_usage_exact (totalram freeram memUnit : Nat) (hb : totalram * memUnit < 2 ^ 64) (hf : freeram ≤ totalram) :
    (memory totalram freeram memUnit).1 = totalram * memUnit ∧
      (memory totalram freeram memUnit).2 + freeram * memUnit = totalram * memUnit := by
  have h : freeram * memUnit ≤ totalram * memUnit := Nat.mul_le_mul_right _ hf
  unfold memory wrap
  simp only []
  rw [Nat.mod_eq_of_lt (a := totalram * memUnit) hb, Nat.mod_eq_of_lt (a := freeram * memUnit) (by omega)]
  constructor
  · rfl
  · omega

/-- A line of `/proc/stat` for one processor: `cpu`, not followed by a space or the end. -/
def IsCpuLine (l : List Nat) : Prop := ∃ c rest, l = 0x63 :: 0x70 :: 0x75 :: c :: rest ∧ c ≠ 0x20

/-- The lines of processors. -/
noncomputable def cpuLines (lines : List (List Nat)) : List (List Nat) := by
  classical exact lines.filter fun l => decide (IsCpuLine l)

/-- C83: the number of processors is the number of their lines. -/
theorem cpu_count_exact (lines : List (List Nat)) : cpuCount lines = (cpuLines lines).length := by
  classical
  unfold cpuCount cpuLines
  rw [List.countP_eq_length_filter]
  congr 1
  apply List.filter_congr
  intro l _
  split
  · rename_i c rest _
    rw [Bool.eq_iff_iff, decide_eq_true_iff]
    simp only [bne_iff_ne]
    constructor
    · intro h; exact ⟨c, rest, rfl, h⟩
    · rintro ⟨_, _, h, hc⟩; cases h; exact hc
  · rename_i hno
    rw [Bool.eq_iff_iff, decide_eq_true_iff]
    constructor
    · intro h; cases h
    · rintro ⟨c, rest, rfl, _⟩; exact absurd rfl (hno c rest)

/-- Once known, the number of processors never becomes zero again (so the usage of the process is never divided by
zero). -/
theorem cpu_count_positive (old : Nat) (h : 0 < old) (lines : List (List Nat)) : 0 < storeCount old lines := by
  unfold storeCount
  split
  · exact h
  · omega

/-- `cpu  1`, `cpu0 1`, `cpu1 1`, `intr`. -/
example : cpuCount [[0x63, 0x70, 0x75, 0x20, 0x20, 0x31], [0x63, 0x70, 0x75, 0x30, 0x20, 0x31], [0x63, 0x70, 0x75, 0x31, 0x20, 0x31],
    [0x69, 0x6e, 0x74, 0x72]] = 2 := by decide

end Verif.System
