import Verif.System.PollSpec
import Verif.System.Props

/-!
# C106, C82: the system monitor as a whole
-/

namespace Verif.System

open Verif.Digits (digits digits_dec digits_ne_nil numeral_digits)
open Verif.Str (AsciiDigit numeral digitValue)

/-! ## Lines -/

theorem linesFrom_line (cur l s : List Nat) (h : 0x0a ∉ l) :
    linesFrom cur (l ++ 0x0a :: s) = (cur ++ l) :: linesFrom [] s := by
  induction l generalizing cur with
  | nil => simp [linesFrom]
  | cons c l ih =>
    have hc : c ≠ 0x0a := fun e => h (by simp [e])
    have hl : 0x0a ∉ l := fun e => h (by simp [e])
    rw [List.cons_append, linesFrom, if_neg hc, ih _ hl]
    simp

theorem getlines_unlines (ls : List (List Nat)) (h : ∀ l ∈ ls, 0x0a ∉ l) : getlines (unlines ls) = ls := by
  unfold getlines
  induction ls with
  | nil => rfl
  | cons l ls ih =>
    have e : unlines (l :: ls) = l ++ 0x0a :: unlines ls := by simp [unlines]
    rw [e, linesFrom_line _ _ _ (h l (by simp)), ih fun m hm => h m (by simp [hm])]
    rfl

/-! ## Numbers -/

theorem isBlank_of {c : Nat} (h : c = 0x20 ∨ c = 0x09) : isBlank c = true := by
  rcases h with rfl | rfl <;> rfl

theorem foldl_digits (ds : List Nat) (h : ∀ c ∈ ds, AsciiDigit c) (a : Nat) :
    ds.foldl (fun a c => a * 10 + (c - 0x30)) a = ds.foldl (fun a u => a * 10 + digitValue u) a := by
  induction ds generalizing a with
  | nil => rfl
  | cons c ds ih =>
    have hc := h c (by simp)
    have : digitValue c = c - 0x30 := by
      unfold digitValue
      unfold AsciiDigit at hc
      simp [hc]
    simp only [List.foldl_cons, this]
    exact ih (fun d hd => h d (by simp [hd])) _

theorem span_digits (ds rest : List Nat) (h : ∀ c ∈ ds, AsciiDigit c)
    (hr : ∀ c, rest.head? = some c → ¬ AsciiDigit c) :
    (ds ++ rest).takeWhile (fun c => decide (0x30 ≤ c) && decide (c ≤ 0x39)) = ds ∧
    (ds ++ rest).dropWhile (fun c => decide (0x30 ≤ c) && decide (c ≤ 0x39)) = rest := by
  induction ds with
  | nil =>
    cases rest with
    | nil => simp
    | cons c r =>
      have := hr c rfl
      have : (decide (0x30 ≤ c) && decide (c ≤ 0x39)) = false := by
        simpa [AsciiDigit] using this
      simp only [List.nil_append, List.takeWhile_cons, List.dropWhile_cons, this]
      simp
  | cons c ds ih =>
    have hc : (decide (0x30 ≤ c) && decide (c ≤ 0x39)) = true := by
      simpa [AsciiDigit] using h c (by simp)
    obtain ⟨h1, h2⟩ := ih fun d hd => h d (by simp [hd])
    simp only [List.cons_append, List.takeWhile_cons, List.dropWhile_cons, hc, if_true, h1, h2]
    simp

theorem scan_number (b : List Nat) (hb : Blanks b) (n : Nat) (hn : n < 2 ^ 64) (rest : List Nat)
    (hr : ∀ c, rest.head? = some c → ¬ AsciiDigit c) :
    scanU64 (b ++ (digits 10 n ++ rest)) = some (n, rest) := by
  have hne := digits_ne_nil 10 n
  have hd := digits_dec n
  have drop : (b ++ (digits 10 n ++ rest)).dropWhile isBlank = digits 10 n ++ rest := by
    induction b with
    | nil =>
      cases e : digits 10 n with
      | nil => exact absurd e hne
      | cons c ds =>
        have hc : AsciiDigit c := hd c (by rw [e]; simp)
        have : isBlank c = false := by
          unfold AsciiDigit at hc
          simp [isBlank]; omega
        simp [this]
    | cons c b ih =>
      have hc := isBlank_of (hb c (by simp))
      rw [List.cons_append, List.dropWhile_cons, hc, if_pos rfl]
      exact ih fun d hd => hb d (by simp [hd])
  have hval : (digits 10 n).foldl (fun a c => a * 10 + (c - 0x30)) 0 = n := by
    rw [foldl_digits _ hd]
    exact numeral_digits (by omega) (by omega) n
  obtain ⟨h1, h2⟩ := span_digits (digits 10 n) rest hd hr
  unfold scanU64
  simp only [drop, h1, h2, if_neg hne, hval]
  have : min n (2 ^ 64 - 1) = n := by omega
  rw [this]

theorem blanks_head {b : List Nat} (hb : Blanks b) (hne : b ≠ []) (r : List Nat) :
    ∀ c, (b ++ r).head? = some c → ¬ AsciiDigit c := by
  intro c hc
  cases b with
  | nil => exact absurd rfl hne
  | cons d b =>
    simp at hc
    subst hc
    rcases hb d (by simp) with rfl | rfl <;> simp [AsciiDigit]

theorem scan_total {x : Sample} {l : List Nat} (h : TotalLine x l) : scanCpu l = some x := by
  obtain ⟨b1, b2, b3, b4, u, n, s, i, rest, h1, h2, h3, h4, n1, n2, n3, n4, u1, u2, u3, u4, hr⟩ := h
  have e0 : scanText [0x63, 0x70, 0x75] ([0x63, 0x70, 0x75] ++ b1 ++ digits 10 u ++ b2 ++ digits 10 n ++ b3 ++
      digits 10 s ++ b4 ++ digits 10 i ++ rest) =
      some (b1 ++ (digits 10 u ++ (b2 ++ (digits 10 n ++ (b3 ++ (digits 10 s ++ (b4 ++ (digits 10 i ++ rest)))))))) := by
    simp [scanText, List.isPrefixOf]
  have hr' : ∀ c, rest.head? = some c → ¬ AsciiDigit c := by
    intro c hc
    rcases hr with rfl | ⟨r, rfl⟩
    · simp at hc
    · simp at hc; subst hc; simp [AsciiDigit]
  unfold scanCpu
  rw [e0]
  simp only [Option.bind_eq_bind, Option.bind_some]
  rw [scan_number b1 h1 u u1 _ (blanks_head h2 n2 _)]
  simp only [Option.bind_some]
  rw [scan_number b2 h2 n u2 _ (blanks_head h3 n3 _)]
  simp only [Option.bind_some]
  rw [scan_number b3 h3 s u3 _ (blanks_head h4 n4 _)]
  simp only [Option.bind_some]
  rw [scan_number b4 h4 i u4 _ hr']
  rfl

/-! ## `/proc/stat` -/

theorem cpuCount_append (a b : List (List Nat)) : cpuCount (a ++ b) = cpuCount a + cpuCount b := by
  simp [cpuCount, List.countP_append]

theorem cpuCount_cpus : ∀ cpus : List (List Nat),
    (∀ l ∈ cpus, ∃ c r, l = 0x63 :: 0x70 :: 0x75 :: c :: r ∧ c ≠ 0x20) → cpuCount cpus = cpus.length := by
  intro cpus h
  unfold cpuCount
  rw [List.countP_eq_length]
  intro l hl
  obtain ⟨c, r, rfl, hc⟩ := h l hl
  simp [hc]

theorem cpuCount_others : ∀ ls : List (List Nat),
    (∀ l ∈ ls, ∀ r, l ≠ 0x63 :: 0x70 :: 0x75 :: r) → cpuCount ls = 0 := by
  intro ls h
  unfold cpuCount
  rw [List.countP_eq_zero]
  intro l hl
  split
  · exact absurd rfl (h _ hl _)
  · simp

theorem stat_file {x : Sample} {n : Nat} {f : List Nat} (h : StatFile x n f) :
    cpuCount (getlines f) = n ∧ (getlines f).head?.bind scanCpu = some x := by
  obtain ⟨total, cpus, others, ht, ⟨r, hr⟩, hc, ho, hn⟩ := h
  rw [getlines_unlines _ hn]
  constructor
  · have e : total :: (cpus ++ others) = [total] ++ cpus ++ others := by simp
    rw [e, cpuCount_append, cpuCount_append, cpuCount_cpus cpus hc, cpuCount_others others ho]
    have : cpuCount [total] = 0 := by rw [hr]; rfl
    omega
  · simp [scan_total ht]

/-! ## `/proc/self/status` -/

theorem rss_found (ls : List (List Nat)) (n : Nat) : rssLoop ls (n, true) = (n, true) := by
  cases ls <;> simp [rssLoop]

theorem scanRss_other {l : List Nat} (h : ∀ r, l ≠ [0x56, 0x6d, 0x52, 0x53, 0x53, 0x3a] ++ r) : scanRss l = none := by
  unfold scanRss scanText
  have : ([0x56, 0x6d, 0x52, 0x53, 0x53, 0x3a] : List Nat).isPrefixOf l = false := by
    cases e : ([0x56, 0x6d, 0x52, 0x53, 0x53, 0x3a] : List Nat).isPrefixOf l with
    | false => rfl
    | true =>
      rw [List.isPrefixOf_iff_prefix] at e
      obtain ⟨r, hr⟩ := e
      exact absurd hr.symm (h r)
  simp [this]

theorem rss_lines (before after : List (List Nat)) (n : Nat) (line : List Nat) (hline : scanRss line = some n)
    (hb : ∀ l ∈ before, ∀ r, l ≠ [0x56, 0x6d, 0x52, 0x53, 0x53, 0x3a] ++ r) :
    rssLoop (before ++ line :: after) (0, false) = (n, true) := by
  induction before with
  | nil => simp [rssLoop, hline, rss_found]
  | cons l ls ih =>
    rw [List.cons_append, rssLoop, if_neg (by simp), scanRss_other (hb l (by simp))]
    exact ih fun m hm => hb m (by simp [hm])

theorem status_file {n : Nat} {f : List Nat} (h : StatusFile n f) (old : Nat) :
    storeRss old f = if n = 0 then old else n * 1024 % 2 ^ 64 := by
  obtain ⟨b, before, after, hn, hb, hbef, hnl⟩ := h
  have hd := digits_dec n
  have line : scanRss ([0x56, 0x6d, 0x52, 0x53, 0x53, 0x3a] ++ b ++ digits 10 n ++ [0x20, 0x6b, 0x42]) = some n := by
    unfold scanRss
    have : scanText [0x56, 0x6d, 0x52, 0x53, 0x53, 0x3a] ([0x56, 0x6d, 0x52, 0x53, 0x53, 0x3a] ++ b ++ digits 10 n ++
        [0x20, 0x6b, 0x42]) = some (b ++ (digits 10 n ++ [0x20, 0x6b, 0x42])) := by
      simp [scanText, List.isPrefixOf]
    rw [this]
    simp only [Option.bind_eq_bind, Option.bind_some]
    rw [scan_number b hb n hn _ (by intro c hc; simp at hc; subst hc; simp [AsciiDigit])]
    rfl
  unfold storeRss
  rw [getlines_unlines _ (by
    intro l hl
    rw [List.mem_append, List.mem_cons] at hl
    rcases hl with hl | rfl | hl
    · exact hnl l (by simp [hl])
    · intro hm
      simp only [List.mem_append] at hm
      rcases hm with ((hm | hm) | hm) | hm
      · simp at hm
      · rcases hb _ hm with e | e <;> simp at e
      · have := hd _ hm
        simp [AsciiDigit] at this
      · simp at hm
    · exact hnl l (by simp [hl])), rss_lines before after n _ line hbef]
  simp only [wrap, Nat.shiftLeft_eq]

/-! ## The monitor -/

theorem storeCount_pos {old : Nat} (h : 0 < old) (ls : List (List Nat)) : 0 < storeCount old ls :=
  cpu_count_positive old h ls

theorem polls_append (rn : Rat → Rat) (s : Watch) (rs : List Report) (r : Report) :
    polls rn s (rs ++ [r]) = (polls rn s rs).poll rn r true := by
  simp [polls, List.foldl_append]

theorem polls_armed (rn : Rat → Rat) {s : Watch} (h : 0 < s.count) (ha : s.armed = true) (rs : List Report) :
    0 < (polls rn s rs).count ∧ (polls rn s rs).armed = true := by
  induction rs generalizing s with
  | nil => exact ⟨h, ha⟩
  | cons r rs ih =>
    have hp := storeCount_pos h (getlines r.stat1)
    have e : polls rn s (r :: rs) = polls rn (s.poll rn r true) rs := rfl
    rw [e]
    apply ih
    · simp only [Watch.poll, ha, if_true]; exact hp
    · simp only [Watch.poll, ha, if_true, Bool.and_true, decide_eq_true_eq]; exact hp

/-- C106: a monitor exists exactly if processors were counted and its task was accepted; before its first poll it
reports the number of processors and zero for everything else; and whatever is read later, it always knows a positive
number of processors and is always queued for another poll (as long as the task runner accepts it). -/
theorem system_monitor_alive (rn : Rat → Rat) (stat : List Nat) (accepted : Bool) :
    (create stat accepted = none ↔ cpuCount (getlines stat) = 0 ∨ accepted = false) ∧
    ∀ s, create stat accepted = some s →
      s.count = cpuCount (getlines stat) ∧ s.cpu.usage = .num 0 ∧ s.proc.usage = .num 0 ∧ s.total = 0 ∧ s.used = 0 ∧
      s.rss = 0 ∧ ∀ rs, 0 < (polls rn s rs).count ∧ (polls rn s rs).armed = true := by
  have hc : storeCount 0 (getlines stat) = cpuCount (getlines stat) := by
    unfold storeCount; split <;> omega
  unfold create
  simp only [hc]
  constructor
  · split
    · rename_i h
      simp only [reduceCtorEq, false_iff, not_or]
      exact ⟨by omega, by simp [h.2]⟩
    · rename_i h
      simp only [true_iff]
      cases accepted with
      | false => exact .inr rfl
      | true => exact .inl (by simp at h; omega)
  · intro s hs
    split at hs
    · rename_i h
      cases hs
      exact ⟨rfl, rfl, rfl, rfl, rfl, rfl, polls_armed rn h.1 rfl⟩
    · cases hs

/-- C106: after a poll, every value reported is what the kernel's files said at that poll. -/
theorem system_monitor_reports (rn : Rat → Rat) {stat : List Nat} {s : Watch} (hs : create stat true = some s)
    (rs : List Report) (r : Report) {x y : Sample} {n m k : Nat} (h1 : StatFile x n r.stat1) (hn : 0 < n)
    (h2 : StatFile y m r.stat2) (h3 : StatusFile k r.status) (hk : 0 < k) (hk' : k < 2 ^ 54) {t f u : Nat}
    (h4 : r.sysinfo = some (t, f, u)) (ht : t * u < 2 ^ 64) (hf : f ≤ t) :
    (polls rn s (rs ++ [r])).count = n ∧
    (polls rn s (rs ++ [r])).cpu = (polls rn s rs).cpu.update rn (some y) ∧
    (polls rn s (rs ++ [r])).proc = (polls rn s rs).proc.update rn n r.times ∧
    (polls rn s (rs ++ [r])).total = t * u ∧
    (polls rn s (rs ++ [r])).used + f * u = t * u ∧
    (polls rn s (rs ++ [r])).rss = k * 1024 := by
  have ha := (((system_monitor_alive rn stat true).2 s hs).2.2.2.2.2.2 rs).2
  obtain ⟨a1, a2⟩ := stat_file h1
  obtain ⟨b1, b2⟩ := stat_file h2
  have hc : ∀ old, storeCount old (getlines r.stat1) = n := by
    intro old
    unfold storeCount
    rw [a1, if_neg (by omega)]
  obtain ⟨m1, m2⟩ := memory_usage_exact t f u ht hf
  rw [polls_append]
  simp only [Watch.poll, ha, if_true, h4, hc, b2]
  refine ⟨trivial, trivial, trivial, m1, m2, ?_⟩
  rw [status_file h3, if_neg (by omega), Nat.mod_eq_of_lt (by omega)]

/-- C106: a reading that fails leaves the value of the last one that did not; the others are not affected. -/
theorem system_monitor_failed_readings (rn : Rat → Rat) {stat : List Nat} {s : Watch}
    (hs : create stat true = some s) (rs : List Report) (r : Report) :
    (cpuCount (getlines r.stat1) = 0 → (polls rn s (rs ++ [r])).count = (polls rn s rs).count) ∧
    (r.stat2 = [] → (polls rn s (rs ++ [r])).cpu = (polls rn s rs).cpu) ∧
    (r.times.now = -1 → (polls rn s (rs ++ [r])).proc = (polls rn s rs).proc) ∧
    (r.sysinfo = none → (polls rn s (rs ++ [r])).total = (polls rn s rs).total ∧
      (polls rn s (rs ++ [r])).used = (polls rn s rs).used) ∧
    (r.status = [] → (polls rn s (rs ++ [r])).rss = (polls rn s rs).rss) := by
  have ha := (((system_monitor_alive rn stat true).2 s hs).2.2.2.2.2.2 rs).2
  rw [polls_append]
  simp only [Watch.poll, ha, if_true]
  refine ⟨?_, ?_, ?_, ?_, ?_⟩
  · intro h; simp [storeCount, h]
  · intro h; simp [h, getlines, linesFrom, Monitor.update]
  · intro h; simp [Process.update, h]
  · intro h; simp [h]
  · intro h; simp [h, storeRss, getlines, linesFrom, rssLoop]

/-- C82: the usage of the process is a percentage after every history of polls, if at each the process is found to have
used no more time than the processors had; it is never divided by zero. -/
theorem process_usage_history (rn : Rat → Rat) (hr : Rounding rn) {stat : List Nat} {s : Watch}
    (hs : create stat true = some s) (rs : List Report)
    (hf : ∀ p r q, rs = p ++ r :: q → FairPoll (polls rn s p).proc (polls rn s (p ++ [r])).count r.times) :
    (polls rn s rs).proc.usage.IsPercentage := by
  induction hl : rs.length generalizing rs with
  | zero =>
    have : rs = [] := List.length_eq_zero_iff.mp hl
    subst this
    have : s.proc.usage = .num 0 := ((system_monitor_alive rn stat true).2 s hs).2.2.1
    show s.proc.usage.IsPercentage
    rw [this]
    exact ⟨by decide, by decide⟩
  | succ n ih =>
    rcases List.eq_nil_or_concat rs with rfl | ⟨p, r, rfl⟩
    · simp at hl
    · rw [List.concat_eq_append] at hl hf ⊢
      have hp := ih p (fun p' r' q' e => hf p' r' (q' ++ [r]) (by rw [e]; simp)) (by simpa using hl)
      obtain ⟨f1, f2, f3⟩ := hf p r [] rfl
      have al := (system_monitor_alive rn stat true).2 s hs
      have ha := (al.2.2.2.2.2.2 p).2
      have hpos := (al.2.2.2.2.2.2 (p ++ [r])).1
      have e : (polls rn s (p ++ [r])).proc =
          (polls rn s p).proc.update rn (polls rn s (p ++ [r])).count r.times := by
        rw [polls_append]
        simp only [Watch.poll, ha, if_true]
      rw [e]
      exact process_usage_percentage rn hr _ hpos _ hp _ f1 f2 f3

theorem proc_last (rn : Rat → Rat) {stat : List Nat} {s : Watch} (hs : create stat true = some s) (rs : List Report) :
    (polls rn s rs).proc.stime = (lastTimes rs).stime ∧ (polls rn s rs).proc.utime = (lastTimes rs).utime ∧
      (polls rn s rs).proc.time = (lastTimes rs).now := by
  induction hl : rs.length generalizing rs with
  | zero =>
    have : rs = [] := List.length_eq_zero_iff.mp hl
    subst this
    simp only [create] at hs
    split at hs
    · cases hs; exact ⟨rfl, rfl, rfl⟩
    · cases hs
  | succ n ih =>
    rcases List.eq_nil_or_concat rs with rfl | ⟨p, r, rfl⟩
    · simp at hl
    · rw [List.concat_eq_append] at hl ⊢
      have hp := ih p (by simpa using hl)
      have ha := (((system_monitor_alive rn stat true).2 s hs).2.2.2.2.2.2 p).2
      rw [polls_append]
      simp only [Watch.poll, ha, if_true]
      unfold Process.update lastTimes
      by_cases h : r.times.now = -1
      · rw [if_pos h]
        simpa [lastTimes, h] using hp
      · rw [if_neg h]
        have hb : (r.times.now != -1) = true := by simpa using h
        simp [hb]

/-- C82: the usage computed at a poll is the share of the processors' time since the last successful poll (since zero
for the first) that the process used, rounded twice. -/
theorem process_usage_value (rn : Rat → Rat) (hr : Rounding rn) {stat : List Nat} {s : Watch}
    (hs : create stat true = some s) (rs : List Report) (r : Report) {cpu time n : Nat} (hn : r.times.now ≠ -1)
    (h1 : (lastTimes rs).stime ≤ r.times.stime) (h2 : (lastTimes rs).utime ≤ r.times.utime)
    (hcpu : (r.times.stime - (lastTimes rs).stime) + (r.times.utime - (lastTimes rs).utime) = (cpu : Int))
    (htime : r.times.now - (lastTimes rs).now = (time : Int)) (ht : 0 < time)
    (hc : (polls rn s (rs ++ [r])).count = n) (b1 : 100 * cpu ≤ 2 ^ 53) (b2 : time ≤ 2 ^ 53) (b3 : n ≤ 2 ^ 53) :
    (polls rn s (rs ++ [r])).proc.usage = .num (rn (rn ((100 * cpu : Nat) / (time : Rat)) / (n : Rat))) := by
  obtain ⟨l1, l2, l3⟩ := proc_last rn hs rs
  have ha := (((system_monitor_alive rn stat true).2 s hs).2.2.2.2.2.2 rs).2
  have e : (polls rn s (rs ++ [r])).proc = (polls rn s rs).proc.update rn n r.times := by
    rw [← hc, polls_append]
    simp only [Watch.poll, ha, if_true]
  rw [e]
  unfold Process.update
  rw [if_neg hn]
  simp only [l1, l2, l3]
  rw [if_pos ⟨by omega, h1, h2⟩, hcpu, htime]
  have c1 : (((cpu : Int)) : Rat) = (cpu : Rat) := rfl
  have c2 : (((time : Int)) : Rat) = (time : Rat) := rfl
  have r4 : rn (100 * (cpu : Rat)) = (100 * cpu : Nat) := by
    have : (100 * (cpu : Rat)) = ((100 * cpu : Nat) : Rat) := by rw [Rat.natCast_mul]; rfl
    rw [this]; exact hr.exact _ b1
  rw [c1, c2, hr.exact cpu (by omega), hr.exact time b2, hr.exact n b3, r4]

/-! ## Examples -/

/-- `cpu  10 20 30 40 5`, `cpu0 1`, `cpu1 2`, `intr 7`. -/
def exStat : List Nat := unlines [[0x63, 0x70, 0x75, 0x20, 0x20, 0x31, 0x30, 0x20, 0x32, 0x30, 0x20, 0x33, 0x30, 0x20, 0x34, 0x30, 0x20, 0x35],
  [0x63, 0x70, 0x75, 0x30, 0x20, 0x31], [0x63, 0x70, 0x75, 0x31, 0x20, 0x32], [0x69, 0x6e, 0x74, 0x72, 0x20, 0x37]]

example : StatFile ⟨10, 20, 30, 40⟩ 2 exStat := by
  have d1 : digits 10 10 = [0x31, 0x30] := by decide +kernel
  have d2 : digits 10 20 = [0x32, 0x30] := by decide +kernel
  have d3 : digits 10 30 = [0x33, 0x30] := by decide +kernel
  have d4 : digits 10 40 = [0x34, 0x30] := by decide +kernel
  have ht := TotalLine.mk [0x20, 0x20] [0x20] [0x20] [0x20] 10 20 30 40 [0x20, 0x35] (by simp [Blanks]) (by simp [Blanks])
    (by simp [Blanks]) (by simp [Blanks]) (by simp) (by simp) (by simp) (by simp) (by omega) (by omega) (by omega) (by omega)
    (.inr ⟨_, rfl⟩)
  rw [d1, d2, d3, d4] at ht
  exact StatFile.mk _ _ [[0x63, 0x70, 0x75, 0x30, 0x20, 0x31], [0x63, 0x70, 0x75, 0x31, 0x20, 0x32]] [[0x69, 0x6e, 0x74, 0x72, 0x20, 0x37]]
    ht ⟨_, rfl⟩ (by simp) (by simp) (by simp)

/-- `Name: a`, `VmRSS: 12 kB`, `Threads: 1`. -/
def exStatus : List Nat := unlines [[0x4e, 0x61, 0x6d, 0x65, 0x3a, 0x20, 0x61],
  [0x56, 0x6d, 0x52, 0x53, 0x53, 0x3a, 0x20, 0x31, 0x32, 0x20, 0x6b, 0x42], [0x54, 0x3a, 0x20, 0x31]]

example : StatusFile 12 exStatus := by
  have d : digits 10 12 = [0x31, 0x32] := by decide +kernel
  have := StatusFile.mk 12 [0x20] [[0x4e, 0x61, 0x6d, 0x65, 0x3a, 0x20, 0x61]] [[0x54, 0x3a, 0x20, 0x31]] (by omega) (by simp [Blanks])
    (by simp) (by simp)
  rw [d] at this
  exact this

/-- A monitor, polled once. -/
example : (create exStat true).isSome = true ∧ ∃ s, create exStat true = some s ∧
    (polls id s [⟨exStat, exStat, ⟨1000, 5, 15⟩, some (100, 40, 4096), exStatus⟩]).rss = 12288 ∧
    (polls id s [⟨exStat, exStat, ⟨1000, 5, 15⟩, some (100, 40, 4096), exStatus⟩]).proc.usage = .num 1 := by
  refine ⟨by decide +kernel, ⟨2, .init, .init, 0, 0, 0, true⟩, rfl, by decide +kernel, by decide +kernel⟩

end Verif.System
