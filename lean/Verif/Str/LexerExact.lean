import Verif.Str.Props

/-! # Number scanning on every text: C23 -/

namespace Verif.Str

/-! ## Specification -/

/-- The value of a code unit as a number of its character type. -/
def unitValue (k : CharKind) (u : Nat) : Int :=
  if k.signed = true ∧ 2 ^ (k.width - 1) ≤ u then (u : Int) - 2 ^ k.width else u

/-- What the scanner takes for a digit: the decimal digits, and every negative character. -/
def TakenDigit (k : CharKind) (u : Nat) : Prop := AsciiDigit u ∨ unitValue k u < 0

/-- The same for hexadecimal digits. -/
def TakenHex (k : CharKind) (u : Nat) : Prop := AsciiHex u ∨ unitValue k u < 0

/-- What it takes for the value of a digit: the distance from `0`, or ten plus the distance from `a` or `A`. -/
def takenValue (k : CharKind) (u : Nat) : Int :=
  if 0x41 ≤ u ∧ u ≤ 0x46 then u - 0x41 + 10
  else if 0x61 ≤ u ∧ u ≤ 0x66 then u - 0x61 + 10
  else unitValue k u - 0x30

/-- The number a run of such digits is read as: positional, in 64 bits. -/
def wrapped (k : CharKind) (base : Nat) (run : List Nat) : Nat :=
  (run.foldl (fun a u => a * base + takenValue k u) (0 : Int) % 2 ^ 64).toNat

instance (k : CharKind) (u : Nat) : Decidable (TakenDigit k u) := by unfold TakenDigit; infer_instance
instance (k : CharKind) (u : Nat) : Decidable (TakenHex k u) := by unfold TakenHex; infer_instance

/-! ## Proof -/

theorem unitValue_neg (k : CharKind) (u : Nat) (hu : u < 2 ^ k.width) :
    unitValue k u < 0 ↔ k.neg u = true := by
  unfold unitValue CharKind.neg
  have h2 : ((2 ^ k.width : Nat) : Int) = 2 ^ k.width := by simp
  by_cases h : k.signed = true ∧ 2 ^ (k.width - 1) ≤ u
  · rw [if_pos h]
    simp only [h.1, h.2, decide_true, Bool.and_self, iff_true]
    omega
  · rw [if_neg h]
    constructor
    · intro h'; omega
    · intro h'
      simp only [Bool.and_eq_true, decide_eq_true_eq] at h'
      exact absurd h' h

theorem isDigit_taken (k : CharKind) (hk : IsCharKind k) (u : Nat) (hu : u < 2 ^ k.width) :
    k.isDigit u = decide (TakenDigit k u) := by
  rw [Bool.eq_iff_iff, (classify_digits k hk u hu).1, decide_eq_true_iff]
  unfold TakenDigit
  rw [unitValue_neg k u hu]

theorem isXDigit_taken (k : CharKind) (hk : IsCharKind k) (u : Nat) (hu : u < 2 ^ k.width) :
    k.isXDigit u = decide (TakenHex k u) := by
  rw [Bool.eq_iff_iff, (classify_digits k hk u hu).2, decide_eq_true_iff]
  unfold TakenHex
  rw [unitValue_neg k u hu]

theorem digitOf_value (k : CharKind) (hk : IsCharKind k) (u : Nat) (hu : u < 2 ^ k.width) :
    ((k.digitOf u : Nat) : Int) = (unitValue k u - 0x30) % 2 ^ 64 := by
  unfold CharKind.digitOf unitValue CharKind.neg
  have hw : k.width ≤ 32 := by cases hk <;> decide
  have hp : 2 ^ k.width ≤ 2 ^ 32 := Nat.pow_le_pow_right (by decide) hw
  have h2 : ((2 ^ k.width : Nat) : Int) = 2 ^ k.width := by simp
  by_cases h : k.signed = true ∧ 2 ^ (k.width - 1) ≤ u
  · rw [if_pos h, if_pos (by simp [h.1, h.2])]
    rw [← h2]
    generalize 2 ^ k.width = w at *
    omega
  · rw [if_neg h, if_neg (by simpa using h)]
    omega

theorem taken_decimal {k : CharKind} (hk : IsCharKind k) {u : Nat} (hu : u < 2 ^ k.width) (h : TakenDigit k u) :
    takenValue k u = unitValue k u - 0x30 := by
  unfold takenValue
  have hn : ¬ (0x41 ≤ u ∧ u ≤ 0x46) ∧ ¬ (0x61 ≤ u ∧ u ≤ 0x66) := by
    rcases h with h | h
    · unfold AsciiDigit at h; omega
    · rw [unitValue_neg k u hu] at h
      have : 0x80 ≤ u := by
        unfold CharKind.neg at h
        simp only [Bool.and_eq_true, decide_eq_true_eq] at h
        have h1 := h.2
        have : 0x80 ≤ 2 ^ (k.width - 1) := by cases hk <;> decide
        omega
      omega
  rw [if_neg hn.1, if_neg hn.2]

theorem hexOf_value (k : CharKind) (hk : IsCharKind k) (u : Nat) (hu : u < 2 ^ k.width) :
    ((k.hexOf u : Nat) : Int) = takenValue k u % 2 ^ 64 := by
  unfold CharKind.hexOf takenValue
  have e1 : k.inRange u 0x41 0x46 = true ↔ _ := inRange_iff hk (by decide)
  have e2 : k.inRange u 0x61 0x66 = true ↔ _ := inRange_iff hk (by decide)
  by_cases h1 : 0x41 ≤ u ∧ u ≤ 0x46
  · rw [if_pos (e1.2 h1), if_pos h1]; omega
  · rw [if_neg (fun h => h1 (e1.1 h)), if_neg h1]
    by_cases h2 : 0x61 ≤ u ∧ u ≤ 0x66
    · rw [if_pos (e2.2 h2), if_pos h2]; omega
    · rw [if_neg (fun h => h2 (e2.1 h)), if_neg h2, digitOf_value k hk u hu]

theorem foldl_wrapped (base : Nat) (v : Nat → Nat) (w : Nat → Int) : ∀ (run : List Nat) (a : Nat) (b : Int),
    (∀ u ∈ run, ((v u : Nat) : Int) = w u % 2 ^ 64) → ((a : Nat) : Int) = b % 2 ^ 64 →
    ((run.foldl (fun a u => (a * base + v u) % 2 ^ 64) a : Nat) : Int) =
      run.foldl (fun a u => a * base + w u) b % 2 ^ 64 := by
  intro run
  induction run with
  | nil => intro a b _ h; exact h
  | cons u run ih =>
    intro a b h hab
    rw [List.foldl_cons, List.foldl_cons]
    refine ih _ _ (fun x hx => h x (by simp [hx])) ?_
    have h1 := h u (by simp)
    rw [Int.natCast_emod, Int.natCast_add, Int.natCast_mul, hab, h1]
    simp only [Int.natCast_pow, Int.cast_ofNat_Int]
    rw [Int.add_emod, Int.emod_emod, Int.mul_emod, Int.emod_emod, ← Int.mul_emod, ← Int.add_emod]

theorem foldl_congr_mem {β : Type} {f g : β → Nat → β} : ∀ (l : List Nat) (b : β),
    (∀ x ∈ l, ∀ b, f b x = g b x) → l.foldl f b = l.foldl g b := by
  intro l
  induction l with
  | nil => intro b _; rfl
  | cons x l ih =>
    intro b h
    rw [List.foldl_cons, List.foldl_cons, h x (by simp), ih _ (fun y hy => h y (by simp [hy]))]

/-- C23, exactly, on every text: `consume_number` consumes the longest run of decimal digits and negative
characters and returns its positional value in 64 bits; if there is none it consumes and returns nothing. -/
theorem consume_number_exact (k : CharKind) (hk : IsCharKind k) (l : Lexer) (hu : ∀ u ∈ l.view, u < 2 ^ k.width)
    (hi : l.index < 2 ^ 64) (hv : l.view.length < 2 ^ 64) :
    let run := (l.view.drop l.index).takeWhile (fun u => decide (TakenDigit k u))
    l.consumeNumber k = (if run = [] then (none, l)
      else (some (wrapped k 10 run), { l with index := l.index + run.length })) := by
  intro run
  have hcongr : (l.view.drop l.index).takeWhile k.isDigit = run :=
    takeWhile_congr' _ (fun x hx => isDigit_taken k hk x (hu x (List.mem_of_mem_drop hx)))
  have := numberLoop_eq 10 k.isDigit k.digitOf (l.view.length + 1) l false 0 (by omega) hi hv
  simp only [hcongr] at this
  unfold Lexer.consumeNumber
  rw [this]
  by_cases hr : run = []
  · simp [hr]
  · rw [if_neg hr]
    have hne : run.isEmpty = false := by cases h : run <;> simp_all
    have hm : ∀ u ∈ run, u < 2 ^ k.width := fun u h =>
      hu u (List.mem_of_mem_drop ((List.takeWhile_sublist _).subset h))
    have ht : ∀ u ∈ run, TakenDigit k u := fun u h => by have := mem_takeWhile_prop _ u h; simpa using this
    have hf := foldl_wrapped 10 k.digitOf (fun u => unitValue k u - 0x30) run 0 0
      (fun u h => digitOf_value k hk u (hm u h)) (by decide)
    rw [foldl_congr_mem (f := fun a u => a * ((10 : Nat) : Int) + (unitValue k u - 0x30))
      (g := fun a u => a * ((10 : Nat) : Int) + takenValue k u) run 0
      (fun x hx b => by rw [taken_decimal hk (hm x hx) (ht x hx)])] at hf
    rw [hne]
    simp only [Bool.not_false, Bool.or_true, if_true, Prod.mk.injEq, Option.some.injEq, and_true]
    unfold wrapped
    rw [← hf, Int.toNat_natCast]

/-- C23, exactly, on every text, for `consume_hex_number`. -/
theorem consume_hex_number_exact (k : CharKind) (hk : IsCharKind k) (l : Lexer)
    (hu : ∀ u ∈ l.view, u < 2 ^ k.width) (hi : l.index < 2 ^ 64) (hv : l.view.length < 2 ^ 64) :
    let run := (l.view.drop l.index).takeWhile (fun u => decide (TakenHex k u))
    l.consumeHexNumber k = (if run = [] then (none, l)
      else (some (wrapped k 16 run), { l with index := l.index + run.length })) := by
  intro run
  have hcongr : (l.view.drop l.index).takeWhile k.isXDigit = run :=
    takeWhile_congr' _ (fun x hx => isXDigit_taken k hk x (hu x (List.mem_of_mem_drop hx)))
  have := numberLoop_eq 16 k.isXDigit k.hexOf (l.view.length + 1) l false 0 (by omega) hi hv
  simp only [hcongr] at this
  unfold Lexer.consumeHexNumber
  rw [this]
  by_cases hr : run = []
  · simp [hr]
  · rw [if_neg hr]
    have hne : run.isEmpty = false := by cases h : run <;> simp_all
    have hm : ∀ u ∈ run, u < 2 ^ k.width := fun u h =>
      hu u (List.mem_of_mem_drop ((List.takeWhile_sublist _).subset h))
    have hf := foldl_wrapped 16 k.hexOf (takenValue k) run 0 0
      (fun u h => hexOf_value k hk u (hm u h)) (by decide)
    rw [hne]
    simp only [Bool.not_false, Bool.or_true, if_true, Prod.mk.injEq, Option.some.injEq, and_true]
    unfold wrapped
    rw [← hf, Int.toNat_natCast]

/-- On ordinary digits that stay below 2^64 this is the number written. -/
theorem wrapped_ascii (k : CharKind) (hk : IsCharKind k) (run : List Nat) (h : ∀ c ∈ run, AsciiDigit c) :
    wrapped k 10 run = numeral 10 run % 2 ^ 64 := by
  have hf : ∀ (l : List Nat) (a : Nat), (∀ c ∈ l, AsciiDigit c) →
      l.foldl (fun a u => a * ((10 : Nat) : Int) + takenValue k u) (a : Int) =
        ((l.foldl (fun a u => a * 10 + digitValue u) a : Nat) : Int) := by
    intro l
    induction l with
    | nil => intro a _; rfl
    | cons c l ih =>
      intro a hl
      have hc := hl c (by simp)
      have hv : takenValue k c = (digitValue c : Int) := by
        have hn : ¬ (k.signed = true ∧ 2 ^ (k.width - 1) ≤ c) := by
          rintro ⟨_, h2⟩
          have : 0x80 ≤ 2 ^ (k.width - 1) := by cases hk <;> decide
          unfold AsciiDigit at hc; omega
        unfold takenValue unitValue digitValue
        unfold AsciiDigit at hc
        rw [if_neg (by omega), if_neg (by omega), if_neg hn, if_pos (by omega)]
        omega
      rw [List.foldl_cons, List.foldl_cons, hv, ← ih _ (fun x hx => hl x (by simp [hx]))]
      simp
  unfold wrapped
  rw [show (0 : Int) = ((0 : Nat) : Int) from rfl, hf run 0 h]
  unfold numeral
  omega

/-- `1\xff` as `char`: 10 * 1 + (-1 - 48), in 64 bits. -/
example : wrapped ⟨8, true⟩ 10 [0x31, 0xff] = 2 ^ 64 - 39 ∧ TakenDigit ⟨8, true⟩ 0xff ∧ ¬ TakenDigit ⟨8, false⟩ 0xff := by
  decide +kernel

end Verif.Str
