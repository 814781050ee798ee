import Verif.System.Props

/-!
# C67: rounding can push the processor usage over 100
-/

namespace Verif.System

/-- A non-negative `double` (the range of exponents is not limited). -/
def IsDouble (q : Rat) : Prop := ∃ m k : Nat, m < 2 ^ 53 ∧ (q = m * 2 ^ k ∨ q * 2 ^ k = m)

/-- `r` is a double nearest to `q`: none is closer. What is done with ties is left open. -/
structure Nearest (q r : Rat) : Prop where
  double : IsDouble r
  nearest : ∀ d x, IsDouble d → q - d ≤ x → d - q ≤ x → q - r ≤ x ∧ r - q ≤ x

theorem nearest_exact {q r : Rat} (h : Nearest q r) (hq : IsDouble q) : r = q := by
  obtain ⟨h1, h2⟩ := h.nearest q 0 hq (by grind) (by grind)
  grind

theorem nearest_self {q : Rat} (hq : IsDouble q) : Nearest q q :=
  ⟨hq, fun d x _ h1 h2 => by grind⟩

/-- Doubles from 2^57 to 2^58 are multiples of 32. -/
theorem product_rounds {d : Rat} (hd : IsDouble d) (lo : (144115188075856488 : Rat) ≤ d)
    (hi : d ≤ (144115188075856512 : Rat)) : d = 144115188075856512 := by
  obtain ⟨m, k, hm, hd⟩ := hd
  rcases hd with hd | hd
  · have e : d = ((m * 2 ^ k : Nat) : Rat) := by rw [hd, Rat.natCast_mul, Rat.natCast_pow]; rfl
    rw [e] at lo hi ⊢
    have lo' : 144115188075856488 ≤ m * 2 ^ k := by exact_mod_cast lo
    have hi' : m * 2 ^ k ≤ 144115188075856512 := by exact_mod_cast hi
    have hk : 5 ≤ k := by
      apply Decidable.byContradiction
      intro hk
      have hk : k ≤ 4 := by omega
      have : 2 ^ k ≤ 2 ^ 4 := Nat.pow_le_pow_right (by omega) hk
      have : m * 2 ^ k ≤ m * 2 ^ 4 := Nat.mul_le_mul_left m this
      omega
    obtain ⟨j, rfl⟩ := Nat.exists_eq_add_of_le hk
    have e2 : m * 2 ^ (5 + j) = 32 * (m * 2 ^ j) := by rw [Nat.pow_add]; grind
    rw [e2] at lo' hi' ⊢
    have : 32 * (m * 2 ^ j) = 144115188075856512 := by omega
    rw [this]
    rfl
  · exfalso
    have p : (1 : Rat) ≤ 2 ^ k := by
      have : ((1 : Nat) : Rat) ≤ ((2 ^ k : Nat) : Rat) := by exact_mod_cast Nat.one_le_two_pow
      rw [Rat.natCast_pow] at this
      exact this
    have : d * 1 ≤ d * 2 ^ k := Rat.mul_le_mul_of_nonneg_left p (by grind)
    have hm' : (m : Rat) ≤ ((2 ^ 53 : Nat) : Rat) := by exact_mod_cast Nat.le_of_lt hm
    have : (144115188075856488 : Rat) ≤ ((2 ^ 53 : Nat) : Rat) := by grind
    exact absurd this (by decide +kernel)

/-- Doubles from 64 to 128 are multiples of 2^-46. -/
theorem quotient_gap {d : Rat} (hd : IsDouble d) (lo : (100 : Rat) < d) : 100 + 1 / 2 ^ 46 ≤ d := by
  obtain ⟨m, k, hm, hd⟩ := hd
  rcases hd with hd | hd
  · have e : d = ((m * 2 ^ k : Nat) : Rat) := by rw [hd, Rat.natCast_mul, Rat.natCast_pow]; rfl
    rw [e] at lo ⊢
    have lo' : 100 < m * 2 ^ k := by exact_mod_cast lo
    have : ((101 : Nat) : Rat) ≤ ((m * 2 ^ k : Nat) : Rat) := by exact_mod_cast lo'
    have h2 : (100 + 1 / 2 ^ 46 : Rat) ≤ ((101 : Nat) : Rat) := by decide +kernel
    exact Rat.le_trans h2 this
  · have pk : (0 : Rat) < 2 ^ k := by
      have : ((0 : Nat) : Rat) < ((2 ^ k : Nat) : Rat) := by exact_mod_cast Nat.two_pow_pos k
      rw [Rat.natCast_pow] at this
      exact this
    have h1 : (100 : Rat) * 2 ^ k < m := by
      rw [← hd]
      exact Rat.mul_lt_mul_of_pos_right lo pk
    have h1' : 100 * 2 ^ k < m := by
      have : ((100 * 2 ^ k : Nat) : Rat) < (m : Rat) := by rw [Rat.natCast_mul, Rat.natCast_pow]; exact h1
      exact_mod_cast this
    have hk : k ≤ 46 := by
      apply Decidable.byContradiction
      intro hk
      have : 2 ^ 47 ≤ 2 ^ k := Nat.pow_le_pow_right (by omega) (by omega)
      omega
    obtain ⟨j, hj⟩ := Nat.exists_eq_add_of_le hk
    have h3 : 100 * 2 ^ 46 + 1 ≤ m * 2 ^ j := by
      have e : 100 * 2 ^ 46 = 100 * 2 ^ k * 2 ^ j := by rw [hj, Nat.pow_add, Nat.mul_assoc]
      have : (100 * 2 ^ k + 1) * 2 ^ j ≤ m * 2 ^ j := Nat.mul_le_mul_right _ h1'
      have p : 1 ≤ 2 ^ j := Nat.one_le_two_pow
      rw [Nat.add_mul] at this
      omega
    have h4 : ((100 * 2 ^ 46 + 1 : Nat) : Rat) ≤ d * 2 ^ 46 := by
      have e : d * 2 ^ 46 = ((m * 2 ^ j : Nat) : Rat) := by
        rw [Rat.natCast_mul, Rat.natCast_pow, ← hd, Rat.mul_assoc]
        have : ((2 ^ 46 : Nat) : Rat) = ((2 ^ k * 2 ^ j : Nat) : Rat) := by rw [hj, Nat.pow_add]
        rw [Rat.natCast_mul, Rat.natCast_pow, Rat.natCast_pow, Rat.natCast_pow] at this
        exact congrArg (d * ·) this
      rw [e]
      exact_mod_cast h3
    have e5 : ((100 * 2 ^ 46 + 1 : Nat) : Rat) = (100 + 1 / 2 ^ 46) * 2 ^ 46 := by decide +kernel
    rw [e5] at h4
    exact Rat.le_of_mul_le_mul_right h4 (by decide +kernel)

/-- C67 fails for large counters, however ties are rounded: if all of 1441151880758565 ticks were busy (less than 2^51),
the usage reported is more than 100. -/
theorem cpu_usage_rounding_violated (rn : Rat → Rat) (h1 : Nearest 1441151880758565 (rn 1441151880758565))
    (h2 : Nearest 144115188075856500 (rn 144115188075856500))
    (h3 : Nearest (144115188075856512 / 1441151880758565) (rn (144115188075856512 / 1441151880758565))) :
    ∃ q, (run rn [some ⟨1441151880758565, 0, 0, 0⟩]).usage = .num q ∧ 100 < q := by
  have e1 : rn 1441151880758565 = 1441151880758565 :=
    nearest_exact h1 ⟨1441151880758565, 0, by decide, .inl (by decide +kernel)⟩
  have e2 : rn 144115188075856500 = 144115188075856512 := by
    obtain ⟨g1, g2⟩ := h2.nearest 144115188075856512 12 ⟨4503599627370516, 5, by decide, .inl (by decide +kernel)⟩
      (by decide +kernel) (by decide +kernel)
    exact product_rounds h2.double (by grind) (by grind)
  refine ⟨rn (144115188075856512 / 1441151880758565), ?_, ?_⟩
  · have w : (wrap (wrap ((1441151880758565 - 0) + (0 - 0)) + (0 - 0))) = 1441151880758565 := by decide
    have w' : (wrap (wrap (wrap ((1441151880758565 - 0) + (0 - 0)) + (0 - 0)) + (0 - 0))) = 1441151880758565 := by decide
    have e : run rn [some ⟨1441151880758565, 0, 0, 0⟩] = ⟨⟨1441151880758565, 0, 0, 0⟩,
        percent rn (wrap (wrap ((1441151880758565 - 0) + (0 - 0)) + (0 - 0)))
          (wrap (wrap (wrap ((1441151880758565 - 0) + (0 - 0)) + (0 - 0)) + (0 - 0)))⟩ := by
      simp only [run, List.foldl, Monitor.update]
      exact if_pos ⟨Nat.zero_le _, Nat.zero_le _, Nat.zero_le _, Nat.zero_le _⟩
    rw [e]
    show percent rn (wrap (wrap ((1441151880758565 - 0) + (0 - 0)) + (0 - 0)))
      (wrap (wrap (wrap ((1441151880758565 - 0) + (0 - 0)) + (0 - 0)) + (0 - 0))) = _
    rw [w', w]
    unfold percent
    rw [if_neg (by decide)]
    have c : ((1441151880758565 : Nat) : Rat) = 1441151880758565 := rfl
    rw [c, e1, show (100 : Rat) * 1441151880758565 = 144115188075856500 by decide +kernel, e2]
  · obtain ⟨g1, -⟩ := h3.nearest (100 + 1 / 2 ^ 46)
      (100 + 1 / 2 ^ 46 - 144115188075856512 / 1441151880758565)
      ⟨7036874417766401, 46, by decide, .inr (by decide +kernel)⟩ (by decide +kernel) (by decide +kernel)
    have : (100 : Rat) < 144115188075856512 / 1441151880758565 -
      (100 + 1 / 2 ^ 46 - 144115188075856512 / 1441151880758565) := by decide +kernel
    grind

/-- There is such a rounding. -/
example : ∃ rn : Rat → Rat, Nearest 1441151880758565 (rn 1441151880758565) ∧
    Nearest 144115188075856500 (rn 144115188075856500) ∧
    Nearest (144115188075856512 / 1441151880758565) (rn (144115188075856512 / 1441151880758565)) := by
  refine ⟨fun q => if q = 144115188075856500 then 144115188075856512
    else if q = 144115188075856512 / 1441151880758565 then 100 + 1 / 2 ^ 46 else q, ?_, ?_, ?_⟩
  · have : (if (1441151880758565 : Rat) = 144115188075856500 then (144115188075856512 : Rat)
        else if (1441151880758565 : Rat) = 144115188075856512 / 1441151880758565 then 100 + 1 / 2 ^ 46
        else 1441151880758565) = 1441151880758565 := by decide +kernel
    simp only [this]
    exact nearest_self ⟨1441151880758565, 0, by decide, .inl (by decide +kernel)⟩
  · simp only [if_true]
    refine ⟨⟨4503599627370516, 5, by decide, .inl (by decide +kernel)⟩, fun d x hd g1 g2 => ?_⟩
    by_cases lo : (144115188075856488 : Rat) ≤ d
    · by_cases hi : d ≤ (144115188075856512 : Rat)
      · have := product_rounds hd lo hi
        grind
      · grind
    · grind
  · have : (if (144115188075856512 / 1441151880758565 : Rat) = 144115188075856500 then (144115188075856512 : Rat)
        else if (144115188075856512 / 1441151880758565 : Rat) = 144115188075856512 / 1441151880758565 then 100 + 1 / 2 ^ 46
        else 144115188075856512 / 1441151880758565) = 100 + 1 / 2 ^ 46 := by decide +kernel
    show Nearest _ (if (144115188075856512 / 1441151880758565 : Rat) = 144115188075856500 then (144115188075856512 : Rat)
        else if (144115188075856512 / 1441151880758565 : Rat) = 144115188075856512 / 1441151880758565 then 100 + 1 / 2 ^ 46
        else 144115188075856512 / 1441151880758565)
    rw [this]
    refine ⟨⟨7036874417766401, 46, by decide, .inr (by decide +kernel)⟩, fun d x hd g1 g2 => ?_⟩
    have a : (144115188075856512 / 1441151880758565 : Rat) < 100 + 1 / 2 ^ 46 := by decide +kernel
    have b : (100 : Rat) + 1 / 2 ^ 46 - 144115188075856512 / 1441151880758565 ≤ 144115188075856512 / 1441151880758565 - 100 := by
      decide +kernel
    generalize (144115188075856512 / 1441151880758565 : Rat) = q at *
    by_cases lo : (100 : Rat) < d
    · have := quotient_gap hd lo
      grind
    · grind

end Verif.System
