import Verif.Str.Model

namespace Verif.Str

/-! ## Bit facts -/

theorem land_mask {w : Nat} (hw : 6 ≤ w) {u : Nat} (hu : u < 2 ^ w) :
    u &&& (2 ^ w - 1 - 0x20) = u / 64 * 64 + u % 32 := by
  apply Nat.eq_of_testBit_eq
  intro i
  have hm : (2 ^ w - 1 - 0x20) = (2 ^ w - 1) ^^^ 0x20 := by
    have h1 : (2 ^ w - 1) = 2 ^ 6 * (2 ^ (w - 6) - 1) + 63 := by
      have : 2 ^ w = 2 ^ 6 * 2 ^ (w - 6) := by rw [← Nat.pow_add]; congr 1; omega
      have hp := Nat.two_pow_pos (w - 6)
      omega
    apply Nat.eq_of_testBit_eq
    intro j
    have h2 : 2 ^ w - 1 - 0x20 = 2 ^ 6 * (2 ^ (w - 6) - 1) + 31 := by omega
    rw [Nat.testBit_xor, h2, h1, Nat.testBit_two_pow_mul_add _ (by decide),
      Nat.testBit_two_pow_mul_add _ (by decide)]
    by_cases hj : j < 6
    · simp only [hj, if_true]
      have : j = 0 ∨ j = 1 ∨ j = 2 ∨ j = 3 ∨ j = 4 ∨ j = 5 := by omega
      rcases this with h | h | h | h | h | h <;> subst h <;> decide
    · simp only [hj, if_false]
      have : Nat.testBit 32 j = false := by
        apply Nat.testBit_lt_two_pow
        calc 32 < 2 ^ 6 := by decide
          _ ≤ 2 ^ j := Nat.pow_le_pow_right (by decide) (by omega)
      simp [this]
  rw [Nat.testBit_and, hm, Nat.testBit_xor, Nat.testBit_two_pow_sub_one]
  have h3 : u / 64 * 64 + u % 32 = 2 ^ 6 * (u / 64) + u % 32 := by omega
  rw [h3, Nat.testBit_two_pow_mul_add _ (by omega)]
  have h4 : u % 32 = u % 2 ^ 5 := rfl
  have h5 : u / 64 = u / 2 ^ 6 := rfl
  rw [h4, h5, Nat.testBit_mod_two_pow, Nat.testBit_div_two_pow]
  by_cases hi : i < 6
  · simp only [hi, if_true]
    have hlt : decide (i < w) = true := by simp; omega
    rw [hlt]
    have : i = 0 ∨ i = 1 ∨ i = 2 ∨ i = 3 ∨ i = 4 ∨ i = 5 := by omega
    rcases this with h | h | h | h | h | h <;> subst h <;> simp [show Nat.testBit 32 0 = false by decide, show Nat.testBit 32 1 = false by decide, show Nat.testBit 32 2 = false by decide, show Nat.testBit 32 3 = false by decide, show Nat.testBit 32 4 = false by decide, show Nat.testBit 32 5 = true by decide]
  · simp only [hi, if_false]
    have : Nat.testBit 32 i = false := by
      apply Nat.testBit_lt_two_pow
      calc 32 < 2 ^ 6 := by decide
        _ ≤ 2 ^ i := Nat.pow_le_pow_right (by decide) (by omega)
    rw [this]
    have h6 : i - 6 + 6 = i := by omega
    rw [h6]
    by_cases hiw : i < w
    · simp [hiw]
    · have : Nat.testBit u i = false := by
        apply Nat.testBit_lt_two_pow
        exact Nat.lt_of_lt_of_le hu (Nat.pow_le_pow_right (by decide) (by omega))
      simp [this]

theorem xor_zero_char (u : Nat) : u ^^^ 0x30 = u / 64 * 64 + (u % 64 ^^^ 0x30) := by
  apply Nat.eq_of_testBit_eq
  intro i
  have hb : u % 64 ^^^ 0x30 < 2 ^ 6 := Nat.xor_lt_two_pow (by omega) (by decide)
  have h3 : u / 64 * 64 + (u % 64 ^^^ 0x30) = 2 ^ 6 * (u / 64) + (u % 64 ^^^ 0x30) := by omega
  rw [h3, Nat.testBit_two_pow_mul_add _ hb, Nat.testBit_xor]
  have h5 : u / 64 = u / 2 ^ 6 := rfl
  have h4 : u % 64 = u % 2 ^ 6 := rfl
  rw [h5, Nat.testBit_div_two_pow, Nat.testBit_xor, h4, Nat.testBit_mod_two_pow]
  by_cases hi : i < 6
  · simp [hi]
  · have : Nat.testBit 0x30 i = false := by
      apply Nat.testBit_lt_two_pow
      calc 0x30 < 2 ^ 6 := by decide
        _ ≤ 2 ^ i := Nat.pow_le_pow_right (by decide) (by omega)
    simp only [hi, if_false, this, Bool.xor_false]
    congr 1; omega

theorem xor_zero_lt (u : Nat) : u ^^^ 0x30 < 10 ↔ 0x30 ≤ u ∧ u ≤ 0x39 := by
  rw [xor_zero_char]
  have hr : u % 64 < 64 := by omega
  generalize hm : u % 64 = r at *
  have key : ∀ r, r < 64 → ((r ^^^ 0x30) < 10 ↔ 0x30 ≤ r ∧ r ≤ 0x39) := by decide +kernel
  have := key r hr
  by_cases hq : u / 64 = 0
  · have : u = r := by omega
    rw [hq]; subst this; simpa using key u hr
  · omega

theorem lor_case {u : Nat} (h1 : 0x41 ≤ u) (h2 : u ≤ 0x5a) : u ||| 0x20 = u + 0x20 := by
  have key : ∀ u, u < 0x5b → 0x41 ≤ u → u ||| 0x20 = u + 0x20 := by decide +kernel
  exact key u (by omega) h1

theorem charKind_width {k : CharKind} (hk : IsCharKind k) : 8 ≤ k.width ∧ k.width ≤ 32 := by
  cases hk <;> decide

/-- A unit below 0x80 is never negative. -/
theorem neg_ascii {k : CharKind} (hk : IsCharKind k) {u : Nat} (hu : u < 0x80) : k.neg u = false := by
  unfold CharKind.neg
  have h := (charKind_width hk).1
  have : 0x80 ≤ 2 ^ (k.width - 1) := by
    calc 0x80 = 2 ^ 7 := rfl
      _ ≤ 2 ^ (k.width - 1) := Nat.pow_le_pow_right (by decide) (by omega)
  have : ¬ 2 ^ (k.width - 1) ≤ u := by omega
  simp [this]

theorem inRange_iff {k : CharKind} (hk : IsCharKind k) {u lo hi : Nat} (hhi : hi < 0x80) :
    k.inRange u lo hi = true ↔ lo ≤ u ∧ u ≤ hi := by
  unfold CharKind.inRange
  constructor
  · intro h; simp at h; exact ⟨h.1.2, h.2⟩
  · intro h; simp [neg_ascii hk (show u < 0x80 by omega), h.1, h.2]

theorem unify_eq {k : CharKind} (hk : IsCharKind k) {u : Nat} (hu : u < 2 ^ k.width) :
    k.unify u = u / 64 * 64 + u % 32 :=
  land_mask (by have := (charKind_width hk).1; omega) hu

/-! ## Finding -/

theorem isPrefixOf_iff_prefix {n s : List Nat} : n.isPrefixOf s = true ↔ ∃ t, s = n ++ t := by
  rw [List.isPrefixOf_iff_prefix]
  constructor
  · rintro ⟨t, h⟩; exact ⟨t, h.symm⟩
  · rintro ⟨t, h⟩; exact ⟨t, h.symm⟩

/-- `findSub` finds an occurrence, and the first. -/
theorem findSub_some {n s : List Nat} : ∀ {i}, findSub n s = some i →
    (∃ t, s.drop i = n ++ t) ∧ i ≤ s.length ∧ ∀ j, j < i → ¬ ∃ t, s.drop j = n ++ t := by
  induction s with
  | nil =>
    intro i h
    rw [findSub] at h
    split at h
    · rename_i hn; simp at h; subst h; subst hn; simp
    · simp at h
  | cons c s ih =>
    intro i h
    rw [findSub] at h
    split at h
    · rename_i hp
      simp at h; subst h
      rw [isPrefixOf_iff_prefix] at hp
      exact ⟨by simpa using hp, by simp, by simp⟩
    · rename_i hp
      rw [isPrefixOf_iff_prefix] at hp
      cases hf : findSub n s with
      | none => simp [hf] at h
      | some j =>
        simp [hf] at h; subst h
        obtain ⟨h1, h2, h3⟩ := ih hf
        refine ⟨by simpa using h1, by simp; omega, ?_⟩
        intro m hm
        cases m with
        | zero => simpa using hp
        | succ m => simpa using h3 m (by omega)

theorem findSub_none {n s : List Nat} (h : findSub n s = none) :
    ∀ j, j ≤ s.length → ¬ ∃ t, s.drop j = n ++ t := by
  induction s with
  | nil =>
    rw [findSub] at h
    split at h
    · simp at h
    · rename_i hn; intro j _; simp [hn]
  | cons c s ih =>
    rw [findSub] at h
    split at h
    · simp at h
    · rename_i hp
      rw [isPrefixOf_iff_prefix] at hp
      simp at h
      intro j hj
      cases j with
      | zero => simpa using hp
      | succ m => simpa using ih h m (by simpa using hj)

theorem findSub_isSome_iff {n s : List Nat} : (findSub n s).isSome ↔ Occurs n s := by
  constructor
  · intro h
    obtain ⟨i, hi⟩ := Option.isSome_iff_exists.mp h
    obtain ⟨⟨t, ht⟩, _⟩ := findSub_some hi
    refine ⟨s.take i, t, ?_⟩
    rw [List.append_assoc, ← ht, List.take_append_drop]
  · rintro ⟨a, b, h⟩
    cases hf : findSub n s with
    | some i => rfl
    | none =>
      exfalso
      have := findSub_none hf a.length (by rw [h]; simp)
      apply this
      refine ⟨b, ?_⟩
      rw [h]; simp

theorem findSub_eq_none_iff {n s : List Nat} : findSub n s = none ↔ ¬ Occurs n s := by
  rw [← findSub_isSome_iff]; cases findSub n s <;> simp

theorem findFrom_some {n s : List Nat} {st i} (h : findFrom n s st = some i) :
    st ≤ i ∧ i ≤ s.length ∧ (∃ t, s.drop i = n ++ t) ∧
      ∀ j, st ≤ j → j < i → ¬ ∃ t, s.drop j = n ++ t := by
  unfold findFrom at h
  split at h
  · cases hf : findSub n (s.drop st) with
    | none => simp [hf] at h
    | some j =>
      simp [hf] at h; subst h
      obtain ⟨h1, h2, h3⟩ := findSub_some hf
      refine ⟨by omega, by simp at h2; omega, by simpa [List.drop_drop, Nat.add_comm] using h1, ?_⟩
      intro m hm1 hm2
      have := h3 (m - st) (by omega)
      rw [List.drop_drop] at this
      rwa [show st + (m - st) = m by omega] at this
  · simp at h

theorem findFrom_none {n s : List Nat} {st} (h : findFrom n s st = none) :
    ∀ j, st ≤ j → j ≤ s.length → ¬ ∃ t, s.drop j = n ++ t := by
  unfold findFrom at h
  split at h
  · simp at h
    intro j h1 h2
    have := findSub_none h (j - st) (by simp; omega)
    rw [List.drop_drop] at this
    rwa [show st + (j - st) = j by omega] at this
  · intro j h1 h2; omega

/-- Searching for one character: the characters skipped are different from it. -/
theorem findFrom_char_some {d : Nat} {s : List Nat} {st e} (h : findFrom [d] s st = some e) :
    s.drop st = (s.drop st).take (e - st) ++ d :: s.drop (e + 1) ∧
      d ∉ (s.drop st).take (e - st) ∧ st ≤ e ∧ e < s.length := by
  obtain ⟨h1, h2, ⟨t, ht⟩, h4⟩ := findFrom_some h
  have hlt := (findFrom_lt (by simp) h).2
  have hd : s.drop (e + 1) = t := by
    rw [← List.drop_drop, ht]; simp
  refine ⟨?_, ?_, h1, hlt⟩
  · have := List.take_append_drop (e - st) (s.drop st)
    rw [List.drop_drop, show st + (e - st) = e by omega, ht] at this
    rw [hd]; exact this.symm
  · intro hmem
    obtain ⟨i, hi, he⟩ := List.mem_iff_getElem.mp hmem
    simp at hi he
    apply h4 (st + i) (by omega) (by omega)
    refine ⟨s.drop (st + i + 1), ?_⟩
    have := List.drop_eq_getElem_cons (l := s) (i := st + i) (by omega)
    rw [this, he]; rfl

theorem findFrom_char_none {d : Nat} {s : List Nat} {st} (h : findFrom [d] s st = none) :
    d ∉ s.drop st := by
  intro hmem
  obtain ⟨i, hi, he⟩ := List.mem_iff_getElem.mp hmem
  simp at hi he
  apply findFrom_none h (st + i) (by omega) (by omega)
  refine ⟨s.drop (st + i + 1), ?_⟩
  have := List.drop_eq_getElem_cons (l := s) (i := st + i) (by omega)
  rw [this, he]; rfl

/-! ## Split -/

theorem pieces_of_splitLoop (input : List Nat) (d count : Nat) : ∀ (n start : Nat)
    (els : List (List Nat)), input.length - start = n → start ≤ input.length →
    ∃ ps, Pieces d (input.drop start) ps ∧
      splitLoop input d count start els = ps.foldl (pushItem d count) els := by
  intro n
  induction n using Nat.strongRecOn with
  | _ n ih =>
    intro start els hn hs
    rw [splitLoop]
    split
    · rename_i e he
      obtain ⟨h1, h2, h3, h4⟩ := findFrom_char_some he
      obtain ⟨ps, hp, hf⟩ := ih (input.length - (e + 1)) (by omega) (e + 1)
        (pushItem d count els ((input.drop start).take (e - start))) rfl (by omega)
      rw [hf]
      by_cases hemp : (input.drop start).take (e - start) = []
      · refine ⟨ps, ?_, ?_⟩
        · rw [h1, hemp]; exact Pieces.skip hp
        · rw [hemp]; simp [pushItem]
      · refine ⟨(input.drop start).take (e - start) :: ps, ?_, ?_⟩
        · have := Pieces.piece hemp h2 hp
          rwa [← h1] at this
        · rfl
    · rename_i he
      have hnot := findFrom_char_none he
      by_cases hemp : input.drop start = []
      · exact ⟨[], by rw [hemp]; exact Pieces.nil, by simp [hemp, pushItem]⟩
      · exact ⟨[input.drop start], Pieces.last hemp hnot, rfl⟩

theorem pieces_of_split (input : List Nat) (d count : Nat) :
    ∃ ps, Pieces d input ps ∧ split input d count = ps.foldl (pushItem d count) [] := by
  have := pieces_of_splitLoop input d count _ 0 [] rfl (by omega)
  simpa [split] using this

theorem append_cons_inj {d : Nat} : ∀ {p q s t : List Nat}, d ∉ p → d ∉ q →
    p ++ d :: s = q ++ d :: t → p = q ∧ s = t := by
  intro p
  induction p with
  | nil =>
    intro q s t _ hq h
    cases q with
    | nil => simp at h; exact ⟨rfl, h⟩
    | cons b q => simp at h; simp [h.1] at hq
  | cons a p ih =>
    intro q s t hp hq h
    cases q with
    | nil => simp at h; simp [h.1] at hp
    | cons b q =>
      simp at h hp hq
      obtain ⟨h1, h2⟩ := ih hp.2 hq.2 h.2
      simp [h.1, h1, h2]

theorem pieces_unique {d : Nat} {s : List Nat} {ps qs} (h1 : Pieces d s ps) (h2 : Pieces d s qs) :
    ps = qs := by
  induction h1 generalizing qs with
  | nil =>
    generalize hs : ([] : List Nat) = s at h2
    cases h2 with
    | nil => rfl
    | skip h => simp at hs
    | last h => exact absurd hs.symm h
    | piece h => simp at hs
  | @skip s ps h ih =>
    generalize hs : d :: s = s' at h2
    cases h2 with
    | nil => simp at hs
    | skip h => simp at hs; subst hs; exact ih h
    | last h h' => subst hs; simp at h'
    | @piece p s ps h h' h'' =>
      cases p with
      | nil => simp at h
      | cons a p => simp at hs; simp [hs.1] at h'
  | @last p hp hd =>
    cases h2 with
    | nil => simp at hp
    | skip h => simp at hd
    | last h h' => rfl
    | piece h h' h'' => simp at hd
  | @piece p s ps hp hd h ih =>
    generalize hs : p ++ d :: s = s' at h2
    cases h2 with
    | nil => simp at hs
    | skip h =>
      cases p with
      | nil => simp at hp
      | cons a p => simp at hs; simp [hs.1] at hd
    | last h h' => subst hs; simp at h'
    | piece h h' h'' =>
      obtain ⟨e1, e2⟩ := append_cons_inj hd h' hs
      subst e1; subst e2
      rw [ih h'']

/-- `"a,,b"` split at commas. -/
example : Pieces 0x2c [0x61, 0x2c, 0x2c, 0x62] [[0x61], [0x62]] :=
  .piece (p := [0x61]) (by decide) (by decide) (.skip (.last (by decide) (by decide)))

theorem pieces_nonempty {d : Nat} {s : List Nat} {ps} (h : Pieces d s ps) :
    ∀ p ∈ ps, p ≠ [] ∧ d ∉ p := by
  induction h with
  | nil => simp
  | skip _ ih => exact ih
  | last h h' => intro p hp; simp at hp; subst hp; exact ⟨h, h'⟩
  | piece h h' _ ih =>
    intro p hp; simp at hp
    rcases hp with rfl | hp
    · exact ⟨h, h'⟩
    · exact ih p hp

theorem foldl_push_zero (d : Nat) : ∀ (ps els : List (List Nat)), (∀ p ∈ ps, p ≠ []) →
    ps.foldl (pushItem d 0) els = els ++ ps := by
  intro ps
  induction ps with
  | nil => simp
  | cons p ps ih =>
    intro els h
    simp at h
    rw [List.foldl_cons, ih _ (by simpa using h.2)]
    simp [pushItem, h.1]

theorem joinWith_push (d : Nat) (x p : List Nat) : ∀ ps,
    joinWith d ((x ++ d :: p) :: ps) = joinWith d (x :: p :: ps) := by
  intro ps
  cases ps with
  | nil => simp [joinWith]
  | cons q r => simp [joinWith]

theorem foldl_push_full (d n : Nat) (hn : 0 < n) : ∀ (ps a : List (List Nat)) (x : List Nat),
    a.length + 1 = n → (∀ p ∈ ps, p ≠ []) →
    ps.foldl (pushItem d n) (a ++ [x]) = a ++ [joinWith d (x :: ps)] := by
  intro ps
  induction ps with
  | nil => intro a x _ _; simp [joinWith]
  | cons p ps ih =>
    intro a x ha h
    simp at h
    rw [List.foldl_cons]
    have : pushItem d n (a ++ [x]) p = a ++ [x ++ d :: p] := by
      unfold pushItem
      rw [if_neg h.1, if_pos ⟨hn, by simp; omega⟩]
      simp
    rw [this, ih _ _ ha (by simpa using h.2), joinWith_push]

theorem foldl_push_pos (d n : Nat) (hn : 0 < n) : ∀ (ps els : List (List Nat)),
    els.length < n → (∀ p ∈ ps, p ≠ []) →
    ps.foldl (pushItem d n) els =
      if els.length + ps.length ≤ n then els ++ ps
      else els ++ ps.take (n - 1 - els.length) ++ [joinWith d (ps.drop (n - 1 - els.length))] := by
  intro ps
  induction ps with
  | nil => intro els h _; simp; omega
  | cons p ps ih =>
    intro els hl h
    simp at h
    rw [List.foldl_cons]
    have : pushItem d n els p = els ++ [p] := by
      unfold pushItem
      rw [if_neg h.1, if_neg (by omega)]
    rw [this]
    by_cases hfull : els.length + 1 = n
    · rw [foldl_push_full d n hn _ _ _ hfull (by simpa using h.2)]
      have h0 : n - 1 - els.length = 0 := by omega
      rw [h0]
      cases ps with
      | nil => simp [joinWith, hfull]
      | cons q r => rw [if_neg (by simp; omega)]; simp
    · rw [ih _ (by simp; omega) (by simpa using h.2)]
      simp only [List.length_append, List.length_cons, List.length_nil]
      have h1 : n - 1 - els.length = (n - 1 - (els.length + (0 + 1))) + 1 := by omega
      by_cases hc : els.length + (0 + 1) + ps.length ≤ n
      · rw [if_pos hc, if_pos (by omega)]; simp
      · rw [if_neg hc, if_neg (by omega), h1]; simp

/-- What `split` computes, for every count. -/
theorem split_eq {input : List Nat} {d count : Nat} {ps} (hp : Pieces d input ps) :
    split input d count =
      if count = 0 ∨ ps.length ≤ count then ps
      else ps.take (count - 1) ++ [joinWith d (ps.drop (count - 1))] := by
  obtain ⟨qs, hq, he⟩ := pieces_of_split input d count
  have := pieces_unique hp hq
  subst this
  rw [he]
  have hne : ∀ p ∈ ps, p ≠ [] := fun p h => (pieces_nonempty hp p h).1
  by_cases hc : count = 0
  · subst hc; rw [foldl_push_zero _ _ _ hne]; simp
  · rw [foldl_push_pos d count (by omega) _ _ (by simp; omega) hne]
    simp [hc]

/-! ## Trim -/

theorem isSpace_iff (k : CharKind) (u : Nat) : k.isSpace u = true ↔ AsciiSpace u := by
  unfold CharKind.isSpace AsciiSpace
  simp
  omega

theorem dropWhile_decomp (p : Nat → Bool) : ∀ s : List Nat,
    ∃ a, s = a ++ s.dropWhile p ∧ (∀ c ∈ a, p c = true) ∧
      (∀ c, (s.dropWhile p).head? = some c → p c = false) := by
  intro s
  induction s with
  | nil => exact ⟨[], by simp⟩
  | cons c s ih =>
    by_cases hc : p c = true
    · obtain ⟨a, h1, h2, h3⟩ := ih
      refine ⟨c :: a, ?_, ?_, ?_⟩
      · simp [hc]; exact h1
      · simp [hc]; exact h2
      · simpa [List.dropWhile_cons, hc] using h3
    · refine ⟨[], ?_, by simp, ?_⟩
      · simp [hc]
      · simp [hc]

/-! ## Replace -/

theorem replaceStep_some {u v t t' : List Nat} (h : replaceStep u v t = some t') :
    u ≠ [] ∧ ∃ a b, t = a ++ u ++ b ∧ t' = a ++ v ++ b ∧
      ∀ a' b', t = a' ++ u ++ b' → a.length ≤ a'.length := by
  unfold replaceStep at h
  split at h
  · simp at h
  · rename_i hu
    refine ⟨hu, ?_⟩
    split at h
    · rename_i i hi
      simp only [Option.some.injEq] at h
      obtain ⟨⟨x, hx⟩, h2, h3⟩ := findSub_some hi
      refine ⟨t.take i, x, ?_, ?_, ?_⟩
      · rw [List.append_assoc, ← hx, List.take_append_drop]
      · rw [← h, ← List.drop_drop, hx]; simp
      · intro a' b' hab
        simp
        by_cases hlt : a'.length < i
        · exfalso
          apply h3 _ hlt
          refine ⟨b', ?_⟩
          rw [hab]; simp
        · omega
    · simp at h

theorem replaceStep_none {u v t : List Nat} (h : replaceStep u v t = none) :
    u = [] ∨ ¬ Occurs u t := by
  unfold replaceStep at h
  split at h
  · left; assumption
  · right
    split at h
    · simp at h
    · rename_i hi; exact findSub_eq_none_iff.mp hi

theorem replaceStep_isSome {u v t : List Nat} (hu : u ≠ []) (h : Occurs u t) :
    ∃ t', replaceStep u v t = some t' := by
  cases hs : replaceStep u v t with
  | some t' => exact ⟨t', rfl⟩
  | none =>
    rcases replaceStep_none hs with h' | h'
    · exact absurd h' hu
    · exact absurd h h'

/-- The loop terminates when every step decreases a measure, on strings satisfying an invariant. -/
theorem replace_terminates_of_measure {u v : List Nat} (I : List Nat → Prop) (m : List Nat → Nat)
    (hstep : ∀ t t', I t → replaceStep u v t = some t' → I t' ∧ m t' < m t) :
    ∀ t, I t → ∃ r, ReplaceRuns u v t r := by
  intro t
  generalize hn : m t = n
  induction n using Nat.strongRecOn generalizing t with
  | _ n ih =>
    intro hI
    cases hs : replaceStep u v t with
    | none => exact ⟨t, .done hs⟩
    | some t' =>
      obtain ⟨h1, h2⟩ := hstep t t' hI hs
      obtain ⟨r, hr⟩ := ih (m t') (by omega) t' rfl h1
      exact ⟨r, .step hs hr⟩

/-- Value of a string as a base-`B` number. -/
def val (B : Nat) (s : List Nat) : Nat := s.foldl (fun a c => a * B + c) 0

theorem val_foldl (B : Nat) : ∀ (s : List Nat) (x : Nat),
    s.foldl (fun a c => a * B + c) x = x * B ^ s.length + val B s := by
  intro s
  induction s with
  | nil => intro x; simp [val]
  | cons c s ih =>
    intro x
    simp only [List.foldl_cons, val, List.length_cons]
    rw [ih, ih (0 * B + c)]
    rw [Nat.add_mul, Nat.mul_assoc, ← Nat.pow_succ', Nat.zero_mul, Nat.zero_add, Nat.add_assoc]

theorem val_append (B : Nat) (s t : List Nat) : val B (s ++ t) = val B s * B ^ t.length + val B t := by
  rw [val, List.foldl_append, val_foldl]; rfl

theorem val_lt (B : Nat) : ∀ (s : List Nat), (∀ c ∈ s, c < B) → val B s < B ^ s.length := by
  intro s
  induction s with
  | nil => simp [val]
  | cons c s ih =>
    intro h
    simp at h
    have h1 := ih h.2
    have : val B (c :: s) = c * B ^ s.length + val B s := by
      have := val_append B [c] s
      simpa [val] using this
    rw [this, List.length_cons, Nat.pow_succ']
    have : (c + 1) * B ^ s.length ≤ B * B ^ s.length := Nat.mul_le_mul_right _ h.1
    rw [Nat.add_mul] at this
    omega

theorem val_inj (B : Nat) : ∀ (s t : List Nat), s.length = t.length → (∀ c ∈ s, c < B) →
    (∀ c ∈ t, c < B) → val B s = val B t → s = t := by
  intro s
  induction s with
  | nil => intro t h _ _ _; simpa using h.symm
  | cons c s ih =>
    intro t hl hs ht hv
    cases t with
    | nil => simp at hl
    | cons e t =>
      simp at hl hs ht
      have e1 : val B (c :: s) = c * B ^ s.length + val B s := by
        simpa [val] using val_append B [c] s
      have e2 : val B (e :: t) = e * B ^ t.length + val B t := by
        simpa [val] using val_append B [e] t
      have h1 := val_lt B s hs.2
      have h2 := val_lt B t ht.2
      rw [e1, e2, ← hl] at hv
      rw [← hl] at h2
      have hce : c = e := by
        rcases Nat.lt_trichotomy c e with h | h | h
        · have : (c + 1) * B ^ s.length ≤ e * B ^ s.length := Nat.mul_le_mul_right _ h
          rw [Nat.add_mul] at this; omega
        · exact h
        · have : (e + 1) * B ^ s.length ≤ c * B ^ s.length := Nat.mul_le_mul_right _ h
          rw [Nat.add_mul] at this; omega
      subst hce
      rw [ih t hl hs.2 ht.2 (by omega)]

theorem replace_runs_final {u v t r : List Nat} (h : ReplaceRuns u v t r) :
    replaceStep u v r = none := by
  induction h with
  | done h => exact h
  | step _ _ ih => exact ih

theorem replace_runs_unique {u v t r r' : List Nat} (h : ReplaceRuns u v t r)
    (h' : ReplaceRuns u v t r') : r = r' := by
  induction h with
  | done h =>
    cases h' with
    | done _ => rfl
    | step h1 _ => rw [h] at h1; simp at h1
  | step h1 _ ih =>
    cases h' with
    | done h2 => rw [h1] at h2; simp at h2
    | step h2 h3 => rw [h1] at h2; simp at h2; subst h2; exact ih h3

/-- Substituting one character is a `flatMap`. -/
theorem replace_char_runs {a : Nat} {v : List Nat} (hv : a ∉ v) : ∀ (n : Nat) (t : List Nat),
    t.count a = n →
    ReplaceRuns [a] v t (t.flatMap fun c => if c = a then v else [c]) := by
  intro n
  induction n with
  | zero =>
    intro t hc
    rw [List.count_eq_zero] at hc
    have : (t.flatMap fun c => if c = a then v else [c]) = t := by
      clear hv
      induction t with
      | nil => rfl
      | cons b t ih =>
        simp at hc
        rw [List.flatMap_cons, ih hc.2, if_neg (by exact fun h => hc.1 h.symm)]; rfl
    rw [this]
    apply ReplaceRuns.done
    cases hs : replaceStep [a] v t with
    | none => rfl
    | some t' =>
      obtain ⟨_, x, y, h1, _⟩ := replaceStep_some hs
      rw [h1] at hc; simp at hc
  | succ n ih =>
    intro t hc
    have hmem : a ∈ t := List.count_pos_iff.mp (by omega)
    obtain ⟨x, y, hxy⟩ := List.append_of_mem hmem
    obtain ⟨t', hs⟩ := replaceStep_isSome (u := [a]) (v := v) (t := t) (by simp) ⟨x, y, by simp [hxy]⟩
    obtain ⟨_, p, q, h1, h2, _⟩ := replaceStep_some hs
    have hcv : v.count a = 0 := List.count_eq_zero.mpr hv
    have hcount : t'.count a = n := by
      rw [h1] at hc
      rw [h2]
      simp [hcv] at hc ⊢
      omega
    have hr := ih t' hcount
    have hvid : (v.flatMap fun c => if c = a then v else [c]) = v := by
      have : ∀ w : List Nat, a ∉ w → (w.flatMap fun c => if c = a then v else [c]) = w := by
        intro w
        induction w with
        | nil => intro _; rfl
        | cons b w ihw =>
          intro hw
          simp at hw
          rw [List.flatMap_cons, ihw hw.2, if_neg (by exact fun h => hw.1 h.symm)]; rfl
      exact this v hv
    have heq : (t'.flatMap fun c => if c = a then v else [c]) =
        (t.flatMap fun c => if c = a then v else [c]) := by
      rw [h1, h2]
      simp only [List.flatMap_append, hvid, List.flatMap_cons, List.flatMap_nil, List.append_nil,
        if_true]
    rw [heq] at hr
    exact .step hs hr

/-! ## Wildcard -/

/-- The segments occur at non-decreasing positions from `i` on. -/
def Chain (source : List Nat) : List (List Nat) → Nat → Prop
  | [], _ => True
  | g :: gs, i => ∃ j, i ≤ j ∧ j ≤ source.length ∧ (∃ t, source.drop j = g ++ t) ∧ Chain source gs j

theorem Chain.mono {source : List Nat} : ∀ {gs i i'}, i' ≤ i → Chain source gs i →
    Chain source gs i' := by
  intro gs
  cases gs with
  | nil => intros; trivial
  | cons g gs =>
    rintro i i' h ⟨j, h1, h2⟩
    exact ⟨j, by omega, h2⟩

theorem wildcardLoop_iff {source : List Nat} : ∀ {gs i},
    wildcardLoop source gs i = true ↔ Chain source gs i := by
  intro gs
  induction gs with
  | nil => intro i; simp [wildcardLoop, Chain]
  | cons g gs ih =>
    intro i
    rw [wildcardLoop]
    split
    · rename_i j hj
      obtain ⟨h1, h2, h3, h4⟩ := findFrom_some hj
      rw [ih]
      constructor
      · intro h; exact ⟨j, h1, h2, h3, h⟩
      · rintro ⟨j', a, b, c, e⟩
        have : ¬ j' < j := fun hlt => h4 j' a hlt c
        exact e.mono (by omega)
    · rename_i hj
      simp
      rintro ⟨j', a, b, c, e⟩
      exact findFrom_none hj j' a b c

theorem glob_star_iff {s p : List Nat} : Glob s (0x2a :: p) ↔ ∃ a s', s = a ++ s' ∧ Glob s' p := by
  constructor
  · intro h
    generalize hq : 0x2a :: p = q at h
    cases h with
    | nil => simp at hq
    | star h => simp at hq; subst hq; exact ⟨_, _, rfl, h⟩
    | char hc h => simp at hq; exact absurd hq.1.symm hc
  · rintro ⟨a, s', rfl, h⟩; exact .star h

theorem glob_lit_iff {p q : List Nat} (hp : 0x2a ∉ p) : ∀ {s : List Nat},
    Glob s (p ++ q) ↔ ∃ s', s = p ++ s' ∧ Glob s' q := by
  induction p with
  | nil => intro s; simp
  | cons c p ih =>
    intro s
    simp only [List.mem_cons, not_or] at hp
    constructor
    · intro h
      generalize hr : c :: p ++ q = r at h
      cases h with
      | nil => simp at hr
      | star h => simp at hr; exact absurd hr.1.symm hp.1
      | @char c' s p' hc h =>
        simp at hr
        obtain ⟨rfl, rfl⟩ := hr
        obtain ⟨s', rfl, h'⟩ := (ih hp.2).mp h
        exact ⟨s', rfl, h'⟩
    · rintro ⟨s', rfl, h⟩
      exact .char (fun h => hp.1 h.symm) ((ih hp.2).mpr ⟨s', rfl, h⟩)

theorem glob_nil_iff {s : List Nat} : Glob s [] ↔ s = [] := by
  constructor
  · intro h; cases h; rfl
  · rintro rfl; exact .nil

theorem chain_of_glob {p segs} (hp : Pieces 0x2a p segs) : ∀ {s : List Nat} (pre : List Nat),
    Glob s p → Chain (pre ++ s) segs pre.length := by
  induction hp with
  | nil => intros; trivial
  | skip _ ih =>
    intro s pre h
    obtain ⟨a, s', rfl, h'⟩ := glob_star_iff.mp h
    have := ih (pre ++ a) h'
    rw [← List.append_assoc]
    exact this.mono (by simp)
  | @last p hne hp =>
    intro s pre h
    have := (glob_lit_iff (q := []) hp (s := s)).mp (by simpa using h)
    obtain ⟨s', rfl, h'⟩ := this
    exact ⟨pre.length, by omega, by simp, ⟨s', by simp⟩, trivial⟩
  | @piece p q segs hne hp _ ih =>
    intro s pre h
    obtain ⟨s', rfl, h'⟩ := (glob_lit_iff hp).mp h
    obtain ⟨a, s'', rfl, h''⟩ := glob_star_iff.mp h'
    refine ⟨pre.length, by omega, by simp, ⟨a ++ s'', by simp⟩, ?_⟩
    have := ih (pre ++ p ++ a) h''
    rw [show pre ++ (p ++ (a ++ s'')) = pre ++ p ++ a ++ s'' by simp]
    exact this.mono (by simp)

theorem prefix_of_glob {p segs} (hp : Pieces 0x2a p segs) {s : List Nat} (hg : Glob s p)
    (hh : p.head? ≠ some 0x2a) (hs : segs ≠ []) : ∃ t, s = segs.headD [] ++ t := by
  cases hp with
  | nil => simp at hs
  | skip => simp at hh
  | last h1 h2 =>
    obtain ⟨s', rfl, h'⟩ := (glob_lit_iff (q := []) h2 (s := s)).mp (by simpa using hg)
    exact ⟨s', rfl⟩
  | piece h1 h2 =>
    obtain ⟨s', rfl, h'⟩ := (glob_lit_iff h2).mp hg
    exact ⟨s', rfl⟩

theorem pieces_nil_stars {p} {ps} (hp : Pieces 0x2a p ps) (hps : ps = []) : ∀ c ∈ p, c = 0x2a := by
  induction hp with
  | nil => simp
  | skip _ ih => intro c hc; simp at hc; rcases hc with rfl | hc; · rfl
                 · exact ih hps c hc
  | last => simp at hps
  | piece => simp at hps

theorem suffix_of_glob {p segs} (hp : Pieces 0x2a p segs) : ∀ {s : List Nat}, Glob s p →
    p.getLast? ≠ some 0x2a → segs ≠ [] → ∃ t, s = t ++ segs.getLast?.getD [] := by
  induction hp with
  | nil => intro s _ _ h; simp at h
  | @skip q segs hq ih =>
    intro s hg hl hs
    obtain ⟨a, s', rfl, h'⟩ := glob_star_iff.mp hg
    have hl' : q.getLast? ≠ some 0x2a := by
      cases q with
      | nil => simp
      | cons b q => simpa [List.getLast?_cons_cons] using hl
    obtain ⟨t, ht⟩ := ih h' hl' hs
    exact ⟨a ++ t, by rw [ht]; simp⟩
  | last h1 h2 =>
    intro s hg _ _
    obtain ⟨s', rfl, h'⟩ := (glob_lit_iff (q := []) h2 (s := s)).mp (by simpa using hg)
    rw [glob_nil_iff] at h'
    exact ⟨[], by simp [h']⟩
  | @piece p q segs h1 h2 hq ih =>
    intro s hg hl _
    obtain ⟨s', rfl, h'⟩ := (glob_lit_iff h2).mp hg
    obtain ⟨a, s'', rfl, h''⟩ := glob_star_iff.mp h'
    have hq0 : q ≠ [] := by
      intro h; subst h; simp at hl
    have hl' : q.getLast? ≠ some 0x2a := by
      cases q with
      | nil => simp at hq0
      | cons b q => simpa [List.getLast?_cons_cons] using hl
    by_cases hsegs : segs = []
    · exfalso
      have := pieces_nil_stars hq hsegs (q.getLast hq0) (List.getLast_mem hq0)
      rw [List.getLast?_eq_some_getLast hq0, this] at hl'
      exact hl' rfl
    · obtain ⟨t, ht⟩ := ih h'' hl' hsegs
      refine ⟨p ++ (a ++ t), ?_⟩
      rw [ht]
      cases segs with
      | nil => simp at hsegs
      | cons x xs => simp [List.getLast?_cons_cons]

theorem pieces_exists (d : Nat) (s : List Nat) : ∃ ps, Pieces d s ps := by
  obtain ⟨ps, h, _⟩ := pieces_of_split s d 0
  exact ⟨ps, h⟩

theorem split_zero_eq {input : List Nat} {d : Nat} {ps} (hp : Pieces d input ps) :
    split input d 0 = ps := by rw [split_eq hp]; simp

theorem isSuffixOf_iff {n s : List Nat} : n.isSuffixOf s = true ↔ ∃ t, s = t ++ n := by
  rw [List.isSuffixOf_iff_suffix]
  constructor
  · rintro ⟨t, h⟩; exact ⟨t, h.symm⟩
  · rintro ⟨t, h⟩; exact ⟨t, h.symm⟩

/-- What `wildcard_match` computes. -/
theorem wildcardMatch_iff {source p : List Nat} {segs} (hp : Pieces 0x2a p segs) :
    wildcardMatch source p = true ↔ p ≠ [] ∧ (segs ≠ [] →
      (p.head? ≠ some 0x2a → ∃ t, source = segs.headD [] ++ t) ∧
      (p.getLast? ≠ some 0x2a → ∃ t, source = t ++ segs.getLast?.getD []) ∧ Chain source segs 0) := by
  unfold wildcardMatch
  rw [split_zero_eq hp]
  by_cases hs : segs = []
  · subst hs; simp
  · have hp0 : p ≠ [] := by
      intro h
      subst h
      exact hs (pieces_unique hp .nil)
    have hp1 : p.isEmpty = false := by cases p <;> simp_all
    simp only [hs, if_false, ne_eq, not_false_eq_true, true_implies, hp1, Bool.not_false,
      Bool.true_and, hp0, true_and]
    rw [← wildcardLoop_iff, ← isPrefixOf_iff_prefix, ← isSuffixOf_iff]
    by_cases h1 : p.head? = some 0x2a <;> by_cases h2 : p.getLast? = some 0x2a <;>
      simp [h1, h2, and_assoc]

/-! ## Lexer -/

theorem digitOf_ascii {k : CharKind} (hk : IsCharKind k) {u : Nat} (h : AsciiDigit u) :
    k.digitOf u = digitValue u := by
  unfold AsciiDigit at h
  unfold CharKind.digitOf digitValue
  rw [neg_ascii hk (by omega)]
  simp only [Bool.false_eq_true, if_false]
  rw [if_pos (show u ≤ 0x39 from h.2)]
  omega

theorem hexOf_ascii {k : CharKind} (hk : IsCharKind k) {u : Nat} (h : AsciiHex u) :
    k.hexOf u = digitValue u := by
  unfold AsciiHex at h
  unfold CharKind.hexOf
  by_cases h1 : 0x41 ≤ u ∧ u ≤ 0x46
  · rw [if_pos ((inRange_iff hk (by decide)).mpr h1)]
    unfold digitValue
    rw [if_neg (by omega), if_pos (by omega)]
  · rw [if_neg (fun h => h1 ((inRange_iff hk (by decide)).mp h))]
    by_cases h2 : 0x61 ≤ u ∧ u ≤ 0x66
    · rw [if_pos ((inRange_iff hk (by decide)).mpr h2)]
      unfold digitValue
      rw [if_neg (by omega), if_neg (by omega)]
    · rw [if_neg (fun h => h2 ((inRange_iff hk (by decide)).mp h))]
      apply digitOf_ascii hk
      rcases h with h | h | h
      · exact h
      · exact absurd h h1
      · exact absurd h h2

theorem numberLoop_eq (base : Nat) (cond : Nat → Bool) (val : Nat → Nat) : ∀ (fuel : Nat) (l : Lexer)
    (parsed : Bool) (number : Nat), l.view.length - l.index < fuel → l.index < 2 ^ 64 →
    l.view.length < 2 ^ 64 →
    let run := (l.view.drop l.index).takeWhile cond
    numberLoop base cond val fuel l parsed number =
      (if parsed || !run.isEmpty then
        some (run.foldl (fun a u => (a * base + val u) % 2 ^ 64) number) else none,
       { l with index := l.index + run.length }) := by
  intro fuel
  induction fuel with
  | zero => intro l parsed number h; omega
  | succ fuel ih =>
    intro l parsed number hf hi hv
    have hpk : l.peek 0 = l.view[l.index]? := by
      unfold Lexer.peek; rw [Nat.add_zero, Nat.mod_eq_of_lt hi]
    simp only [numberLoop, Lexer.consumeCond, hpk]
    cases hg : l.view[l.index]? with
    | none =>
      have hge : l.view.length ≤ l.index := by simpa using hg
      simp [List.drop_eq_nil_of_le hge]
    | some c =>
      obtain ⟨hlt, hc⟩ := List.getElem?_eq_some_iff.mp hg
      rw [List.drop_eq_getElem_cons hlt, hc]
      by_cases hcond : cond c = true
      · simp only [hcond, if_true, Lexer.consume, hg]
        have := ih { l with index := l.index + 1 } true ((number * base + val c) % 2 ^ 64)
          (by simp only; omega) (by simp only; omega) hv
        simp only at this
        rw [this, List.takeWhile_cons_of_pos hcond]
        simp; omega
      · simp [hcond]

end Verif.Str
