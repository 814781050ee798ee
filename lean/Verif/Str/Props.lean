import Verif.Str.Lemmas

/-!
# Theorems about the string utilities (C18-C23)
-/

namespace Verif.Str

/-! ## C18 split -/

/-- C18: without a limit, `split` returns exactly the maximal non-empty delimiter-free stretches, in
order (and `Pieces` determines them uniquely, `pieces_unique`). -/
theorem split_pieces (input : List Nat) (d : Nat) : Pieces d input (split input d 0) := by
  obtain ⟨ps, hp⟩ := pieces_exists d input
  rw [split_zero_eq hp]; exact hp

/-- C18: with a limit `n`, the first `n - 1` pieces are unchanged and the others are joined by single
delimiters into the last one. -/
theorem split_limited (input : List Nat) (d n : Nat) (hn : 0 < n) (ps : List (List Nat))
    (hp : Pieces d input ps) :
    (ps.length ≤ n → split input d n = ps) ∧
    (n < ps.length → split input d n = ps.take (n - 1) ++ [joinWith d (ps.drop (n - 1))]) := by
  constructor
  · intro h; rw [split_eq hp, if_pos (Or.inr h)]
  · intro h; rw [split_eq hp, if_neg (by omega)]

/-- C18: with a limit `n`, at most `n` strings are returned. -/
theorem split_at_most (input : List Nat) (d n : Nat) (hn : 0 < n) : (split input d n).length ≤ n := by
  obtain ⟨ps, hp⟩ := pieces_exists d input
  by_cases h : ps.length ≤ n
  · rw [(split_limited input d n hn ps hp).1 h]; exact h
  · rw [(split_limited input d n hn ps hp).2 (by omega)]; simp; omega

/-- `",a,,b"` splits into `["a", "b"]`. -/
example : Pieces 0x2c [0x2c, 0x61, 0x2c, 0x2c, 0x62] [[0x61], [0x62]] :=
  .skip (.piece (p := [0x61]) (by decide) (by decide) (.skip (.last (by decide) (by decide))))

/-- C74 refuted: with a limit, the rest of the string is not kept verbatim in the last element:
`split("a=b==c", '=', 2)` drops one of the two neighbouring delimiters. -/
theorem split_keeps_rest_violated :
    ∃ (input : List Nat) (d : Nat), 0x3d = d ∧
      split input d 2 = [[0x61], [0x62, 0x3d, 0x63]] ∧ input = [0x61, 0x3d, 0x62, 0x3d, 0x3d, 0x63] := by
  refine ⟨_, _, rfl, ?_, rfl⟩
  have hp : Pieces 0x3d [0x61, 0x3d, 0x62, 0x3d, 0x3d, 0x63] [[0x61], [0x62], [0x63]] :=
    .piece (p := [0x61]) (by decide) (by decide) (.piece (p := [0x62]) (by decide) (by decide)
      (.skip (.last (by decide) (by decide))))
  rw [(split_limited _ _ 2 (by decide) _ hp).2 (by decide)]; rfl

/-- C74, the part that holds: with limit `n`, when the string is `n` delimiter-free non-empty stretches
separated by single delimiters followed by single-delimiter-separated rest, nothing is lost: joining
the returned strings gives back the input. -/
theorem split_keeps_rest_partial (d n : Nat) (hn : 0 < n) (ps : List (List Nat))
    (hne : ps ≠ []) (hps : ∀ p ∈ ps, p ≠ [] ∧ d ∉ p) :
    joinWith d (split (joinWith d ps) d n) = joinWith d ps := by
  have hpieces : ∀ ps : List (List Nat), ps ≠ [] → (∀ p ∈ ps, p ≠ [] ∧ d ∉ p) →
      Pieces d (joinWith d ps) ps := by
    intro ps
    induction ps with
    | nil => intro h; exact absurd rfl h
    | cons p ps ih =>
      intro _ h
      cases ps with
      | nil => exact .last (h p (by simp)).1 (h p (by simp)).2
      | cons q r =>
        exact .piece (h p (by simp)).1 (h p (by simp)).2
          (ih (by simp) (fun x hx => h x (by simp at hx ⊢; right; exact hx)))
  have hp := hpieces ps hne hps
  by_cases hle : ps.length ≤ n
  · rw [(split_limited _ d n hn ps hp).1 hle]
  · rw [(split_limited _ d n hn ps hp).2 (by omega)]
    have hj : ∀ (a b : List (List Nat)), b ≠ [] →
        joinWith d (a ++ [joinWith d b]) = joinWith d (a ++ b) := by
      intro a
      induction a with
      | nil => intro b _; simp [joinWith]
      | cons x a ih =>
        intro b hb
        have := ih b hb
        cases a with
        | nil =>
          cases b with
          | nil => exact absurd rfl hb
          | cons y b => simp [joinWith]
        | cons z a => simp only [List.cons_append, joinWith] at this ⊢; rw [this]
    rw [hj _ _ (by intro h; simp at h; omega), List.take_append_drop]

/-! ## C19 trim -/

/-- C19: `trim(s)` is `s` without a leading and a trailing run of whitespace, and neither starts nor
ends with whitespace. -/
theorem trim_decomposition (k : CharKind) (s : List Nat) :
    ∃ a b, s = a ++ trim k s ++ b ∧ (∀ c ∈ a, AsciiSpace c) ∧ (∀ c ∈ b, AsciiSpace c) ∧
      (∀ c, (trim k s).head? = some c → ¬ AsciiSpace c) ∧
      (∀ c, (trim k s).getLast? = some c → ¬ AsciiSpace c) := by
  obtain ⟨a, h1, h2, h3⟩ := dropWhile_decomp k.isSpace s
  obtain ⟨b, h4, h5, h6⟩ := dropWhile_decomp k.isSpace (s.dropWhile k.isSpace).reverse
  have hrev : s.dropWhile k.isSpace = trim k s ++ b.reverse := by
    have := congrArg List.reverse h4
    rw [List.reverse_reverse, List.reverse_append] at this
    exact this
  refine ⟨a, b.reverse, ?_, ?_, ?_, ?_, ?_⟩
  · rw [List.append_assoc, ← hrev]; exact h1
  · intro c hc; exact (isSpace_iff k c).mp (h2 c hc)
  · intro c hc; exact (isSpace_iff k c).mp (h5 c (List.mem_reverse.mp hc))
  · intro c hc hsp
    have hns := h3 c (by
      rw [hrev]
      cases ht : trim k s with
      | nil => rw [ht] at hc; simp at hc
      | cons x xs => rw [ht] at hc; simpa using hc)
    rw [(isSpace_iff k c).mpr hsp] at hns
    simp at hns
  · intro c hc hsp
    have hns := h6 c (by
      unfold trim at hc
      simpa [List.getLast?_reverse] using hc)
    rw [(isSpace_iff k c).mpr hsp] at hns
    simp at hns

/-- C19: those conditions determine the result. -/
theorem trim_unique (k : CharKind) (s t a b : List Nat) (hs : s = a ++ t ++ b)
    (ha : ∀ c ∈ a, AsciiSpace c) (hb : ∀ c ∈ b, AsciiSpace c)
    (hh : ∀ c, t.head? = some c → ¬ AsciiSpace c) (hl : ∀ c, t.getLast? = some c → ¬ AsciiSpace c) :
    trim k s = t := by
  have hdrop : ∀ (a t : List Nat), (∀ c ∈ a, AsciiSpace c) →
      (a ++ t).dropWhile k.isSpace = t.dropWhile k.isSpace := by
    intro a t ha
    induction a with
    | nil => rfl
    | cons c a ih =>
      simp at ha
      rw [List.cons_append, List.dropWhile_cons_of_pos ((isSpace_iff k c).mpr ha.1), ih ha.2]
  have hkeep : ∀ t : List Nat, (∀ c, t.head? = some c → ¬ AsciiSpace c) →
      t.dropWhile k.isSpace = t := by
    intro t ht
    cases t with
    | nil => rfl
    | cons c t =>
      exact List.dropWhile_cons_of_neg (fun h => ht c rfl ((isSpace_iff k c).mp h))
  unfold trim
  simp only
  rw [hs, List.append_assoc, hdrop a _ ha]
  cases t with
  | nil =>
    have : (([] : List Nat) ++ b).dropWhile k.isSpace = [] := by
      have := hdrop b [] hb
      simpa using this
    rw [this]; rfl
  | cons x t =>
    rw [hkeep (x :: t ++ b) (by simpa using hh), List.reverse_append,
      hdrop b.reverse _ (fun c hc => hb c (List.mem_reverse.mp hc)),
      hkeep _ (by intro c hc; rw [List.head?_reverse] at hc; exact hl c hc),
      List.reverse_reverse]

/-- A string with whitespace inside and around: only the outside is removed. -/
example : trim ⟨8, true⟩ [0x20, 0x09, 0x61, 0x20, 0x62, 0x0a] = [0x61, 0x20, 0x62] := by
  apply trim_unique _ _ [0x61, 0x20, 0x62] [0x20, 0x09] [0x0a] rfl <;> simp [AsciiSpace]

/-! ## C20 replace_all -/

/-- C20: whenever `replace_all` terminates (for a non-empty search string) its result contains no
occurrence of the search string. -/
theorem replace_all_none_left (search replace t r : List Nat) (hs : search ≠ [])
    (h : ReplaceRuns search replace t r) : ¬ Occurs search r := by
  rcases replaceStep_none (replace_runs_final h) with h' | h'
  · exact absurd h' hs
  · exact h'

/-- C20: an empty search string changes nothing. -/
theorem replace_all_empty_search (replace t r : List Nat) :
    ReplaceRuns [] replace t r ↔ r = t := by
  constructor
  · intro h
    cases h with
    | done _ => rfl
    | step h1 _ => simp [replaceStep] at h1
  · rintro rfl; exact .done (by simp [replaceStep])

/-- C20 refuted: `replace_all` does not terminate when the search string occurs in the target and also
in the replacement. -/
theorem replace_all_diverges_violated (search replace t : List Nat) (hs : search ≠ [])
    (hv : Occurs search replace) (ht : Occurs search t) : ¬ ∃ r, ReplaceRuns search replace t r := by
  rintro ⟨r, h⟩
  induction h with
  | done h =>
    rcases replaceStep_none h with h' | h'
    · exact hs h'
    · exact h' ht
  | step h1 _ ih =>
    apply ih
    obtain ⟨_, a, b, e1, e2, _⟩ := replaceStep_some h1
    obtain ⟨x, y, hxy⟩ := hv
    exact ⟨a ++ x, y ++ b, by rw [e2, hxy]; simp⟩

/-- The hypotheses are met: replacing "a" by "ba" in "a". -/
example : ¬ ∃ r, ReplaceRuns [0x61] [0x62, 0x61] [0x61] r :=
  replace_all_diverges_violated _ _ _ (by decide) ⟨[0x62], [], rfl⟩ ⟨[], [], rfl⟩

/-- C20 partial: `replace_all` terminates when the replacement is no longer than the search string and
differs from it, or when the search string is one character that the replacement does not contain.
(Missing: longer replacements that do not contain a search string of two or more characters, whose
termination is a string-rewriting question.) -/
theorem replace_all_terminates_partial (search replace t : List Nat)
    (hb : ∀ c, c ∈ search ∨ c ∈ replace ∨ c ∈ t → c < 2 ^ 32)
    (h : (replace.length ≤ search.length ∧ replace ≠ search) ∨
      (∃ a, search = [a] ∧ a ∉ replace)) :
    ∃ r, ReplaceRuns search replace t r := by
  rcases h with ⟨hlen, hne⟩ | ⟨a, rfl, ha⟩
  · rcases Nat.lt_or_eq_of_le hlen with hlt | heq
    · apply replace_terminates_of_measure (fun _ => True) List.length _ t trivial
      intro t t' _ hst
      obtain ⟨_, a, b, e1, e2, _⟩ := replaceStep_some hst
      refine ⟨trivial, ?_⟩
      rw [e1, e2]; simp; omega
    · have hinv : val (2 ^ 32) search ≠ val (2 ^ 32) replace := by
        intro he
        apply hne
        exact (val_inj (2 ^ 32) _ _ heq.symm (fun c hc => hb c (Or.inl hc))
          (fun c hc => hb c (Or.inr (Or.inl hc))) he).symm
      have hpw : ∀ n, 0 < (2 ^ 32) ^ n := fun n => Nat.pow_pos (by decide)
      have I0 : (fun s : List Nat => s.length = t.length ∧ ∀ c ∈ s, c < 2 ^ 32) t :=
        ⟨rfl, fun c hc => hb c (Or.inr (Or.inr hc))⟩
      have Istep : ∀ s s', (s.length = t.length ∧ ∀ c ∈ s, c < 2 ^ 32) →
          replaceStep search replace s = some s' →
          (s'.length = t.length ∧ ∀ c ∈ s', c < 2 ^ 32) := by
        intro s s' ⟨i1, i2⟩ hst
        obtain ⟨_, a, b, e1, e2, _⟩ := replaceStep_some hst
        subst e1; subst e2
        constructor
        · simp at i1 ⊢; omega
        · intro c hc
          simp at hc
          rcases hc with hc | hc | hc
          · exact i2 c (by simp [hc])
          · exact hb c (Or.inr (Or.inl hc))
          · exact i2 c (by simp [hc])
      rcases Nat.lt_or_gt_of_ne hinv with hlt | hgt
      · apply replace_terminates_of_measure (fun s : List Nat => s.length = t.length ∧ ∀ c ∈ s, c < 2 ^ 32)
          (fun s => (2 ^ 32) ^ t.length - val (2 ^ 32) s) _ t I0
        intro s s' hI hst
        refine ⟨Istep s s' hI hst, ?_⟩
        have hI' := Istep s s' hI hst
        have hl' := val_lt (2 ^ 32) s' hI'.2
        rw [hI'.1] at hl'
        obtain ⟨_, a, b, e1, e2, _⟩ := replaceStep_some hst
        have : val (2 ^ 32) s < val (2 ^ 32) s' := by
          rw [e1, e2]
          simp only [val_append, heq]
          have := Nat.mul_lt_mul_of_pos_right (show val (2 ^ 32) a * (2 ^ 32) ^ search.length +
            val (2 ^ 32) search < val (2 ^ 32) a * (2 ^ 32) ^ search.length + val (2 ^ 32) replace
            by omega) (hpw b.length)
          omega
        omega
      · apply replace_terminates_of_measure (fun s : List Nat => s.length = t.length ∧ ∀ c ∈ s, c < 2 ^ 32)
          (fun s => val (2 ^ 32) s) _ t I0
        intro s s' hI hst
        refine ⟨Istep s s' hI hst, ?_⟩
        obtain ⟨_, a, b, e1, e2, _⟩ := replaceStep_some hst
        rw [e1, e2]
        simp only [val_append, heq]
        have := Nat.mul_lt_mul_of_pos_right (show val (2 ^ 32) a * (2 ^ 32) ^ search.length +
          val (2 ^ 32) replace < val (2 ^ 32) a * (2 ^ 32) ^ search.length + val (2 ^ 32) search
          by omega) (hpw b.length)
        omega
  · exact ⟨_, replace_char_runs ha _ t rfl⟩

/-- The two cases occur: "ab" by "ba", and "a" by "bbb". -/
example : (∃ r, ReplaceRuns [0x61, 0x62] [0x62, 0x61] [0x61, 0x61, 0x62, 0x62] r) ∧
    (∃ r, ReplaceRuns [0x61] [0x62, 0x62, 0x62] [0x61, 0x61] r) := by
  constructor
  · exact replace_all_terminates_partial _ _ _ (by simp; omega) (.inl (by decide))
  · exact replace_all_terminates_partial _ _ _ (by simp) (.inr ⟨0x61, rfl, by decide⟩)

/-- C20: `remove_all` always terminates, and leaves no occurrence of a non-empty search string. -/
theorem remove_all_terminates (search t : List Nat) :
    ∃ r, RemoveRuns search t r ∧ (search ≠ [] → ¬ Occurs search r) := by
  by_cases hs : search = []
  · subst hs
    exact ⟨t, (replace_all_empty_search [] t t).mpr rfl, fun h => absurd rfl h⟩
  · have : ∃ r, ReplaceRuns search [] t r := by
      apply replace_terminates_of_measure (fun _ => True) List.length _ t trivial
      intro t t' _ hst
      obtain ⟨hne, a, b, e1, e2, _⟩ := replaceStep_some hst
      refine ⟨trivial, ?_⟩
      have := List.length_pos_iff.mpr hne
      rw [e1, e2]; simp; omega
    obtain ⟨r, hr⟩ := this
    exact ⟨r, hr, fun h => replace_all_none_left _ _ _ _ h hr⟩

/-- C20: replacing a single character by a string without it replaces every occurrence and nothing
else. -/
theorem replace_all_char (a : Nat) (replace t r : List Nat) (h : a ∉ replace) :
    ReplaceRuns [a] replace t r ↔ r = t.flatMap (fun c => if c = a then replace else [c]) := by
  have hr := replace_char_runs h _ t rfl
  constructor
  · intro h'; exact replace_runs_unique h' hr
  · rintro rfl; exact hr

/-! ## C21 wildcard -/

/-- C21 refuted: the pattern "a*a" is reported to match "a", and the pattern "a" to match "aba". -/
theorem wildcard_exact_violated :
    (wildcardMatch [0x61] [0x61, 0x2a, 0x61] = true ∧ ¬ Glob [0x61] [0x61, 0x2a, 0x61]) ∧
    (wildcardMatch [0x61, 0x62, 0x61] [0x61] = true ∧ ¬ Glob [0x61, 0x62, 0x61] [0x61]) := by
  refine ⟨⟨?_, ?_⟩, ?_, ?_⟩
  · have hp : Pieces 0x2a [0x61, 0x2a, 0x61] [[0x61], [0x61]] :=
      .piece (p := [0x61]) (by decide) (by decide) (.last (by decide) (by decide))
    rw [wildcardMatch_iff hp]
    refine ⟨by decide, fun _ => ⟨fun _ => ⟨[], rfl⟩, fun _ => ⟨[], rfl⟩, ?_⟩⟩
    exact ⟨0, by decide, by decide, ⟨[], rfl⟩, 0, by decide, by decide, ⟨[], rfl⟩, trivial⟩
  · intro h
    obtain ⟨s', e, h'⟩ := (glob_lit_iff (p := [0x61]) (by decide)).mp h
    obtain ⟨a, s'', e', h''⟩ := glob_star_iff.mp h'
    obtain ⟨s3, e3, h3⟩ := (glob_lit_iff (p := [0x61]) (q := []) (by decide)).mp h''
    rw [e3] at e'
    rw [e'] at e
    have h1 := congrArg List.length e
    simp at h1
  · rw [wildcardMatch_iff (segs := [[0x61]]) (.last (by decide) (by decide))]
    refine ⟨by decide, fun _ => ⟨fun _ => ⟨[0x62, 0x61], rfl⟩, fun _ => ⟨[0x61, 0x62], rfl⟩, ?_⟩⟩
    exact ⟨0, by decide, by decide, ⟨[0x62, 0x61], rfl⟩, trivial⟩
  · intro h
    obtain ⟨s', e, h'⟩ := (glob_lit_iff (p := [0x61]) (q := []) (by decide)).mp h
    rw [glob_nil_iff] at h'
    subst h'
    simp at e

/-- C21 partial: there are no false negatives: a source that matches a non-empty pattern is reported
to match. -/
theorem wildcard_complete_partial (source pattern : List Nat) (hp : pattern ≠ [])
    (h : Glob source pattern) : wildcardMatch source pattern = true := by
  obtain ⟨segs, hs⟩ := pieces_exists 0x2a pattern
  rw [wildcardMatch_iff hs]
  refine ⟨hp, fun hne => ⟨fun hh => prefix_of_glob hs h hh hne, fun hl => suffix_of_glob hs h hl hne, ?_⟩⟩
  exact chain_of_glob hs [] h

theorem glob_stars_pre {s p : List Nat} : ∀ {i}, 0 < i →
    (Glob s (List.replicate i 0x2a ++ p) ↔ ∃ a s', s = a ++ s' ∧ Glob s' p) := by
  intro i
  induction i generalizing s with
  | zero => intro h; omega
  | succ i ih =>
    intro _
    rw [List.replicate_succ, List.cons_append, glob_star_iff]
    by_cases hi : i = 0
    · subst hi; simp
    · constructor
      · rintro ⟨a, s', rfl, h⟩
        obtain ⟨b, s'', rfl, h'⟩ := (ih (by omega)).mp h
        exact ⟨a ++ b, s'', by simp, h'⟩
      · rintro ⟨a, s', rfl, h⟩
        exact ⟨a, s', rfl, (ih (by omega)).mpr ⟨[], s', rfl, h⟩⟩

theorem glob_stars_all {s : List Nat} {j : Nat} (hj : 0 < j) :
    Glob s (List.replicate j 0x2a) := by
  have := (glob_stars_pre (s := s) (p := []) hj).mpr ⟨s, [], by simp, .nil⟩
  simpa using this

/-- C21 partial: on patterns with one literal segment and a `*` at an end, and on patterns of stars
only, the answer is exact. -/
theorem wildcard_one_segment_partial (source x : List Nat) (i j : Nat) (hx : 0x2a ∉ x)
    (hij : 0 < i + j) :
    wildcardMatch source (List.replicate i 0x2a ++ x ++ List.replicate j 0x2a) = true ↔
      Glob source (List.replicate i 0x2a ++ x ++ List.replicate j 0x2a) := by
  constructor
  · intro h
    by_cases hxe : x = []
    · subst hxe
      have : List.replicate i 0x2a ++ [] ++ List.replicate j 0x2a = List.replicate (i + j) 0x2a := by
        rw [List.append_nil, List.replicate_append_replicate]
      rw [this]; exact glob_stars_all hij
    · have hstars : ∀ j, Pieces 0x2a (List.replicate j 0x2a) [] := by
        intro j
        induction j with
        | zero => exact .nil
        | succ j ih => rw [List.replicate_succ]; exact .skip ih
      have hxp : Pieces 0x2a (x ++ List.replicate j 0x2a) [x] := by
        cases j with
        | zero => simpa using Pieces.last hxe hx
        | succ j => rw [List.replicate_succ]; exact .piece hxe hx (hstars j)
      have hp : Pieces 0x2a (List.replicate i 0x2a ++ x ++ List.replicate j 0x2a) [x] := by
        rw [List.append_assoc]
        clear h hij
        induction i with
        | zero => simpa using hxp
        | succ i ih => rw [List.replicate_succ, List.cons_append]; exact .skip ih
      rw [wildcardMatch_iff hp] at h
      obtain ⟨_, h⟩ := h
      obtain ⟨h1, h2, p, _, _, ⟨t, ht⟩, _⟩ := h (by simp)
      rw [List.append_assoc]
      by_cases hi : 0 < i
      · rw [glob_stars_pre hi]
        by_cases hj : 0 < j
        · refine ⟨source.take p, source.drop p, by simp, ?_⟩
          rw [ht]
          exact (glob_lit_iff hx).mpr ⟨t, rfl, glob_stars_all hj⟩
        · have hj0 : j = 0 := by omega
          subst hj0
          obtain ⟨t', ht'⟩ := h2 (by
            intro hl
            apply hx
            rw [List.replicate_zero, List.append_nil, List.getLast?_append, List.getLast?_eq_some_getLast hxe, Option.some_or,
              ← List.getLast?_eq_some_getLast hxe] at hl
            exact List.mem_of_getLast? hl)
          refine ⟨t', x, by simpa using ht', ?_⟩
          exact (glob_lit_iff hx).mpr ⟨[], by simp, .nil⟩
      · have hi0 : i = 0 := by omega
        subst hi0
        have hj : 0 < j := by omega
        obtain ⟨t', ht'⟩ := h1 (by
          cases x with
          | nil => exact absurd rfl hxe
          | cons c x => simp at hx ⊢; exact fun h => hx.1 h.symm)
        exact (glob_lit_iff hx).mpr ⟨t', by simpa using ht', glob_stars_all hj⟩
  · intro h
    apply wildcard_complete_partial _ _ _ h
    intro he
    have := congrArg List.length he
    simp at this
    omega

/-- C21 partial: for "x*y" the answer is exact on every source at least as long as x and y
together. -/
theorem wildcard_two_segments_partial (source x y : List Nat) (hx : 0x2a ∉ x) (hy : 0x2a ∉ y)
    (hx0 : x ≠ []) (hy0 : y ≠ []) (hlen : x.length + y.length ≤ source.length) :
    wildcardMatch source (x ++ 0x2a :: y) = true ↔ Glob source (x ++ 0x2a :: y) := by
  constructor
  · intro h
    rw [wildcardMatch_iff (.piece hx0 hx (.last hy0 hy))] at h
    obtain ⟨h1, h2, _⟩ := h.2 (by simp)
    obtain ⟨t, ht⟩ := h1 (by
      cases x with
      | nil => exact absurd rfl hx0
      | cons c x => simp at hx ⊢; exact fun h => hx.1 h.symm)
    obtain ⟨t', ht'⟩ := h2 (by
      rw [List.getLast?_append]
      cases y with
      | nil => exact absurd rfl hy0
      | cons c y =>
        intro hl
        apply hy
        rw [List.getLast?_cons_cons] at hl
        have : 0x2a ∈ (c :: y).getLast? := by
          rw [Option.mem_def]
          cases hg : (c :: y).getLast? with
          | none => simp at hg
          | some z => rw [hg] at hl; simpa using hl
        exact List.mem_of_getLast? this)
    simp at ht ht'
    refine (glob_lit_iff hx).mpr ⟨t, ht, glob_star_iff.mpr ?_⟩
    have hl : x.length ≤ t'.length := by
      rw [ht'] at hlen; simp at hlen; omega
    have he : x ++ t = t' ++ y := by rw [← ht, ← ht']
    refine ⟨t.take (t.length - y.length), y, ?_, by
      have := (glob_lit_iff (q := []) hy (s := y)).mpr ⟨[], by simp, .nil⟩
      simpa using this⟩
    have := congrArg (List.drop x.length) he
    rw [List.drop_left, List.drop_append_of_le_length hl] at this
    rw [this]
    simp
  · intro h
    exact wildcard_complete_partial _ _ (by simp) h

/-- "a*b" against "axb": in the exact range, and matched. -/
example : wildcardMatch [0x61, 0x78, 0x62] [0x61, 0x2a, 0x62] = true :=
  wildcard_complete_partial _ _ (by decide)
    (.char (by decide) (.star (a := [0x78]) (.char (by decide) .nil)))

/-! ## C22 classification -/

/-- C22: the classification of letters and whitespace and the case conversions are ASCII-exact on
every unit of every character type. -/
theorem classify_letters (k : CharKind) (hk : IsCharKind k) (u : Nat) (hu : u < 2 ^ k.width) :
    (k.isUpper u = true ↔ AsciiUpper u) ∧ (k.isLower u = true ↔ AsciiLower u) ∧
    (k.isAlpha u = true ↔ AsciiUpper u ∨ AsciiLower u) ∧ (k.isSpace u = true ↔ AsciiSpace u) ∧
    k.toUpper u = (if AsciiLower u then u - 32 else u) ∧
    k.toLower u = (if AsciiUpper u then u + 32 else u) := by
  have h1 : k.isUpper u = true ↔ AsciiUpper u := inRange_iff hk (by decide)
  have h2 : k.isLower u = true ↔ AsciiLower u := inRange_iff hk (by decide)
  refine ⟨h1, h2, ?_, isSpace_iff k u, ?_, ?_⟩
  · unfold CharKind.isAlpha CharKind.isUpper
    rw [inRange_iff hk (by decide), unify_eq hk hu]
    unfold AsciiUpper AsciiLower
    omega
  · unfold CharKind.toUpper
    by_cases h : AsciiLower u
    · rw [if_pos (h2.mpr h), if_pos h, unify_eq hk hu]
      unfold AsciiLower at h
      omega
    · rw [if_neg (fun h' => h (h2.mp h')), if_neg h]
  · unfold CharKind.toLower
    by_cases h : AsciiUpper u
    · rw [if_pos (h1.mpr h), if_pos h]
      exact lor_case h.1 h.2
    · rw [if_neg (fun h' => h (h1.mp h')), if_neg h]

/-- C22: exactly which units `is_digit` and `is_x_digit` accept: the ASCII digits, and every negative
unit of a signed character type. -/
theorem classify_digits (k : CharKind) (hk : IsCharKind k) (u : Nat) (hu : u < 2 ^ k.width) :
    (k.isDigit u = true ↔ AsciiDigit u ∨ k.neg u = true) ∧
    (k.isXDigit u = true ↔ AsciiHex u ∨ k.neg u = true) := by
  have h1 : k.isDigit u = true ↔ AsciiDigit u ∨ k.neg u = true := by
    unfold CharKind.isDigit AsciiDigit
    rw [Bool.or_eq_true, decide_eq_true_iff, xor_zero_lt]
    exact Or.comm
  refine ⟨h1, ?_⟩
  unfold CharKind.isXDigit
  rw [Bool.or_eq_true, h1, inRange_iff hk (by decide), unify_eq hk hu]
  unfold AsciiHex
  constructor
  · rintro ((h | h) | h)
    · left; left; exact h
    · right; exact h
    · left; right; omega
  · rintro ((h | h) | h)
    · left; left; exact h
    · right; omega
    · left; right; exact h

/-- C22 partial: for the unsigned character types, and for the ASCII half of the signed ones,
`is_digit` and `is_x_digit` are exact. -/
theorem classify_digits_partial (k : CharKind) (hk : IsCharKind k) (u : Nat) (hu : u < 2 ^ k.width)
    (hn : k.signed = false ∨ u < 2 ^ (k.width - 1)) :
    (k.isDigit u = true ↔ AsciiDigit u) ∧ (k.isXDigit u = true ↔ AsciiHex u) := by
  have hneg : k.neg u = false := by
    unfold CharKind.neg
    rcases hn with h | h
    · simp [h]
    · have : ¬ 2 ^ (k.width - 1) ≤ u := by omega
      simp [this]
  have := classify_digits k hk u hu
  rw [hneg] at this
  simpa using this

/-- C22 refuted for `char` and `wchar_t`: the byte 0xE9 (é in Latin-1) is a digit and a hexadecimal
digit, and so is a negative `wchar_t`. -/
theorem classify_digits_violated :
    (CharKind.isDigit ⟨8, true⟩ 0xe9 = true ∧ CharKind.isXDigit ⟨8, true⟩ 0xe9 = true ∧
      ¬ AsciiHex 0xe9) ∧
    (CharKind.isDigit ⟨32, true⟩ 0xffffffff = true ∧ ¬ AsciiDigit 0xffffffff) := by
  refine ⟨⟨?_, ?_, by decide⟩, ?_, by decide⟩
  · exact ((classify_digits ⟨8, true⟩ .char 0xe9 (by decide)).1).mpr (.inr (by decide))
  · exact ((classify_digits ⟨8, true⟩ .char 0xe9 (by decide)).2).mpr (.inr (by decide))
  · exact ((classify_digits ⟨32, true⟩ .wchar 0xffffffff (by decide)).1).mpr (.inr (by decide))

/-! ## C23 lexer -/

theorem foldl_mod_numeral (base : Nat) (v : Nat → Nat) : ∀ (run : List Nat) (a : Nat),
    (∀ u ∈ run, v u = digitValue u) →
    run.foldl (fun a u => (a * base + v u) % 2 ^ 64) (a % 2 ^ 64) =
      run.foldl (fun a u => a * base + digitValue u) a % 2 ^ 64 := by
  intro run
  induction run with
  | nil => intro a _; rfl
  | cons u run ih =>
    intro a h
    rw [List.foldl_cons, List.foldl_cons, ← ih _ (fun x hx => h x (by simp [hx])), h u (by simp)]
    congr 1
    rw [Nat.add_mod, Nat.mul_mod, Nat.mod_mod, ← Nat.mul_mod, ← Nat.add_mod]

theorem takeWhile_congr' {p q : Nat → Bool} : ∀ (l : List Nat), (∀ x ∈ l, p x = q x) →
    l.takeWhile p = l.takeWhile q := by
  intro l
  induction l with
  | nil => intro _; rfl
  | cons c l ih =>
    intro h
    have h1 := h c (by simp)
    have h2 := ih (fun x hx => h x (by simp [hx]))
    simp [List.takeWhile_cons, h1, h2]

theorem mem_takeWhile_prop {p : Nat → Bool} : ∀ (l : List Nat) x, x ∈ l.takeWhile p → p x = true := by
  intro l
  induction l with
  | nil => simp
  | cons c l ih =>
    intro x hx
    by_cases hc : p c = true
    · rw [List.takeWhile_cons_of_pos hc] at hx
      simp at hx
      rcases hx with rfl | hx
      · exact hc
      · exact ih x hx
    · rw [List.takeWhile_cons_of_neg hc] at hx; simp at hx

/-- C23: on a view without negative characters, `consume_number` consumes exactly the maximal run of
ASCII digits at the cursor and returns its value modulo 2^64; with no digit there it consumes and
returns nothing. -/
theorem consume_number_run (k : CharKind) (hk : IsCharKind k) (l : Lexer)
    (hu : ∀ u ∈ l.view, u < 2 ^ k.width ∧ k.neg u = false)
    (hi : l.index < 2 ^ 64) (hv : l.view.length < 2 ^ 64) :
    let run := (l.view.drop l.index).takeWhile (fun u => decide (AsciiDigit u))
    l.consumeNumber k = (if run = [] then (none, l)
      else (some (numeral 10 run % 2 ^ 64), { l with index := l.index + run.length })) := by
  intro run
  have hcongr : (l.view.drop l.index).takeWhile k.isDigit = run := by
    apply takeWhile_congr'
    intro x hx
    have hm := hu x (List.mem_of_mem_drop hx)
    have := (classify_digits k hk x hm.1).1
    rw [hm.2] at this
    rw [Bool.eq_iff_iff, this]; simp
  have := numberLoop_eq 10 k.isDigit k.digitOf (l.view.length + 1) l false 0 (by omega) hi hv
  simp only [hcongr] at this
  unfold Lexer.consumeNumber
  rw [this]
  by_cases hr : run = []
  · simp [hr]
  · rw [if_neg hr]
    have hne : run.isEmpty = false := by cases h : run <;> simp_all
    have hf := foldl_mod_numeral 10 k.digitOf run 0 (fun u hm => digitOf_ascii hk (by
      have := mem_takeWhile_prop _ u hm; simpa using this))
    rw [Nat.zero_mod] at hf
    rw [hf, hne]; rfl

/-- C23: the same for `consume_hex_number`. -/
theorem consume_hex_number_run (k : CharKind) (hk : IsCharKind k) (l : Lexer)
    (hu : ∀ u ∈ l.view, u < 2 ^ k.width ∧ k.neg u = false)
    (hi : l.index < 2 ^ 64) (hv : l.view.length < 2 ^ 64) :
    let run := (l.view.drop l.index).takeWhile (fun u => decide (AsciiHex u))
    l.consumeHexNumber k = (if run = [] then (none, l)
      else (some (numeral 16 run % 2 ^ 64), { l with index := l.index + run.length })) := by
  intro run
  have hcongr : (l.view.drop l.index).takeWhile k.isXDigit = run := by
    apply takeWhile_congr'
    intro x hx
    have hm := hu x (List.mem_of_mem_drop hx)
    have := (classify_digits k hk x hm.1).2
    rw [hm.2] at this
    rw [Bool.eq_iff_iff, this]; simp
  have := numberLoop_eq 16 k.isXDigit k.hexOf (l.view.length + 1) l false 0 (by omega) hi hv
  simp only [hcongr] at this
  unfold Lexer.consumeHexNumber
  rw [this]
  by_cases hr : run = []
  · simp [hr]
  · rw [if_neg hr]
    have hne : run.isEmpty = false := by cases h : run <;> simp_all
    have hf := foldl_mod_numeral 16 k.hexOf run 0 (fun u hm => hexOf_ascii hk (by
      have := mem_takeWhile_prop _ u hm; simpa using this))
    rw [Nat.zero_mod] at hf
    rw [hf, hne]; rfl

/-- C23 partial: when the run's value fits 64 bits (and no character is negative), the value returned
is the value of the run. -/
theorem consume_number_exact_partial (k : CharKind) (hk : IsCharKind k) (l : Lexer)
    (hu : ∀ u ∈ l.view, u < 2 ^ k.width ∧ k.neg u = false)
    (hi : l.index < 2 ^ 64) (hv : l.view.length < 2 ^ 64)
    (hr : (l.view.drop l.index).takeWhile (fun u => decide (AsciiDigit u)) ≠ [])
    (hfit : numeral 10 ((l.view.drop l.index).takeWhile (fun u => decide (AsciiDigit u))) < 2 ^ 64) :
    (l.consumeNumber k).1 =
      some (numeral 10 ((l.view.drop l.index).takeWhile (fun u => decide (AsciiDigit u)))) := by
  have := consume_number_run k hk l hu hi hv
  simp only [if_neg hr] at this
  rw [this, Nat.mod_eq_of_lt hfit]

/-- "x42;" from index 1. -/
example : (Lexer.consumeNumber ⟨8, true⟩ ⟨[0x78, 0x34, 0x32, 0x3b], 1⟩) =
    (some 42, ⟨[0x78, 0x34, 0x32, 0x3b], 3⟩) := by
  have := consume_number_run ⟨8, true⟩ .char ⟨[0x78, 0x34, 0x32, 0x3b], 1⟩ (by decide) (by decide)
    (by decide)
  rw [this]; rfl

/-- C23 refuted: a run whose value does not fit is accepted with the value reduced modulo 2^64
("18446744073709551617" gives 1), and a negative character is consumed as a digit. -/
theorem consume_number_violated :
    ((Lexer.consumeNumber ⟨8, false⟩ ⟨[49,56,52,52,54,55,52,52,48,55,51,55,48,57,53,53,49,54,49,55], 0⟩).1
      = some 1 ∧
     numeral 10 [49,56,52,52,54,55,52,52,48,55,51,55,48,57,53,53,49,54,49,55] = 2 ^ 64 + 1) ∧
    ((Lexer.consumeNumber ⟨8, true⟩ ⟨[0xff], 0⟩) = (some (2 ^ 64 - 49), ⟨[0xff], 1⟩) ∧
      ¬ AsciiDigit 0xff) := by
  refine ⟨⟨?_, by decide⟩, rfl, by decide⟩
  have := consume_number_run ⟨8, false⟩ .char8
    ⟨[49,56,52,52,54,55,52,52,48,55,51,55,48,57,53,53,49,54,49,55], 0⟩ (by decide) (by decide)
    (by decide)
  rw [this]; rfl

/-- C23: `consume` and `consume_if` never move past the end, and `peek` never returns a character from
outside the view. -/
theorem lexer_bounds (l : Lexer) (h : l.index ≤ l.view.length) (ch : Nat) :
    l.consume.2.index ≤ l.view.length ∧
    (l.index < 2 ^ 64 → (l.consumeIf ch).2.index ≤ l.view.length) ∧
    (∀ off c, l.peek off = some c → c ∈ l.view) := by
  refine ⟨?_, ?_, ?_⟩
  · unfold Lexer.consume
    split
    · exact h
    · rename_i c hc
      obtain ⟨hlt, _⟩ := List.getElem?_eq_some_iff.mp hc
      exact hlt
  · intro h64
    unfold Lexer.consumeIf
    split
    · rename_i hp
      unfold Lexer.peek at hp
      rw [Nat.add_zero, Nat.mod_eq_of_lt h64] at hp
      obtain ⟨hlt, _⟩ := List.getElem?_eq_some_iff.mp hp
      exact hlt
    · exact h
  · intro off c hc
    exact List.mem_of_getElem? hc

/-! ## C88 the lexer is a cursor -/

/-- C88: with the text split at the cursor into what has been read and what is left, `peek(n)` is the
`n`-th character left, `consume` takes exactly the next one, `consume_if` takes it exactly when it is
the wanted one; with nothing left all of them report so and do not move. -/
theorem lexer_cursor (read left : List Nat) (ch : Nat) (hl : (read ++ left).length < 2 ^ 64) :
    let l : Lexer := ⟨read ++ left, read.length⟩
    (∀ off, read.length + off < 2 ^ 64 → l.peek off = left[off]?) ∧
    (left = [] → l.consume = (none, l) ∧ l.consumeIf ch = (false, l)) ∧
    (∀ c r, left = c :: r →
      l.consume = (some c, ⟨(read ++ [c]) ++ r, (read ++ [c]).length⟩) ∧
      (c = ch → l.consumeIf ch = (true, ⟨(read ++ [c]) ++ r, (read ++ [c]).length⟩)) ∧
      (c ≠ ch → l.consumeIf ch = (false, l))) := by
  intro l
  have hp : ∀ off, read.length + off < 2 ^ 64 → l.peek off = left[off]? := by
    intro off ho
    show (read ++ left)[(read.length + off) % 2 ^ 64]? = _
    rw [Nat.mod_eq_of_lt ho, List.getElem?_append_right (by omega)]
    congr 1; omega
  have hp0 : l.peek 0 = left.head? := by
    rw [hp 0 (by simp only [List.length_append] at hl; omega), List.head?_eq_getElem?]
  have hg : (read ++ left)[read.length]? = left.head? := by
    rw [List.getElem?_append_right (Nat.le_refl _), Nat.sub_self, List.head?_eq_getElem?]
  refine ⟨hp, ?_, ?_⟩
  · rintro rfl
    constructor
    · show Lexer.consume ⟨read ++ [], read.length⟩ = _
      simp only [Lexer.consume, hg, List.head?_nil]; rfl
    · unfold Lexer.consumeIf
      rw [hp0, if_neg (by simp)]
  · rintro c r rfl
    have e : read ++ c :: r = (read ++ [c]) ++ r := by simp
    refine ⟨?_, ?_, ?_⟩
    · show Lexer.consume ⟨read ++ c :: r, read.length⟩ = _
      simp only [Lexer.consume, hg, List.head?_cons]
      rw [e]; simp
    · rintro rfl
      unfold Lexer.consumeIf
      rw [hp0, if_pos (by simp)]
      show (true, Lexer.mk (read ++ c :: r) (read.length + 1)) = _
      rw [e]; simp
    · intro hne
      unfold Lexer.consumeIf
      rw [hp0, if_neg (by simpa using hne)]

/-- C88: past the end (`set_position` does not check) every read fails and nothing moves. -/
theorem lexer_past_end (l : Lexer) (h : l.view.length ≤ l.index) (h64 : l.index < 2 ^ 64) (ch : Nat) :
    l.peek 0 = none ∧ l.consume = (none, l) ∧ l.consumeIf ch = (false, l) := by
  have hn : l.view[l.index]? = none := List.getElem?_eq_none h
  have hp : l.peek 0 = none := by
    unfold Lexer.peek; rw [Nat.add_zero, Nat.mod_eq_of_lt h64, hn]
  refine ⟨hp, ?_, ?_⟩
  · simp only [Lexer.consume, hn]
  · unfold Lexer.consumeIf; rw [hp, if_neg (by simp)]

/-- A call of `consume` or of `consume_if` with some character. -/
inductive LexCall where
  | consume
  | consumeIf (ch : Nat)

/-- The characters taken by a sequence of calls, and the lexer afterwards. -/
def lexCalls : List LexCall → Lexer → List Nat × Lexer
  | [], l => ([], l)
  | .consume :: cs, l =>
    let r := lexCalls cs l.consume.2
    (l.consume.1.toList ++ r.1, r.2)
  | .consumeIf ch :: cs, l =>
    let r := lexCalls cs (l.consumeIf ch).2
    ((if (l.consumeIf ch).1 then [ch] else []) ++ r.1, r.2)

/-- C88: over any sequence of calls, what has been taken is exactly the text between the old and the
new position: nothing is skipped, repeated or reordered. -/
theorem lexer_history (cs : List LexCall) (read left : List Nat) (hl : (read ++ left).length < 2 ^ 64) :
    ∃ taken left', left = taken ++ left' ∧
      lexCalls cs ⟨read ++ left, read.length⟩ =
        (taken, ⟨(read ++ taken) ++ left', (read ++ taken).length⟩) := by
  induction cs generalizing read left with
  | nil => exact ⟨[], left, rfl, by simp [lexCalls]⟩
  | cons c cs ih =>
    have step : ∀ x r, left = x :: r → ∃ taken left', left = taken ++ left' ∧
        ([x] ++ (lexCalls cs ⟨(read ++ [x]) ++ r, (read ++ [x]).length⟩).1,
          (lexCalls cs ⟨(read ++ [x]) ++ r, (read ++ [x]).length⟩).2) =
        (taken, (⟨(read ++ taken) ++ left', (read ++ taken).length⟩ : Lexer)) := by
      rintro x r rfl
      obtain ⟨tk, lf, h1, h2⟩ := ih (read ++ [x]) r (by simpa using hl)
      exact ⟨x :: tk, lf, by rw [h1]; rfl, by rw [h2]; simp⟩
    have stay : ∃ taken left', left = taken ++ left' ∧
        ([] ++ (lexCalls cs ⟨read ++ left, read.length⟩).1, (lexCalls cs ⟨read ++ left, read.length⟩).2) =
        (taken, (⟨(read ++ taken) ++ left', (read ++ taken).length⟩ : Lexer)) := by
      obtain ⟨tk, lf, h1, h2⟩ := ih read left hl
      exact ⟨tk, lf, h1, by rw [h2]; rfl⟩
    cases c with
    | consume =>
      obtain ⟨_, h2, h3⟩ := lexer_cursor read left 0 hl
      cases left with
      | nil => simp only [lexCalls, (h2 rfl).1]; exact stay
      | cons x r => simp only [lexCalls, (h3 x r rfl).1]; exact step x r rfl
    | consumeIf ch =>
      obtain ⟨_, h2, h3⟩ := lexer_cursor read left ch hl
      cases left with
      | nil => simp only [lexCalls, (h2 rfl).2]; exact stay
      | cons x r =>
        by_cases hx : x = ch
        · subst hx
          simp only [lexCalls, (h3 x r rfl).2.1 rfl, if_true]; exact step x r rfl
        · simp only [lexCalls, (h3 x r rfl).2.2 hx]; exact stay

example : (lexCalls [.consume, .consumeIf 0x41, .consumeIf 0x62, .consume, .consume]
    ⟨[0x61, 0x62, 0x63], 0⟩).1 = [0x61, 0x62, 0x63] := by decide

end Verif.Str
