import Verif.Str.Props
import Verif.Str.WildcardExact
import Verif.Unicode.Memory

/-!
# C164: the texts the string functions read and edit

Source: `/repo/fly/types/string/string.hpp` 505-634.

`Verif.Str.Model` takes and drops parts of lists, which is always possible. Here positions are `std::size_t` values with `npos`,
cutting beyond the end, erasing ranges out of order and `front()`/`back()` of nothing are errors, and the loops end only if they do.
The last part is about a search view into the target itself, which `replace_all` edits under it.
-/

namespace Verif.Str.Memory

open Verif.Str Verif.Unicode.Memory

/-! ## Model -/

/-- `npos` (string.hpp 536, 571, 624). -/
def npos : Nat := 2 ^ 64 - 1

/-- `text.find(needle, start)` (string.hpp 519, 542, 571, 584, 624). -/
def findAt (needle text : List Nat) (start : Nat) : Nat := (findFrom needle text start).getD npos

/-- `text.substr(pos, count)` (string.hpp 538, 545): throws when `pos` is beyond the end. -/
def substrAt (s : List Nat) (pos count : Nat) : Run (List Nat) :=
  if pos ≤ s.length then .ok ((s.drop pos).take count) else .ub

/-- `front()` (string.hpp 612, 614): undefined when there is nothing. -/
def front {α : Type} (l : List α) : Run α :=
  match l.head? with
  | some a => .ok a
  | none => .ub

/-- `back()` (string.hpp 526-527, 616, 618): undefined when there is nothing. -/
def back {α : Type} (l : List α) : Run α :=
  match l.getLast? with
  | some a => .ok a
  | none => .ub

/-- `end - start` of `std::size_t` (string.hpp 538). -/
def sizeSub (n m : Nat) : Nat := (n + 2 ^ 64 - m) % 2 ^ 64

/-- `push_item` (string.hpp 521-534). -/
def pushItemAt (d count : Nat) (elements : List (List Nat)) (str : List Nat) : Run (List (List Nat)) :=
  if str = [] then .ok elements
  else if 0 < count ∧ elements.length = count then do
    let b ← back elements
    .ok (elements.dropLast ++ [b ++ d :: str])
  else .ok (elements ++ [str])

/-- The loop of `split` and what follows it (string.hpp 536-550), with the rounds it is given, `start` and `end`. -/
def splitLoopAt (input : List Nat) (d count : Nat) : Nat → Nat → Nat → List (List Nat) → Run (List (List Nat))
  | 0, _, _, _ => .spin
  | rounds + 1, start, end_, elements =>
    if end_ ≠ npos then do
      let item ← substrAt input start (sizeSub end_ start)
      let elements ← pushItemAt d count elements item
      splitLoopAt input d count rounds (end_ + 1) (findAt [d] input (end_ + 1)) elements
    else do
      let item ← substrAt input start end_
      pushItemAt d count elements item

/-- `split` (string.hpp 505-551). -/
def splitAt (rounds : Nat) (input : List Nat) (d count : Nat) : Run (List (List Nat)) :=
  splitLoopAt input d count rounds 0 (findAt [d] input 0) []

/-- `text.erase(first, last)` (string.hpp 562, 565): a range of the text, in order. -/
def eraseAt (s : List Nat) (first last : Nat) : Run (List Nat) :=
  if first ≤ last ∧ last ≤ s.length then .ok (s.take first ++ s.drop last) else .ub

/-- `trim` (string.hpp 554-566): `std::find_if` from the front, then from the back. -/
def trimAt (k : CharKind) (s : List Nat) : Run (List Nat) := do
  let s ← eraseAt s 0 (s.findIdx (fun c => !k.isSpace c))
  eraseAt s (sizeSub s.length (s.reverse.findIdx (fun c => !k.isSpace c))) s.length

/-- `text.replace(pos, count, replacement)` (string.hpp 575, 588): throws when `pos` is beyond the end. -/
def replaceAt (s : List Nat) (pos count : Nat) (replacement : List Nat) : Run (List Nat) :=
  if pos ≤ s.length then .ok (s.take pos ++ replacement ++ (s.drop pos).drop count) else .ub

/-- `replace_all` (string.hpp 569-598) with a search string that is not part of the target. -/
def replaceAllAt (search replacement : List Nat) : Nat → List Nat → Run (List Nat)
  | 0, _ => .spin
  | rounds + 1, target =>
    if search ≠ [] ∧ findAt search target 0 ≠ npos then do
      let target ← replaceAt target (findAt search target 0) search.length replacement
      replaceAllAt search replacement rounds target
    else .ok target

/-- `replace_all` (string.hpp 569-592) with a search view of `len` characters at `off` of the target itself, and a replacement of
the same length, so that the target is edited where it is: what the view shows is read anew in every round. -/
def replaceSelfAt (off len : Nat) (replacement : List Nat) : Nat → List Nat → Run (List Nat)
  | 0, _ => .spin
  | rounds + 1, target =>
    if (target.drop off).take len ≠ [] ∧ findAt ((target.drop off).take len) target 0 ≠ npos then do
      let target ← replaceAt target (findAt ((target.drop off).take len) target 0) len replacement
      replaceSelfAt off len replacement rounds target
    else .ok target

/-- The segment loop of `wildcard_match` (string.hpp 622-630). -/
def wildcardLoopAt (source : List Nat) : List (List Nat) → Nat → Bool → Run Bool
  | [], _, result => .ok result
  | seg :: rest, index, result =>
    if result then
      if findAt seg source index = npos then wildcardLoopAt source rest (findAt seg source index) false
      else wildcardLoopAt source rest (findAt seg source index) result
    else .ok result

/-- `wildcard_match` (string.hpp 602-634). -/
def wildcardMatchAt (rounds : Nat) (source search : List Nat) : Run Bool := do
  let segments ← splitAt rounds search 0x2a 0
  if segments ≠ [] then do
    let result ← (if !search.isEmpty then do
        let c ← front search
        if c ≠ 0x2a then do
          let f ← front segments
          .ok (f.isPrefixOf source)
        else .ok true
      else .ok false)
    let result ← (if result then do
        let c ← back search
        if c ≠ 0x2a then do
          let l ← back segments
          .ok (l.isSuffixOf source)
        else .ok result
      else .ok result)
    wildcardLoopAt source segments 0 result
  else .ok (!search.isEmpty)

/-! ## Proof -/

@[simp] theorem ok_bind {α β : Type} (a : α) (f : α → Run β) : (Run.ok a >>= f) = f a := rfl

theorem sizeSub_of_le {n m : Nat} (h : m ≤ n) (hn : n < 2 ^ 64) : sizeSub n m = n - m := by
  unfold sizeSub
  rw [show n + 2 ^ 64 - m = (n - m) + 2 ^ 64 by omega, Nat.add_mod_right, Nat.mod_eq_of_lt (by omega)]

theorem pushItemAt_eq (d count : Nat) (elements : List (List Nat)) (str : List Nat) :
    pushItemAt d count elements str = .ok (pushItem d count elements str) := by
  unfold pushItemAt pushItem
  by_cases h1 : str = []
  · rw [if_pos h1, if_pos h1]
  · rw [if_neg h1, if_neg h1]
    by_cases h2 : 0 < count ∧ elements.length = count
    · rw [if_pos h2, if_pos h2]
      have : elements ≠ [] := by intro e; subst e; simp at h2; omega
      unfold back
      rw [List.getLast?_eq_some_getLast this]
      rfl
    · rw [if_neg h2, if_neg h2]

theorem findAt_cases {needle text : List Nat} {start : Nat} (hl : text.length < npos) :
    (findFrom needle text start = none ∧ findAt needle text start = npos) ∨
    ∃ i, findFrom needle text start = some i ∧ findAt needle text start = i ∧ start ≤ i ∧ i ≤ text.length ∧ i ≠ npos := by
  unfold findAt
  cases h : findFrom needle text start with
  | none => exact .inl ⟨rfl, rfl⟩
  | some i =>
    have := findFrom_some h
    exact .inr ⟨i, rfl, rfl, this.1, this.2.1, by omega⟩

theorem splitLoopAt_eq (input : List Nat) (d count : Nat) (hl : input.length < npos) : ∀ (rounds start : Nat)
    (elements : List (List Nat)), start ≤ input.length → input.length - start < rounds →
    splitLoopAt input d count rounds start (findAt [d] input start) elements =
      .ok (splitLoop input d count start elements) := by
  have hn : npos = 2 ^ 64 - 1 := rfl
  intro rounds
  induction rounds with
  | zero => intro _ _ _ h; omega
  | succ rounds ih =>
    intro start elements hs hr
    rw [splitLoopAt, splitLoop]
    rcases findAt_cases (needle := [d]) (start := start) hl with ⟨h1, h2⟩ | ⟨i, h1, h2, h3, h4, h5⟩
    · rw [h2, if_neg (by simp)]
      unfold substrAt
      rw [if_pos hs, ok_bind, pushItemAt_eq,
        List.take_of_length_le (by rw [List.length_drop]; omega)]
      split
      · rename_i e he; rw [h1] at he; exact absurd he (by simp)
      · rfl
    · have hlt := (findFrom_lt (by simp) h1).2
      rw [h2, if_pos h5]
      unfold substrAt
      rw [if_pos hs, ok_bind, pushItemAt_eq, ok_bind, sizeSub_of_le h3 (by omega),
        ih (i + 1) _ (by omega) (by omega)]
      split
      · rename_i e he
        rw [h1] at he
        simp only [Option.some.injEq] at he
        rw [he]
      · rename_i he; rw [h1] at he; exact absurd he (by simp)

theorem splitAt_eq (input : List Nat) (d count : Nat) (hl : input.length < npos) (rounds : Nat)
    (hr : input.length < rounds) : splitAt rounds input d count = .ok (split input d count) :=
  splitLoopAt_eq input d count hl rounds 0 [] (by omega) (by omega)

theorem drop_findIdx_not (p : Nat → Bool) (s : List Nat) : s.drop (s.findIdx (fun c => !p c)) = s.dropWhile p := by
  induction s with
  | nil => rfl
  | cons c s ih =>
    rw [List.findIdx_cons, List.dropWhile_cons]
    cases h : p c
    · simp
    · simpa using ih

theorem trimAt_eq (k : CharKind) (s : List Nat) (hl : s.length < npos) : trimAt k s = .ok (trim k s) := by
  have hn : npos = 2 ^ 64 - 1 := rfl
  have ok : ∀ (s : List Nat) (i j : Nat), i ≤ j → j ≤ s.length → eraseAt s i j = .ok (s.take i ++ s.drop j) := by
    intro s i j h1 h2
    unfold eraseAt
    rw [if_pos ⟨h1, h2⟩]
  unfold trimAt
  rw [ok _ _ _ (Nat.zero_le _) List.findIdx_le_length, ok_bind, List.take_zero, List.nil_append, drop_findIdx_not]
  unfold trim
  have hle : (s.dropWhile k.isSpace).length ≤ s.length := by
    rw [← drop_findIdx_not, List.length_drop]; omega
  generalize s.dropWhile k.isSpace = t at hle ⊢
  have h2 : t.reverse.findIdx (fun c => !k.isSpace c) ≤ t.length := by
    have := List.findIdx_le_length (p := fun c => !k.isSpace c) (xs := t.reverse)
    rwa [List.length_reverse] at this
  rw [sizeSub_of_le h2 (by omega), ok _ _ _ (by omega) (Nat.le_refl _), List.drop_length, List.append_nil]
  simp only
  rw [← drop_findIdx_not, List.drop_reverse, List.reverse_reverse]

theorem findAt_findSub {needle text : List Nat} : findFrom needle text 0 = findSub needle text := by
  unfold findFrom
  rw [if_pos (Nat.zero_le _), List.drop_zero]
  cases findSub needle text <;> rfl

/-- One round of `replace_all`. -/
theorem replaceAllAt_succ (search replacement : List Nat) (rounds : Nat) (target : List Nat) (hl : target.length < npos) :
    replaceAllAt search replacement (rounds + 1) target =
      match replaceStep search replacement target with
      | some t => replaceAllAt search replacement rounds t
      | none => .ok target := by
  rw [replaceAllAt, replaceStep]
  by_cases hs : search = []
  · simp [hs]
  · rw [if_neg hs]
    rcases findAt_cases (needle := search) (start := 0) hl with ⟨h1, h2⟩ | ⟨i, h1, h2, h3, h4, h5⟩
    · rw [findAt_findSub] at h1
      rw [h1, if_neg (by simp [h2])]
    · rw [findAt_findSub] at h1
      rw [h1, if_pos (by simp [h2, h5, hs]), h2]
      unfold replaceAt
      rw [if_pos h4, ok_bind, List.drop_drop]

theorem wildcardLoopAt_false (source : List Nat) (segs : List (List Nat)) (i : Nat) :
    wildcardLoopAt source segs i false = .ok false := by
  cases segs <;> rfl

theorem wildcardLoopAt_eq (source : List Nat) (hl : source.length < npos) : ∀ (segs : List (List Nat)) (i : Nat),
    wildcardLoopAt source segs i true = .ok (wildcardLoop source segs i) := by
  intro segs
  induction segs with
  | nil => intro i; rfl
  | cons seg segs ih =>
    intro i
    rw [wildcardLoopAt, wildcardLoop, if_pos rfl]
    rcases findAt_cases (needle := seg) (start := i) hl with ⟨h1, h2⟩ | ⟨j, h1, h2, _, _, h5⟩
    · rw [h1, if_pos h2, wildcardLoopAt_false]
    · rw [h1, h2, if_neg h5, ih]

theorem wildcardMatchAt_eq (source search : List Nat) (hl : source.length < npos) (hs : search.length < npos) (rounds : Nat)
    (hr : search.length < rounds) : wildcardMatchAt rounds source search = .ok (wildcardMatch source search) := by
  unfold wildcardMatchAt wildcardMatch
  rw [splitAt_eq _ _ _ hs _ hr, ok_bind]
  simp only
  generalize split search 0x2a 0 = segs
  cases segs with
  | nil => simp
  | cons g gs =>
    have e : g :: gs ≠ [] := by simp
    rw [if_pos e, if_neg e]
    cases search with
    | nil => simp [wildcardLoopAt_false]
    | cons c cs =>
      have hb : ∃ l, (c :: cs).getLast? = some l := ⟨_, List.getLast?_eq_some_getLast (by simp)⟩
      obtain ⟨l, hb⟩ := hb
      have hg : ∃ l, (g :: gs).getLast? = some l := ⟨_, List.getLast?_eq_some_getLast (by simp)⟩
      obtain ⟨gl, hg⟩ := hg
      simp only [front, back, hb, hg, List.head?_cons, List.isEmpty_cons, Bool.not_false, if_true, Bool.true_and, ok_bind,
        List.headD_cons, Option.getD_some]
      by_cases h1 : c = 0x2a
      · by_cases h2 : l = 0x2a
        · simp [h1, h2, wildcardLoopAt_eq source hl]
        · cases h3 : gl.isSuffixOf source <;> simp [h1, h2, h3, wildcardLoopAt_eq source hl, wildcardLoopAt_false]
      · cases h4 : g.isPrefixOf source
        · simp [h1, h4, wildcardLoopAt_false]
        · by_cases h2 : l = 0x2a
          · simp [h1, h2, h4, wildcardLoopAt_eq source hl]
          · cases h3 : gl.isSuffixOf source <;>
              simp [h1, h2, h3, h4, wildcardLoopAt_eq source hl, wildcardLoopAt_false]

/-! ## C164 -/

/-- C164: splitting cuts the text within its bounds and needs at most one round more than the text is long; without a limit the
result is the delimiter-free pieces. -/
theorem split_memory (input : List Nat) (d count : Nat) (hl : input.length < npos) (rounds : Nat)
    (hr : input.length < rounds) : ∃ ps, splitAt rounds input d count = .ok ps ∧ (count = 0 → Pieces d input ps) ∧
      (0 < count → ps.length ≤ count) :=
  ⟨split input d count, splitAt_eq input d count hl rounds hr, fun h => by subst h; exact split_pieces input d,
    split_at_most input d count⟩

/-- C164: trimming erases ranges of the text in order, and leaves the text without the whitespace around it. -/
theorem trim_memory (k : CharKind) (s : List Nat) (hl : s.length < npos) :
    ∃ t, trimAt k s = .ok t ∧ ∃ a b, s = a ++ t ++ b ∧ (∀ c ∈ a, AsciiSpace c) ∧ (∀ c ∈ b, AsciiSpace c) ∧
      (∀ c, t.head? = some c → ¬ AsciiSpace c) ∧ (∀ c, t.getLast? = some c → ¬ AsciiSpace c) :=
  ⟨trim k s, trimAt_eq k s hl, trim_decomposition k s⟩

/-- C164: matching against a pattern stays within both texts, never asks for the first or last of nothing, ends, and says yes
exactly when the segments of the pattern occur as `wildcard_exact` says. -/
theorem wildcard_memory (source pattern : List Nat) (segs : List (List Nat)) (hp : Pieces 0x2a pattern segs)
    (hl : source.length < npos) (hs : pattern.length < npos) (rounds : Nat) (hr : pattern.length < rounds) :
    ∃ r, wildcardMatchAt rounds source pattern = .ok r ∧ (r = true ↔ pattern ≠ [] ∧
      ∀ first last, segs.head? = some first → segs.getLast? = some last →
        (pattern.head? ≠ some 0x2a → first <+: source) ∧ (pattern.getLast? ≠ some 0x2a → last <:+ source) ∧
        OccurInOrder source segs) :=
  ⟨_, wildcardMatchAt_eq source pattern hl hs rounds hr, wildcard_exact source pattern segs hp⟩

/-- C164: replacing never cuts beyond the end of the target, as long as the target does not outgrow a `std::size_t`. -/
theorem replace_memory (search replacement : List Nat) (hn : replacement.length ≤ search.length) (rounds : Nat) :
    ∀ (target : List Nat), target.length < npos → replaceAllAt search replacement rounds target ≠ .ub := by
  induction rounds with
  | zero => intro target _ h; exact absurd h (by simp [replaceAllAt])
  | succ rounds ih =>
    intro target hl
    rw [replaceAllAt_succ _ _ _ _ hl]
    cases hst : replaceStep search replacement target with
    | none => simp
    | some t =>
      simp only
      obtain ⟨_, a, b, e1, e2, _⟩ := replaceStep_some hst
      refine ih t ?_
      rw [e2]; rw [e1] at hl
      simp only [List.length_append] at hl ⊢
      omega

/-- C164: for such replacements `replace_all` ends with `r` exactly when the model over lists does. -/
theorem replace_memory_ends (search replacement : List Nat) (hn : replacement.length ≤ search.length) (target r : List Nat)
    (hl : target.length < npos) :
    (∃ rounds, replaceAllAt search replacement rounds target = .ok r) ↔ ReplaceRuns search replacement target r := by
  have short : ∀ {t t'}, replaceStep search replacement t = some t' → t.length < npos → t'.length < npos := by
    intro t t' hst hl
    obtain ⟨_, a, b, e1, e2, _⟩ := replaceStep_some hst
    rw [e2]; rw [e1] at hl
    simp only [List.length_append] at hl ⊢
    omega
  constructor
  · rintro ⟨rounds, h⟩
    induction rounds generalizing target with
    | zero => exact absurd h (by simp [replaceAllAt])
    | succ rounds ih =>
      rw [replaceAllAt_succ _ _ _ _ hl] at h
      cases hst : replaceStep search replacement target with
      | none =>
        rw [hst] at h
        simp only [Run.ok.injEq] at h
        subst h
        exact .done hst
      | some t =>
        rw [hst] at h
        exact .step hst (ih t (short hst hl) h)
  · intro h
    induction h with
    | done hst => exact ⟨1, by rw [replaceAllAt_succ _ _ _ _ hl, hst]⟩
    | step hst _ ih =>
      obtain ⟨rounds, h⟩ := ih (short hst hl)
      exact ⟨rounds + 1, by rw [replaceAllAt_succ _ _ _ _ hl, hst]; exact h⟩

/-- C164 refuted for a search view into the target: with any such view that is not empty and any replacement of the same length,
`replace_all` never ends, for every target — also where it ends with a copy of the same search string. -/
theorem replace_self_violated (target replacement : List Nat) (off len : Nat) (h0 : 0 < len) (hr : replacement.length = len)
    (ho : off + len ≤ target.length) (hl : target.length < npos) (rounds : Nat) :
    replaceSelfAt off len replacement rounds target = .spin := by
  induction rounds generalizing target with
  | zero => rfl
  | succ rounds ih =>
    have hlen : ((target.drop off).take len).length = len := by
      rw [List.length_take, List.length_drop]; omega
    have hne : (target.drop off).take len ≠ [] := by
      intro e; rw [e] at hlen; simp at hlen; omega
    have hocc : Occurs ((target.drop off).take len) target :=
      ⟨target.take off, (target.drop off).drop len, by
        rw [List.append_assoc, List.take_append_drop, List.take_append_drop]⟩
    rw [replaceSelfAt]
    rcases findAt_cases (needle := (target.drop off).take len) (start := 0) hl with ⟨h1, _⟩ | ⟨i, h1, h2, h3, h4, h5⟩
    · rw [findAt_findSub, findSub_eq_none_iff] at h1
      exact absurd hocc h1
    · have hi : i + len ≤ target.length := by
        obtain ⟨t, ht⟩ := (findFrom_some h1).2.2.1
        have := congrArg List.length ht
        rw [List.length_append, hlen, List.length_drop] at this
        omega
      rw [h2, if_pos ⟨hne, h5⟩]
      unfold replaceAt
      rw [if_pos h4, ok_bind]
      have hlen' : (target.take i ++ replacement ++ (target.drop i).drop len).length = target.length := by
        simp only [List.length_append, List.length_take, List.length_drop, hr]
        omega
      exact ih _ (by rw [hlen']; exact ho) (by rw [hlen']; exact hl)

/-- "abab", its first character as the search view, replaced by "x": it ends with "xbxb" when the search string is a copy. -/
example : replaceAllAt [0x61] [0x78] 4 [0x61, 0x62, 0x61, 0x62] = .ok [0x78, 0x62, 0x78, 0x62] ∧
    ∀ rounds, replaceSelfAt 0 1 [0x78] rounds [0x61, 0x62, 0x61, 0x62] = .spin :=
  ⟨by decide +kernel, fun rounds => replace_self_violated _ _ 0 1 (by decide) rfl (by decide) (by decide) rounds⟩

example : splitAt 9 [0x2c, 0x61, 0x2c, 0x2c, 0x62, 0x2c] 0x2c 0 = .ok [[0x61], [0x62]] ∧
    splitAt 9 [0x61, 0x2c, 0x62, 0x2c, 0x63] 0x2c 1 = .ok [[0x61, 0x2c, 0x62, 0x2c, 0x63]] ∧
    splitAt 3 [0x61, 0x2c, 0x62, 0x2c, 0x63] 0x2c 0 = .ok [[0x61], [0x62], [0x63]] ∧
    splitAt 2 [0x61, 0x2c, 0x62, 0x2c, 0x63] 0x2c 0 = .spin := by
  refine ⟨?_, ?_, ?_, ?_⟩ <;> decide +kernel

example : trimAt ⟨8, true⟩ [0x20, 0x61, 0x20, 0x62, 0x09] = .ok [0x61, 0x20, 0x62] ∧ trimAt ⟨8, true⟩ [0x20, 0x20] = .ok [] := by
  refine ⟨?_, ?_⟩ <;> decide +kernel

example : wildcardMatchAt 9 [0x61, 0x62, 0x63] [0x61, 0x2a, 0x63] = .ok true ∧
    wildcardMatchAt 9 [0x61] [] = .ok false ∧ wildcardMatchAt 9 [] [0x2a] = .ok true := by
  refine ⟨?_, ?_, ?_⟩ <;> decide +kernel

end Verif.Str.Memory
