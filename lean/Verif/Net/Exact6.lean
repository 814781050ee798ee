import Verif.Net.Exact4

/-! # Exactly which texts are IPv6 addresses, for all bytes: C59 -/

namespace Verif.Net

open Verif.Str

/-! ## Specification -/

/-- One group of the text, as the parser understands it: one or more hexadecimal digits or bytes from 0x80 on, whose
value in 64 bits (`wrapped`) is at most 0xffff. -/
def ReadGroup (t : List Nat) : Prop :=
  t ≠ [] ∧ (∀ c ∈ t, TakenHex charK c) ∧ wrapped charK 16 t ≤ 0xffff

/-- `n` colons. -/
def colons (n : Nat) : List Nat := List.replicate n 0x3a

/-- Groups, each followed by a number of colons. -/
def itemsText : List (List Nat × Nat) → List Nat
  | [] => []
  | i :: r => i.1 ++ (colons i.2 ++ itemsText r)

/-- The texts taken for the address `a`: `lead` colons, then at most eight groups, each followed by a run of colons
(between two groups at least one); nothing follows an eighth group. Either every run is a single colon at most and there
are eight groups, or one run, after the first `k` groups, has two or three colons: zeros are put there. -/
def V6Read (s a : List Nat) : Prop :=
  ∃ (lead : Nat) (items : List (List Nat × Nat)), s = colons lead ++ itemsText items ∧
    (∀ i ∈ items, ReadGroup i.1) ∧ (∀ i ∈ items.dropLast, i.2 ≠ 0) ∧ items.length ≤ 8 ∧
    (items.length = 8 → ∀ i, items.getLast? = some i → i.2 = 0) ∧
    let runs := lead :: items.map (·.2)
    let groups := items.map (fun i => wrapped charK 16 i.1)
    ((∀ n ∈ runs, n ≤ 1) ∧ items.length = 8 ∧ a = groupBytes groups) ∨
    (∃ k n, runs[k]? = some n ∧ 2 ≤ n ∧ n ≤ 3 ∧ (∀ j m, j ≠ k → runs[j]? = some m → m ≤ 1) ∧
      a = groupBytes (groups.take k ++ List.replicate (8 - groups.length) 0 ++ groups.drop k))

/-! ## Proof -/

/-- The leading hexadecimal digits, as the lexer sees them. -/
def takenHexRun (s : List Nat) : List Nat := s.takeWhile (fun u => decide (TakenHex charK u))

theorem LexB.consumeHex_rest {l : Lexer} (h : LexB l) :
    (takenHexRun (rest l) = [] ∧ l.consumeHexNumber charK = (none, l)) ∨
    (takenHexRun (rest l) ≠ [] ∧ ∃ l', l.consumeHexNumber charK = (some (wrapped charK 16 (takenHexRun (rest l))), l') ∧
      LexB l' ∧ rest l' = (rest l).drop (takenHexRun (rest l)).length) := by
  have hi := h.index
  have hs := h.size
  have := consume_hex_number_exact charK .char l h.byte (by omega) hs
  simp only at this
  by_cases hr : takenHexRun (rest l) = []
  · left
    refine ⟨hr, ?_⟩
    unfold takenHexRun rest at hr
    rw [this, if_pos hr]
  · right
    refine ⟨hr, { l with index := l.index + (takenHexRun (rest l)).length }, ?_, ⟨h.byte, ?_, hs⟩, rest_adv⟩
    · unfold takenHexRun rest at hr
      rw [this, if_neg hr]; rfl
    · have hl := takeWhile_length_le (fun u => decide (TakenHex charK u)) (rest l)
      have : (rest l).length = l.view.length - l.index := by unfold rest; simp
      show l.index + (takenHexRun (rest l)).length ≤ l.view.length
      unfold takenHexRun
      omega

theorem takenHexRun_append {d tail : List Nat} (hd : ∀ c ∈ d, TakenHex charK c)
    (ht : ∀ c, tail.head? = some c → ¬ TakenHex charK c) : takenHexRun (d ++ tail) = d := by
  unfold takenHexRun
  induction d with
  | nil =>
    cases tail with
    | nil => rfl
    | cons c t => exact List.takeWhile_cons_of_neg (by simpa using ht c rfl)
  | cons c d ih =>
    rw [List.cons_append, List.takeWhile_cons_of_pos (by simpa using hd c (by simp)),
      ih (fun x hx => hd x (by simp [hx]))]

theorem mem_takenHexRun {s c} (h : c ∈ takenHexRun s) : TakenHex charK c := by
  have := mem_takeWhile_prop _ c h
  simpa using this

theorem takenHexRun_after (s : List Nat) : ∀ c, (s.drop (takenHexRun s).length).head? = some c → ¬ TakenHex charK c := by
  induction s with
  | nil => intro c h; simp [takenHexRun] at h
  | cons x s ih =>
    intro c h
    by_cases hx : TakenHex charK x
    · have e : takenHexRun (x :: s) = x :: takenHexRun s := by
        unfold takenHexRun; exact List.takeWhile_cons_of_pos (by simpa using hx)
      rw [e] at h
      exact ih c (by simpa using h)
    · have e : takenHexRun (x :: s) = [] := by
        unfold takenHexRun; exact List.takeWhile_cons_of_neg (by simpa using hx)
      rw [e] at h
      simp only [List.length_nil, List.drop_zero, List.head?_cons, Option.some.injEq] at h
      exact h ▸ hx

theorem colon_not_hex : ¬ TakenHex charK 0x3a := by decide

theorem takenHexRun_drop_lt {s : List Nat} (h : takenHexRun s ≠ []) :
    (s.drop (takenHexRun s).length).length < s.length := by
  have h1 := takeWhile_length_le (fun u => decide (TakenHex charK u)) s
  have h2 : 0 < (takenHexRun s).length := List.length_pos_iff.mpr h
  unfold takenHexRun at h2 ⊢
  simp; omega

/-- `v6Loop` on the unconsumed text. -/
def v6RestB (s parts : List Nat) (short : Option Nat) : Option (List Nat × List Nat × Option Nat) :=
  if _hs : s.head? = some 0x3a then
    if (s.drop 1).head? = some 0x3a then
      if short.isSome then none
      else if s.drop 2 ≠ [] ∧ parts.length < 16 then v6RestB (s.drop 2) parts (some parts.length)
      else some (s.drop 2, parts, some parts.length)
    else if s.drop 1 ≠ [] ∧ parts.length < 16 then v6RestB (s.drop 1) parts short
    else some (s.drop 1, parts, short)
  else if _hr : takenHexRun s = [] then none
  else
    let v := wrapped charK 16 (takenHexRun s)
    let s1 := s.drop (takenHexRun s).length
    if v ≤ 0xffff then
      if s1 ≠ [] ∧ (parts ++ [(v >>> 8) &&& 0xff, v &&& 0xff]).length < 16 then
        v6RestB s1 (parts ++ [(v >>> 8) &&& 0xff, v &&& 0xff]) short
      else some (s1, parts ++ [(v >>> 8) &&& 0xff, v &&& 0xff], short)
    else none
  termination_by s.length
  decreasing_by
    · cases s with
      | nil => simp at _hs
      | cons x t => simp; omega
    · cases s with
      | nil => simp at _hs
      | cons x t => simp
    · exact takenHexRun_drop_lt _hr

theorem peek_isSomeB {l : Lexer} (h : LexB l) : (l.peek 0).isSome = true ↔ rest l ≠ [] := by
  rw [h.peek_rest]; cases rest l <;> simp

/-- The two loops agree. -/
def V6AgreeB (s : Option (List Nat × List Nat × Option Nat)) (m : Option (Lexer × List Nat × Option Nat)) :
    Prop :=
  (s = none ∧ m = none) ∨
    ∃ l parts short, s = some (rest l, parts, short) ∧ m = some (l, parts, short) ∧ LexB l

theorem v6Loop_eqB : ∀ (fuel : Nat) (l : Lexer) (parts : List Nat) (short : Option Nat), LexB l →
    (rest l).length < fuel → V6AgreeB (v6RestB (rest l) parts short) (v6Loop fuel l parts short) := by
  intro fuel
  induction fuel with
  | zero => intro l parts short _ h; omega
  | succ fuel ih =>
    intro l parts short hok hf
    have hnext : ∀ (l' : Lexer) (parts : List Nat) (short : Option Nat), LexB l' →
        (rest l').length < (rest l).length →
        V6AgreeB (if rest l' ≠ [] ∧ parts.length < 16 then v6RestB (rest l') parts short
            else some (rest l', parts, short))
          (if (l'.peek 0).isSome && parts.length < 16 then v6Loop fuel l' parts short
            else some (l', parts, short)) := by
      intro l' parts short hok' hlt
      by_cases hc : rest l' ≠ [] ∧ parts.length < 16
      · rw [if_pos hc, if_pos (by simp [(peek_isSomeB hok').mpr hc.1, hc.2])]
        exact ih l' parts short hok' (by omega)
      · rw [if_neg hc, if_neg (by
          intro h
          simp only [Bool.and_eq_true, decide_eq_true_eq] at h
          exact hc ⟨(peek_isSomeB hok').mp h.1, h.2⟩)]
        exact .inr ⟨l', parts, short, rfl, rfl, hok'⟩
    rw [v6RestB, v6Loop]
    simp only
    rcases hok.consumeIf_rest 0x3a with ⟨c1, c2, c3, c4⟩ | ⟨c1, c2⟩
    · have he : l.consumeIf 0x3a = (true, (l.consumeIf 0x3a).2) := by rw [← c2]
      have hlt1 : (rest (l.consumeIf 0x3a).2).length < (rest l).length := by
        rw [c4]; cases hr : rest l with
        | nil => rw [hr] at c1; simp at c1
        | cons x t => simp
      rw [dif_pos c1, he]
      simp only
      rcases c3.consumeIf_rest 0x3a with ⟨d1, d2, d3, d4⟩ | ⟨d1, d2⟩
      · have he2 : (l.consumeIf 0x3a).2.consumeIf 0x3a =
            (true, ((l.consumeIf 0x3a).2.consumeIf 0x3a).2) := by rw [← d2]
        rw [c4] at d1
        rw [if_pos d1, he2]
        simp only
        by_cases hsh : short.isSome = true
        · rw [if_pos hsh, if_pos hsh]; exact .inl ⟨rfl, rfl⟩
        · rw [if_neg hsh, if_neg hsh]
          have e2 : (rest l).drop 2 = rest ((l.consumeIf 0x3a).2.consumeIf 0x3a).2 := by
            rw [d4, c4, List.drop_drop]
          rw [e2]
          exact hnext _ _ _ d3 (by rw [d4, List.length_drop]; omega)
      · rw [c4] at d1
        rw [if_neg d1, d2]
        simp only
        rw [← c4]
        exact hnext _ _ _ c3 hlt1
    · rw [dif_neg c1, c2]
      simp only
      rcases hok.consumeHex_rest with ⟨h1, h2⟩ | ⟨h1, l', h2, h3, h4⟩
      · rw [dif_pos h1, h2]; exact .inl ⟨rfl, rfl⟩
      · rw [dif_neg h1, h2]
        simp only
        split
        · rw [← h4]
          exact hnext _ _ _ h3 (by rw [h4]; exact takenHexRun_drop_lt h1)
        · exact .inl ⟨rfl, rfl⟩

theorem v6FromString_eqB {s : List Nat} (ha : ∀ u ∈ s, u < 256) (hl : s.length < 2 ^ 64) :
    v6FromString s = (match v6RestB s [] none with
      | some (s', parts, short) =>
        if s' ≠ [] ∨ (parts.length ≠ 16 ∧ short = none) then none
        else match short with
          | some i => some (v6Rotate parts i)
          | none => some parts
      | none => none) := by
  unfold v6FromString
  have := v6Loop_eqB (s.length + 1) ⟨s, 0⟩ [] none ⟨ha, by simp, hl⟩ (by simp [rest])
  have hrest : rest ⟨s, 0⟩ = s := rfl
  rw [hrest] at this
  rcases this with ⟨h1, h2⟩ | ⟨l', parts', short', h1, h2, h3⟩
  · rw [h1, h2]
  · rw [h1, h2]
    simp only
    have hcond : ((l'.peek 0).isSome || (parts'.length != 16 && short'.isNone)) = true ↔
        (rest l' ≠ [] ∨ (parts'.length ≠ 16 ∧ short' = none)) := by
      rw [Bool.or_eq_true, peek_isSomeB h3]
      simp
    by_cases hc : rest l' ≠ [] ∨ (parts'.length ≠ 16 ∧ short' = none)
    · rw [if_pos hc, if_pos (hcond.mpr hc)]
    · rw [if_neg hc, if_neg (fun h => hc (hcond.mp h))]
      cases short' <;> rfl

/-- The end of a round. -/
def cont (s parts : List Nat) (short : Option Nat) : Option (List Nat × List Nat × Option Nat) :=
  if s ≠ [] ∧ parts.length < 16 then v6RestB s parts short else some (s, parts, short)

theorem v6RestB_eq (s parts : List Nat) (short : Option Nat) : v6RestB s parts short =
    (if s.head? = some 0x3a then
      if (s.drop 1).head? = some 0x3a then
        if short.isSome then none else cont (s.drop 2) parts (some parts.length)
      else cont (s.drop 1) parts short
    else if takenHexRun s = [] then none
    else if wrapped charK 16 (takenHexRun s) ≤ 0xffff then
      cont (s.drop (takenHexRun s).length) (parts ++ groupBytes [wrapped charK 16 (takenHexRun s)]) short
    else none) := by
  rw [v6RestB]
  unfold cont
  by_cases h1 : s.head? = some 0x3a
  · simp only [h1, dif_pos, if_true]
  · rw [dif_neg h1, if_neg h1]
    by_cases h2 : takenHexRun s = []
    · rw [dif_pos h2, if_pos h2]
    · rw [dif_neg h2, if_neg h2]
      simp only
      by_cases h3 : wrapped charK 16 (takenHexRun s) ≤ 0xffff
      · rw [if_pos h3, if_pos h3, group_bytes h3]
        rfl
      · rw [if_neg h3, if_neg h3]

/-- Where the short form is, given the runs of colons. -/
def shortOf : Option Nat → Nat → List Nat → Option (Option Nat)
  | short, _, [] => some short
  | short, p, n :: rs =>
    if n ≤ 1 then shortOf short (p + 2) rs
    else if n ≤ 3 ∧ short = none then shortOf (some p) (p + 2) rs
    else none

/-- What is read from `s` after `parts`. -/
def ReadFrom (s parts : List Nat) (short : Option Nat) (parts' : List Nat) (short' : Option Nat) (lead : Nat)
    (items : List (List Nat × Nat)) : Prop :=
  s = colons lead ++ itemsText items ∧ (∀ i ∈ items, ReadGroup i.1) ∧ (∀ i ∈ items.dropLast, i.2 ≠ 0) ∧
  parts.length + 2 * items.length ≤ 16 ∧
  (parts.length + 2 * items.length = 16 → (lead :: items.map (·.2)).getLast? = some 0) ∧
  parts' = parts ++ groupBytes (items.map (fun i => wrapped charK 16 i.1)) ∧
  shortOf short parts.length (lead :: items.map (·.2)) = some short'

theorem itemsText_head {items : List (List Nat × Nat)} (h : ∀ i ∈ items, ReadGroup i.1) :
    items = [] ∨ ∃ c, (itemsText items).head? = some c ∧ TakenHex charK c := by
  cases items with
  | nil => exact .inl rfl
  | cons i r =>
    right
    obtain ⟨h1, h2, _⟩ := h i (by simp)
    rcases i with ⟨t, n⟩
    cases t with
    | nil => exact absurd rfl h1
    | cons c t => exact ⟨c, rfl, h2 c (by simp)⟩

theorem itemsText_no_colon {items : List (List Nat × Nat)} (h : ∀ i ∈ items, ReadGroup i.1) :
    (itemsText items).head? ≠ some 0x3a := by
  rcases itemsText_head h with rfl | ⟨c, hc, ht⟩
  · simp [itemsText]
  · rw [hc]
    intro e
    simp only [Option.some.injEq] at e
    exact colon_not_hex (e ▸ ht)

theorem colons_succ (n : Nat) : colons (n + 1) = 0x3a :: colons n := rfl

theorem cont_complete : ∀ (m : Nat) (s parts : List Nat) (short : Option Nat) (parts' : List Nat) (short' : Option Nat)
    (lead : Nat) (items : List (List Nat × Nat)), s.length = m → ReadFrom s parts short parts' short' lead items →
    cont s parts short = some ([], parts', short') := by
  intro m
  induction m using Nat.strongRecOn with
  | _ m ih =>
  intro s parts short parts' short' lead items hm h
  obtain ⟨h1, h2, h3, h4, h5, h6, h7⟩ := h
  rcases lead with _ | _ | lead
  · rcases items with _ | ⟨⟨t, n⟩, r⟩
    · simp only [colons, itemsText, List.replicate_zero, List.append_nil] at h1
      subst h1
      simp only [List.map_nil, groupBytes, List.append_nil] at h6
      simp only [List.map_nil, shortOf, Nat.zero_le, if_true, Option.some.injEq] at h7
      subst h6; subst h7
      simp [cont]
    · obtain ⟨t1, t2, t3⟩ := h2 (t, n) (by simp)
      simp only at t1 t2 t3
      have hst : s = t ++ (colons n ++ itemsText r) := by rw [h1]; rfl
      have htail : ∀ c, (colons n ++ itemsText r).head? = some c → ¬ TakenHex charK c := by
        intro c hc
        rcases n with _ | n
        · rcases r with _ | ⟨i, r⟩
          · simp [colons, itemsText] at hc
          · exact absurd rfl (h3 (t, 0) (by simp))
        · simp only [colons_succ, List.cons_append, List.head?_cons, Option.some.injEq] at hc
          exact hc ▸ colon_not_hex
      have hrun : takenHexRun s = t := by rw [hst]; exact takenHexRun_append t2 htail
      have hh : s.head? ≠ some 0x3a := by
        have := itemsText_no_colon h2
        rw [h1]; exact this
      have hne : s ≠ [] := by rw [hst]; simp [t1]
      have hp : parts.length < 16 := by simp at h4; omega
      unfold cont
      rw [if_pos ⟨hne, hp⟩, v6RestB_eq, if_neg hh, hrun, if_neg t1, if_pos t3]
      have hdrop : s.drop t.length = colons n ++ itemsText r := by rw [hst]; simp
      rw [hdrop]
      have hgl : (groupBytes [wrapped charK 16 t]).length = 2 := rfl
      refine ih _ ?_ _ _ _ _ _ n r rfl ⟨rfl, fun i hi => h2 i (by simp [hi]), ?_, ?_, ?_, ?_, ?_⟩
      · have : 0 < t.length := List.length_pos_iff.mpr t1
        rw [← hm, hst]; simp; omega
      · intro i hi
        cases r with
        | nil => simp at hi
        | cons j r => exact h3 i (by simp only [List.dropLast_cons₂]; exact List.mem_cons_of_mem _ hi)
      · rw [List.length_append, hgl]; simp at h4; omega
      · intro he
        rw [List.length_append, hgl] at he
        have := h5 (by simp; omega)
        simpa using this
      · rw [h6]; simp [groupBytes]
      · rw [List.length_append, hgl]
        simpa [shortOf] using h7
  · have hp : parts.length < 16 := by
      rcases items with _ | ⟨i, r⟩
      · simp only [List.length_nil, Nat.mul_zero, Nat.add_zero] at h4 h5
        rcases Nat.lt_or_ge parts.length 16 with h | h
        · exact h
        · have := h5 (by omega); simp at this
      · simp at h4; omega
    have hs : s = 0x3a :: itemsText items := by rw [h1]; rfl
    unfold cont
    rw [if_pos ⟨by rw [hs]; simp, hp⟩, v6RestB_eq, if_pos (by rw [hs]; rfl),
      if_neg (by rw [hs]; exact itemsText_no_colon h2)]
    have hdrop : s.drop 1 = itemsText items := by rw [hs]; rfl
    rw [hdrop]
    refine ih _ ?_ _ _ _ _ _ 0 items rfl ⟨rfl, h2, h3, h4, ?_, h6, ?_⟩
    · rw [← hm, hs]; simp
    · intro he
      have := h5 he
      cases items with
      | nil => simp at this
      | cons i r => simpa using this
    · simpa [shortOf] using h7
  · have hp : parts.length < 16 := by
      rcases items with _ | ⟨i, r⟩
      · simp only [List.length_nil, Nat.mul_zero, Nat.add_zero] at h4 h5
        rcases Nat.lt_or_ge parts.length 16 with h | h
        · exact h
        · have := h5 (by omega); simp at this
      · simp at h4; omega
    have hs : s = 0x3a :: 0x3a :: (colons lead ++ itemsText items) := by rw [h1]; rfl
    rw [shortOf, if_neg (by omega)] at h7
    split at h7
    · rename_i hc
      obtain ⟨hc1, rfl⟩ := hc
      unfold cont
      rw [if_pos ⟨by rw [hs]; simp, hp⟩, v6RestB_eq, if_pos (by rw [hs]; rfl), if_pos (by rw [hs]; rfl)]
      simp only [Option.isSome_none, Bool.false_eq_true, if_false]
      have hdrop : s.drop 2 = colons lead ++ itemsText items := by rw [hs]; rfl
      rw [hdrop]
      refine ih _ ?_ _ _ _ _ _ lead items rfl ⟨rfl, h2, h3, h4, ?_, h6, ?_⟩
      · rw [← hm, hs]; simp only [List.length_cons]; omega
      · intro he
        have := h5 he
        cases items with
        | nil => simp at this
        | cons i r => simpa using this
      · rw [shortOf, if_pos (by omega)]; exact h7
    · cases h7

theorem cont_sound : ∀ (m : Nat) (s parts : List Nat) (short : Option Nat) (parts' : List Nat) (short' : Option Nat) (q : Nat),
    s.length = m → parts.length = 2 * q → q ≤ 8 → cont s parts short = some ([], parts', short') →
    ∃ lead items, ReadFrom s parts short parts' short' lead items := by
  intro m
  induction m using Nat.strongRecOn with
  | _ m ih =>
  intro s parts short parts' short' q hm hq hq8 h
  unfold cont at h
  split at h
  · rename_i hc
    obtain ⟨hne, hp⟩ := hc
    rw [v6RestB_eq] at h
    split at h
    · rename_i hh
      obtain ⟨s1, rfl⟩ : ∃ s1, s = 0x3a :: s1 := by
        cases s with
        | nil => simp at hh
        | cons x t => simp only [List.head?_cons, Option.some.injEq] at hh; exact ⟨t, by rw [hh]⟩
      split at h
      · rename_i hh2
        obtain ⟨s2, rfl⟩ : ∃ s2, s1 = 0x3a :: s2 := by
          cases s1 with
          | nil => simp at hh2
          | cons x t =>
            simp only [List.drop_succ_cons, List.drop_zero, List.head?_cons, Option.some.injEq] at hh2; exact ⟨t, by rw [hh2]⟩
        split at h
        · cases h
        · rename_i hsh
          have hsn : short = none := by cases short <;> simp_all
          subst hsn
          obtain ⟨lead, items, h1, h2, h3, h4, h5, h6, h7⟩ := ih _ (by rw [← hm]; simp; omega) _ _ _ _ _ q rfl hq hq8 h
          simp only [List.drop_succ_cons, List.drop_zero] at h1
          refine ⟨lead + 2, items, by rw [h1]; rfl, h2, h3, h4, ?_, h6, ?_⟩
          · intro he
            have := h5 he
            cases items with
            | nil => simp only [List.length_nil, Nat.mul_zero, Nat.add_zero] at he; omega
            | cons i r => simpa using this
          · rw [shortOf] at h7
            split at h7
            · rw [shortOf, if_neg (by omega), if_pos ⟨by omega, rfl⟩]; exact h7
            · split at h7
              · rename_i hx; cases hx.2
              · cases h7
      · rename_i hh2
        obtain ⟨lead, items, h1, h2, h3, h4, h5, h6, h7⟩ := ih _ (by rw [← hm]; simp) _ _ _ _ _ q rfl hq hq8 h
        simp only [List.drop_succ_cons, List.drop_zero] at h1 hh2
        have hl : lead = 0 := by
          cases lead with
          | zero => rfl
          | succ n => rw [h1] at hh2; exact absurd rfl hh2
        subst hl
        refine ⟨1, items, by rw [h1]; rfl, h2, h3, h4, ?_, h6, ?_⟩
        · intro he
          have := h5 he
          cases items with
          | nil => simp only [List.length_nil, Nat.mul_zero, Nat.add_zero] at he; omega
          | cons i r => simpa using this
        · simpa [shortOf] using h7
    · rename_i hh
      split at h
      · cases h
      · rename_i hr
        split at h
        · rename_i hv
          have hgl : (groupBytes [wrapped charK 16 (takenHexRun s)]).length = 2 := rfl
          obtain ⟨lead, items, h1, h2, h3, h4, h5, h6, h7⟩ :=
            ih _ (by rw [← hm]; exact takenHexRun_drop_lt hr) _ _ _ _ _ (q + 1) rfl
              (by rw [List.length_append, hgl]; omega) (by omega) h
          have hsplit := takeWhile_append_drop (fun u => decide (TakenHex charK u)) s
          rw [List.length_append, hgl] at h4 h5 h7
          refine ⟨0, (takenHexRun s, lead) :: items, ?_, ?_, ?_, ?_, ?_, ?_, ?_⟩
          · show s = takenHexRun s ++ (colons lead ++ itemsText items)
            rw [← h1]; exact hsplit
          · intro i hi
            rcases List.mem_cons.1 hi with rfl | hi
            · exact ⟨hr, fun c hc => mem_takenHexRun hc, hv⟩
            · exact h2 i hi
          · intro i hi
            cases items with
            | nil => simp at hi
            | cons j r =>
              simp only [List.dropLast_cons₂] at hi
              rcases List.mem_cons.1 hi with rfl | hi
              · intro hl0
                simp only at hl0
                subst hl0
                rcases itemsText_head h2 with e | ⟨c, hc, ht⟩
                · cases e
                · exact takenHexRun_after s c (by rw [h1]; exact hc) ht
              · exact h3 i hi
          · simp; omega
          · intro he
            have := h5 (by simp at he; omega)
            simpa using this
          · rw [h6]; simp [groupBytes]
          · simpa [shortOf] using h7
        · cases h
  · rename_i hc
    simp only [Option.some.injEq, Prod.mk.injEq] at h
    obtain ⟨rfl, rfl, rfl⟩ := h
    exact ⟨0, [], rfl, by simp, by simp, by simp; omega, by simp, by simp [groupBytes], by simp [shortOf]⟩

/-- `shortOf` once a short form was seen. -/
theorem shortOf_some (i : Nat) : ∀ (runs : List Nat) (p : Nat) (short' : Option Nat),
    shortOf (some i) p runs = some short' ↔ (∀ n ∈ runs, n ≤ 1) ∧ short' = some i := by
  intro runs
  induction runs with
  | nil => intro p short'; simp [shortOf, eq_comm]
  | cons n rs ih =>
    intro p short'
    rw [shortOf]
    by_cases hn : n ≤ 1
    · rw [if_pos hn, ih]; simp [hn]
    · rw [if_neg hn, if_neg (by simp)]
      simp [hn]

theorem shortOf_none : ∀ (runs : List Nat) (p : Nat) (short' : Option Nat),
    shortOf none p runs = some short' ↔ ((∀ n ∈ runs, n ≤ 1) ∧ short' = none) ∨
      (∃ k n, runs[k]? = some n ∧ 2 ≤ n ∧ n ≤ 3 ∧ (∀ j m, j ≠ k → runs[j]? = some m → m ≤ 1) ∧
        short' = some (p + 2 * k)) := by
  intro runs
  induction runs with
  | nil => intro p short'; simp [shortOf, eq_comm]
  | cons n rs ih =>
    intro p short'
    rw [shortOf]
    by_cases hn : n ≤ 1
    · rw [if_pos hn, ih]
      constructor
      · rintro (⟨h1, h2⟩ | ⟨k, x, h1, h2, h3, h4, h5⟩)
        · exact .inl ⟨by simpa [hn] using h1, h2⟩
        · refine .inr ⟨k + 1, x, by simpa using h1, h2, h3, ?_, by rw [h5]; congr 1; omega⟩
          intro j m hj hm
          cases j with
          | zero => simp at hm; omega
          | succ j => exact h4 j m (by omega) (by simpa using hm)
      · rintro (⟨h1, h2⟩ | ⟨k, x, h1, h2, h3, h4, h5⟩)
        · exact .inl ⟨fun m hm => h1 m (by simp [hm]), h2⟩
        · cases k with
          | zero => simp at h1; omega
          | succ k =>
            refine .inr ⟨k, x, by simpa using h1, h2, h3, ?_, by rw [h5]; congr 1; omega⟩
            intro j m hj hm
            exact h4 (j + 1) m (by omega) (by simpa using hm)
    · rw [if_neg hn]
      by_cases h3 : n ≤ 3
      · rw [if_pos ⟨h3, rfl⟩, shortOf_some]
        constructor
        · rintro ⟨h1, h2⟩
          refine .inr ⟨0, n, rfl, by omega, h3, ?_, by rw [h2]; rfl⟩
          intro j m hj hm
          cases j with
          | zero => exact absurd rfl hj
          | succ j => exact h1 m (List.mem_of_getElem? (by simpa using hm))
        · rintro (⟨h1, h2⟩ | ⟨k, x, h1, h2, h3', h4, h5⟩)
          · exact absurd (h1 n (by simp)) hn
          · cases k with
            | zero =>
              refine ⟨fun m hm => ?_, h5⟩
              obtain ⟨j, hj⟩ := List.getElem?_of_mem hm
              exact h4 (j + 1) m (by omega) (by simpa using hj)
            | succ k => exact absurd (h4 0 n (by omega) rfl) hn
      · rw [if_neg (by simp [h3])]
        constructor
        · intro h; cases h
        · rintro (⟨h1, h2⟩ | ⟨k, x, h1, h2, h3', h4, h5⟩)
          · exact absurd (h1 n (by simp)) hn
          · cases k with
            | zero => simp at h1; omega
            | succ k => exact absurd (h4 0 n (by omega) rfl) hn

/-- C59, exactly, for every text of bytes: what `from_string` accepts and the address it gives. -/
theorem v6_parse_exact (s : List Nat) (hb : ∀ u ∈ s, u < 256) (hl : s.length < 2 ^ 64) (a : List Nat) :
    v6FromString s = some a ↔ V6Read s a := by
  rw [v6FromString_eqB hb hl]
  have hgl : ∀ gs : List Nat, (groupBytes gs).length = 2 * gs.length := groupBytes_length
  by_cases hs : s = []
  · subst hs
    constructor
    · intro h; rw [v6RestB_eq] at h; simp [takenHexRun] at h
    · rintro ⟨lead, items, h1, h2, _, _, _, h⟩
      have h1 := h1.symm
      rw [List.append_eq_nil_iff] at h1
      have hit : items = [] := by
        rcases itemsText_head h2 with e | ⟨c, hc, _⟩
        · exact e
        · rw [h1.2] at hc; cases hc
      have hlead : lead = 0 := by
        cases lead with
        | zero => rfl
        | succ n => exact absurd h1.1 (by simp [colons_succ])
      subst hit; subst hlead
      rcases h with ⟨_, h, _⟩ | ⟨k, n, h, h', _⟩
      · cases h
      · cases k with
        | zero => simp at h; omega
        | succ k => simp at h
  · have hcont : v6RestB s [] none = cont s [] none := by
      unfold cont; rw [if_pos ⟨hs, by simp⟩]
    rw [hcont]
    have hzero : ∀ (values : List Nat) (k : Nat), values.length ≤ 8 → k ≤ values.length →
        v6Rotate (groupBytes values) (2 * k) =
          groupBytes (values.take k ++ List.replicate (8 - values.length) 0 ++ values.drop k) := by
      intro values k hv hk
      have hk2 : (groupBytes (values.take k)).length = 2 * k := by rw [hgl, List.length_take]; omega
      rw [v6Rotate_eq (by rw [hgl]; omega) (by rw [hgl]; omega)]
      have e : groupBytes values = groupBytes (values.take k) ++ groupBytes (values.drop k) := by
        rw [← groupBytes_append, List.take_append_drop]
      have e1 : (groupBytes values).take (2 * k) = groupBytes (values.take k) := by
        rw [e, List.take_left' hk2]
      have e2 : (groupBytes values).drop (2 * k) = groupBytes (values.drop k) := by
        rw [e, List.drop_left' hk2]
      rw [e1, e2, groupBytes_append, groupBytes_append, groupBytes_zeros, List.append_assoc, hgl]
      congr 3
      omega
    constructor
    · intro h
      rcases hc : cont s [] none with _ | ⟨s', parts, short⟩
      · rw [hc] at h; cases h
      · rw [hc] at h
        simp only at h
        split at h
        · cases h
        · rename_i hg
          have hs' : s' = [] := by
            cases s' with
            | nil => rfl
            | cons => exact absurd (.inl (by simp)) hg
          subst hs'
          obtain ⟨lead, items, h1, h2, h3, h4, h5, h6, h7⟩ := cont_sound _ s [] none parts short 0 rfl rfl (by omega) hc
          simp only [List.length_nil, Nat.zero_add, List.nil_append] at h4 h5 h6
          refine ⟨lead, items, h1, h2, h3, by omega, ?_, ?_⟩
          · intro h8 i hi
            have := h5 (by omega)
            cases items with
            | nil => cases h8
            | cons j r =>
              rw [List.getLast?_cons, Option.some.injEq] at this
              rw [List.getLast?_map, hi] at this
              simpa using this
          · rw [List.length_nil, shortOf_none] at h7
            rcases h7 with ⟨g1, rfl⟩ | ⟨k, n, g1, g2, g3, g4, rfl⟩
            · left
              have h16 : parts.length = 16 := by
                by_cases e : parts.length = 16
                · exact e
                · exact absurd (.inr ⟨e, rfl⟩) hg
              simp only [Option.some.injEq] at h
              refine ⟨g1, ?_, by rw [← h, h6]⟩
              rw [h6, hgl, List.length_map] at h16
              omega
            · right
              refine ⟨k, n, g1, g2, g3, g4, ?_⟩
              simp only [Nat.zero_add, Option.some.injEq] at h
              have hk : k < (lead :: items.map (·.2)).length := by
                rcases List.getElem?_eq_some_iff.1 g1 with ⟨hk, _⟩; exact hk
              simp only [List.length_cons, List.length_map] at hk
              rw [← h, h6, hzero _ _ (by simp; omega) (by simp; omega)]
    · rintro ⟨lead, items, h1, h2, h3, h4, h5, h⟩
      simp only at h
      have hread : ∀ short', shortOf none 0 (lead :: items.map (·.2)) = some short' →
          (items.length = 8 ∨ short' ≠ none) →
          cont s [] none = some ([], groupBytes (items.map (fun i => wrapped charK 16 i.1)), short') := by
        intro short' hsh _
        refine cont_complete _ s [] none _ short' lead items rfl ⟨h1, h2, h3, by simp; omega, ?_, by simp, hsh⟩
        intro he
        simp only [List.length_nil, Nat.zero_add] at he
        cases items with
        | nil => cases he
        | cons j r =>
          rw [List.getLast?_cons, List.getLast?_map]
          cases hlast : (j :: r).getLast? with
          | none => simp at hlast
          | some i => simp [h5 (by omega) i hlast]
      rcases h with ⟨g1, g2, rfl⟩ | ⟨k, n, g1, g2, g3, g4, rfl⟩
      · rw [hread none ((shortOf_none _ _ _).2 (.inl ⟨g1, rfl⟩)) (.inl g2)]
        simp [hgl, g2]
      · rw [hread (some (0 + 2 * k)) ((shortOf_none _ _ _).2 (.inr ⟨k, n, g1, g2, g3, g4, rfl⟩)) (.inr (by simp))]
        have hk : k < (lead :: items.map (·.2)).length := by
          rcases List.getElem?_eq_some_iff.1 g1 with ⟨hk, _⟩; exact hk
        simp only [List.length_cons, List.length_map] at hk
        simp only [ne_eq, not_true_eq_false, false_or, Option.some.injEq]
        rw [if_neg (by simp), Nat.zero_add, hzero _ _ (by simp; omega) (by simp; omega)]

/-- C60, exactly, for every text of bytes, for IPv6 endpoints: without the address parser in the statement. -/
theorem endpoint6_read (s : List Nat) (hu : ∀ u ∈ s, u < 256) (hl : s.length < 2 ^ 64) (a : List Nat) (p : Nat) :
    endpoint6FromString s = some (a, p) ↔
      ∃ at_ pt, s = 0x5b :: at_ ++ 0x5d :: 0x3a :: pt ∧ V6Read at_ a ∧ ReadNumber pt p ∧ p ≤ 0xffff := by
  rw [endpoint6_exact s hu hl]
  constructor
  · rintro ⟨x, y, rfl, h1, h2⟩
    exact ⟨x, y, rfl, (v6_parse_exact x (fun u h => hu u (by simp [h])) (by simp at hl; omega) a).1 h1, h2⟩
  · rintro ⟨x, y, rfl, h1, h2⟩
    exact ⟨x, y, rfl, (v6_parse_exact x (fun u h => hu u (by simp [h])) (by simp at hl; omega) a).2 h1, h2⟩

/-- "1:::2" is such a text, of one group, three colons and one group. -/
example : V6Read ("1:::2".toList.map Char.toNat) [0, 1, 0, 0, 0, 0, 0, 0, 0, 0, 0, 0, 0, 0, 0, 2] :=
  (v6_parse_exact _ (by decide) (by decide) _).1 (by decide +kernel)

/-- Two short forms are refused. -/
example : ¬ ∃ a, V6Read ("1::2::3".toList.map Char.toNat) a := by
  rintro ⟨a, h⟩
  have := (v6_parse_exact _ (by decide) (by decide) a).2 h
  exact absurd this (by rw [show v6FromString ("1::2::3".toList.map Char.toNat) = none by decide +kernel]; simp)

end Verif.Net
