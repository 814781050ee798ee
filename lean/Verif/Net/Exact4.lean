import Verif.Net.Props
import Verif.Str.LexerExact

/-! # Exactly which texts are IPv4 addresses and endpoints, for all bytes: C57, C60 -/

namespace Verif.Net

open Verif.Str

/-! ## Specification -/

/-- One number of the text, as the parser understands it: one or more decimal digits or bytes from 0x80 on, with
the value the lexer gives the run (`wrapped`, in 64 bits). -/
def ReadNumber (p : List Nat) (v : Nat) : Prop :=
  p ≠ [] ∧ (∀ c ∈ p, TakenDigit charK c) ∧ v = wrapped charK 10 p

/-- The texts taken for the address `h`: one to four such numbers separated by dots, in the ranges of the
dot-decimal forms. -/
def V4Read (s : List Nat) (h : Nat) : Prop :=
  ∃ parts : List (List Nat), s = joinWith 0x2e parts ∧
    (∀ p ∈ parts, p ≠ [] ∧ ∀ c ∈ p, TakenDigit charK c) ∧ V4Value (parts.map (wrapped charK 10)) h

/-! ## Proof -/

/-- A lexer over bytes within its bounds. -/
structure LexB (l : Lexer) : Prop where
  byte : ∀ u ∈ l.view, u < 256
  index : l.index ≤ l.view.length
  size : l.view.length < 2 ^ 64

theorem LexB.peek_rest {l : Lexer} (h : LexB l) : l.peek 0 = (rest l).head? := by
  unfold Lexer.peek rest
  have := h.index
  have := h.size
  rw [Nat.add_zero, Nat.mod_eq_of_lt (by omega), List.head?_drop]

theorem LexB.consumeIf_rest {l : Lexer} (h : LexB l) (ch : Nat) :
    ((rest l).head? = some ch ∧ (l.consumeIf ch).1 = true ∧ LexB (l.consumeIf ch).2 ∧
      rest (l.consumeIf ch).2 = (rest l).drop 1) ∨
    ((rest l).head? ≠ some ch ∧ l.consumeIf ch = (false, l)) := by
  unfold Lexer.consumeIf
  rw [h.peek_rest]
  by_cases hc : (rest l).head? = some ch
  · left
    rw [if_pos hc]
    refine ⟨hc, rfl, ⟨h.byte, ?_, h.size⟩, rest_adv⟩
    have : rest l ≠ [] := by intro e; rw [e] at hc; simp at hc
    unfold rest at this
    simp at this
    exact this
  · right
    rw [if_neg hc]
    exact ⟨hc, rfl⟩

/-- The leading digits, as the lexer sees them. -/
def takenRun (s : List Nat) : List Nat := s.takeWhile (fun u => decide (TakenDigit charK u))

theorem LexB.consumeNumber_rest {l : Lexer} (h : LexB l) :
    (takenRun (rest l) = [] ∧ l.consumeNumber charK = (none, l)) ∨
    (takenRun (rest l) ≠ [] ∧ ∃ l', l.consumeNumber charK = (some (wrapped charK 10 (takenRun (rest l))), l') ∧
      LexB l' ∧ rest l' = (rest l).drop (takenRun (rest l)).length) := by
  have hi := h.index
  have hs := h.size
  have := consume_number_exact charK .char l h.byte (by omega) hs
  simp only at this
  by_cases hr : takenRun (rest l) = []
  · left
    refine ⟨hr, ?_⟩
    unfold takenRun rest at hr
    rw [this, if_pos hr]
  · right
    refine ⟨hr, { l with index := l.index + (takenRun (rest l)).length }, ?_, ⟨h.byte, ?_, hs⟩, rest_adv⟩
    · unfold takenRun rest at hr
      rw [this, if_neg hr]; rfl
    · have hl := takeWhile_length_le (fun u => decide (TakenDigit charK u)) (rest l)
      have : (rest l).length = l.view.length - l.index := by unfold rest; simp
      show l.index + (takenRun (rest l)).length ≤ l.view.length
      unfold takenRun
      omega

theorem takenRun_append {d tail : List Nat} (hd : ∀ c ∈ d, TakenDigit charK c)
    (ht : ∀ c, tail.head? = some c → ¬ TakenDigit charK c) : takenRun (d ++ tail) = d := by
  unfold takenRun
  induction d with
  | nil =>
    cases tail with
    | nil => rfl
    | cons c t => exact List.takeWhile_cons_of_neg (by simpa using ht c rfl)
  | cons c d ih =>
    rw [List.cons_append, List.takeWhile_cons_of_pos (by simpa using hd c (by simp)),
      ih (fun x hx => hd x (by simp [hx]))]

theorem mem_takenRun {s c} (h : c ∈ takenRun s) : TakenDigit charK c := by
  have := mem_takeWhile_prop _ c h
  simpa using this

theorem dot_not_taken : ¬ TakenDigit charK 0x2e := by decide

/-- `v4Loop` on the unconsumed text. -/
def v4RestB : Nat → List Nat → List Nat → Option (List Nat × List Nat)
  | 0, s, parts => some (s, parts)
  | n + 1, s, parts =>
    if takenRun s = [] then none
    else
      let v := wrapped charK 10 (takenRun s)
      let s1 := s.drop (takenRun s).length
      if v ≤ 0xffffffff then
        if (parts ++ [v]).length < 4 ∧ s1.head? = some 0x2e then v4RestB n (s1.drop 1) (parts ++ [v])
        else some (s1, parts ++ [v])
      else none

theorem v4Loop_restB : ∀ (n : Nat) (l : Lexer) (parts : List Nat), LexB l →
    (v4RestB n (rest l) parts = none ∧ v4Loop n l parts = none) ∨
    (∃ l' parts', v4RestB n (rest l) parts = some (rest l', parts') ∧
      v4Loop n l parts = some (l', parts') ∧ LexB l') := by
  intro n
  induction n with
  | zero => intro l parts h; right; exact ⟨l, parts, rfl, rfl, h⟩
  | succ n ih =>
    intro l parts h
    rw [v4RestB, v4Loop]
    rcases h.consumeNumber_rest with ⟨h1, h2⟩ | ⟨h1, l', h2, h3, h4⟩
    · left; rw [if_pos h1, h2]; exact ⟨rfl, rfl⟩
    · rw [if_neg h1, h2]
      simp only
      rw [← h4]
      split
      · by_cases hlen : (parts ++ [wrapped charK 10 (takenRun (rest l))]).length < 4
        · rw [if_pos hlen]
          rcases h3.consumeIf_rest 0x2e with ⟨c1, c2, c3, c4⟩ | ⟨c1, c2⟩
          · rw [if_pos ⟨hlen, c1⟩]
            have he : l'.consumeIf 0x2e = (true, (l'.consumeIf 0x2e).2) := by rw [← c2]
            rw [he]
            simp only
            rw [← c4]
            exact ih _ _ c3
          · rw [if_neg (fun h => c1 h.2), c2]
            right; exact ⟨l', _, rfl, rfl, h3⟩
        · rw [if_neg hlen, if_neg (fun h => hlen h.1)]
          right; exact ⟨l', _, rfl, rfl, h3⟩
      · left; exact ⟨rfl, rfl⟩

theorem v4RestB_sound : ∀ (n : Nat) (s parts s' parts'), 0 < n → parts.length + n = 4 →
    v4RestB n s parts = some (s', parts') →
    ∃ segs : List (List Nat), segs ≠ [] ∧ segs.length ≤ n ∧ s = joinWith 0x2e segs ++ s' ∧
      parts' = parts ++ segs.map (wrapped charK 10) ∧
      (∀ p ∈ segs, p ≠ [] ∧ (∀ c ∈ p, TakenDigit charK c) ∧ wrapped charK 10 p ≤ 0xffffffff) := by
  intro n
  induction n with
  | zero => intro s parts s' parts' h; omega
  | succ n ih =>
    intro s parts s' parts' _ hpn h
    rw [v4RestB] at h
    split at h
    · simp at h
    · rename_i hr
      simp only at h
      split at h
      · rename_i hv
        have hsplit := takeWhile_append_drop (fun u => decide (TakenDigit charK u)) s
        split at h
        · rename_i hc
          have hl := hc.1
          rw [List.length_append] at hl
          simp only [List.length_cons, List.length_nil] at hl
          obtain ⟨segs, g1, g2, g3, g4, g5⟩ := ih _ _ _ _ (by omega) (by simp; omega) h
          refine ⟨takenRun s :: segs, by simp, by simp; omega, ?_, ?_, ?_⟩
          · cases hseg : segs with
            | nil => exact absurd hseg g1
            | cons q r =>
              rw [hseg] at g3
              simp only [joinWith, List.append_assoc, List.cons_append]
              rw [← g3]
              have : s.drop (takenRun s).length = 0x2e :: (s.drop (takenRun s).length).drop 1 := by
                cases hd : s.drop (takenRun s).length with
                | nil => rw [hd] at hc; simp at hc
                | cons x t => rw [hd] at hc; simp at hc; rw [hc.2]; rfl
              rw [← this]; exact hsplit
          · rw [g4]; simp
          · intro p hp
            simp at hp
            rcases hp with rfl | hp
            · exact ⟨hr, fun c hc => mem_takenRun hc, hv⟩
            · exact g5 p hp
        · simp only [Option.some.injEq, Prod.mk.injEq] at h
          refine ⟨[takenRun s], by simp, by simp, ?_, ?_, ?_⟩
          · rw [← h.1]; exact hsplit
          · rw [← h.2]; simp
          · intro p hp
            simp at hp; subst hp
            exact ⟨hr, fun c hc => mem_takenRun hc, hv⟩
      · simp at h

theorem v4RestB_complete : ∀ (n : Nat) (segs : List (List Nat)) (parts : List Nat), segs ≠ [] →
    segs.length ≤ n → parts.length + n = 4 →
    (∀ p ∈ segs, p ≠ [] ∧ (∀ c ∈ p, TakenDigit charK c) ∧ wrapped charK 10 p ≤ 0xffffffff) →
    v4RestB n (joinWith 0x2e segs) parts = some ([], parts ++ segs.map (wrapped charK 10)) := by
  intro n
  induction n with
  | zero => intro segs parts h1 h2; exact absurd (List.length_eq_zero_iff.mp (by omega)) h1
  | succ n ih =>
    intro segs parts h1 h2 h3 h4
    cases segs with
    | nil => exact absurd rfl h1
    | cons p r =>
      obtain ⟨p1, p2, p3⟩ := h4 p (by simp)
      have hrun : takenRun (joinWith 0x2e (p :: r)) = p := by
        cases r with
        | nil => have := takenRun_append (tail := []) p2 (by simp); simpa [joinWith] using this
        | cons q r' => exact takenRun_append p2 (by intro c hc; simp at hc; subst hc; exact dot_not_taken)
      rw [v4RestB, hrun, if_neg p1]
      simp only
      rw [if_pos p3]
      cases r with
      | nil =>
        simp only [joinWith, List.drop_length, List.head?_nil]
        rw [if_neg (by simp)]
        simp
      | cons q r' =>
        have hd : (joinWith 0x2e (p :: q :: r')).drop p.length = 0x2e :: joinWith 0x2e (q :: r') := by
          simp [joinWith]
        rw [hd, if_pos (by simp at h2 ⊢; omega)]
        simp only [List.drop_one, List.tail_cons]
        rw [ih (q :: r') (parts ++ [wrapped charK 10 p]) (by simp) (by simp at h2 ⊢; omega)
          (by simp; omega) (fun x hx => h4 x (by simp at hx ⊢; right; exact hx))]
        simp

theorem v4FromString_eqB {s : List Nat} (ha : ∀ u ∈ s, u < 256) (hl : s.length < 2 ^ 64) :
    v4FromString s = (match v4RestB 4 s [] with
      | some (s', parts) => (match v4Combine parts with
        | some h => if s' = [] then Numeric.endianSwap 4 h else none
        | none => none)
      | none => none) := by
  unfold v4FromString
  rcases v4Loop_restB 4 ⟨s, 0⟩ [] ⟨ha, by simp, hl⟩ with ⟨h1, h2⟩ | ⟨l', parts', h1, h2, h3⟩
  · have h1' : v4RestB 4 s [] = none := h1
    rw [h2, h1']
  · have h1' : v4RestB 4 s [] = some (rest l', parts') := h1
    rw [h2, h1']
    simp only
    cases v4Combine parts' with
    | none => rfl
    | some h =>
      simp only
      rw [h3.peek_rest]
      cases hr : rest l' with
      | nil => simp [Numeric.endianSwapIfNonNative]
      | cons x t => simp

/-- C57, exactly, for every text of bytes: what `from_string` accepts and the address it gives. -/
theorem v4_parse_exact (s : List Nat) (hb : ∀ u ∈ s, u < 256) (hl : s.length < 2 ^ 64) (h : Nat) :
    (∃ a, v4FromString s = some a ∧ v4HostOrder a = h) ↔ V4Read s h := by
  have swap : ∀ h a, h < 2 ^ 32 → Numeric.endianSwap 4 h = some a → v4HostOrder a = h := by
    intro h a hh e
    have := Numeric.endian_swap_involutive 4 h a (by simp) (by simpa using hh) e
    unfold v4HostOrder Numeric.endianSwapIfNonNative
    simp only [Bool.false_eq_true, if_false]
    rw [this]; rfl
  rw [v4FromString_eqB hb hl]
  constructor
  · rintro ⟨a, h1, rfl⟩
    cases hr : v4RestB 4 s [] with
    | none => rw [hr] at h1; simp at h1
    | some r =>
      obtain ⟨s', parts⟩ := r
      rw [hr] at h1
      simp only at h1
      obtain ⟨segs, g1, g2, g3, g4, g5⟩ := v4RestB_sound 4 s [] s' parts (by decide) (by simp) hr
      cases hc : v4Combine parts with
      | none => rw [hc] at h1; simp at h1
      | some hst =>
        rw [hc] at h1
        simp only at h1
        split at h1
        · rename_i hs'
          subst hs'
          rw [List.append_nil] at g3
          rw [List.nil_append] at g4
          have hv : V4Value (segs.map (wrapped charK 10)) hst := by
            rw [← g4]
            refine (v4Combine_iff ?_).mp hc
            intro p hp
            rw [g4] at hp
            obtain ⟨x, hx, rfl⟩ := List.mem_map.mp hp
            exact (g5 x hx).2.2
          rw [swap hst a (v4Value_lt hv) h1]
          exact ⟨segs, g3, fun p hp => ⟨(g5 p hp).1, (g5 p hp).2.1⟩, hv⟩
        · simp at h1
  · rintro ⟨segs, h1, h2, h3⟩
    have hv := v4Value_parts h3
    have hne : segs ≠ [] := by intro e; subst e; simp at hv
    have hlen : segs.length ≤ 4 := by have := hv.2.2; simpa using this
    rw [h1, v4RestB_complete 4 segs [] hne hlen (by simp) (fun p hp =>
      ⟨(h2 p hp).1, (h2 p hp).2, hv.1 _ (List.mem_map_of_mem hp)⟩)]
    simp only [List.nil_append]
    rw [(v4Combine_iff hv.1).mpr h3]
    exact ⟨_, rfl, swap h _ (v4Value_lt h3) rfl⟩

/-- A port text is accepted exactly if it is such a number of at most 65535. -/
theorem port_exact (s : List Nat) (hb : ∀ u ∈ s, u < 256) (hl : s.length < 2 ^ 64) (p : Nat) :
    parsePort s = some p ↔ ReadNumber s p ∧ p ≤ 0xffff := by
  unfold parsePort
  have hr : rest ⟨s, 0⟩ = s := rfl
  rcases LexB.consumeNumber_rest (l := ⟨s, 0⟩) ⟨hb, by simp, hl⟩ with ⟨h1, h2⟩ | ⟨h1, l', h2, h3, h4⟩
  · rw [h2]
    constructor
    · intro h; simp at h
    rintro ⟨⟨h3, h4, _⟩, _⟩
    rw [hr] at h1
    have := takenRun_append (tail := []) h4 (by simp)
    rw [List.append_nil] at this
    exact absurd (this.symm.trans h1) h3
  · rw [h2]
    rw [hr] at h1 h4
    simp only [hr]
    rw [h3.peek_rest, h4]
    have hsplit := takeWhile_append_drop (fun u => decide (TakenDigit charK u)) s
    constructor
    · intro h
      split at h
      · cases h
      · rename_i hn
        simp only [Option.some.injEq] at h
        have hd : s.drop (takenRun s).length = [] := by
          cases hd : s.drop (takenRun s).length with
          | nil => rfl
          | cons x t => rw [hd] at hn; simp at hn
        have hall : s = takenRun s := by
          have : s = takenRun s ++ s.drop (takenRun s).length := hsplit
          rw [hd, List.append_nil] at this
          exact this
        refine ⟨⟨by rw [hall]; exact h1, fun c hc => mem_takenRun (hall ▸ hc), ?_⟩, by omega⟩
        rw [← h, ← hall]
    · rintro ⟨⟨h5, h6, rfl⟩, h7⟩
      have hall : takenRun s = s := by
        have := takenRun_append (tail := []) h6 (by simp)
        rwa [List.append_nil] at this
      rw [hall, List.drop_length, if_neg (by simp; omega)]

/-- The colon of an endpoint is the last one. -/
theorem colon_not_taken : ¬ TakenDigit charK 0x3a := by decide

/-- C60, exactly, for every text of bytes. -/
theorem endpoint4_exact (s : List Nat) (hb : ∀ u ∈ s, u < 256) (hl : s.length < 2 ^ 64) (a p : Nat) :
    endpoint4FromString s = some (a, p) ↔
      ∃ at_ pt, s = at_ ++ 0x3a :: pt ∧ v4FromString at_ = some a ∧ ReadNumber pt p ∧ p ≤ 0xffff := by
  unfold endpoint4FromString
  constructor
  · intro h
    cases hc : lastColon s with
    | none => rw [hc] at h; simp at h
    | some sep =>
      rw [hc] at h
      simp only at h
      split at h
      · simp at h
      · split at h
        · rename_i x y h1 h2
          simp only [Option.some.injEq, Prod.mk.injEq] at h
          obtain ⟨rfl, rfl⟩ := h
          exact ⟨_, _, lastColon_some hc, h1, (port_exact _
            (fun u hm => hb u (List.mem_of_mem_drop hm)) (by simp only [List.length_drop]; omega) _).1 h2⟩
        · simp at h
  · rintro ⟨at_, pt, rfl, h1, h2⟩
    have hne : at_ ≠ [] := by
      rintro rfl
      rw [show v4FromString [] = none by decide +kernel] at h1; cases h1
    have hdrop : (at_ ++ 0x3a :: pt).drop (at_.length + 1) = pt := by
      rw [← List.drop_drop, List.drop_left]; rfl
    rw [lastColon_append (fun h => colon_not_taken (h2.1.2.1 _ h))]
    simp only
    rw [if_neg (by simpa using hne), List.take_left, h1, hdrop,
      (port_exact pt (fun u hm => hb u (by simp [hm])) (by simp at hl; omega) p).2 h2]

/-- C60, exactly, for every text of bytes, for IPv6 endpoints. -/
theorem endpoint6_exact (s : List Nat) (hu : ∀ u ∈ s, u < 256) (hl : s.length < 2 ^ 64) (a : List Nat)
    (p : Nat) :
    endpoint6FromString s = some (a, p) ↔
      ∃ at_ pt, s = 0x5b :: at_ ++ 0x5d :: 0x3a :: pt ∧ v6FromString at_ = some a ∧ ReadNumber pt p ∧ p ≤ 0xffff := by
  unfold endpoint6FromString
  constructor
  · intro h
    cases hc : lastColon s with
    | none => rw [hc] at h; simp at h
    | some sep =>
      rw [hc] at h
      simp only at h
      split at h
      · simp at h
      · split at h
        · rename_i hb
          split at h
          · rename_i x y h1 h2
            simp only [Option.some.injEq, Prod.mk.injEq] at h
            obtain ⟨rfl, rfl⟩ := h
            refine ⟨_, _, ?_, h1, (port_exact _
              (fun u hm => hu u (List.mem_of_mem_drop hm)) (by simp only [List.length_drop]; omega) _).1 h2⟩
            have hs := lastColon_some hc
            have hav : s.take sep = 0x5b :: ((s.take sep).drop 1).take ((s.take sep).length - 2) ++ [0x5d] := by
              obtain ⟨b1, b2⟩ := hb
              generalize s.take sep = av at b1 b2
              cases av with
              | nil => simp at b1
              | cons c av =>
                simp only [List.head?_cons, Option.some.injEq] at b1
                subst b1
                obtain ⟨ys, hy⟩ := List.getLast?_eq_some_iff.1 b2
                cases ys with
                | nil => simp at hy
                | cons d ys =>
                  simp only [List.cons_append, List.cons.injEq] at hy
                  obtain ⟨rfl, rfl⟩ := hy
                  simp
            calc s = s.take sep ++ 0x3a :: s.drop (sep + 1) := hs
              _ = (0x5b :: ((s.take sep).drop 1).take ((s.take sep).length - 2) ++ [0x5d]) ++
                    0x3a :: s.drop (sep + 1) := by rw [← hav]
              _ = _ := by simp
          · simp at h
        · simp at h
  · rintro ⟨at_, pt, rfl, h1, h2⟩
    have e : 0x5b :: at_ ++ 0x5d :: 0x3a :: pt = (0x5b :: at_ ++ [0x5d]) ++ 0x3a :: pt := by simp
    rw [e, lastColon_append (fun h => by exact colon_not_taken (h2.1.2.1 _ h))]
    simp only
    have hdrop : ((0x5b :: at_ ++ [0x5d]) ++ 0x3a :: pt).drop
        ((0x5b :: at_ ++ [0x5d]).length + 1) = pt := by
      rw [← List.drop_drop, List.drop_left]; rfl
    have hin : ((0x5b :: at_ ++ [0x5d]).drop 1).take ((0x5b :: at_ ++ [0x5d]).length - 2) = at_ := by
      simp only [List.cons_append, List.drop_succ_cons, List.drop_zero, List.length_cons,
        List.length_append, List.length_nil]
      exact List.take_left' (by omega)
    rw [if_neg (by simp), List.take_left, hdrop, (port_exact _
      (fun u hm => hu u (by simp [hm])) (by simp at hl; omega) _).2 h2, if_pos ⟨by simp, List.getLast?_append⟩,
      hin, h1]

/-- "5\xff" is read as 0.0.0.1: 5 * 10 + (-1 - 48) is 1; and "1.2" as 1.0.0.2. -/
example : V4Read [0x35, 0xff] 1 ∧ V4Read [0x31, 0x2e, 0x32] 0x1000002 := by
  refine ⟨⟨[[0x35, 0xff]], rfl, by decide, ?_⟩, ⟨[[0x31], [0x32]], rfl, by decide, ?_⟩⟩
  · rw [show [[0x35, 0xff]].map (wrapped charK 10) = [1] by decide +kernel]
    exact .one (by decide)
  · rw [show [[0x31], [0x32]].map (wrapped charK 10) = [1, 2] by decide +kernel]
    exact .two (by decide) (by decide)

end Verif.Net
