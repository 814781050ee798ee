import Verif.Base64.Model
import Verif.Base64.Spec

/-! # Lemmas about the Base64 model -/

namespace Verif.Base64
open Verif.Bits

/-! ## Tables -/

theorem symbolAt_eq : ∀ v, v < 64 → symbolAt v = letter v := by decide +kernel

theorem codes_letter : ∀ v, v < 64 → letter v < 128 ∧ codes.getD (letter v) 0 = v := by
  decide +kernel

/-- Every table entry is a sextet whose letter is the index, or 255 (invalid), or 254 (only `=`). -/
theorem codes_inv : ∀ ch, ch < 128 →
    (codes.getD ch 0 < 64 ∧ letter (codes.getD ch 0) = ch) ∨ codes.getD ch 0 = 255 ∨
    (codes.getD ch 0 = 254 ∧ ch = 61) := by decide +kernel

theorem codeAt_letter {v : Nat} (h : v < 64) : codeAt (letter v) = some v := by
  have := codes_letter v h
  rw [codeAt, if_pos this.1, this.2]

theorem codeAt_pad : codeAt 61 = some 254 := by decide +kernel

theorem letter_ne_pad : ∀ v, v < 64 → letter v ≠ 61 := by decide +kernel

theorem codeAt_some {ch c : Nat} (h : codeAt ch = some c) :
    (c < 64 ∧ ch = letter c) ∨ c = 255 ∨ (c = 254 ∧ ch = 61) := by
  unfold codeAt at h
  split at h
  · rename_i hlt
    cases h
    rcases codes_inv ch hlt with ⟨h1, h2⟩ | h1 | h1
    · exact Or.inl ⟨h1, h2.symm⟩
    · exact Or.inr (Or.inl h1)
    · exact Or.inr (Or.inr h1)
  · cases h

/-! ## Arithmetic form of the bit twiddling -/

theorem and_fc : ∀ b, b < 256 → (b &&& 0xfc) >>> 2 = b / 4 := by decide +kernel
theorem and_03 : ∀ b, b < 256 → (b &&& 0x03) <<< 4 = b % 4 * 16 := by decide +kernel
theorem and_f0 : ∀ b, b < 256 → (b &&& 0xf0) >>> 4 = b / 16 := by decide +kernel
theorem and_0f : ∀ b, b < 256 → (b &&& 0x0f) <<< 2 = b % 16 * 4 := by decide +kernel
theorem and_c0 : ∀ b, b < 256 → (b &&& 0xc0) >>> 6 = b / 64 := by decide +kernel
theorem and_3f : ∀ b, b < 256 → b &&& 0x3f = b % 64 := by decide +kernel

theorem encodeChunk_eq {a b c : Nat} (ha : a < 256) (hb : b < 256) (hc : c < 256) :
    encodeChunk a b c = [letter (a / 4), letter (a % 4 * 16 + b / 16),
      letter (b % 16 * 4 + c / 64), letter (c % 64)] := by
  have e1 : a % 4 * 16 ||| b / 16 = a % 4 * 16 + b / 16 :=
    or_eq_add (i := 4) (by omega) (by omega)
  have e2 : b % 16 * 4 ||| c / 64 = b % 16 * 4 + c / 64 :=
    or_eq_add (i := 2) (by omega) (by omega)
  simp only [encodeChunk, and_fc a ha, and_03 a ha, and_f0 b hb, and_0f b hb, and_c0 c hc,
    and_3f c hc, e1, e2]
  rw [symbolAt_eq _ (by omega), symbolAt_eq _ (by omega), symbolAt_eq _ (by omega),
    symbolAt_eq _ (by omega)]

theorem shl2 : ∀ v, v < 64 → v <<< 2 = v * 4 := by decide +kernel
theorem shr4 : ∀ v, v < 64 → (v >>> 4) &&& 0x03 = v / 16 := by decide +kernel
theorem and_0f' : ∀ v, v < 64 → (v &&& 0x0f) <<< 4 = v % 16 * 16 := by decide +kernel
theorem and_fc' : ∀ v, v < 64 → (v &&& 0xfc) >>> 2 = v / 4 := by decide +kernel
theorem and_03' : ∀ v, v < 64 → (v &&& 0x03) <<< 6 = v % 4 * 64 := by decide +kernel

/-- The first `n` assembled bytes when the codes they depend on are sextets. -/
theorem assemble_eq3 {a b c d : Nat} (ha : a < 64) (hb : b < 64) (hc : c < 64) (hd : d < 64) :
    assemble a b c d = [a * 4 + b / 16, b % 16 * 16 + c / 4, c % 4 * 64 + d] := by
  have e1 : a * 4 ||| b / 16 = a * 4 + b / 16 := or_eq_add (i := 2) (by omega) (by omega)
  have e2 : b % 16 * 16 ||| c / 4 = b % 16 * 16 + c / 4 :=
    or_eq_add (i := 4) (by omega) (by omega)
  have e3 : c % 4 * 64 ||| d = c % 4 * 64 + d := or_eq_add (i := 6) (by omega) (by omega)
  simp only [assemble, shl2 a ha, shr4 b hb, and_0f' b hb, and_fc' c hc, and_03' c hc, e1, e2, e3]
  congr 1
  · omega
  · congr 1
    · omega
    · congr 1; omega

theorem assemble_eq2 {a b c d : Nat} (ha : a < 64) (hb : b < 64) (hc : c < 64) :
    (assemble a b c d).take 2 = [a * 4 + b / 16, b % 16 * 16 + c / 4] := by
  have := assemble_eq3 ha hb hc (d := 0) (by omega)
  simp only [assemble] at this ⊢
  simp only [List.cons.injEq] at this
  simp [this.1, this.2.1]

theorem assemble_eq1 {a b c d : Nat} (ha : a < 64) (hb : b < 64) :
    (assemble a b c d).take 1 = [a * 4 + b / 16] := by
  have := assemble_eq3 ha hb (c := 0) (d := 0) (by omega) (by omega)
  simp only [assemble] at this ⊢
  simp only [List.cons.injEq] at this
  simp [this.1]

/-! ## Bits -/

theorem sextetBits_append (a b : List Nat) : sextetBits (a ++ b) = sextetBits a ++ sextetBits b := by
  induction a with
  | nil => rfl
  | cons x xs ih => simp [sextetBits, ih]

@[simp] theorem sextetBits_length (l : List Nat) : (sextetBits l).length = 6 * l.length := by
  induction l with
  | nil => rfl
  | cons x xs ih => simp [sextetBits, ih]; omega

/-- Four sextets and three bytes denote the same 24 bits. -/
theorem bits24 {a b c d : Nat} (hb : b < 64) (hc : c < 64) (hd : d < 64) :
    sextetBits [a, b, c, d] =
      bytesBits [a * 4 + b / 16, b % 16 * 16 + c / 4, c % 4 * 64 + d] := by
  have key : ∀ x y : Nat, x < 256 * 2 → toBits 8 y ++ [] = toBits 8 y := by simp
  simp only [sextetBits, bytesBits, List.append_nil]
  have e1 : toBits 8 (a * 4 + b / 16) = toBits 6 a ++ toBits 2 (b / 16) :=
    toBits_add_mul (m := 6) (n := 2) a (b / 16) (by omega)
  have e2 : toBits 8 (b % 16 * 16 + c / 4) = toBits 4 (b % 16) ++ toBits 4 (c / 4) :=
    toBits_add_mul (m := 4) (n := 4) (b % 16) (c / 4) (by omega)
  have e3 : toBits 8 (c % 4 * 64 + d) = toBits 2 (c % 4) ++ toBits 6 d :=
    toBits_add_mul (m := 2) (n := 6) (c % 4) d (by omega)
  have f1 : toBits 6 b = toBits 2 (b / 16) ++ toBits 4 (b % 16) := by
    rw [toBits_append 2 4 b]; congr 1; exact (toBits_mod 4 b).symm
  have f2 : toBits 6 c = toBits 4 (c / 4) ++ toBits 2 (c % 4) := by
    rw [toBits_append 4 2 c]; congr 1; exact (toBits_mod 2 c).symm
  rw [e1, e2, e3, f1, f2]; simp

theorem sextets_append_exact (v : Nat) (hv : v < 64) (l : List Bool) :
    sextets (toBits 6 v ++ l) = v :: sextets l := by
  rw [sextets, if_neg (by intro h; have := congrArg List.length h; simp at this)]
  have h1 : (toBits 6 v ++ l).take 6 = toBits 6 v := by
    rw [List.take_append, toBits_length]; simp [List.take_of_length_le]
  have h2 : (toBits 6 v ++ l).drop 6 = l := by
    rw [List.drop_append, toBits_length]; simp [List.drop_of_length_le]
  have h3 : 6 - (toBits 6 v ++ l).length = 0 := by simp
  rw [h1, h2, h3]
  simp [ofBits_toBits_of_lt (n := 6) hv]

theorem sextets_sextetBits (vs : List Nat) (h : ∀ v ∈ vs, v < 64) (l : List Bool) :
    sextets (sextetBits vs ++ l) = vs ++ sextets l := by
  induction vs with
  | nil => rfl
  | cons v vs ih =>
    simp only [sextetBits, List.append_assoc]
    rw [sextets_append_exact v (h v (by simp)), ih (fun w hw => h w (by simp [hw]))]
    rfl

theorem sextets_nil : sextets [] = [] := by rw [sextets]; simp

/-- The three sextets of a trailing two-byte group. -/
theorem sextets_two {a b : Nat} (ha : a < 256) (hb : b < 256) :
    sextets (bytesBits [a, b]) = [a / 4, a % 4 * 16 + b / 16, b % 16 * 4] := by
  have h := bits24 (a := a / 4) (b := a % 4 * 16 + b / 16) (c := b % 16 * 4) (d := 0)
    (by omega) (by omega) (by omega)
  have ea : a / 4 * 4 + (a % 4 * 16 + b / 16) / 16 = a := by omega
  have eb : (a % 4 * 16 + b / 16) % 16 * 16 + b % 16 * 4 / 4 = b := by omega
  have ec : b % 16 * 4 % 4 * 64 + 0 = 0 := by omega
  rw [ea, eb, ec] at h
  have h2 : bytesBits [a, b] = sextetBits [a / 4, a % 4 * 16 + b / 16] ++ toBits 4 (b % 16) := by
    have := congrArg (List.take 16) h
    have t1 : (bytesBits [a, b, 0]).take 16 = bytesBits [a, b] := by
      rw [show [a, b, 0] = [a, b] ++ [0] from rfl, bytesBits_append, List.take_append]; simp
      rw [List.take_of_length_le]; simp
    rw [t1] at this
    rw [← this]
    rw [show [a / 4, a % 4 * 16 + b / 16, b % 16 * 4, 0] =
      [a / 4, a % 4 * 16 + b / 16] ++ [b % 16 * 4, 0] from rfl, sextetBits_append, List.take_append]
    simp only [sextetBits_length, List.length_cons, List.length_nil]
    rw [List.take_of_length_le (by simp)]
    congr 1
    simp only [sextetBits, List.append_nil]
    rw [List.take_append, toBits_length]
    simp only [Nat.reduceMul, Nat.reduceAdd, Nat.reduceSub, List.take_zero, List.append_nil]
    rw [toBits_take 4 2]; congr 1; omega
  rw [h2, sextets_sextetBits _ (by simp; omega)]
  rw [sextets, if_neg (by intro h; have := congrArg List.length h; simp at this)]
  have h3 : (toBits 4 (b % 16)).drop 6 = [] := List.drop_of_length_le (by simp)
  have h4 : (toBits 4 (b % 16)).take 6 = toBits 4 (b % 16) := List.take_of_length_le (by simp)
  rw [h3, h4, sextets_nil, toBits_length, ofBits_append, ofBits_toBits_of_lt (by omega)]
  simp [ofBits]

theorem sextets_one {a : Nat} (ha : a < 256) : sextets (bytesBits [a]) = [a / 4, a % 4 * 16] := by
  have h2 : bytesBits [a] = sextetBits [a / 4] ++ toBits 2 (a % 4) := by
    simp only [bytesBits, sextetBits, List.append_nil]
    rw [toBits_append 6 2 a]; congr 1; exact (toBits_mod 2 a).symm
  rw [h2, sextets_sextetBits _ (by simp; omega)]
  rw [sextets, if_neg (by intro h; have := congrArg List.length h; simp at this)]
  have h3 : (toBits 2 (a % 4)).drop 6 = [] := List.drop_of_length_le (by simp)
  have h4 : (toBits 2 (a % 4)).take 6 = toBits 2 (a % 4) := List.take_of_length_le (by simp)
  rw [h3, h4, sextets_nil, toBits_length, ofBits_append, ofBits_toBits_of_lt (by omega)]
  simp [ofBits]

theorem rfcEncode_three {a b c : Nat} (ha : a < 256) (hb : b < 256) (hc : c < 256) (l : List Nat) :
    rfcEncode (a :: b :: c :: l) = encodeChunk a b c ++ rfcEncode l := by
  have h := bits24 (a := a / 4) (b := a % 4 * 16 + b / 16) (c := b % 16 * 4 + c / 64) (d := c % 64)
    (by omega) (by omega) (by omega)
  have ea : a / 4 * 4 + (a % 4 * 16 + b / 16) / 16 = a := by omega
  have eb : (a % 4 * 16 + b / 16) % 16 * 16 + (b % 16 * 4 + c / 64) / 4 = b := by omega
  have ec : (b % 16 * 4 + c / 64) % 4 * 64 + c % 64 = c := by omega
  rw [ea, eb, ec] at h
  unfold rfcEncode
  rw [show a :: b :: c :: l = [a, b, c] ++ l from rfl, bytesBits_append, ← h,
    sextets_sextetBits _ (by simp; omega), encodeChunk_eq ha hb hc]
  simp
  omega

/-! ## Encoder -/

theorem encodeGroups_spec : ∀ (l : List Nat), (∀ b ∈ l, b < 256) →
    ∃ rem, (encodeGroups l).2 = rem ∧ rem.length = l.length % 3 ∧
      l = l.take (l.length - rem.length) ++ rem ∧
      ∀ m, rfcEncode (l.take (l.length - rem.length) ++ m) = (encodeGroups l).1 ++ rfcEncode m := by
  intro l
  fun_induction encodeGroups l with
  | case1 a b c rest out rem heq ih =>
    intro hl
    rw [heq] at ih
    obtain ⟨r, h1, h2, h3, h4⟩ := ih (fun b hb => hl b (by simp [hb]))
    simp only at h1
    subst h1
    have hlen : (a :: b :: c :: rest).length - rem.length = (rest.length - rem.length) + 3 := by
      have := congrArg List.length h3
      simp at this ⊢; omega
    refine ⟨rem, rfl, by simp; omega, ?_, ?_⟩
    · rw [hlen]; simpa using h3
    · intro m
      rw [hlen]
      simp only [List.take_succ_cons, List.cons_append]
      rw [rfcEncode_three (hl a (by simp)) (hl b (by simp)) (hl c (by simp)), h4 m]
      simp
  | case2 rem h =>
    intro hl
    have : rem.length < 3 := by
      match rem, h with
      | [], _ => simp
      | [_], _ => simp
      | [_, _], _ => simp
      | a :: b :: c :: r, h => exact absurd rfl (h a b c r)
    refine ⟨rem, rfl, ?_, by simp, by simp⟩
    omega

/-- The tail group: what the code writes for one or two left-over bytes. -/
theorem encodeRead_spec (n : Nat) (stale : Nat → Nat) (l : List Nat) (hl : ∀ b ∈ l, b < 256)
    (hs : ∀ i, stale i < 256) (hlen : l.length ≤ 3 * n) :
    encodeRead n stale l =
      if l.length % 3 ≠ 0 ∧ 3 * n < 2 * l.length then none else some (rfcEncode l) := by
  obtain ⟨rem, h1, h2, h3, h4⟩ := encodeGroups_spec l hl
  have hll := congrArg List.length h3
  simp only [List.length_append, List.length_take] at hll
  unfold encodeRead
  rcases heq : encodeGroups l with ⟨out, rm⟩
  rw [heq] at h1 h4
  simp only at h1 h4
  subst h1
  by_cases hr : rm.length > 0
  · simp only [hr, if_true]
    have hst : l.length - rm.length + rm.length = l.length := by omega
    rw [hst]
    unfold clearTail
    by_cases hfit : l.length + l.length ≤ 3 * n
    · rw [if_pos hfit, if_neg (by omega)]
      simp only
      congr 1
      have hrm : ∀ b ∈ rm, b < 256 := fun b hb => hl b (by rw [h3]; simp [hb])
      have hfull := h4 rm
      rw [← h3] at hfull
      rw [hfull, List.append_assoc]
      congr 1
      have hget : ∀ j, j < rm.length → l.getD (l.length - rm.length + j) (stale (l.length - rm.length + j)) = rm.getD j 0 := by
        intro j hj
        rw [List.getD_eq_getElem?_getD, List.getD_eq_getElem?_getD]
        have h5 : l[l.length - rm.length + j]? =
            (l.take (l.length - rm.length) ++ rm)[l.length - rm.length + j]? := by rw [← h3]
        rw [h5, List.getElem?_append_right (by simp)]
        have : l.length - rm.length + j - (l.take (l.length - rm.length)).length = j := by
          simp
        rw [this]
        rw [List.getElem?_eq_getElem hj]; simp
      have hsz : rm.length = 1 ∨ rm.length = 2 := by omega
      rcases hsz with hsz | hsz
      · obtain ⟨a, rfl⟩ := List.length_eq_one_iff.1 hsz
        have ha := hrm a (by simp)
        have g0 := hget 0 (by simp)
        simp only [List.length_singleton, Nat.add_zero] at g0 hst ⊢
        have c0 : ¬ (l.length ≤ l.length - 1 ∧ l.length - 1 < l.length + l.length) := by omega
        have c1 : l.length ≤ l.length - 1 + 1 ∧ l.length - 1 + 1 < l.length + l.length := by omega
        rw [if_neg c0, if_pos c1, g0]
        have hx : ∀ x, x < 256 → (encodeChunk a 0 x).take 2 = [letter (a / 4), letter (a % 4 * 16)] := by
          intro x hx
          rw [encodeChunk_eq ha (by omega) hx]; simp
        have hx2 : (if l.length ≤ l.length - 1 + 2 ∧ l.length - 1 + 2 < l.length + l.length then 0
            else l.getD (l.length - 1 + 2) (stale (l.length - 1 + 2))) < 256 := by
          split
          · omega
          · rw [List.getD_eq_getElem?_getD, List.getElem?_eq_none (by omega)]
            exact hs _
        have := hx _ hx2
        simp only [List.getD_cons_zero] at this ⊢
        rw [this]
        unfold rfcEncode
        rw [sextets_one ha]; simp
      · obtain ⟨a, b, rfl⟩ : ∃ a b, rm = [a, b] := by
          match rm, hsz with
          | [a, b], _ => exact ⟨a, b, rfl⟩
        have ha := hrm a (by simp)
        have hb := hrm b (by simp)
        have g0 := hget 0 (by simp)
        have g1 := hget 1 (by simp)
        simp only [List.length_cons, List.length_nil, Nat.add_zero, Nat.zero_add, Nat.reduceAdd]
          at g0 g1 hst ⊢
        have c0 : ¬ (l.length ≤ l.length - 2 ∧ l.length - 2 < l.length + l.length) := by omega
        have c1 : ¬ (l.length ≤ l.length - 2 + 1 ∧ l.length - 2 + 1 < l.length + l.length) := by
          omega
        have c2 : l.length ≤ l.length - 2 + 2 ∧ l.length - 2 + 2 < l.length + l.length := by omega
        rw [if_neg c0, if_neg c1, if_pos c2, g0, g1]
        have hx : (encodeChunk a b 0).take 3 =
            [letter (a / 4), letter (a % 4 * 16 + b / 16), letter (b % 16 * 4)] := by
          rw [encodeChunk_eq ha hb (by omega)]; simp
        simp only [List.getD_cons_zero, List.getD_cons_succ]
        rw [hx]
        unfold rfcEncode
        rw [sextets_two ha hb]; simp
    · rw [if_neg hfit, if_pos (by omega)]
  · simp only [hr, if_false]
    rw [if_neg (by omega)]
    have : rm = [] := List.length_eq_zero_iff.1 (by omega)
    subst this
    simp only [List.length_nil, Nat.sub_zero, List.take_length, List.append_nil] at h4
    have := h4 []
    simp only [List.append_nil] at this
    rw [this]; simp [rfcEncode, sextets_nil]

theorem rfcEncode_append : ∀ (k : Nat) (l m : List Nat), l.length = 3 * k → (∀ b ∈ l, b < 256) →
    rfcEncode (l ++ m) = rfcEncode l ++ rfcEncode m := by
  intro k
  induction k with
  | zero =>
    intro l m h _
    have : l = [] := List.length_eq_zero_iff.1 (by omega)
    subst this; simp [rfcEncode, sextets_nil]
  | succ k ih =>
    intro l m h hl
    match l, h with
    | a :: b :: c :: l, h =>
      simp only [List.cons_append]
      have ha := hl a (by simp)
      have hb := hl b (by simp)
      have hc := hl c (by simp)
      rw [rfcEncode_three ha hb hc, rfcEncode_three ha hb hc,
        ih l m (by simp at h; omega) (fun x hx => hl x (by simp [hx]))]
      simp

theorem encodeLoop_spec (n : Nat) (stale : Nat → Nat → Nat) (hs : ∀ i j, stale i j < 256) :
    ∀ (len : Nat) (i : Nat) (l : List Nat), l.length = len → (∀ b ∈ l, b < 256) →
      encodeLoop n stale i l =
        if len % 3 ≠ 0 ∧ 3 * (n + 1) < 2 * (len % (3 * (n + 1))) then none
        else some (rfcEncode l) := by
  intro len
  induction len using Nat.strongRecOn with
  | _ len ih =>
    intro i l hlen hl
    rw [encodeLoop]
    have ht : ∀ b ∈ l.take (3 * (n + 1)), b < 256 := fun b hb => hl b (List.mem_of_mem_take hb)
    rw [encodeRead_spec (n + 1) (stale i) _ ht (hs i) (by simp; omega)]
    by_cases hlt : l.length < 3 * (n + 1)
    · have e : l.take (3 * (n + 1)) = l := List.take_of_length_le (by omega)
      rw [e, hlen]
      have e2 : len % (3 * (n + 1)) = len := Nat.mod_eq_of_lt (by omega)
      rw [e2]
      by_cases hc : len % 3 ≠ 0 ∧ 3 * (n + 1) < 2 * len
      · rw [if_pos hc]
      · rw [if_neg hc]
        have : len < 3 * (n + 1) := by omega
        simp [this]
    · have hlt' : (l.take (3 * (n + 1))).length = 3 * (n + 1) := by simp; omega
      rw [hlt', if_neg (by omega)]
      simp only [hlt, if_false]
      have hd : ∀ b ∈ l.drop (3 * (n + 1)), b < 256 := fun b hb => hl b (List.mem_of_mem_drop hb)
      rw [ih (len - 3 * (n + 1)) (by omega) (i + 1) _ (by simp; omega) hd]
      have e3 : (len - 3 * (n + 1)) % 3 = len % 3 := by omega
      have e4 : (len - 3 * (n + 1)) % (3 * (n + 1)) = len % (3 * (n + 1)) := by
        rw [← Nat.mod_eq_sub_mod (by omega)]
      rw [e3, e4]
      by_cases hc : len % 3 ≠ 0 ∧ 3 * (n + 1) < 2 * (len % (3 * (n + 1)))
      · rw [if_pos hc, if_pos hc]
      · rw [if_neg hc, if_neg hc]
        simp only
        rw [← rfcEncode_append (n + 1) _ _ hlt' ht, List.take_append_drop]

/-! ## Decoder -/

theorem valid_or : ∀ a, a < 256 → (a &&& 0x80 = 0 ↔ a < 128) := by decide +kernel

theorem or_valid {a b : Nat} (ha : a < 256) (hb : b < 256) : a ||| b < 256 ∧
    ((a ||| b) &&& 0x80 = 0 ↔ a &&& 0x80 = 0 ∧ b &&& 0x80 = 0) := by
  refine ⟨Nat.or_lt_two_pow (n := 8) ha hb, ?_⟩
  rw [Nat.and_or_distrib_right, Nat.or_eq_zero_iff]

theorem codeAt_lt {ch c : Nat} (h : codeAt ch = some c) : c < 256 := by
  rcases codeAt_some h with h | h | h <;> omega

theorem decodeChunk_spec {a b c d : Nat} {bytes : List Nat}
    (h : decodeChunk a b c d = some (bytes, true)) :
    ∃ v0 v1 v2 v3, v0 < 64 ∧ v1 < 64 ∧ v2 < 64 ∧ v3 < 64 ∧
      [a, b, c, d] = [v0, v1, v2, v3].map letter ∧
      bytes = [v0 * 4 + v1 / 16, v1 % 16 * 16 + v2 / 4, v2 % 4 * 64 + v3] := by
  unfold decodeChunk at h
  rcases ha : codeAt a with _ | v0
  · simp [ha] at h
  rcases hb : codeAt b with _ | v1
  · simp [ha, hb] at h
  rcases hc : codeAt c with _ | v2
  · simp [ha, hb, hc] at h
  rcases hd : codeAt d with _ | v3
  · simp [ha, hb, hc, hd] at h
  simp only [ha, hb, hc, hd, Option.bind_eq_bind, Option.bind_some, Option.pure_def,
    Option.some.injEq, Prod.mk.injEq, beq_iff_eq] at h
  obtain ⟨h1, h2⟩ := h
  have l0 := codeAt_lt ha
  have l1 := codeAt_lt hb
  have l2 := codeAt_lt hc
  have l3 := codeAt_lt hd
  have o1 := or_valid l0 l1
  have o2 := or_valid o1.1 l2
  have o3 := or_valid o2.1 l3
  rw [o3.2, o2.2, o1.2, valid_or _ l0, valid_or _ l1, valid_or _ l2, valid_or _ l3] at h2
  obtain ⟨⟨⟨w0, w1⟩, w2⟩, w3⟩ := h2
  have x0 := codeAt_some ha
  have x1 := codeAt_some hb
  have x2 := codeAt_some hc
  have x3 := codeAt_some hd
  have y0 : v0 < 64 ∧ a = letter v0 := by omega
  have y1 : v1 < 64 ∧ b = letter v1 := by omega
  have y2 : v2 < 64 ∧ c = letter v2 := by omega
  have y3 : v3 < 64 ∧ d = letter v3 := by omega
  refine ⟨v0, v1, v2, v3, y0.1, y1.1, y2.1, y3.1, ?_, ?_⟩
  · rw [y0.2, y1.2, y2.2, y3.2]; rfl
  · rw [← h1, assemble_eq3 y0.1 y1.1 y2.1 y3.1]

theorem decodeChunk_letters {a b c d : Nat} (ha : a < 64) (hb : b < 64) (hc : c < 64) (hd : d < 64) :
    decodeChunk (letter a) (letter b) (letter c) (letter d) =
      some ([a * 4 + b / 16, b % 16 * 16 + c / 4, c % 4 * 64 + d], true) := by
  simp only [decodeChunk, codeAt_letter ha, codeAt_letter hb, codeAt_letter hc, codeAt_letter hd,
    Option.bind_eq_bind, Option.bind_some, Option.pure_def, assemble_eq3 ha hb hc hd]
  have o1 := or_valid (a := a) (b := b) (by omega) (by omega)
  have o2 := or_valid (b := c) o1.1 (by omega)
  have o3 := or_valid (b := d) o2.1 (by omega)
  have : (a ||| b ||| c ||| d) &&& 0x80 = 0 := by
    rw [o3.2, o2.2, o1.2, valid_or _ (by omega), valid_or _ (by omega), valid_or _ (by omega),
      valid_or _ (by omega)]
    omega
  simp [this]

/-- What the unpadded loop does when it reports success. -/
theorem decodeGroups_sound : ∀ (k : Nat) (enc out rest : List Nat),
    decodeGroups k enc = some (out, true, rest) →
    ∃ vals, (∀ v ∈ vals, v < 64) ∧ enc = vals.map letter ++ rest ∧ vals.length = 4 * k ∧
      out.length = 3 * k ∧ (∀ b ∈ out, b < 256) ∧ bytesBits out = sextetBits vals := by
  intro k enc
  fun_induction decodeGroups k enc with
  | case1 enc => intro out rest h; cases h; exact ⟨[], by simp [sextetBits]⟩
  | case2 => intro out rest h; cases h
  | case3 => intro out rest h; cases h
  | case4 => intro out rest h; cases h
  | case5 k a b c d rest bytes hch out0 ok rest0 hrec ih =>
    intro out rest' h
    simp only [Option.some.injEq, Prod.mk.injEq] at h
    obtain ⟨rfl, rfl, rfl⟩ := h
    obtain ⟨vals, g1, g2, g3, g4, g5, g6⟩ := ih _ _ hrec
    obtain ⟨v0, v1, v2, v3, w0, w1, w2, w3, e1, e2⟩ := decodeChunk_spec hch
    refine ⟨[v0, v1, v2, v3] ++ vals, ?_, ?_, by simp; omega, ?_, ?_, ?_⟩
    · intro v hv
      rcases List.mem_append.1 hv with hv | hv
      · simp at hv; omega
      · exact g1 v hv
    · rw [List.map_append, ← e1, g2]; simp
    · rw [e2]; simp; omega
    · intro b' hb'
      rcases List.mem_append.1 hb' with hb' | hb'
      · rw [e2] at hb'; simp at hb'; omega
      · exact g5 b' hb'
    · rw [bytesBits_append, sextetBits_append, g6, e2, bits24 w1 w2 w3]
  | case6 => intro out rest h; cases h

theorem decodeGroups_complete : ∀ (k : Nat) (vals rest : List Nat), (∀ v ∈ vals, v < 64) →
    vals.length = 4 * k → ∃ out, decodeGroups k (vals.map letter ++ rest) = some (out, true, rest) := by
  intro k
  induction k with
  | zero =>
    intro vals rest _ h
    have : vals = [] := List.length_eq_zero_iff.1 (by omega)
    subst this; exact ⟨[], rfl⟩
  | succ k ih =>
    intro vals rest hv h
    match vals, h with
    | a :: b :: c :: d :: vals, h =>
      obtain ⟨out, ho⟩ := ih vals rest (fun v hh => hv v (by simp [hh])) (by simp at h; omega)
      simp only [List.map_cons, List.cons_append, decodeGroups,
        decodeChunk_letters (hv a (by simp)) (hv b (by simp)) (hv c (by simp)) (hv d (by simp)), ho]
      exact ⟨_, rfl⟩

/-- With ASCII bytes only, the unpadded loop never leaves its table. -/
theorem decodeGroups_ascii : ∀ (k : Nat) (enc : List Nat), (∀ b ∈ enc, b < 128) →
    4 * k ≤ enc.length → ∃ out ok rest, decodeGroups k enc = some (out, ok, rest) ∧
      enc.length - 4 * k ≤ rest.length ∧ ∀ b ∈ rest, b < 128 := by
  intro k
  induction k with
  | zero => intro enc h _; exact ⟨[], true, enc, rfl, by omega, h⟩
  | succ k ih =>
    intro enc he hlen
    match enc, hlen with
    | a :: b :: c :: d :: enc, hlen =>
      obtain ⟨out, ok, rest, h1, h2, h3⟩ := ih enc (fun x hx => he x (by simp [hx]))
        (by simp at hlen; omega)
      have ha : a < 128 := he a (by simp)
      have hb : b < 128 := he b (by simp)
      have hc : c < 128 := he c (by simp)
      have hd : d < 128 := he d (by simp)
      have hdc : ∃ bytes ok, decodeChunk a b c d = some (bytes, ok) := by
        simp only [decodeChunk, codeAt, ha, hb, hc, hd, if_true, Option.bind_eq_bind,
          Option.bind_some, Option.pure_def]
        exact ⟨_, _, rfl⟩
      obtain ⟨bytes, ok', hdc⟩ := hdc
      simp only [decodeGroups, hdc]
      cases ok' with
      | false =>
        exact ⟨[], false, a :: b :: c :: d :: enc, rfl, by simp, fun x hx => he x hx⟩
      | true =>
        simp only [h1]
        exact ⟨_, _, _, rfl, by simp; omega, h3⟩

/-- What the final, padding-aware group accepts. -/
theorem decodeLast_sound {a b c d n : Nat} {bytes : List Nat}
    (h : decodeLast a b c d = some (bytes, n)) (hn : n ≠ 0) :
    Denotes [a, b, c, d] (bytes.take n) := by
  unfold decodeLast at h
  rcases ha : codeAt a with _ | v0
  · simp [ha] at h
  rcases hb : codeAt b with _ | v1
  · simp [ha, hb] at h
  rcases hc : codeAt c with _ | v2
  · simp [ha, hb, hc] at h
  rcases hd : codeAt d with _ | v3
  · simp [ha, hb, hc, hd] at h
  simp only [ha, hb, hc, hd, Option.bind_eq_bind, Option.bind_some, Option.pure_def,
    Option.some.injEq, Prod.mk.injEq] at h
  obtain ⟨h1, h2⟩ := h
  have x0 := codeAt_some ha
  have x1 := codeAt_some hb
  have x2 := codeAt_some hc
  have x3 := codeAt_some hd
  split at h2
  · omega
  split at h2
  · omega
  have y0 : v0 < 64 ∧ a = letter v0 := by omega
  have y1 : v1 < 64 ∧ b = letter v1 := by omega
  split at h2
  · have y3 : v3 = 254 ∧ d = 61 := by omega
    have y2 : c = 61 := by omega
    subst h2
    rw [← h1, assemble_eq1 y0.1 y1.1]
    have hbits := bits24 (a := v0) (b := v1) (c := 0) (d := 0) y1.1 (by omega) (by omega)
    refine ⟨[v0, v1], 2, by simp; omega, by omega, ?_, by simp, by simp, by simp; omega, ?_⟩
    · rw [y0.2, y1.2, y2, y3.2]; rfl
    · have := congrArg (List.take 8) hbits
      rw [show [v0, v1, 0, 0] = [v0, v1] ++ [0, 0] from rfl, sextetBits_append,
        List.take_append_of_le_length (by simp)] at this
      simp only [List.length_singleton, Nat.mul_one]
      rw [this]
      simp only [bytesBits]
      rw [List.take_append_of_le_length (by simp), List.take_of_length_le (by simp)]
      simp
  · have y2 : v2 < 64 ∧ c = letter v2 := by omega
    split at h2
    · have y3 : d = 61 := by omega
      subst h2
      rw [← h1, assemble_eq2 y0.1 y1.1 y2.1]
      have hbits := bits24 (a := v0) (b := v1) (c := v2) (d := 0) y1.1 y2.1 (by omega)
      refine ⟨[v0, v1, v2], 1, by simp; omega, by omega, ?_, by simp, by simp, by simp; omega, ?_⟩
      · rw [y0.2, y1.2, y2.2, y3]; rfl
      · have := congrArg (List.take 16) hbits
        rw [show [v0, v1, v2, 0] = [v0, v1, v2] ++ [0] from rfl, sextetBits_append,
          List.take_append_of_le_length (by simp)] at this
        simp only [List.length_cons, List.length_nil]
        rw [show 8 * (0 + 1 + 1) = 16 from rfl, this]
        rw [show [v0 * 4 + v1 / 16, v1 % 16 * 16 + v2 / 4, v2 % 4 * 64 + 0] =
          [v0 * 4 + v1 / 16, v1 % 16 * 16 + v2 / 4] ++ [v2 % 4 * 64 + 0] from rfl, bytesBits_append,
          List.take_append_of_le_length (by simp), List.take_of_length_le (by simp)]
    · have y3 : v3 < 64 ∧ d = letter v3 := by omega
      subst h2
      rw [← h1, assemble_eq3 y0.1 y1.1 y2.1 y3.1]
      have hbits := bits24 (a := v0) (b := v1) (c := v2) (d := v3) y1.1 y2.1 y3.1
      refine ⟨[v0, v1, v2, v3], 0, by simp; omega, by omega, ?_, by simp, by simp, by simp; omega, ?_⟩
      · rw [y0.2, y1.2, y2.2, y3.2]; rfl
      · rw [hbits]
        simp only [List.take_succ_cons, List.take_zero]
        rw [List.take_of_length_le (by simp)]

theorem Denotes_nil : Denotes [] [] := ⟨[], 0, by simp [sextetBits]⟩

/-- Prepending whole unpadded groups. -/
theorem Denotes_prepend {vals out s out' : List Nat} {k : Nat} (hv : ∀ v ∈ vals, v < 64)
    (hlen : vals.length = 4 * k) (hout : out.length = 3 * k) (hb : ∀ b ∈ out, b < 256)
    (hbits : bytesBits out = sextetBits vals) (h : Denotes s out') :
    Denotes (vals.map letter ++ s) (out ++ out') := by
  obtain ⟨vs, p, h1, h2, h3, h4, h5, h6, h7⟩ := h
  refine ⟨vals ++ vs, p, ?_, h2, ?_, ?_, ?_, ?_, ?_⟩
  · intro v hv'
    rcases List.mem_append.1 hv' with hv' | hv'
    · exact hv v hv'
    · exact h1 v hv'
  · rw [h3]; simp
  · simp; omega
  · simp; omega
  · intro b hb'
    rcases List.mem_append.1 hb' with hb' | hb'
    · exact hb b hb'
    · exact h6 b hb'
  · rw [bytesBits_append, sextetBits_append, hbits, h7, List.take_append]
    have e : (sextetBits vals).take (8 * (out ++ out').length) = sextetBits vals :=
      List.take_of_length_le (by simp; omega)
    rw [e]
    congr 2
    simp; omega

theorem decodeRead_ok {chunk out : List Nat} {eof : Bool}
    (h : decodeRead chunk eof = some (out, true)) :
    ∃ vals mid rest k, (∀ v ∈ vals, v < 64) ∧ chunk = vals.map letter ++ rest ∧
      vals.length = 4 * k ∧ mid.length = 3 * k ∧ (∀ b ∈ mid, b < 256) ∧
      bytesBits mid = sextetBits vals ∧ k = chunk.length / 4 - (if eof then 1 else 0) ∧
      (if eof = true then ∃ a b c d tl bytes n, rest = a :: b :: c :: d :: tl ∧
        decodeLast a b c d = some (bytes, n) ∧ n ≠ 0 ∧ out = mid ++ bytes.take n
      else out = mid) := by
  unfold decodeRead at h
  split at h
  · cases h
  · rename_i mid ok rest hg
    cases eof with
    | false =>
      simp only [Bool.false_eq_true, if_false, Option.some.injEq, Prod.mk.injEq] at h
      obtain ⟨rfl, rfl⟩ := h
      obtain ⟨vals, g1, g2, g3, g4, g5, g6⟩ := decodeGroups_sound _ _ _ _ hg
      exact ⟨vals, mid, rest, _, g1, g2, g3, g4, g5, g6, rfl, by simp⟩
    | true =>
      simp only [if_true] at h
      split at h
      · rename_i a b c d tl
        split at h
        · cases h
        · rename_i bytes n hl
          simp only [Option.some.injEq, Prod.mk.injEq, Bool.and_eq_true, bne_iff_ne] at h
          obtain ⟨rfl, rfl, hn⟩ := h
          obtain ⟨vals, g1, g2, g3, g4, g5, g6⟩ := decodeGroups_sound _ _ _ _ hg
          refine ⟨vals, mid, _, _, g1, g2, g3, g4, g5, g6, rfl, ?_⟩
          simp only [if_true]
          exact ⟨a, b, c, d, tl, bytes, n, rfl, hl, hn, rfl⟩
      · cases h

/-- The text ends with padding. -/
def Padded (s : List Nat) : Prop := s.getLast? = some 61

theorem decodeLoop_sound (n : Nat) : ∀ (len : Nat) (good : Bool) (s out : List Nat),
    s.length = len → decodeLoop n good s = .ok out →
    good = true ∧ Denotes s out ∧ (s ≠ [] → len % (4 * (n + 1)) = 0 → ¬ Padded s) := by
  intro len
  induction len using Nat.strongRecOn with
  | _ len ih =>
    intro good s out hlen h
    rw [decodeLoop] at h
    split at h
    · cases h
    rename_i hmod
    split at h
    · rename_i hz
      have hs : s = [] := by
        apply List.length_eq_zero_iff.1
        rw [List.length_take] at hz; omega
      split at h
      · rename_i hg
        cases h
        subst hs
        exact ⟨hg, Denotes_nil, by simp⟩
      · cases h
    rename_i hz
    split at h
    · cases h
    rename_i out0 ok hr
    by_cases hlt : s.length < 4 * (n + 1)
    · rw [if_pos hlt] at h
      split at h
      · rename_i hg
        cases h
        simp only [Bool.and_eq_true] at hg
        obtain ⟨hg, rfl⟩ := hg
        have hchunk : s.take (4 * (n + 1)) = s := List.take_of_length_le (by omega)
        rw [hchunk] at hr hmod hz
        obtain ⟨vals, mid, rest, k, g1, g2, g3, g4, g5, g6, g7, g8⟩ := decodeRead_ok hr
        simp only [hlt, decide_true, if_true] at g7 g8
        obtain ⟨a, b, c, d, tl, bytes, m, e1, e2, e3, e4⟩ := g8
        have htl : tl = [] := by
          have := congrArg List.length g2
          rw [e1] at this
          simp at this
          apply List.length_eq_zero_iff.1; omega
        subst htl
        refine ⟨hg, ?_, ?_⟩
        · rw [g2, e1, e4]
          exact Denotes_prepend g1 g3 g4 g5 g6 (decodeLast_sound e2 e3)
        · intro _ hm
          rw [Nat.mod_eq_of_lt (by omega)] at hm
          omega
      · cases h
    · rw [if_neg hlt] at h
      have hclen : (s.take (4 * (n + 1))).length = 4 * (n + 1) := by simp; omega
      split at h
      · rename_i out1 hrec
        cases h
        obtain ⟨hg, hd, hp⟩ := ih (s.length - 4 * (n + 1)) (by omega) _ _ _ (by simp) hrec
        simp only [Bool.and_eq_true] at hg
        obtain ⟨hg, rfl⟩ := hg
        obtain ⟨vals, mid, rest, k, g1, g2, g3, g4, g5, g6, g7, g8⟩ := decodeRead_ok hr
        simp only [hlt, decide_false, Bool.false_eq_true, if_false, Nat.sub_zero] at g7 g8
        rw [hclen] at g7
        have hrest : rest = [] := by
          have := congrArg List.length g2
          rw [hclen] at this
          simp at this
          apply List.length_eq_zero_iff.1; omega
        subst hrest
        rw [List.append_nil] at g2
        subst g8
        refine ⟨hg, ?_, ?_⟩
        · rw [← List.take_append_drop (4 * (n + 1)) s, g2]
          exact Denotes_prepend g1 g3 g4 g5 g6 hd
        · intro _ hm
          by_cases hdn : s.drop (4 * (n + 1)) = []
          · have hs : s = vals.map letter := by
              rw [← List.take_append_drop (4 * (n + 1)) s, g2, hdn]; simp
            rw [hs]
            intro hpad
            unfold Padded at hpad
            rw [List.getLast?_map] at hpad
            rcases hl : vals.getLast? with _ | v
            · rw [hl] at hpad; cases hpad
            · rw [hl] at hpad
              have hv := g1 v (List.mem_of_getLast? hl)
              simp only [Option.map_some, Option.some.injEq] at hpad
              exact letter_ne_pad v hv hpad
          · have := hp hdn (by rw [← Nat.mod_eq_sub_mod (by omega)]; rw [hlen]; exact hm)
            intro hpad
            apply this
            unfold Padded at hpad ⊢
            rw [List.getLast?_drop, if_neg]
            · exact hpad
            · intro hle
              apply hdn
              exact List.drop_of_length_le hle
      · rename_i hno
        exact absurd h (hno out)

theorem letter_inj : ∀ v, v < 64 → ∀ w, w < 64 → letter v = letter w → v = w := by
  intro v hv w hw h
  have h1 := (codes_letter v hv).2
  have h2 := (codes_letter w hw).2
  rw [h] at h1; omega

theorem split_unique : ∀ (vs ws : List Nat) (p q : Nat), (∀ v ∈ vs, v < 64) → (∀ w ∈ ws, w < 64) →
    vs.map letter ++ List.replicate p 61 = ws.map letter ++ List.replicate q 61 → vs = ws := by
  intro vs
  induction vs with
  | nil =>
    intro ws p q _ hw h
    cases ws with
    | nil => rfl
    | cons w ws =>
      have hmem : letter w ∈ ([] : List Nat).map letter ++ List.replicate p 61 := by
        rw [h]; simp
      simp at hmem
      exact absurd hmem.2 (letter_ne_pad w (hw w (by simp)))
  | cons v vs ih =>
    intro ws p q hv hw h
    cases ws with
    | nil =>
      have hmem : letter v ∈ ([] : List Nat).map letter ++ List.replicate q 61 := by
        rw [← h]; simp
      simp at hmem
      exact absurd hmem.2 (letter_ne_pad v (hv v (by simp)))
    | cons w ws =>
      simp only [List.map_cons, List.cons_append, List.cons.injEq] at h
      have := letter_inj v (hv v (by simp)) w (hw w (by simp)) h.1
      rw [this, ih ws p q (fun x hx => hv x (by simp [hx])) (fun x hx => hw x (by simp [hx])) h.2]

theorem bytesBits_inj : ∀ (a b : List Nat), (∀ x ∈ a, x < 256) → (∀ x ∈ b, x < 256) →
    bytesBits a = bytesBits b → a = b := by
  intro a
  induction a with
  | nil =>
    intro b _ _ h
    have := congrArg List.length h
    simp only [bytesBits_length, List.length_nil] at this
    exact (List.length_eq_zero_iff.1 (by omega)).symm
  | cons x a ih =>
    intro b ha hb h
    cases b with
    | nil => have := congrArg List.length h; simp at this
    | cons y b =>
      simp only [bytesBits_cons] at h
      obtain ⟨h1, h2⟩ := List.append_inj h (by simp)
      have hx := ofBits_toBits_of_lt (n := 8) (v := x) (ha x (by simp))
      have hy := ofBits_toBits_of_lt (n := 8) (v := y) (hb y (by simp))
      rw [h1, hy] at hx
      rw [← hx, ih b (fun z hz => ha z (by simp [hz])) (fun z hz => hb z (by simp [hz])) h2]

theorem Denotes_unique {s o1 o2 : List Nat} (h1 : Denotes s o1) (h2 : Denotes s o2) : o1 = o2 := by
  obtain ⟨vs, p, a1, a2, a3, a4, a5, a6, a7⟩ := h1
  obtain ⟨ws, q, b1, b2, b3, b4, b5, b6, b7⟩ := h2
  have := split_unique vs ws p q a1 b1 (a3.symm.trans b3)
  subst this
  apply bytesBits_inj _ _ a6 b6
  rw [a7, b7, a5, b5]

theorem decodeLast_complete {s out : List Nat} (h : Denotes s out) (hl : s.length = 4) :
    ∃ a b c d bytes n, s = [a, b, c, d] ∧ decodeLast a b c d = some (bytes, n) ∧ n ≠ 0 := by
  obtain ⟨vs, p, h1, h2, h3, _⟩ := h
  have hlen : vs.length + p = 4 := by
    rw [h3] at hl; simpa using hl
  have hp : p = 0 ∨ p = 1 ∨ p = 2 := by omega
  rcases hp with rfl | rfl | rfl
  · match vs, hlen with
    | [a, b, c, d], _ =>
      have ha := h1 a (by simp); have hb := h1 b (by simp)
      have hc := h1 c (by simp); have hd := h1 d (by simp)
      refine ⟨_, _, _, _, assemble a b c d, 3, by rw [h3]; rfl, ?_, by omega⟩
      simp only [decodeLast, codeAt_letter ha, codeAt_letter hb, codeAt_letter hc,
        codeAt_letter hd, Option.bind_eq_bind, Option.bind_some, Option.pure_def]
      rw [if_neg (by omega), if_neg (by omega), if_neg (by omega), if_neg (by omega)]
  · match vs, hlen with
    | [a, b, c], _ =>
      have ha := h1 a (by simp); have hb := h1 b (by simp)
      have hc := h1 c (by simp)
      refine ⟨_, _, _, _, assemble a b c 254, 2, by rw [h3]; rfl, ?_, by omega⟩
      simp only [decodeLast, codeAt_letter ha, codeAt_letter hb, codeAt_letter hc,
        show codeAt ('='.toNat) = some 254 from codeAt_pad, Option.bind_eq_bind, Option.bind_some,
        Option.pure_def]
      rw [if_neg (by omega), if_neg (by omega), if_neg (by omega), if_pos (by trivial)]
  · match vs, hlen with
    | [a, b], _ =>
      have ha := h1 a (by simp); have hb := h1 b (by simp)
      refine ⟨_, _, _, _, assemble a b 254 254, 1, by rw [h3]; rfl, ?_, by omega⟩
      simp only [decodeLast, codeAt_letter ha, codeAt_letter hb,
        show codeAt ('='.toNat) = some 254 from codeAt_pad, Option.bind_eq_bind, Option.bind_some,
        Option.pure_def]
      rw [if_neg (by omega), if_neg (by omega), if_pos (by trivial)]

/-- Splitting whole unpadded groups off a well-formed text. -/
theorem Denotes_split {s out : List Nat} (h : Denotes s out) (k : Nat)
    (hk : 4 * k < s.length ∨ (4 * k = s.length ∧ ¬ Padded s)) :
    ∃ vals rest out' : List Nat, (∀ v ∈ vals, v < 64) ∧ vals.length = 4 * k ∧ s = vals.map letter ++ rest ∧
      Denotes rest out' := by
  obtain ⟨vs, p, h1, h2, h3, h4, h5, h6, h7⟩ := h
  have hlen : s.length = vs.length + p := by rw [h3]; simp
  have hkv : 4 * k ≤ vs.length := by
    rcases hk with hk | ⟨hk, hnp⟩
    · omega
    · by_cases hp : p = 0
      · omega
      · exfalso; apply hnp
        unfold Padded
        rw [h3, List.getLast?_append, List.getLast?_replicate, if_neg hp]; rfl
  have hov : out.length * 8 ≤ 6 * vs.length := by omega
  refine ⟨vs.take (4 * k), (vs.drop (4 * k)).map letter ++ List.replicate p '='.toNat,
    out.drop (3 * k), fun v hv => h1 v (List.mem_of_mem_take hv), by simp; omega, ?_, ?_⟩
  · rw [h3]
    rw [← List.append_assoc, ← List.map_append, List.take_append_drop]
  · refine ⟨vs.drop (4 * k), p, fun v hv => h1 v (List.mem_of_mem_drop hv), h2, rfl, ?_, ?_,
      fun b hb => h6 b (List.mem_of_mem_drop hb), ?_⟩
    · simp; omega
    · simp; omega
    · have e1 : bytesBits out = bytesBits (out.take (3 * k)) ++ bytesBits (out.drop (3 * k)) := by
        rw [← bytesBits_append, List.take_append_drop]
      have e2 : sextetBits vs = sextetBits (vs.take (4 * k)) ++ sextetBits (vs.drop (4 * k)) := by
        rw [← sextetBits_append, List.take_append_drop]
      rw [e1, e2, List.take_append] at h7
      have hl1 : (sextetBits (vs.take (4 * k))).length = 24 * k := by simp; omega
      have hl2 : (bytesBits (out.take (3 * k))).length = 24 * k := by simp; omega
      rw [List.take_of_length_le (l := sextetBits (vs.take (4 * k))) (by rw [hl1]; omega)] at h7
      have := (List.append_inj h7 (by rw [hl1, hl2])).2
      rw [this, hl1]
      congr 1
      simp; omega

theorem decodeLoop_complete (n : Nat) : ∀ (len : Nat) (s out : List Nat),
    s.length = len → Denotes s out → (s ≠ [] → len % (4 * (n + 1)) = 0 → ¬ Padded s) →
    ∃ out', decodeLoop n true s = .ok out' := by
  intro len
  induction len using Nat.strongRecOn with
  | _ len ih =>
    intro s out hlen hd hp
    have hmod4 : s.length % 4 = 0 := by obtain ⟨_, _, _, _, _, h, _⟩ := hd; exact h
    rw [decodeLoop]
    simp only
    have hc4 : (s.take (4 * (n + 1))).length % 4 = 0 := by simp; omega
    rw [if_neg (by omega)]
    by_cases hz : (s.take (4 * (n + 1))).length = 0
    · rw [if_pos hz]; exact ⟨[], by simp⟩
    rw [if_neg hz]
    have hpos : 0 < s.length := by rw [List.length_take] at hz; omega
    by_cases hlt : s.length < 4 * (n + 1)
    · have hchunk : s.take (4 * (n + 1)) = s := List.take_of_length_le (by omega)
      rw [hchunk]
      obtain ⟨vals, rest, out', g1, g2, g3, g4⟩ :=
        Denotes_split hd (s.length / 4 - 1) (Or.inl (by omega))
      have hrl : rest.length = 4 := by
        have := congrArg List.length g3
        simp at this; omega
      obtain ⟨a, b, c, d, bytes, m, e1, e2, e3⟩ := decodeLast_complete g4 hrl
      obtain ⟨mid, hmid⟩ := decodeGroups_complete (s.length / 4 - 1) vals rest g1 g2
      have hread : decodeRead s (decide (s.length < 4 * (n + 1))) =
          some (mid ++ bytes.take m, true) := by
        unfold decodeRead
        simp only [hlt, decide_true, if_true]
        rw [show decodeGroups (s.length / 4 - 1) s = some (mid, true, rest) by
          rw [← hmid, ← g3]]
        simp only [e1, e2]
        simp [e3]
      rw [hread]
      simp [hlt]
    · obtain ⟨vals, rest, out', g1, g2, g3, g4⟩ := Denotes_split hd (n + 1) (by
        by_cases he : s.length = 4 * (n + 1)
        · right
          refine ⟨he.symm, hp (by intro h; rw [h] at hpos; simp at hpos) ?_⟩
          rw [← hlen, he, Nat.mod_self]
        · left; omega)
      have ht : s.take (4 * (n + 1)) = vals.map letter := by
        rw [g3, List.take_append_of_le_length (by simp; omega), List.take_of_length_le (by simp; omega)]
      have hdr : s.drop (4 * (n + 1)) = rest := by
        rw [g3, List.drop_append_of_le_length (by simp; omega), List.drop_of_length_le (by simp; omega)]
        rfl
      obtain ⟨mid, hmid⟩ := decodeGroups_complete (n + 1) vals [] g1 g2
      have hread : decodeRead (s.take (4 * (n + 1))) (decide (s.length < 4 * (n + 1))) =
          some (mid, true) := by
        unfold decodeRead
        simp only [hlt, decide_false, Bool.false_eq_true, if_false, Nat.sub_zero]
        rw [ht]
        rw [List.append_nil] at hmid
        have : (vals.map letter).length / 4 = n + 1 := by simp; omega
        rw [this, hmid]
      rw [hread]
      simp only [hlt, if_false, Bool.and_true]
      obtain ⟨o2, ho2⟩ := ih (s.length - 4 * (n + 1)) (by omega) rest out'
        (by rw [← hdr]; simp) g4 (by
          intro hne hm
          have := hp (by intro h; rw [h] at hpos; simp at hpos)
            (by rw [← hlen, Nat.mod_eq_sub_mod (by omega)]; exact hm)
          intro hpad
          apply this
          unfold Padded at hpad ⊢
          rw [g3, List.getLast?_append, hpad]; rfl)
      rw [hdr, ho2]
      exact ⟨_, rfl⟩

/-- With ASCII bytes only, the decoder never leaves its table. -/
theorem decodeLoop_ascii (n : Nat) : ∀ (len : Nat) (good : Bool) (s : List Nat), s.length = len →
    (∀ b ∈ s, b < 128) → decodeLoop n good s ≠ .ub := by
  intro len
  induction len using Nat.strongRecOn with
  | _ len ih =>
    intro good s hlen hb
    rw [decodeLoop]
    split
    · simp
    rename_i h4
    split
    · split <;> simp
    rename_i hz
    have hct : ∀ b ∈ s.take (4 * (n + 1)), b < 128 := fun b h => hb b (List.mem_of_mem_take h)
    generalize hch : s.take (4 * (n + 1)) = chunk at *
    have hread : ∃ o ok, decodeRead chunk (decide (s.length < 4 * (n + 1))) = some (o, ok) := by
      unfold decodeRead
      obtain ⟨out, ok, rest, h1, h2, h3⟩ := decodeGroups_ascii
        (chunk.length / 4 - (if decide (s.length < 4 * (n + 1)) = true then 1 else 0)) chunk hct
        (by omega)
      rw [h1]
      simp only
      by_cases hlt : s.length < 4 * (n + 1)
      · simp only [hlt, decide_true, if_true] at h2 ⊢
        have : 4 ≤ rest.length := by omega
        match rest, this with
        | a :: b :: c :: d :: tl, _ =>
          have ha := h3 a (by simp); have hb := h3 b (by simp)
          have hc := h3 c (by simp); have hd := h3 d (by simp)
          have : ∃ by' m, decodeLast a b c d = some (by', m) := by
            simp only [decodeLast, codeAt, ha, hb, hc, hd, if_true, Option.bind_eq_bind,
              Option.bind_some, Option.pure_def]
            exact ⟨_, _, rfl⟩
          obtain ⟨by', m, hm⟩ := this
          simp only [hm]
          exact ⟨_, _, rfl⟩
      · simp only [hlt, decide_false, Bool.false_eq_true, if_false]
        exact ⟨_, _, rfl⟩
    obtain ⟨o, ok, hread⟩ := hread
    rw [hread]
    simp only
    split
    · split <;> simp
    · have := ih (s.length - 4 * (n + 1)) (by omega) (good && ok) (s.drop (4 * (n + 1)))
        (by simp) (fun b h => hb b (List.mem_of_mem_drop h))
      split
      · simp
      · exact this

theorem sextets_lt (l : List Bool) : ∀ v ∈ sextets l, v < 64 := by
  fun_induction sextets l with
  | case1 => simp
  | case2 l h ih =>
    intro v hv
    rcases List.mem_cons.1 hv with rfl | hv
    · have := ofBits_lt (l.take 6 ++ List.replicate (6 - l.length) false)
      have e : (l.take 6 ++ List.replicate (6 - l.length) false).length = 6 := by simp; omega
      rw [e] at this; exact this
    · exact ih v hv

theorem sextets_length (l : List Bool) : (sextets l).length = (l.length + 5) / 6 := by
  fun_induction sextets l with
  | case1 => simp
  | case2 l h ih =>
    have : 0 < l.length := List.length_pos_iff.2 h
    simp only [List.length_cons, ih, List.length_drop]; omega

/-- Re-assembling the sextets gives the bits back, followed by the padding zeros. -/
theorem sextetBits_sextets (l : List Bool) :
    sextetBits (sextets l) = l ++ List.replicate ((6 - l.length % 6) % 6) false := by
  fun_induction sextets l with
  | case1 => rfl
  | case2 l h ih =>
    have hpos : 0 < l.length := List.length_pos_iff.2 h
    have e : (l.take 6 ++ List.replicate (6 - l.length) false).length = 6 := by simp; omega
    have := toBits_ofBits (l.take 6 ++ List.replicate (6 - l.length) false)
    rw [e] at this
    simp only [sextetBits, this, ih]
    by_cases hlt : 6 ≤ l.length
    · rw [show 6 - l.length = 0 by omega]
      simp only [List.replicate_zero, List.append_nil, List.length_drop]
      rw [← List.append_assoc, List.take_append_drop]
      congr 2; omega
    · rw [List.drop_of_length_le (by omega), List.take_of_length_le (by omega)]
      simp only [List.length_nil, Nat.zero_mod, Nat.sub_zero, Nat.mod_self, List.replicate_zero,
        List.append_nil, List.nil_append]
      congr 2; omega

/-- The RFC encoding of a byte string denotes that byte string. -/
theorem rfcEncode_denotes (bs : List Nat) (h : ∀ b ∈ bs, b < 256) : Denotes (rfcEncode bs) bs := by
  have hl := sextets_length (bytesBits bs)
  rw [bytesBits_length] at hl
  have hm : bs.length % 3 = 0 ∨ bs.length % 3 = 1 ∨ bs.length % 3 = 2 := by omega
  refine ⟨sextets (bytesBits bs), (3 - bs.length % 3) % 3, sextets_lt _, by omega, rfl, ?_, ?_, h, ?_⟩
  · unfold rfcEncode; simp only [List.length_append, List.length_map, List.length_replicate]
    rcases hm with hm | hm | hm <;> rw [hm, hl] <;> omega
  · omega
  · rw [sextetBits_sextets, List.take_append_of_le_length (by simp), List.take_of_length_le (by simp)]

theorem rfcEncode_length (bs : List Nat) : (rfcEncode bs).length = 4 * ((bs.length + 2) / 3) := by
  have hl := sextets_length (bytesBits bs)
  rw [bytesBits_length] at hl
  have hm : bs.length % 3 = 0 ∨ bs.length % 3 = 1 ∨ bs.length % 3 = 2 := by omega
  unfold rfcEncode; simp only [List.length_append, List.length_map, List.length_replicate]
  rcases hm with hm | hm | hm <;> rw [hm, hl] <;> omega

theorem rfcEncode_padded (bs : List Nat) : Padded (rfcEncode bs) ↔ bs.length % 3 ≠ 0 := by
  unfold Padded rfcEncode
  rw [List.getLast?_append, List.getLast?_replicate]
  by_cases h : bs.length % 3 = 0
  · simp only [h]
    simp only [Nat.sub_zero, Nat.mod_self, if_true, Option.none_or, ne_eq, not_true, iff_false]
    rw [List.getLast?_map]
    intro hc
    rcases hl : (sextets (bytesBits bs)).getLast? with _ | v
    · rw [hl] at hc; cases hc
    · rw [hl] at hc
      simp only [Option.map_some, Option.some.injEq] at hc
      exact letter_ne_pad v (sextets_lt _ v (List.mem_of_getLast? hl)) hc
  · have : (3 - bs.length % 3) % 3 ≠ 0 := by omega
    rw [if_neg this]
    simp [h]

end Verif.Base64
