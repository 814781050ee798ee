import Verif.Unicode.Unescape

/-! # Exactly which strings survive escaping and un-escaping: C17 -/

namespace Verif.Unicode

open Verif.Str (AsciiDigit AsciiHex numeral digitValue)

/-! ## Specification -/

/-- Some backslash of the text is directly followed by a `u` or `U`. -/
def HasLiteralEscape (cps : List Nat) : Prop :=
  ∃ a p b, cps = a ++ 0x5c :: p :: b ∧ (p = 0x75 ∨ p = 0x55)

/-! ## Proof -/

theorem noLiteral_iff : ∀ cps : List Nat, NoLiteralEscape cps ↔ ¬ HasLiteralEscape cps := by
  intro cps
  induction cps with
  | nil =>
    refine ⟨fun _ => ?_, fun _ => trivial⟩
    rintro ⟨a, p, b, h, _⟩
    cases a <;> cases h
  | cons c cs ih =>
    cases cs with
    | nil =>
      refine ⟨fun _ => ?_, fun _ => trivial⟩
      rintro ⟨a, p, b, h, _⟩
      rcases a with _ | ⟨_, _ | ⟨_, _⟩⟩ <;> simp at h
    | cons d cs =>
      constructor
      · rintro ⟨h1, h2⟩ ⟨a, p, b, h, hp⟩
        cases a with
        | nil =>
          simp only [List.nil_append, List.cons.injEq] at h
          exact h1 ⟨h.1, by rw [h.2.1]; exact hp⟩
        | cons x a =>
          simp only [List.cons_append, List.cons.injEq] at h
          exact ih.1 h2 ⟨a, p, b, h.2, hp⟩
      · intro h
        refine ⟨fun hh => h ⟨[], d, cs, by rw [hh.1]; rfl, hh.2⟩, ih.2 ?_⟩
        rintro ⟨a, p, b, e, hp⟩
        exact h ⟨c :: a, p, b, by rw [e]; rfl, hp⟩

theorem escape_plain (short : Bool) {c : Nat} (h : ¬ Escaped c) : escape short c = [c] := by
  unfold escape; rw [if_neg (by unfold Escaped at h; exact h)]

/-- The first unit of the escaped text tells the first code point, unless it is a backslash. -/
theorem escape_head (short : Bool) {cps : List Nat} {p : Nat} {r : List Nat}
    (h : cps.flatMap (escape short) = p :: r) (hp : p ≠ 0x5c) :
    ∃ cs, cps = p :: cs ∧ r = cs.flatMap (escape short) ∧ ¬ Escaped p := by
  cases cps with
  | nil => cases h
  | cons c cs =>
    rw [List.flatMap_cons] at h
    by_cases hc : Escaped c
    · obtain ⟨q, tl, e, _⟩ := escape_shape short c hc
      rw [e] at h
      simp only [List.cons_append, List.cons.injEq, backslash] at h
      exact absurd h.1.symm hp
    · rw [escape_plain short hc] at h
      simp only [List.cons_append, List.nil_append, List.cons.injEq] at h
      exact ⟨cs, by rw [h.1], h.2.symm, by rw [← h.1]; exact hc⟩

theorem escape_hex (short : Bool) : ∀ (h : List Nat) (cps rest : List Nat), (∀ d ∈ h, AsciiHex d) →
    cps.flatMap (escape short) = h ++ rest → ∃ cs, cps = h ++ cs ∧ rest = cs.flatMap (escape short) := by
  intro h
  induction h with
  | nil => intro cps rest _ e; exact ⟨cps, rfl, e.symm⟩
  | cons d h ih =>
    intro cps rest hh e
    have hd := hh d List.mem_cons_self
    obtain ⟨cs, rfl, e2, _⟩ := escape_head short (r := h ++ rest) e (by
      unfold AsciiHex AsciiDigit at hd; omega)
    obtain ⟨cs', rfl, e3⟩ := ih cs rest (fun x hx => hh x (List.mem_cons_of_mem _ hx)) e2.symm
    exact ⟨cs', rfl, e3⟩

theorem hex_form (e : Enc) : ∀ (h : List Nat), (∀ d ∈ h, AsciiHex d) → h.flatMap (formOf e) = h := by
  intro h
  induction h with
  | nil => intro _; rfl
  | cons d h ih =>
    intro hh
    have hd := hh d List.mem_cons_self
    rw [List.flatMap_cons, formOf_ascii e (by unfold AsciiHex AsciiDigit at hd; omega),
      ih (fun x hx => hh x (List.mem_cons_of_mem _ hx))]
    rfl

theorem form_length (e : Enc) (c : Nat) : (formOf e c).length ≤ 4 := by
  cases e <;> simp only [formOf]
  · unfold utf8Of; repeat' split
    all_goals simp
  · unfold utf16Of; split <;> simp
  · simp

theorem lower_numeral {k : Nat} {h l : List Nat} {v : Nat} {r r' : List Nat} (h1 : LowerHexRun k h v)
    (h2 : l.length = k) (e : h ++ r = l ++ r') : h = l :=
  (List.append_inj e (by rw [h1.1, h2])).1

/-- An escaped code point does not start with the `\u` escape of a low surrogate. -/
theorem escape_not_low (short : Bool) {c : Nat} (hs : Scalar c) (hc : Escaped c) {l r r' : List Nat} {lo : Nat}
    (hl : HexRun 4 l lo) (h1 : 0xdc00 ≤ lo) (h2 : lo ≤ 0xdfff)
    (e : escape short c ++ r = 0x5c :: 0x75 :: (l ++ r')) : False := by
  unfold Escaped at hc
  unfold Scalar at hs
  rcases escape_format short c (by unfold Scalar; exact hs) with ⟨a, b, _⟩ | ⟨_, _, h, hh, f⟩ | ⟨_, _, h, hh, f⟩ |
      ⟨a, _, hi, lo', h, l', f1, hh, hl', f⟩
  · omega
  · rw [f] at e
    simp only [List.cons_append, List.cons.injEq, true_and] at e
    cases lower_numeral hh hl.1 e
    have : c = lo := by rw [← hh.2.2, ← hl.2.2]
    omega
  · rw [f] at e
    simp only [List.cons_append, List.cons.injEq] at e
    exact absurd e.2.1 (by decide)
  · rw [f] at e
    simp only [List.cons_append, List.cons.injEq, true_and, List.append_assoc] at e
    cases lower_numeral hh hl.1 e
    have e1 : hi = lo := by rw [← hh.2.2, ← hl.2.2]
    unfold utf16Of at f1
    rw [if_neg (by omega)] at f1
    simp only [List.cons.injEq] at f1
    omega

/-- Un-escaping the escaped form never gives a longer string, and a shorter one if a literal backslash was
followed by a literal `u` or `U`. -/
theorem unescape_shrinks (e : Enc) (short : Bool) : ∀ (n : Nat) (cps : List Nat), cps.length = n →
    (∀ c ∈ cps, Scalar c) → ∀ o, unescapeAll e (cps.flatMap (escape short)) = some o →
    o.length ≤ (cps.flatMap (formOf e)).length ∧
    (HasLiteralEscape cps → o.length < (cps.flatMap (formOf e)).length) := by
  intro n
  induction n using Nat.strongRecOn with
  | _ n ih =>
  intro cps hn hs o ho
  cases cps with
  | nil =>
    simp only [List.flatMap_nil] at ho
    rw [unescapeAll] at ho
    cases ho
    refine ⟨Nat.le_refl _, ?_⟩
    rintro ⟨a, p, b, h, _⟩
    cases a <;> cases h
  | cons c cs =>
    have hc := hs c List.mem_cons_self
    have hcs : ∀ x ∈ cs, Scalar x := fun x hx => hs x (List.mem_cons_of_mem _ hx)
    simp only [List.length_cons] at hn
    rw [List.flatMap_cons] at ho
    rw [List.flatMap_cons, List.length_append]
    by_cases he : Escaped c
    · have hu := unescape_escape e short hc he (cs.flatMap (escape short))
      obtain ⟨t, c', ht, e1, e2⟩ := (unescape_codepoint_iff e _ _ _).1 hu
      rw [e1, unescapeAll_esc e ht, ← e2] at ho
      cases hr : unescapeAll e (cs.flatMap (escape short)) with
      | none => rw [hr] at ho; cases ho
      | some o' =>
        rw [hr] at ho
        simp only [Option.map_some, Option.some.injEq] at ho
        obtain ⟨i1, i2⟩ := ih cs.length (by omega) cs rfl hcs o' hr
        rw [← ho, List.length_append]
        refine ⟨by omega, ?_⟩
        rintro ⟨a, p, b, h, hp⟩
        cases a with
        | nil =>
          simp only [List.nil_append, List.cons.injEq] at h
          rw [h.1] at he
          exact absurd he (by decide)
        | cons x a =>
          simp only [List.cons_append, List.cons.injEq] at h
          have := i2 ⟨a, p, b, h.2, hp⟩
          omega
    · have hf : formOf e c = [c] := formOf_ascii e (by unfold Escaped at he; omega)
      rw [hf]
      rw [escape_plain short he, List.cons_append, List.nil_append] at ho
      by_cases hst : StartsEscape (c :: cs.flatMap (escape short))
      · have hpos := hst
        obtain ⟨p, r, e1, hp⟩ := hst
        simp only [List.cons.injEq] at e1
        obtain ⟨cs2, rfl, e3, _⟩ := escape_head short e1.2 (by omega)
        have hfp : formOf e p = [p] := formOf_ascii e (by omega)
        rw [e1.2, e1.1] at ho
        rw [List.flatMap_cons, hfp, List.length_append]
        simp only [List.length_cons, List.length_nil] at hn ⊢
        have hU := (unescape_all_iff e _ _).1 ho
        generalize hx : 0x5c :: p :: r = x at hU
        have key : ∀ (cs3 o' : List Nat), cs3.length < n → (∀ y ∈ cs3, Scalar y) →
            unescapeAll e (cs3.flatMap (escape short)) = some o' →
            o'.length ≤ (cs3.flatMap (formOf e)).length :=
          fun cs3 o' h1 h2 h3 => (ih _ h1 cs3 rfl h2 o' h3).1
        cases hU with
        | nil => cases hx
        | plain hn' _ => rw [← hx] at hn'; exact absurd ⟨p, r, rfl, hp⟩ hn'
        | @esc t c' s o' ht hr =>
          have hr' := (unescape_all_iff e _ _).2 hr
          have hf4 := form_length e c'
          rw [List.length_append]
          suffices hlt : (formOf e c').length + o'.length < 2 + (cs2.flatMap (formOf e)).length by
            exact ⟨by omega, fun _ => by omega⟩
          cases ht with
          | @short h c' hh hsc =>
            simp only [List.cons_append, List.cons.injEq, true_and] at hx
            obtain ⟨cs3, rfl, e4⟩ := escape_hex short h cs2 s hh.2.1 (by rw [← e3, hx.2])
            rw [e4] at hr'
            have := key cs3 o' (by simp at hn; omega) (fun y hy => hcs y (by simp [hy])) hr'
            rw [List.flatMap_append, hex_form e h hh.2.1, List.length_append, hh.1]
            omega
          | @long h c' hh hsc =>
            simp only [List.cons_append, List.cons.injEq, true_and] at hx
            obtain ⟨cs3, rfl, e4⟩ := escape_hex short h cs2 s hh.2.1 (by rw [← e3, hx.2])
            rw [e4] at hr'
            have := key cs3 o' (by simp at hn; omega) (fun y hy => hcs y (by simp [hy])) hr'
            rw [List.flatMap_append, hex_form e h hh.2.1, List.length_append, hh.1]
            omega
          | @pair h hi l lo hh a1 a2 hl b1 b2 =>
            simp only [List.cons_append, List.cons.injEq, true_and, List.append_assoc] at hx
            obtain ⟨cs3, rfl, e4⟩ := escape_hex short h cs2 _ hh.2.1 (by rw [← e3, hx.2])
            have hsc3 : ∀ y ∈ cs3, Scalar y := fun y hy => hcs y (by simp [hy])
            cases cs3 with
            | nil => cases e4
            | cons d cs4 =>
              rw [List.flatMap_cons] at e4
              by_cases hd : Escaped d
              · exact (escape_not_low short (hsc3 d List.mem_cons_self) hd hl b1 b2 e4.symm).elim
              · rw [escape_plain short hd] at e4
                simp only [List.cons_append, List.nil_append, List.cons.injEq] at e4
                obtain ⟨cs5, rfl, e5, _⟩ := escape_head short e4.2.symm (by decide)
                obtain ⟨cs6, rfl, e6⟩ := escape_hex short l cs5 s hl.2.1 e5.symm
                rw [e6] at hr'
                have := key cs6 o' (by simp at hn; omega) (fun y hy => hsc3 y (by simp [hy])) hr'
                rw [List.flatMap_append, hex_form e h hh.2.1, List.length_append, hh.1, List.flatMap_cons,
                  List.flatMap_cons, List.flatMap_append, hex_form e l hl.2.1]
                simp only [List.length_append, hl.1]
                omega
      · rw [unescapeAll_plain e hst] at ho
        cases hr : unescapeAll e (cs.flatMap (escape short)) with
        | none => rw [hr] at ho; cases ho
        | some o' =>
          rw [hr] at ho
          simp only [Option.map_some, Option.some.injEq] at ho
          obtain ⟨i1, i2⟩ := ih cs.length (by omega) cs rfl hcs o' hr
          rw [← ho]
          simp only [List.length_cons, List.length_nil]
          refine ⟨by omega, ?_⟩
          rintro ⟨a, p, b, h, hp⟩
          cases a with
          | nil =>
            simp only [List.nil_append, List.cons.injEq] at h
            refine absurd ⟨p, b.flatMap (escape short), ?_, hp⟩ hst
            rw [h.1, h.2, List.flatMap_cons, escape_plain short (by unfold Escaped; omega)]
            rfl
          | cons x a =>
            simp only [List.cons_append, List.cons.injEq] at h
            have := i2 ⟨a, p, b, h.2, hp⟩
            omega

/-- C17, exactly: a valid string is restored by un-escaping its escaped form exactly when no literal backslash in
it is directly followed by a literal `u` or `U`. -/
theorem escape_all_inverse_iff (e : Enc) (short : Bool) (s : List Nat)
    (hs : ∀ u ∈ s, u < unitBound e) (cps : List Nat) (hc : ∀ c ∈ cps, Scalar c)
    (heq : s = cps.flatMap (formOf e)) :
    (∃ t, escapeAll e short s = some t ∧ unescapeAll e t = some s) ↔ ¬ HasLiteralEscape cps := by
  constructor
  · rintro ⟨t, h1, h2⟩ hl
    rw [escapeAll_eq _ _ _ s rfl, (decodeAll_iff e _ s rfl hs cps).2 ⟨hc, heq⟩] at h1
    simp only [Option.map_some, Option.some.injEq] at h1
    rw [← h1] at h2
    have := (unescape_shrinks e short _ cps rfl hc s h2).2 hl
    rw [← heq] at this
    omega
  · intro h
    exact escape_all_inverse_partial e short s hs cps hc heq ((noLiteral_iff cps).2 h)

/-- `é\u` does not survive, `\nu` does. -/
example : HasLiteralEscape [0xe9, 0x5c, 0x75] ∧ ¬ HasLiteralEscape [0x5c, 0x6e, 0x75] := by
  refine ⟨⟨[0xe9], 0x75, [], rfl, .inl rfl⟩, ?_⟩
  rw [← noLiteral_iff]
  exact ⟨by decide, by decide, trivial⟩

end Verif.Unicode
