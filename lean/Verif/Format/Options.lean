import Verif.Format.Stages

/-!
# The options of a replacement field
-/

namespace Verif.Format

open Verif.Str (CharKind IsCharKind)

/-- What the stages need to know of the characters after each option. -/
structure Sides (k : CharKind) (o : Opts) (r : List Nat) : Prop where
  align : AlignSide o.align (o.tail ++ r)
  sign : SignSide o.sign (flagText 0x23 o.alt ++ (flagText 0x30 o.zero ++ (widthText o.width ++
    (precText o.prec ++ (flagText 0x4c o.loc ++ (typeText o.type ++ r))))))
  alt : FlagSide 0x23 o.alt (flagText 0x30 o.zero ++ (widthText o.width ++
    (precText o.prec ++ (flagText 0x4c o.loc ++ (typeText o.type ++ r)))))
  zero : FlagSide 0x30 o.zero (widthText o.width ++
    (precText o.prec ++ (flagText 0x4c o.loc ++ (typeText o.type ++ r))))
  width : WidthSide k o.width (precText o.prec ++ (flagText 0x4c o.loc ++ (typeText o.type ++ r)))
  prec : PrecSide k o.prec (flagText 0x4c o.loc ++ (typeText o.type ++ r))
  loc : FlagSide 0x4c o.loc (typeText o.type ++ r)
  type : TypeSide o.type r

theorem tail_eq (o : Opts) (r : List Nat) : o.tail ++ r = signChar o.sign ++ (flagText 0x23 o.alt ++
    (flagText 0x30 o.zero ++ (widthText o.width ++ (precText o.prec ++ (flagText 0x4c o.loc ++
    (typeText o.type ++ r)))))) := by
  unfold Opts.tail flagText typeText
  cases o.type <;> simp [List.append_assoc]

/-- The next automatic position after a width or precision. -/
def argNext (next : Nat) : Option Arg → Nat
  | some (.nested ds) => if ds = [] then next + 1 else next
  | _ => next

theorem argCtx_rest (k : CharKind) (ts : List PType) (c : Ctx) (t : Option Arg) (r : List Nat) :
    (argCtx k ts c t r).rest = r := by
  unfold argCtx nestedCtx
  split
  · rw [rangeCheck_rest]; rfl
  · rfl

theorem argCtx_next (k : CharKind) (ts : List PType) (c : Ctx) (t : Option Arg) (r : List Nat) :
    (argCtx k ts c t r).next = argNext c.next t := by
  unfold argCtx nestedCtx argNext
  cases t with
  | none => rfl
  | some a =>
    cases a with
    | number ds => rfl
    | nested ds => simp only; rw [rangeCheck_next]; rfl

theorem argCtx_with (k : CharKind) (ts : List PType) (c : Ctx) (t : Option Arg) (r x : List Nat) :
    argCtx k ts { c with rest := x } t r = argCtx k ts c t r := by
  unfold argCtx
  cases t with
  | none => rfl
  | some a => cases a <;> rfl

theorem argCtx_set (k : CharKind) (ts : List PType) (c : Ctx) (t : Option Arg) (r x : List Nat) :
    { argCtx k ts c t x with rest := r } = argCtx k ts c t r := by
  unfold argCtx nestedCtx rangeCheck
  cases t with
  | none => rfl
  | some a =>
    cases a with
    | number ds => rfl
    | nested ds =>
      simp only
      split <;> rfl

theorem argCtx_twice (k : CharKind) (ts : List PType) (c : Ctx) (t t' : Option Arg) (r x y : List Nat) :
    argCtx k ts (argCtx k ts c t x) t' r = argCtx k ts (argCtx k ts c t y) t' r := by
  rw [← argCtx_set k ts c t x y, argCtx_with]

/-- The request for the options `o`. -/
def optSpec (k : CharKind) (p : Nat) (kd : Kind) (next : Nat) (o : Opts) : FSpec :=
  { position := p
    fill := setFill .none o.align
    align := setAlign .default o.align
    sign := o.sign
    alt := o.alt
    zero := o.zero && decide (setAlign .default o.align = .default)
    width := argNumber k o.width
    widthPos := nestedPos k next o.width
    prec := argNumber k o.prec
    precPos := nestedPos k (argNext next o.width) o.prec
    loc := o.loc
    kind := (o.type.bind typeOf).getD kd
    upper := isUpperType k o.type }

/-- The context after the options. -/
def optCtx (k : CharKind) (ts : List PType) (c : Ctx) (o : Opts) (r : List Nat) : Ctx :=
  argCtx k ts (argCtx k ts c o.width r) o.prec r

theorem parseOptions_eval {k : CharKind} (hk : IsCharKind k) {ts : List PType} {p : Nat} {kd : Kind}
    {c : Ctx} {o : Opts} {r : List Nat} (e : c.rest = o.text ++ r) (h : Sides k o r) :
    parseOptions k ts { position := p, kind := kd } c =
      finishOptions ts (optSpec k p kd c.next o) (optCtx k ts c o r) := by
  unfold parseOptions
  have e1 : c.rest = alignText o.align ++ (o.tail ++ r) := by
    rw [e, Opts.text, List.append_assoc]
  rw [parseFillAlign_eval o.align _ e1 h.align]
  simp only
  rw [parseSign_eval o.sign _ (tail_eq o r) h.sign rfl]
  simp only
  rw [parseAltZero_eval o.alt o.zero _ rfl h.alt h.zero rfl rfl]
  simp only
  rw [parseWidth_eval hk o.width _ rfl h.width rfl rfl]
  simp only
  rw [parsePrecision_eval hk o.prec _ (argCtx_rest _ _ _ _ _) h.prec rfl rfl]
  simp only
  rw [parseLocale_eval o.loc _ (argCtx_rest _ _ _ _ _) h.loc rfl]
  simp only
  rw [parseType_eval o.type r rfl h.type rfl]
  rw [argCtx_next, argCtx_with, argCtx_set, argCtx_twice (y := r)]
  rfl

/-! ## Errors are kept -/

theorem consumeNumber_err (k : CharKind) (c : Ctx) : (c.consumeNumber k).2.err = c.err := by
  unfold Ctx.consumeNumber
  simp only
  split <;> rfl

theorem parseNested_err {k : CharKind} {ts : List PType} {c : Ctx} (h : (parseNested k ts c).2.err = none) :
    c.err = none := by
  obtain ⟨ds, r, e, hd, hr⟩ := split_digits k c.rest
  unfold parseNested at h
  rw [nextPosition_eval e hd hr] at h
  simp only at h
  rw [parameterType_ctx] at h
  simp only at h
  have h2 : (rangeCheck ts (refPos k c.next ds) (afterRef c ds r)).err = none := by
    rw [← consumeIf_err _ 0x7d]
    cases hc : (rangeCheck ts (refPos k c.next ds) (afterRef c ds r)).consumeIf 0x7d with
    | mk b c2 =>
      rw [hc] at h
      cases b
      · cases h
      · exact h
  exact afterRef_err (rangeCheck_none.1 h2).2

theorem parseWidth_err {k : CharKind} {ts : List PType} {s : FSpec} {c : Ctx}
    (h : (parseWidth k ts s c).2.err = none) : c.err = none := by
  unfold parseWidth at h
  rw [← consumeNumber_err k c]
  cases hn : c.consumeNumber k with
  | mk n c1 =>
    rw [hn] at h
    cases n with
    | some w => exact h
    | none =>
      simp only at h ⊢
      rw [← consumeIf_err c1 0x7b]
      cases hc : c1.consumeIf 0x7b with
      | mk b c2 =>
        rw [hc] at h
        cases b with
        | false => exact h
        | true =>
          simp only at h ⊢
          apply parseNested_err (k := k) (ts := ts)
          cases hp : parseNested k ts c2 with
          | mk p c3 =>
            rw [hp] at h
            cases p <;> exact h

theorem parsePrecision_err {k : CharKind} {ts : List PType} {s : FSpec} {c : Ctx}
    (h : (parsePrecision k ts s c).2.err = none) : c.err = none := by
  unfold parsePrecision at h
  rw [← consumeIf_err c 0x2e]
  cases h0 : c.consumeIf 0x2e with
  | mk b0 c0 =>
    rw [h0] at h
    cases b0 with
    | false => exact h
    | true =>
      simp only at h ⊢
      rw [← consumeNumber_err k c0]
      cases hn : c0.consumeNumber k with
      | mk n c1 =>
        rw [hn] at h
        cases n with
        | some w => exact h
        | none =>
          simp only at h ⊢
          rw [← consumeIf_err c1 0x7b]
          cases hc : c1.consumeIf 0x7b with
          | mk b c2 =>
            rw [hc] at h
            cases b with
            | false => cases h
            | true =>
              simp only at h ⊢
              apply parseNested_err (k := k) (ts := ts)
              cases hp : parseNested k ts c2 with
              | mk p c3 =>
                rw [hp] at h
                cases p <;> exact h

theorem parseLocale_err (s : FSpec) (c : Ctx) : (parseLocale s c).2.err = c.err := by
  unfold parseLocale
  rw [← consumeIf_err c 0x4c]
  cases hc : c.consumeIf 0x4c with
  | mk b c2 => cases b <;> rfl

theorem parseType_err (k : CharKind) (s : FSpec) (c : Ctx) : (parseType k s c).2.err = c.err := by
  unfold parseType
  split
  · split <;> rfl
  · rfl

theorem validate_err {ts : List PType} {s : FSpec} {c : Ctx} (h : (validate ts s c).err = none) :
    c.err = none := by
  unfold validate at h
  rw [parameterType_ctx] at h
  simp only at h
  exact (rangeCheck_none.1 (check_err h)).2

theorem finishOptions_err {ts : List PType} {s : FSpec} {c : Ctx}
    (h : (finishOptions ts s c).2.err = none) : c.err = none := by
  unfold finishOptions at h
  split at h
  · rename_i h1; exact validate_err h1
  · exact validate_err h

theorem options_exists {k : CharKind} (hk : IsCharKind k) {ts : List PType} {p : Nat} {kd : Kind}
    {c : Ctx} (h : (parseOptions k ts { position := p, kind := kd } c).2.err = none) :
    ∃ o r, c.rest = o.text ++ r ∧ Sides k o r := by
  obtain ⟨al, r1, e1, h1⟩ := align_exists c.rest
  obtain ⟨sg, r2, e2, h2⟩ := sign_exists r1
  obtain ⟨af, r3, e3, h3⟩ := flag_exists 0x23 r2
  obtain ⟨zr, r4, e4, h4⟩ := flag_exists 0x30 r3
  unfold parseOptions at h
  rw [parseFillAlign_eval al _ e1 h1] at h
  simp only at h
  rw [parseSign_eval sg r2 e2 h2 rfl] at h
  simp only at h
  rw [parseAltZero_eval af zr r4 (by rw [e3, e4]) (by rw [← e4]; exact h3) h4 rfl rfl] at h
  simp only at h
  generalize hs3 : ({
      position := p, fill := setFill none al, align := setAlign .default al, sign := sg
      alt := af, zero := zr && decide (setAlign .default al = .default), kind := kd } : FSpec) = s3 at h
  have hs3a : s3.width = none := by rw [← hs3]
  have hs3b : s3.widthPos = none := by rw [← hs3]
  have hs3c : s3.prec = none := by rw [← hs3]
  have hs3d : s3.precPos = none := by rw [← hs3]
  have hp : (parsePrecision k ts (parseWidth k ts s3 { c with rest := r4 }).1
      (parseWidth k ts s3 { c with rest := r4 }).2).2.err = none := by
    have := finishOptions_err h
    rw [parseType_err, parseLocale_err] at this
    exact this
  obtain ⟨w, r5, e5, h5⟩ := width_exists hk (parsePrecision_err hp)
  rw [parseWidth_eval hk w r5 e5 h5 hs3a hs3b] at hp
  obtain ⟨pr, r6, e6, h6⟩ := prec_exists hk hp
  rw [argCtx_rest] at e6
  obtain ⟨lc, r7, e7, h7⟩ := flag_exists 0x4c r6
  obtain ⟨ty, r8, e8, h8⟩ := type_exists r7
  simp only at e5
  subst e8 e7 e6 e5 e4 e3 e2
  refine ⟨⟨al, sg, af, zr, w, pr, lc, ty⟩, r8, ?_, ?_⟩
  · rw [Opts.text, List.append_assoc, tail_eq]; exact e1
  · exact ⟨by rw [tail_eq]; exact h1, h2, h3, h4, h5, h6, h7, h8⟩

/-! ## The characters of the options -/

theorem typeOf_cases {c : Nat} (h : (typeOf c).isSome = true) : c = 0x63 ∨ c = 0x73 ∨ c = 0x70 ∨ c = 0x62 ∨
    c = 0x42 ∨ c = 0x6f ∨ c = 0x64 ∨ c = 0x78 ∨ c = 0x58 ∨ c = 0x61 ∨ c = 0x41 ∨ c = 0x65 ∨ c = 0x45 ∨
    c = 0x66 ∨ c = 0x46 ∨ c = 0x67 ∨ c = 0x47 := by
  unfold typeOf at h
  repeat' split at h
  all_goals first | omega | cases h

theorem isDigit_cases {k : CharKind} (hk : IsCharKind k) {c : Nat} (h : k.isDigit c = true) :
    (0x30 ≤ c ∧ c ≤ 0x39) ∨ 0x80 ≤ c := by
  by_cases h1 : c < 0x30 ∨ (0x39 < c ∧ c < 0x80)
  · rw [not_digit hk h1] at h; cases h
  · omega

theorem head_type {o : Option Nat} (ho : ∀ t, o = some t → (typeOf t).isSome = true) {r : List Nat} {c : Nat}
    (h : (typeText o ++ 0x7d :: r).head? = some c) : c = 0x7d ∨ (typeOf c).isSome = true := by
  cases o with
  | none => simp [typeText] at h; exact .inl h.symm
  | some t => simp [typeText] at h; subst h; exact .inr (ho _ rfl)

theorem head_flag {ch : Nat} {b : Bool} {r : List Nat} {c : Nat} (h : (flagText ch b ++ r).head? = some c) :
    c = ch ∨ r.head? = some c := by
  cases b
  · exact .inr h
  · simp [flagText] at h; exact .inl h.symm

theorem head_prec {o : Option Arg} {r : List Nat} {c : Nat} (h : (precText o ++ r).head? = some c) :
    c = 0x2e ∨ r.head? = some c := by
  cases o with
  | none => exact .inr h
  | some a => simp [precText] at h; exact .inl h.symm

theorem head_width {k : CharKind} {o : Option Arg} (ho : ∀ a, o = some a → a.Wf k) {r : List Nat} {c : Nat}
    (h : (widthText o ++ r).head? = some c) :
    (c = 0x7b ∧ ∃ ds, o = some (.nested ds)) ∨ (∃ ds, o = some (.number ds) ∧ ds.head? = some c ∧ k.isDigit c = true) ∨
      r.head? = some c := by
  cases o with
  | none => exact .inr (.inr h)
  | some a =>
    cases a with
    | number ds =>
      obtain ⟨h1, h2⟩ := ho _ rfl
      cases ds with
      | nil => exact absurd rfl h1
      | cons d ds =>
        simp [widthText, Arg.text] at h
        subst h
        exact .inr (.inl ⟨_, rfl, rfl, h2 _ (by simp)⟩)
    | nested ds => simp [widthText, Arg.text] at h; exact .inl ⟨h.symm, _, rfl⟩

/-- No character of the options after the alignment is an alignment character. -/
theorem tail_noAlign {k : CharKind} (hk : IsCharKind k) {o : Opts} (w : o.Wf k) :
    ∀ c ∈ o.tail, isAlign c = false := by
  have hd : ∀ c, k.isDigit c = true → isAlign c = false := by
    intro c h
    have := isDigit_cases hk h
    rw [← Bool.not_eq_true, isAlign_iff]; omega
  have ha : ∀ a : Arg, a.Wf k → ∀ c ∈ a.text, isAlign c = false := by
    intro a ha c hc
    cases a with
    | number ds => exact hd c (ha.2 c hc)
    | nested ds =>
      simp only [Arg.text, List.mem_cons, List.mem_append, List.not_mem_nil, or_false] at hc
      rcases hc with rfl | hc | rfl
      · rfl
      · exact hd c (ha c hc)
      · rfl
  intro c hc
  rw [← List.append_nil o.tail, tail_eq] at hc
  simp only [List.mem_append, List.not_mem_nil, or_false] at hc
  rcases hc with hc | hc | hc | hc | hc | hc | hc
  · cases hs : o.sign <;> rw [hs] at hc <;> simp [signChar] at hc <;> subst hc <;> rfl
  · unfold flagText at hc; split at hc <;> simp at hc; subst hc; rfl
  · unfold flagText at hc; split at hc <;> simp at hc; subst hc; rfl
  · cases hw : o.width with
    | none => rw [hw] at hc; cases hc
    | some a => rw [hw] at hc; exact ha a (w.width a hw) c hc
  · cases hw : o.prec with
    | none => rw [hw] at hc; cases hc
    | some a =>
      rw [hw] at hc
      rcases List.mem_cons.1 hc with rfl | hc
      · rfl
      · exact ha a (w.prec a hw) c hc
  · unfold flagText at hc; split at hc <;> simp at hc; subst hc; rfl
  · cases ht : o.type with
    | none => rw [ht] at hc; cases hc
    | some t =>
      rw [ht] at hc
      simp [typeText] at hc
      have := typeOf_cases (typeOf_eq t ▸ w.type t ht)
      subst hc
      rw [← Bool.not_eq_true, isAlign_iff]; omega

/-- What the confusion of `{:}` needs. -/
def OConfused (o : Opts) (following : List Nat) : Prop :=
  o.text = [] ∧ ∃ c, following.head? = some c ∧ (c = 0x3c ∨ c = 0x3e ∨ c = 0x5e)

theorem sides_of_wf {k : CharKind} (hk : IsCharKind k) {o : Opts} {r : List Nat} (w : o.Wf k)
    (hc : ¬ OConfused o r) : Sides k o (0x7d :: r) := by
  have q7 : ∀ c, (typeText o.type ++ 0x7d :: r).head? = some c → c = 0x7d ∨ (typeOf c).isSome = true :=
    fun c h => head_type (fun t ht => typeOf_eq t ▸ w.type t ht) h
  have q6 : ∀ c, (flagText 0x4c o.loc ++ (typeText o.type ++ 0x7d :: r)).head? = some c →
      c = 0x4c ∨ c = 0x7d ∨ (typeOf c).isSome = true := by
    intro c h
    rcases head_flag h with h | h
    · exact .inl h
    · exact .inr (q7 c h)
  have q5 : ∀ c, (precText o.prec ++ (flagText 0x4c o.loc ++ (typeText o.type ++ 0x7d :: r))).head? = some c →
      c = 0x2e ∨ c = 0x4c ∨ c = 0x7d ∨ (typeOf c).isSome = true := by
    intro c h
    rcases head_prec h with h | h
    · exact .inl h
    · exact .inr (q6 c h)
  have q4 : ∀ c, (widthText o.width ++ (precText o.prec ++ (flagText 0x4c o.loc ++
      (typeText o.type ++ 0x7d :: r)))).head? = some c →
      c = 0x7b ∨ (∃ ds, o.width = some (.number ds) ∧ ds.head? = some c ∧ k.isDigit c = true) ∨
      c = 0x2e ∨ c = 0x4c ∨ c = 0x7d ∨ (typeOf c).isSome = true := by
    intro c h
    rcases head_width w.width h with h | h | h
    · exact .inl h.1
    · exact .inr (.inl h)
    · exact .inr (.inr (q5 c h))
  have nd : ∀ c, c = 0x2e ∨ c = 0x4c ∨ c = 0x7d ∨ (typeOf c).isSome = true → k.isDigit c = false := by
    intro c h
    apply not_digit hk
    rcases h with h | h | h | h
    · omega
    · omega
    · omega
    · have := typeOf_cases h; omega
  refine ⟨?_, ?_, ?_, ?_, ?_, ?_, ?_, ?_⟩
  · have na := tail_noAlign hk w
    unfold AlignSide
    cases hal : o.align with
    | none =>
      simp only
      constructor
      · intro a h
        cases ht : o.tail with
        | nil => rw [ht] at h; simp at h; subst h; rfl
        | cons x l => rw [ht] at h; simp at h; subst h; exact na _ (by rw [ht]; simp)
      · intro a h
        cases ht : o.tail with
        | nil =>
          rw [ht] at h
          simp at h
          rw [← Bool.not_eq_true]
          intro hb
          exact hc ⟨by rw [Opts.text, hal, ht]; rfl, a, by rw [List.head?_eq_getElem?]; exact h, isAlign_iff.1 hb⟩
        | cons x l =>
          rw [ht] at h
          cases l with
          | nil => simp at h; subst h; rfl
          | cons y l => simp at h; subst h; exact na _ (by rw [ht]; simp)
    | some fa =>
      obtain ⟨f, a⟩ := fa
      have := w.align _ hal
      cases f with
      | none =>
        refine ⟨this, ?_⟩
        intro a h
        cases ht : o.tail with
        | nil => rw [ht] at h; simp at h; subst h; rfl
        | cons x l => rw [ht] at h; simp at h; subst h; exact na _ (by rw [ht]; simp)
      | some f => exact this
  · unfold SignSide
    split
    · have : ∀ c, c = 0x2b ∨ c = 0x2d ∨ c = 0x20 → ¬ (flagText 0x23 o.alt ++ (flagText 0x30 o.zero ++ (widthText o.width ++
          (precText o.prec ++ (flagText 0x4c o.loc ++ (typeText o.type ++ 0x7d :: r)))))).head? = some c := by
        intro c hc' h
        rcases head_flag h with h | h
        · omega
        rcases head_flag h with h | h
        · omega
        rcases q4 c h with h | ⟨ds, _, _, h⟩ | h
        · omega
        · have := isDigit_cases hk h; omega
        · rcases h with h | h | h | h
          · omega
          · omega
          · omega
          · have := typeOf_cases h; omega
      exact ⟨this _ (.inl rfl), this _ (.inr (.inl rfl)), this _ (.inr (.inr rfl))⟩
    · trivial
  · intro _ h
    rcases head_flag h with h | h
    · omega
    rcases q4 _ h with h | ⟨ds, _, _, h⟩ | h
    · omega
    · have := isDigit_cases hk h; omega
    · rcases h with h | h | h | h
      · omega
      · omega
      · omega
      · have := typeOf_cases h; omega
  · intro hz h
    rcases q4 _ h with h | ⟨ds, h1, h2, _⟩ | h
    · omega
    · exact w.noZero ds hz h1 h2
    · rcases h with h | h | h | h
      · omega
      · omega
      · omega
      · have := typeOf_cases h; omega
  · unfold WidthSide
    split
    · refine ⟨fun c h => nd c (q5 c h), ?_⟩
      intro h
      rcases q5 _ h with h | h | h | h
      · omega
      · omega
      · omega
      · have := typeOf_cases h; omega
    · rename_i ds _ hw
      exact ⟨(w.width _ hw).1, (w.width _ hw).2, fun c h => nd c (q5 c h)⟩
    · rename_i ds _ hw
      exact w.width _ hw
  · unfold PrecSide
    split
    · intro h
      rcases q6 _ h with h | h | h
      · omega
      · omega
      · have := typeOf_cases h; omega
    · rename_i ds _ hw
      exact ⟨(w.prec _ hw).1, (w.prec _ hw).2, fun c h => nd c (.inr (q6 c h))⟩
    · rename_i ds _ hw
      exact w.prec _ hw
  · intro _ h
    rcases q7 _ h with h | h
    · omega
    · have := typeOf_cases h; omega
  · unfold TypeSide
    split
    · intro c h
      simp at h
      subst h; rfl
    · rename_i ht
      rw [typeOf_eq]; exact w.type _ ht

theorem wf_of_sides {k : CharKind} {o : Opts} {r : List Nat} (h : Sides k o (0x7d :: r)) :
    o.Wf k ∧ ¬ OConfused o r := by
  refine ⟨⟨?_, ?_, ?_, ?_, ?_⟩, ?_⟩
  · intro fa e
    have := h.align
    rw [e] at this
    obtain ⟨f, a⟩ := fa
    cases f with
    | none => exact this.1
    | some f => exact this
  · intro a e
    have := h.width
    rw [e] at this
    cases a with
    | number ds => exact ⟨this.1, this.2.1⟩
    | nested ds => exact this
  · intro ds e e' hh
    have := h.zero e
    rw [e'] at this
    apply this
    cases ds with
    | nil => simp at hh
    | cons d ds => simp at hh; subst hh; rfl
  · intro a e
    have := h.prec
    rw [e] at this
    cases a with
    | number ds => exact ⟨this.1, this.2.1⟩
    | nested ds => exact this
  · intro t e
    have := h.type
    rw [e] at this
    exact typeOf_eq t ▸ (show (typeOf t).isSome = true from this)
  · rintro ⟨e, c, hc, hb⟩
    have ha := h.align
    rw [Opts.text] at e
    obtain ⟨e1, e2⟩ := List.append_eq_nil_iff.1 e
    rw [e2] at ha
    cases hal : o.align with
    | none =>
      rw [hal] at ha
      have := ha.2 c (by simpa [List.head?_eq_getElem?] using hc)
      rw [← isAlign_iff, this] at hb; cases hb
    | some fa =>
      rw [hal] at e1 ha
      obtain ⟨f, a⟩ := fa
      cases f with
      | none =>
        have := ha.1
        cases a <;> simp [alignText, alignChar] at e1 this
      | some f => cases e1

end Verif.Format
