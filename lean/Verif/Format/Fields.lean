import Verif.Format.Options

/-!
# Replacement fields
-/

namespace Verif.Format

open Verif.Str (CharKind IsCharKind)

/-- The parameters a run of references stands for, given the next automatic position. -/
def assign (k : CharKind) : Nat → List (List Nat) → List Nat
  | _, [] => []
  | n, d :: ds => refPos k n d :: assign k (if d = [] then n + 1 else n) ds

/-- The context after a run of references. -/
def walk (c : Ctx) : List (List Nat) → List Nat → Ctx
  | [], r => { c with rest := r }
  | d :: ds, r => walk (afterRef c d r) ds r

/-- The next automatic position after a run of references. -/
def advance : Nat → List (List Nat) → Nat
  | n, [] => n
  | n, d :: ds => advance (if d = [] then n + 1 else n) ds

theorem walk_append (c : Ctx) (a b : List (List Nat)) (r x : List Nat) :
    walk (walk c a x) b r = walk c (a ++ b) r := by
  induction a generalizing c x with
  | nil =>
    cases b with
    | nil => rfl
    | cons d b => rfl
  | cons d a ih =>
    show walk (walk (afterRef c d x) a x) b r = walk (afterRef c d r) (a ++ b) r
    rw [ih]
    cases h : a ++ b with
    | nil => rfl
    | cons e l => rfl

theorem walk_rest (c : Ctx) (ds : List (List Nat)) (r : List Nat) : (walk c ds r).rest = r := by
  induction ds generalizing c with
  | nil => rfl
  | cons d ds ih => exact ih _

theorem walk_next (c : Ctx) (ds : List (List Nat)) (r : List Nat) : (walk c ds r).next = advance c.next ds := by
  induction ds generalizing c with
  | nil => rfl
  | cons d ds ih => exact ih _

theorem assign_append (k : CharKind) (n : Nat) (a b : List (List Nat)) :
    assign k n (a ++ b) = assign k n a ++ assign k (advance n a) b := by
  induction a generalizing n with
  | nil => rfl
  | cons d a ih => simp only [List.cons_append, assign, advance, ih]

theorem advance_append (n : Nat) (a b : List (List Nat)) : advance n (a ++ b) = advance (advance n a) b := by
  induction a generalizing n with
  | nil => rfl
  | cons d a ih => simp only [List.cons_append, advance, ih]

theorem walk_err {c : Ctx} {ds : List (List Nat)} {r : List Nat} (h : (walk c ds r).err = none) :
    c.err = none := by
  induction ds generalizing c with
  | nil => exact h
  | cons d ds ih => exact afterRef_err (ih h)

theorem assign_length (k : CharKind) (n : Nat) (ds : List (List Nat)) : (assign k n ds).length = ds.length := by
  induction ds generalizing n with
  | nil => rfl
  | cons d ds ih => simp [assign, ih]

def nestedRefs : Option Arg → List (List Nat)
  | some (.nested ds) => [ds]
  | _ => []

/-- The nested references of the options. -/
def Opts.refs (o : Opts) : List (List Nat) := nestedRefs o.width ++ nestedRefs o.prec

/-- The request for a field. -/
def fieldSpec (k : CharKind) (ts : List PType) (n : Nat) (f : Field) : FSpec :=
  let p := refPos k n f.pos
  { optSpec k p (inferKind ts[p]?) (if f.pos = [] then n + 1 else n) (f.opts.getD {}) with
    size := f.body.length + 1 }

theorem optSpec_default (k : CharKind) (p : Nat) (kd : Kind) (n : Nat) :
    optSpec k p kd n {} = { position := p, kind := kd } := by
  rfl

theorem rangeCheck_eq {ts : List PType} {p : Nat} {t : PType} (h : ts[p]? = some t) (c : Ctx) :
    rangeCheck ts p c = c := by
  unfold rangeCheck; rw [h]; rfl

theorem rangeCheck_idem (ts : List PType) (p : Nat) (c : Ctx) :
    rangeCheck ts p (rangeCheck ts p c) = rangeCheck ts p c := by
  unfold rangeCheck
  split <;> rfl

theorem inferKind_ne {o : Option PType} {t : PType} (h : o = some t) : inferKind o ≠ .none := by
  subst h; cases t <;> simp [inferKind]

theorem inferKind_default {o : Option PType} {t : PType} (h : o = some t) : inferKind o = defaultKind t := by
  subst h; cases t <;> rfl

theorem typeOf_ne {c : Nat} {kd : Kind} (h : typeOf c = some kd) : kd ≠ .none := by
  unfold typeOf at h
  repeat' split at h
  all_goals (cases h; try simp)

theorem optSpec_kind {k : CharKind} {p : Nat} {kd : Kind} {n : Nat} {o : Opts} (h : kd ≠ .none) :
    (optSpec k p kd n o).kind ≠ .none := by
  show (o.type.bind typeOf).getD kd ≠ .none
  cases ht : o.type.bind typeOf with
  | none => exact h
  | some y =>
    cases hc : o.type with
    | none => rw [hc] at ht; cases ht
    | some c => rw [hc] at ht; exact typeOf_ne ht

theorem closeField_eval {s : FSpec} {c : Ctx} {r : List Nat} (e : c.rest = 0x7d :: r) :
    closeField s c = (s, { c with rest := r }) := by
  unfold closeField
  rw [consumeIf_pos e]

theorem closeField_exists {s : FSpec} {c : Ctx} (h : (closeField s c).2.err = none) :
    ∃ r, c.rest = 0x7d :: r := by
  unfold closeField at h
  by_cases hb : c.rest.head? = some 0x7d
  · cases hr : c.rest with
    | nil => rw [hr] at hb; simp at hb
    | cons x r => rw [hr] at hb; simp at hb; subst hb; exact ⟨r, rfl⟩
  · rw [consumeIf_neg hb] at h; cases h

theorem argCtx_none {k : CharKind} {ts : List PType} {c : Ctx} {t : Option Arg} {r : List Nat}
    (h : (argCtx k ts c t r).err = none) :
    argCtx k ts c t r = walk c (nestedRefs t) r := by
  unfold argCtx at h ⊢
  cases t with
  | none => rfl
  | some a =>
    cases a with
    | number ds => rfl
    | nested ds =>
      simp only at h ⊢
      unfold nestedCtx at h ⊢
      obtain ⟨⟨t, ht⟩, _⟩ := rangeCheck_none.1 h
      rw [rangeCheck_eq ht]; rfl

theorem argCtx_err {k : CharKind} {ts : List PType} {c : Ctx} {t : Option Arg} {r : List Nat}
    (h : (argCtx k ts c t r).err = none) : c.err = none := by
  rw [argCtx_none h] at h
  exact walk_err h

theorem optCtx_none {k : CharKind} {ts : List PType} {c : Ctx} {o : Opts} {r : List Nat}
    (h : (optCtx k ts c o r).err = none) : optCtx k ts c o r = walk c o.refs r := by
  unfold optCtx at h ⊢
  rw [argCtx_none h, argCtx_none (argCtx_err h), walk_append]
  rfl

theorem optCtx_of_walk {k : CharKind} {ts : List PType} {c : Ctx} {o : Opts} {r : List Nat}
    (hw : ∀ p, nestedPos k c.next o.width = some p → ∃ t, ts[p]? = some t)
    (hp : ∀ p, nestedPos k (argNext c.next o.width) o.prec = some p → ∃ t, ts[p]? = some t) :
    optCtx k ts c o r = walk c o.refs r := by
  have key : ∀ (c : Ctx) (t : Option Arg), (∀ p, nestedPos k c.next t = some p → ∃ t, ts[p]? = some t) →
      argCtx k ts c t r = walk c (nestedRefs t) r := by
    intro c t h
    unfold argCtx
    cases t with
    | none => rfl
    | some a =>
      cases a with
      | number ds => rfl
      | nested ds =>
        simp only
        unfold nestedCtx
        obtain ⟨t, ht⟩ := h _ rfl
        rw [rangeCheck_eq ht]; rfl
  unfold optCtx
  rw [key _ o.prec (by rw [argCtx_next]; exact hp), key c o.width hw, walk_append]
  rfl

theorem nestedPos_isSome (k : CharKind) (n : Nat) (t : Option Arg) : (nestedPos k n t).isSome = isNested t := by
  cases t with
  | none => rfl
  | some a => cases a <;> rfl

theorem optSpec_means {k : CharKind} (hk : IsCharKind k) {p : Nat} {t : PType} {n : Nat} {o : Opts} (w : o.Wf k) {sz : Nat} :
    OptsMean k t o { optSpec k p (defaultKind t) n o with size := sz } := by
  refine ⟨?_, ?_, rfl, rfl, ?_, rfl, ?_, rfl, ?_, rfl, ?_, ?_⟩
  · show setFill none o.align = _
    cases o.align with
    | none => rfl
    | some fa => obtain ⟨f, a⟩ := fa; cases f <;> rfl
  · show setAlign .default o.align = _
    cases o.align <;> rfl
  · show (o.zero && decide (setAlign .default o.align = .default)) = (o.zero && o.align.isNone)
    cases hal : o.align with
    | none => rfl
    | some fa =>
      have := w.align _ hal
      obtain ⟨f, a⟩ := fa
      simp only [setAlign, Option.isNone_some] at this ⊢
      simp [this]
  · exact nestedPos_isSome _ _ _
  · exact nestedPos_isSome _ _ _
  · show (o.type.bind typeOf).getD _ = _
    cases o.type with
    | none => rfl
    | some c => simp only [Option.bind_some, typeOf_eq]
  · show isUpperType k o.type = _
    cases o.type with
    | none => rfl
    | some c =>
      show k.isUpper c = decide (0x41 ≤ c ∧ c ≤ 0x5a)
      rw [Bool.eq_iff_iff, decide_eq_true_iff]
      exact Verif.Str.inRange_iff hk (by decide)

theorem optSpec_refs (k : CharKind) (p : Nat) (kd : Kind) (n : Nat) (o : Opts) (sz : Nat) :
    FSpec.refs { optSpec k p kd n o with size := sz } = p :: assign k n o.refs := by
  show p :: ((nestedPos k n o.width).toList ++ (nestedPos k (argNext n o.width) o.prec).toList) = _
  unfold Opts.refs
  rw [assign_append]
  cases o.width with
  | none =>
    cases o.prec with
    | none => rfl
    | some b => cases b <;> rfl
  | some a =>
    cases a <;> (cases o.prec with
    | none => rfl
    | some b => cases b <;> rfl)

theorem field_refs (f : Field) : f.refs = f.pos :: (f.opts.getD {}).refs := by
  unfold Field.refs
  cases f.opts with
  | none => rfl
  | some o =>
    simp only [Option.getD_some, Opts.refs, List.cons.injEq, true_and]
    cases o.width with
    | none =>
      cases o.prec with
      | none => rfl
      | some b => cases b <;> rfl
    | some a =>
      cases a <;> (cases o.prec with
      | none => rfl
      | some b => cases b <;> rfl)

theorem fieldSpec_refs (k : CharKind) (ts : List PType) (n : Nat) (f : Field) :
    (fieldSpec k ts n f).refs = assign k n f.refs := by
  unfold fieldSpec
  simp only
  rw [optSpec_refs, field_refs]
  rfl

theorem opts_wf_default (k : CharKind) : Opts.Wf k {} :=
  ⟨by simp, by simp, by simp, by simp, by simp⟩

theorem getD_wf {k : CharKind} {f : Field} (w : f.Wf k) : (f.opts.getD {}).Wf k := by
  cases h : f.opts with
  | none => exact opts_wf_default k
  | some o => exact w.opts o h

/-- The request for a field is determined by its meaning and its parameters. -/
theorem fieldSpec_unique {k : CharKind} (hk : IsCharKind k) {ts : List PType} {n : Nat} {f : Field} {s : FSpec}
    (w : f.Wf k) (h : FieldMeans k ts f s) (hr : s.refs = assign k n f.refs) : s = fieldSpec k ts n f := by
  obtain ⟨t, ht, m, _, hz⟩ := h
  have hp : s.position = refPos k n f.pos := by
    rw [field_refs] at hr
    simp only [FSpec.refs, assign, List.cons.injEq] at hr
    exact hr.1
  rw [hp] at ht
  have m2 : OptsMean k t (f.opts.getD {}) (fieldSpec k ts n f) := by
    have := optSpec_means hk (p := refPos k n f.pos) (t := t) (n := if f.pos = [] then n + 1 else n)
      (getD_wf w) (sz := f.body.length + 1)
    unfold fieldSpec
    simp only
    rw [inferKind_default ht]
    exact this
  have r2 := fieldSpec_refs k ts n f
  rw [← hr] at r2
  have p2 : (fieldSpec k ts n f).position = refPos k n f.pos := rfl
  have z2 : (fieldSpec k ts n f).size = f.body.length + 1 := rfl
  generalize fieldSpec k ts n f = s2 at *
  obtain ⟨a1, a2, a3, a4, a5, a6, a7, a8, a9, a10, a11, a12, a13, a14⟩ := s
  obtain ⟨b1, b2, b3, b4, b5, b6, b7, b8, b9, b10, b11, b12, b13, b14⟩ := s2
  obtain ⟨u1, u2, u3, u4, u5, u6, u7, u8, u9, u10, u11, u12⟩ := m
  obtain ⟨v1, v2, v3, v4, v5, v6, v7, v8, v9, v10, v11, v12⟩ := m2
  simp only at *
  have e8 : a8 = b8 ∧ a10 = b10 := by
    simp only [FSpec.refs, List.cons.injEq] at r2
    have h2 := r2.2
    rw [← v7] at u7
    rw [← v9] at u9
    cases a8 <;> cases b8 <;> cases a10 <;> cases b10 <;> simp_all
  obtain ⟨rfl, rfl⟩ := e8
  subst hp
  simp [u1, v1, u2, v2, u3, v3, u4, v4, u5, v5, u6, v6, u8, v8, u10, v10, u11, v11, u12, v12, p2, z2, hz]

theorem valid_default (ts : List PType) (t : PType) (p sz : Nat) :
    Valid ts t { position := p, kind := defaultKind t, size := sz } := by
  refine ⟨by simp, by simp, by simp, by simp, by simp, by simp, by simp, by simp, by simp, ?_⟩
  cases t <;> simp [defaultKind, kindsFor]

theorem valid_size {ts : List PType} {t : PType} {s : FSpec} {z : Nat} :
    Valid ts t { s with size := z } ↔ Valid ts t s :=
  ⟨fun ⟨a, b, c, d, e, f, g, h, i, j⟩ => ⟨a, b, c, d, e, f, g, h, i, j⟩,
   fun ⟨a, b, c, d, e, f, g, h, i, j⟩ => ⟨a, b, c, d, e, f, g, h, i, j⟩⟩

theorem rangeCheck_set (ts : List PType) (p : Nat) (c : Ctx) (r : List Nat) :
    { rangeCheck ts p c with rest := r } = rangeCheck ts p { c with rest := r } := by
  unfold rangeCheck; split <;> rfl

theorem afterRef_set (c : Ctx) (ds x r : List Nat) : { afterRef c ds x with rest := r } = afterRef c ds r := rfl

theorem finishOptions_none {ts : List PType} {s : FSpec} {c : Ctx} {r : List Nat} (hk : s.kind ≠ .none)
    (e : c.rest = 0x7d :: r) :
    ((finishOptions ts s c).2.err = none ↔ c.err = none ∧ ∃ t, ts[s.position]? = some t ∧ Valid ts t s) ∧
    ((finishOptions ts s c).2.err = none → finishOptions ts s c = (s, { c with rest := r })) := by
  by_cases hv : (validate ts s c).err = none
  · have hs := validate_same hk hv
    have hf : finishOptions ts s c = (s, { c with rest := r }) := by
      unfold finishOptions
      rw [hs] at hv
      rw [if_pos (by rw [hs]; exact hv), hs, closeField_eval e]
    rw [hf]
    refine ⟨?_, fun _ => rfl⟩
    have := validate_none (ts := ts) (s := s) (c := c) hk
    constructor
    · intro _; exact this.1 hv
    · intro h; exact h.1
  · have hf : (finishOptions ts s c).2.err ≠ none := by
      unfold finishOptions
      rw [if_neg hv]; exact hv
    refine ⟨⟨fun h => absurd h hf, fun h => absurd ((validate_none hk).2 h) hv⟩, fun h => absurd h hf⟩

theorem body_head {f : Field} (r : List Nat) :
    ∃ l, f.body ++ r = f.pos ++ l ∧ (f.opts = none → l = 0x7d :: r) ∧
      (∀ o, f.opts = some o → l = 0x3a :: (o.text ++ 0x7d :: r)) := by
  unfold Field.body
  cases f.opts with
  | none => exact ⟨0x7d :: r, by simp, fun _ => rfl, by simp⟩
  | some o => exact ⟨0x3a :: (o.text ++ 0x7d :: r), by simp, by simp, by rintro _ ⟨⟩; rfl⟩

/-- The opening of a field: everything up to the colon or the closing brace. -/
theorem specifier_open {k : CharKind} {ts : List PType} {c : Ctx} {ds l : List Nat}
    (e : c.rest = ds ++ l) (hd : Digits k ds) (hl : NoDigit k l) :
    parseSpecifier k ts c =
      (let p := refPos k c.next ds
       let c1 := rangeCheck ts p (afterRef c ds l)
       let s : FSpec := { position := p, kind := inferKind ts[p]? }
       let q := match c1.consumeIf 0x3a with
         | (true, c) => parseOptions k ts s (rangeCheck ts p c)
         | (false, c) => closeField s c
       ({ q.1 with size := ds.length + l.length + 1 - q.2.rest.length }, q.2)) := by
  unfold parseSpecifier
  rw [nextPosition_eval e hd hl]
  simp only [parameterType_ctx, e, List.length_append]
  rfl

theorem specifier_eval {k : CharKind} (hk : IsCharKind k) {ts : List PType} {c : Ctx} {f : Field} {r : List Nat}
    (w : f.Wf k) (nc : ¬ f.Confused r) (e : c.rest = f.body ++ r) :
    ((parseSpecifier k ts c).2.err = none ↔ (walk c f.refs r).err = none ∧
      ∃ t, ts[refPos k c.next f.pos]? = some t ∧ Valid ts t (fieldSpec k ts c.next f)) ∧
    ((parseSpecifier k ts c).2.err = none →
      parseSpecifier k ts c = (fieldSpec k ts c.next f, walk c f.refs r)) := by
  obtain ⟨l, el, h0, h1⟩ := body_head (f := f) r
  have hl : NoDigit k l := by
    intro x hx
    cases ho : f.opts with
    | none => rw [h0 ho] at hx; simp at hx; subst hx; exact not_digit hk (by omega)
    | some o => rw [h1 o ho] at hx; simp at hx; subst hx; exact not_digit hk (by omega)
  have el2 : f.pos.length + l.length + 1 - r.length = f.body.length + 1 := by
    have := congrArg List.length el
    simp only [List.length_append] at this
    omega
  rw [specifier_open (e.trans el) w.pos hl]
  simp only
  generalize hp : refPos k c.next f.pos = p
  cases ho : f.opts with
  | none =>
    have hll := h0 ho
    have hw : walk c f.refs r = afterRef c f.pos r := by rw [field_refs, ho]; rfl
    have hs : fieldSpec k ts c.next f =
        { position := p, kind := inferKind ts[p]?, size := f.body.length + 1 } := by
      unfold fieldSpec
      simp only [hp, ho, Option.getD_none, optSpec_default]
    rw [consumeIf_neg (by rw [rangeCheck_rest]; show l.head? ≠ _; rw [hll]; simp)]
    simp only
    rw [closeField_eval (r := r) (by rw [rangeCheck_rest]; exact hll), rangeCheck_set, afterRef_set]
    simp only [rangeCheck_rest, afterRef]
    rw [el2, hw, hs]
    constructor
    · rw [rangeCheck_none]
      constructor
      · rintro ⟨⟨t, ht⟩, h⟩
        refine ⟨h, t, ht, ?_⟩
        rw [inferKind_default ht]
        exact valid_default ts t p _
      · rintro ⟨h, t, ht, _⟩
        exact ⟨⟨t, ht⟩, h⟩
    · intro h
      obtain ⟨⟨t, ht⟩, _⟩ := rangeCheck_none.1 h
      rw [rangeCheck_eq ht]
      rfl
  | some o =>
    have hll := h1 o ho
    have wo := w.opts o ho
    have hside := sides_of_wf hk (r := r) wo (by
      rintro ⟨a, b⟩
      exact nc ⟨o, ho, a, b⟩)
    have hw : ∀ x, walk c f.refs r = walk (afterRef c f.pos x) o.refs r := by
      intro x; rw [field_refs, ho]
      show walk (afterRef c f.pos r) o.refs r = _
      cases o.refs <;> rfl
    rw [consumeIf_pos (r := o.text ++ 0x7d :: r) (by rw [rangeCheck_rest]; exact hll)]
    simp only
    rw [rangeCheck_set, afterRef_set, rangeCheck_idem]
    generalize hc1 : rangeCheck ts p (afterRef c f.pos (o.text ++ 0x7d :: r)) = c1
    have hc1r : c1.rest = o.text ++ 0x7d :: r := by rw [← hc1, rangeCheck_rest]; rfl
    have hc1n : c1.next = if f.pos = [] then c.next + 1 else c.next := by
      rw [← hc1, rangeCheck_next]; rfl
    rw [parseOptions_eval hk hc1r hside]
    have hs : fieldSpec k ts c.next f =
        { optSpec k p (inferKind ts[p]?) c1.next o with size := f.body.length + 1 } := by
      unfold fieldSpec
      simp only [hp, ho, Option.getD_some, hc1n]
    have hor : (optCtx k ts c1 o (0x7d :: r)).rest = 0x7d :: r := argCtx_rest _ _ _ _ _
    have hset : { optCtx k ts c1 o (0x7d :: r) with rest := r } = optCtx k ts c1 o r := by
      unfold optCtx
      rw [argCtx_set]
      exact argCtx_twice _ _ _ _ _ _ _ _
    -- the errors
    cases ht : ts[p]? with
    | none =>
      have hne : (finishOptions ts (optSpec k p (inferKind none) c1.next o)
          (optCtx k ts c1 o (0x7d :: r))).2.err ≠ none := by
        intro h
        have h2 := argCtx_err (argCtx_err (finishOptions_err h))
        rw [← hc1] at h2
        obtain ⟨⟨t, h3⟩, _⟩ := rangeCheck_none.1 h2
        rw [ht] at h3; cases h3
      constructor
      · constructor
        · intro h; exact absurd h hne
        · rintro ⟨_, t, h, _⟩; cases h
      · intro h; exact absurd h hne
    | some t =>
      rw [rangeCheck_eq ht] at hc1
      have hkd : (optSpec k p (inferKind (some t)) c1.next o).kind ≠ .none :=
        optSpec_kind (inferKind_ne rfl)
      obtain ⟨g1, g2⟩ := finishOptions_none (ts := ts) hkd hor
      have hs2 : fieldSpec k ts c.next f =
          { optSpec k p (inferKind (some t)) c1.next o with size := f.body.length + 1 } := by
        rw [hs, ht]
      have key : ∀ r', (∃ t', ts[p]? = some t' ∧ Valid ts t' (optSpec k p (inferKind (some t)) c1.next o)) →
          optCtx k ts c1 o r' = walk c1 o.refs r' := by
        rintro r' ⟨t', _, v⟩
        exact optCtx_of_walk (fun q hq => ⟨_, v.widthPos q hq⟩) (fun q hq => ⟨_, v.precPos q hq⟩)
      have herr : ∀ a b, (walk c1 o.refs a).err = (walk c1 o.refs b).err := by
        intro a b
        have : ∀ (c : Ctx) (ds : List (List Nat)) (a b : List Nat), (walk c ds a).err = (walk c ds b).err := by
          intro c ds
          induction ds generalizing c with
          | nil => intro a b; rfl
          | cons d ds ih =>
            intro a b
            show (walk (afterRef c d a) ds a).err = (walk (afterRef c d b) ds b).err
            rw [ih _ a b]
            cases ds <;> rfl
        exact this c1 o.refs a b
      have hiff : (finishOptions ts (optSpec k p (inferKind (some t)) c1.next o)
          (optCtx k ts c1 o (0x7d :: r))).2.err = none ↔ (walk c f.refs r).err = none ∧
          ∃ t', some t = some t' ∧ Valid ts t' (fieldSpec k ts c.next f) := by
        rw [g1, hw (o.text ++ 0x7d :: r), hc1, hs2]
        constructor
        · rintro ⟨h1, t', h2, v⟩
          have e2 := key (0x7d :: r) ⟨t', h2, v⟩
          rw [e2] at h1
          refine ⟨by rw [herr r (0x7d :: r)]; exact h1, t', ?_, valid_size.2 v⟩
          rw [← h2]; exact ht.symm
        · rintro ⟨h1, t', h2, v⟩
          have v' := valid_size.1 v
          have h3 : ts[p]? = some t' := by rw [ht]; exact h2
          refine ⟨by rw [key (0x7d :: r) ⟨t', h3, v'⟩, herr _ r]; exact h1, t', h3, v'⟩
      refine ⟨hiff, ?_⟩
      intro h
      rw [g2 h]
      simp only
      rw [el2, hs2, hset, hw (o.text ++ 0x7d :: r), hc1]
      obtain ⟨_, t', h2, v⟩ := hiff.1 h
      rw [hs2] at v
      rw [key r ⟨t', by rw [ht]; exact h2, valid_size.1 v⟩]

theorem errorIf_rest (c : Ctx) (b : Bool) (m : String) : (c.errorIf b m).rest = c.rest := by
  unfold Ctx.errorIf; split <;> rfl

theorem validate_rest (ts : List PType) (s : FSpec) (c : Ctx) : (validate ts s c).rest = c.rest := by
  have q1 : ∀ (t : Option PType) (c : Ctx), (checkKind t s c).rest = c.rest := by
    intro t c
    unfold checkKind
    split
    · split
      · exact errorIf_rest _ _ _
      · rfl
    · rfl
  have q2 : ∀ (t : Option PType) (c : Ctx), (checkLocale t s c).rest = c.rest :=
    fun t c => errorIf_rest _ _ _
  have q3 : ∀ (t : Option PType) (c : Ctx), (checkPrecision ts t s c).rest = c.rest := by
    intro t c
    unfold checkPrecision
    split
    · split
      · rfl
      · split
        · rw [parameterType_ctx]; simp only [errorIf_rest, rangeCheck_rest]
        · rfl
    · rfl
  have q4 : ∀ (c : Ctx), (checkWidth ts s c).rest = c.rest := by
    intro c
    unfold checkWidth
    split
    · rfl
    · split
      · rw [parameterType_ctx]; simp only [errorIf_rest, rangeCheck_rest]
      · rfl
  have q5 : ∀ (c : Ctx), (checkNumeric s c).rest = c.rest := by
    intro c
    unfold checkNumeric
    simp only [errorIf_rest]
  have q6 : ∀ (c : Ctx), (checkFill s c).rest = c.rest := by
    intro c
    unfold checkFill
    split
    · rfl
    · exact errorIf_rest _ _ _
  unfold validate
  rw [parameterType_ctx]
  simp only [q1, q2, q3, q4, q5, q6, rangeCheck_rest]

/-- An accepted field is one. -/
theorem specifier_exists {k : CharKind} (hk : IsCharKind k) {ts : List PType} {c : Ctx}
    (h : (parseSpecifier k ts c).2.err = none) :
    ∃ (f : Field) (r : List Nat), c.rest = f.body ++ r ∧ f.Wf k ∧ ¬ f.Confused r := by
  obtain ⟨ds, l, e, hd, hl⟩ := split_digits k c.rest
  rw [specifier_open e hd hl] at h
  simp only at h
  generalize refPos k c.next ds = p at h
  generalize hc1 : rangeCheck ts p (afterRef c ds l) = c1 at h
  have hr1 : c1.rest = l := by rw [← hc1, rangeCheck_rest]; rfl
  by_cases hb : c1.rest.head? = some 0x3a
  · obtain ⟨l', hl'⟩ : ∃ l', c1.rest = 0x3a :: l' := by
      cases hr : c1.rest with
      | nil => rw [hr] at hb; simp at hb
      | cons x r => rw [hr] at hb; simp at hb; subst hb; exact ⟨r, rfl⟩
    rw [consumeIf_pos hl'] at h
    simp only at h
    obtain ⟨o, r, e2, hs⟩ := options_exists hk h
    rw [rangeCheck_rest] at e2
    simp only at e2
    rw [parseOptions_eval hk (by rw [rangeCheck_rest]; exact e2) hs] at h
    have hr2 : ∃ r', r = 0x7d :: r' := by
      unfold finishOptions at h
      split at h
      · rename_i hv
        have hv1 := validate_err hv
        obtain ⟨r', e3⟩ := closeField_exists h
        rw [validate_rest] at e3
        exact ⟨r', (argCtx_rest _ _ _ _ _).symm.trans e3⟩
      · rename_i hv; exact absurd h hv
    obtain ⟨r', rfl⟩ := hr2
    obtain ⟨wo, nc⟩ := wf_of_sides hs
    refine ⟨⟨ds, some o⟩, r', ?_, ⟨hd, by rintro _ ⟨⟩; exact wo⟩, ?_⟩
    · rw [e, ← hr1, hl', e2]
      simp [Field.body]
    · rintro ⟨o', ho', hh⟩
      cases ho'
      exact nc hh
  · rw [consumeIf_neg hb] at h
    simp only at h
    obtain ⟨r, er⟩ := closeField_exists h
    refine ⟨⟨ds, none⟩, r, ?_, ⟨hd, by rintro _ ⟨⟩⟩, ?_⟩
    · rw [e, ← hr1, er]; simp [Field.body]
    · rintro ⟨o', ho', _⟩; cases ho'

end Verif.Format
