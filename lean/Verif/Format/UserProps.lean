import Verif.Format.User

/-!
# User-defined types are shown as their formatter says: C112
-/

namespace Verif.Format

open Verif.Str (CharKind IsCharKind)

/-! ## Specification -/

/-- The standard value a user-defined parameter stands for: the text its formatter writes, or the value it hands
to the standard formatter it derives from. -/
def UParam.shown : UParam → Param
  | .std p => p
  | .plain t => .str t
  | .parsing _ _ => .str []
  | .derived b => b

/-- Strings and pointers need no presentation type to be shown right. -/
def NeedsNoType (t : PType) : Prop := t = .string ∨ t = .pointer

/-- What the library gets right. A field of a type with a plain formatter has no options. A field of a type
derived from a standard formatter: without options it is not followed by an alignment character, with
options it refers to the first parameter; and it names a presentation type unless strings or pointers are
shown. Widths and precisions refer to standard parameters. -/
structure SafeField (us : List UParam) (f : Field) (s : FSpec) (following : List Nat) : Prop where
  plain : ∀ t, us[s.position]? = some (.plain t) → (f.opts = none ∨ f.opts = some {}) ∧ t.length < 2 ^ 64
  parsing : ∀ p t, us[s.position]? ≠ some (.parsing p t)
  bare : ∀ b, us[s.position]? = some (.derived b) → f.opts = none →
    NeedsNoType b.type ∧ ∀ c, following.head? = some c → c ≠ 0x3c ∧ c ≠ 0x3e ∧ c ≠ 0x5e
  options : ∀ b o, us[s.position]? = some (.derived b) → f.opts = some o →
    s.position = 0 ∧ (NeedsNoType b.type ∨ o.type.isSome = true)
  widths : ∀ p ∈ s.widthPos.toList ++ s.precPos.toList, ∃ q, us[p]? = some (.std q)

/-- Every field is one that the library gets right. -/
inductive SafeFields (us : List UParam) : List Seg → List FSpec → Prop
  | nil : SafeFields us [] []
  | chr {c segs ss} : SafeFields us segs ss → SafeFields us (.chr c :: segs) ss
  | lbrace {segs ss} : SafeFields us segs ss → SafeFields us (.lbrace :: segs) ss
  | rbrace {segs ss} : SafeFields us segs ss → SafeFields us (.rbrace :: segs) ss
  | field {f s segs ss} : SafeField us f s (render segs) → SafeFields us segs ss →
      SafeFields us (.field f :: segs) (s :: ss)

/-! ## Proofs -/

/-- The parameters as the user sees them. -/
def shownAll (us : List UParam) : List Param := us.map UParam.shown

theorem resolve_congr {us : List UParam} {p : Nat} (h : ∃ q, us[p]? = some (.std q)) :
    resolve (erased us) p = resolve (shownAll us) p := by
  obtain ⟨q, h⟩ := h
  unfold resolve erased shownAll
  rw [List.getElem?_map, List.getElem?_map, h]
  rfl

theorem widthOf_congr {us : List UParam} {s : FSpec} (h : ∀ p ∈ s.widthPos.toList, ∃ q, us[p]? = some (.std q))
    (d : Nat) : s.widthOf (erased us) d = s.widthOf (shownAll us) d := by
  unfold FSpec.widthOf
  cases hw : s.widthPos with
  | none => rfl
  | some p => simp only; rw [resolve_congr (h p (by rw [hw]; simp))]

theorem precisionOf_congr {us : List UParam} {s : FSpec} (h : ∀ p ∈ s.precPos.toList, ∃ q, us[p]? = some (.std q))
    (d : Nat) : s.precisionOf (erased us) d = s.precisionOf (shownAll us) d := by
  unfold FSpec.precisionOf
  cases hw : s.precPos with
  | none => rfl
  | some p => simp only; rw [resolve_congr (h p (by rw [hw]; simp))]

/-- The text of a parameter depends on the other parameters through the width and the precision only. -/
theorem formatParam_congr {mc : Nat} {s : FSpec} {ps ps' : List Param}
    (hw : ∀ d, s.widthOf ps d = s.widthOf ps' d) (hp : ∀ d, s.precisionOf ps d = s.precisionOf ps' d) (p : Param) :
    formatParam mc s ps p = formatParam mc s ps' p := by
  have hu : ∀ (s' : FSpec) v n, (∀ d, s'.widthOf ps d = s'.widthOf ps' d) →
      formatUnsigned mc s' ps v n = formatUnsigned mc s' ps' v n := by
    intro s' v n h
    unfold formatUnsigned formatAsCharacter
    rw [h 0]
  have hs : ∀ ap v, formatStringWith ap s ps v = formatStringWith ap s ps' v := by
    intro ap v
    unfold formatStringWith
    rw [hw 0, hp (2 ^ 64 - 1)]
  cases p with
  | int c sg bits repr =>
    show formatInteger mc s ps sg bits repr = formatInteger mc s ps' sg bits repr
    unfold formatInteger
    simp only [hu s _ _ hw]
  | str u => exact hs _ _
  | foreign a b u =>
    show formatForeign a b s ps u = formatForeign a b s ps' u
    unfold formatForeign
    exact hs _ _
  | ptr a => exact hu { s with alt := true, kind := .hex } a false hw
  | float v =>
    show formatFloat s ps v = formatFloat s ps' v
    unfold formatFloat
    rw [hw 0, hp 6]
  | bool b =>
    show (if _ then formatString s ps _ else _) = (if _ then formatString s ps' _ else _)
    unfold formatString
    rw [hs, hu s _ _ hw]

/-- Strings and pointers do not look at the presentation type. -/
theorem formatParam_noType {mc : Nat} {s : FSpec} {ps : List Param} {b : Param} (h : NeedsNoType b.type) (kd : Kind)
    (p z : Nat) : formatParam mc { s with kind := kd, position := p, size := z } ps b = formatParam mc s ps b := by
  cases b with
  | int c sg bits repr => cases c <;> simp [NeedsNoType, Param.type] at h
  | float v => simp [NeedsNoType, Param.type] at h
  | bool b => simp [NeedsNoType, Param.type] at h
  | str u => rfl
  | foreign a b u => rfl
  | ptr a => rfl

theorem formatParam_size {mc : Nat} {s : FSpec} {ps : List Param} (b : Param) (z : Nat) :
    formatParam mc { s with size := z } ps b = formatParam mc s ps b := by
  cases b <;> rfl

theorem typesOf_get (us : List UParam) (p : Nat) : (typesOf us)[p]? = us[p]?.map (fun u => u.erase.type) :=
  List.getElem?_map

theorem shown_get (us : List UParam) (p : Nat) :
    ((shownAll us).map Param.type)[p]? = us[p]?.map (fun u => u.shown.type) := by
  unfold shownAll
  rw [List.map_map, List.getElem?_map]
  rfl

theorem parseOptionsAs_eval {k : CharKind} (hk : IsCharKind k) {ts : List PType} {t : PType} {p : Nat} {kd : Kind}
    {c : Ctx} {o : Opts} {r : List Nat} (e : c.rest = o.text ++ r) (h : Sides k o r) :
    parseOptionsAs k ts t { position := p, kind := kd } c =
      finishOptionsAs ts t (optSpec k p kd c.next o) (optCtx k ts c o r) := by
  unfold parseOptionsAs
  have e1 : c.rest = alignText o.align ++ (o.tail ++ r) := by
    rw [e, Opts.text, List.append_assoc]
  rw [parseFillAlign_eval o.align _ e1 h.align]
  simp only
  rw [parseSign_eval o.sign _ (tail_eq o r) h.sign rfl]
  simp only
  rw [parseAltZero_eval o.alt o.zero _ rfl h.alt h.zero rfl rfl]
  simp only
  rw [parseWidth_eval hk o.width _ rfl h.width rfl rfl]
  simp only
  rw [parsePrecision_eval hk o.prec _ (argCtx_rest _ _ _ _ _) h.prec rfl rfl]
  simp only
  rw [parseLocale_eval o.loc _ (argCtx_rest _ _ _ _ _) h.loc rfl]
  simp only
  rw [parseType_eval o.type r rfl h.type rfl]
  rw [argCtx_next, argCtx_with, argCtx_set, argCtx_twice (y := r)]
  rfl

theorem finishOptionsAs_fst (ts : List PType) (t : PType) (s : FSpec) (c : Ctx) : (finishOptionsAs ts t s c).1 = s := by
  unfold finishOptionsAs closeField
  split
  · rcases hb : Ctx.consumeIf _ 0x7d with ⟨b, c'⟩
    cases b <;> rfl
  · rfl

/-- A request that is valid, or lacks a presentation type that strings and pointers do not need, passes. -/
theorem validateAs_same {ts : List PType} {t : PType} {s : FSpec} {c : Ctx} (kd : Kind) (v : Valid ts t { s with kind := kd })
    (h : s.kind = kd ∨ (s.kind = .none ∧ NeedsNoType t)) : validateAs ts t s c = c := by
  obtain ⟨v1, v2, v3, v4, v5, v6, v7, v8, v9, v10⟩ := v
  simp only at v1 v2 v3 v4 v5 v6 v7 v8 v9 v10
  have hn : s.kind = .none → NeedsNoType t → s.sign = .default ∧ s.alt = false ∧ s.zero = false := by
    intro _ hnt
    have hkd : kd ∉ numericKinds := by
      rcases hnt with rfl | rfl <;> (simp [kindsFor] at v10; subst v10; decide)
    refine ⟨?_, ?_, ?_⟩
    · cases hs : s.sign <;> first | rfl | exact absurd (v2 (by rw [hs]; simp)) hkd
    · cases ha : s.alt with
      | false => rfl
      | true => exact absurd (v3 ha).1 hkd
    · cases ha : s.zero with
      | false => rfl
      | true => exact absurd (v4 ha) hkd
  have s1 : checkFill s c = c := by
    unfold checkFill
    rw [if_neg (by
      rintro (h | h)
      · exact (v1 _ h).1 rfl
      · exact (v1 _ h).2.1 rfl)]
    cases hf : s.fill with
    | none => rfl
    | some f =>
      have := (v1 f hf).2.2
      have : decide (f ≥ 0x80) = false := by simp; omega
      simp [Ctx.errorIf, this]
  have s2 : checkNumeric s c = c := by
    have e1 : (s.sign != .default && !isNumeric s.kind) = false := by
      rcases h with h | ⟨h, hnt⟩
      · cases hs : s.sign with
        | default => rfl
        | _ => rw [isNumeric_iff.2 (h ▸ v2 (by rw [hs]; simp))]; rfl
      · rw [(hn h hnt).1]; rfl
    have e2 : (s.alt && (!isNumeric s.kind || s.kind == .decimal)) = false := by
      rcases h with h | ⟨h, hnt⟩
      · cases ha : s.alt with
        | false => rfl
        | true =>
          have := v3 ha
          rw [isNumeric_iff.2 (h ▸ this.1)]
          have : s.kind ≠ .decimal := h ▸ this.2
          simp [this]
      · rw [(hn h hnt).2.1]; rfl
    have e3 : (s.zero && !isNumeric s.kind) = false := by
      rcases h with h | ⟨h, hnt⟩
      · cases ha : s.zero with
        | false => rfl
        | true => rw [isNumeric_iff.2 (h ▸ v4 ha)]; rfl
      · rw [(hn h hnt).2.2]; rfl
    unfold checkNumeric
    rw [e1, e2, e3]
    rfl
  have s3 : checkWidth ts s c = c := by
    unfold checkWidth
    rw [if_neg v5]
    cases hw : s.widthPos with
    | none => rfl
    | some p =>
      simp only [parameterType_ctx, v6 p hw]
      rw [rangeCheck_eq (v6 p hw)]
      rfl
  have s4 : checkPrecision ts (some t) s c = c := by
    unfold checkPrecision
    split
    · rename_i hp
      simp only [Bool.or_eq_true] at hp
      have := v7 hp
      rw [if_neg (by rintro ⟨a, b⟩; rcases this with rfl | rfl <;> simp at a b)]
      cases hw : s.precPos with
      | none => rfl
      | some p =>
        simp only [parameterType_ctx, v8 p hw]
        rw [rangeCheck_eq (v8 p hw)]
        rfl
    · rfl
  have s5 : checkLocale (some t) s c = c := by
    unfold checkLocale
    cases hl : s.loc with
    | false => rfl
    | true => rcases v9 hl with rfl | rfl | rfl <;> rfl
  have s6 : checkKind (some t) s c = c := by
    unfold checkKind
    simp only
    split
    · rename_i hne
      rcases h with h | ⟨h, _⟩
      · rw [kindAllowed_iff.2 (h ▸ v10)]; rfl
      · exact absurd h hne
    · rfl
  unfold validateAs
  rw [s1, s2, s3, s4, s5, s6]

theorem finishOptionsAs_same {ts : List PType} {t : PType} {s : FSpec} {c : Ctx} {r : List Nat} (kd : Kind)
    (v : Valid ts t { s with kind := kd }) (h : s.kind = kd ∨ (s.kind = .none ∧ NeedsNoType t))
    (he : c.err = none) (hr : c.rest = 0x7d :: r) : finishOptionsAs ts t s c = (s, { c with rest := r }) := by
  unfold finishOptionsAs
  rw [validateAs_same kd v h, if_pos he, closeField_eval hr]

/-- What the parameter types are does not matter for a request whose nested fields refer to standard ones. -/
theorem valid_types {us : List UParam} {t : PType} {s : FSpec}
    (hs : ∀ p ∈ s.widthPos.toList ++ s.precPos.toList, ∃ q, us[p]? = some (.std q))
    (v : Valid ((shownAll us).map Param.type) t s) : Valid (typesOf us) t s := by
  have key : ∀ p ∈ s.widthPos.toList ++ s.precPos.toList,
      ((shownAll us).map Param.type)[p]? = some .integral → (typesOf us)[p]? = some .integral := by
    intro p hp h
    obtain ⟨q, hq⟩ := hs p hp
    rw [shown_get, hq] at h
    rw [typesOf_get, hq]
    exact h
  exact ⟨v.fill, v.sign, v.alt, v.zero, v.width,
    fun p hp => key p (by rw [hp]; simp) (v.widthPos p hp), v.prec,
    fun p hp => key p (by rw [hp]; simp) (v.precPos p hp), v.loc, v.kind⟩

/-- The request `q` for a field of user-defined parameters shows what the request `s` shows. -/
structure Same (k : CharKind) (us : List UParam) (s : FSpec) (q : USpec) : Prop where
  size : q.spec.size = s.size
  text : ∀ c, ∃ u, us[q.spec.position]? = some u ∧
    (formatU1 k us q c u).1 = fieldText (maxCharOf k) (shownAll us) s

theorem fieldText_shown {k : CharKind} {us : List UParam} {s : FSpec} {u : UParam} (h : us[s.position]? = some u) :
    fieldText (maxCharOf k) (shownAll us) s = formatParam (maxCharOf k) s (shownAll us) u.shown := by
  unfold fieldText
  have : (shownAll us)[s.position]? = some u.shown := by
    unfold shownAll; rw [List.getElem?_map, h]; rfl
  rw [this]

theorem formatParam_shown {k : CharKind} {us : List UParam} {s : FSpec}
    (hs : ∀ p ∈ s.widthPos.toList ++ s.precPos.toList, ∃ q, us[p]? = some (.std q)) (b : Param) :
    formatParam (maxCharOf k) s (erased us) b = formatParam (maxCharOf k) s (shownAll us) b :=
  formatParam_congr (widthOf_congr (fun p hp => hs p (by simp [hp])))
    (precisionOf_congr (fun p hp => hs p (by simp [hp]))) b

/-- The opening of a field. -/
theorem specifierU_open {k : CharKind} {us : List UParam} {c : Ctx} {ds l : List Nat}
    (e : c.rest = ds ++ l) (hd : Digits k ds) (hl : NoDigit k l) :
    parseSpecifierU k us c =
      (let p := refPos k c.next ds
       let c1 := rangeCheck (typesOf us) p (afterRef c ds l)
       let s : FSpec := { position := p, kind := inferU us[p]? }
       match c1.consumeIf 0x3a with
         | (true, c) =>
           let r := parseBody k us s (rangeCheck (typesOf us) p c)
           (⟨{ r.2.1 with size := ds.length + l.length + 1 - r.2.2.rest.length },
             (rangeCheck (typesOf us) p c).rest, r.1⟩, r.2.2)
         | (false, c) =>
           let r := closeField s c
           (⟨{ r.1 with size := ds.length + l.length + 1 - r.2.rest.length }, c.rest, false⟩, r.2)) := by
  unfold parseSpecifierU
  rw [nextPosition_eval e hd hl]
  simp only [parameterType_ctx, e, List.length_append]
  rcases Ctx.consumeIf _ 0x3a with ⟨b, c'⟩
  cases b <;> rfl

/-- A field for a standard parameter is read as before. -/
theorem specifierU_std {k : CharKind} {us : List UParam} {c : Ctx} {ds l : List Nat}
    (e : c.rest = ds ++ l) (hd : Digits k ds) (hl : NoDigit k l) {p : Param}
    (hp : us[refPos k c.next ds]? = some (.std p)) :
    (parseSpecifierU k us c).1.spec = (parseSpecifier k (typesOf us) c).1 ∧
    (parseSpecifierU k us c).2 = (parseSpecifier k (typesOf us) c).2 := by
  rw [specifierU_open e hd hl, specifier_open e hd hl]
  simp only
  have h1 : inferU us[refPos k c.next ds]? = inferKind (typesOf us)[refPos k c.next ds]? := by
    rw [typesOf_get, hp]; rfl
  rw [h1]
  rcases Ctx.consumeIf _ 0x3a with ⟨b, c'⟩
  cases b with
  | false => exact ⟨rfl, rfl⟩
  | true =>
    simp only
    unfold parseBody
    simp only [hp]
    exact ⟨trivial, trivial⟩

theorem field_same {k : CharKind} (hk : IsCharKind k) {us : List UParam} {c : Ctx} {f : Field} {r : List Nat} {t : PType}
    (w : f.Wf k) (nc : ¬ f.Confused r) (e : c.rest = f.body ++ r) (hw : (walk c f.refs r).err = none)
    (ht : ((shownAll us).map Param.type)[refPos k c.next f.pos]? = some t)
    (v : Valid ((shownAll us).map Param.type) t (fieldSpec k ((shownAll us).map Param.type) c.next f))
    (safe : SafeField us f (fieldSpec k ((shownAll us).map Param.type) c.next f) r) :
    ∃ q, parseSpecifierU k us c = (q, walk c f.refs r) ∧
      Same k us (fieldSpec k ((shownAll us).map Param.type) c.next f) q := by
  obtain ⟨l, el, h0, h1⟩ := body_head (f := f) r
  have hl : NoDigit k l := by
    intro x hx
    cases ho : f.opts with
    | none => rw [h0 ho] at hx; simp at hx; subst hx; exact not_digit hk (by omega)
    | some o => rw [h1 o ho] at hx; simp at hx; subst hx; exact not_digit hk (by omega)
  have el2 : f.pos.length + l.length + 1 - r.length = f.body.length + 1 := by
    have := congrArg List.length el
    simp only [List.length_append] at this
    omega
  have hpos : (fieldSpec k ((shownAll us).map Param.type) c.next f).position = refPos k c.next f.pos := rfl
  have hsz : (fieldSpec k ((shownAll us).map Param.type) c.next f).size = f.body.length + 1 := rfl
  have hv2 := valid_types safe.widths v
  cases hu : us[refPos k c.next f.pos]? with
  | none => rw [shown_get, hu] at ht; cases ht
  | some u =>
    have htu : t = u.shown.type := by
      rw [shown_get, hu] at ht; cases ht; rfl
    have hty : ∃ t', (typesOf us)[refPos k c.next f.pos]? = some t' := by
      rw [typesOf_get, hu]; exact ⟨_, rfl⟩
    obtain ⟨t', hty⟩ := hty
    cases u with
    | std p =>
      have htp : t = p.type := htu
      have hfs : fieldSpec k (typesOf us) c.next f = fieldSpec k ((shownAll us).map Param.type) c.next f := by
        unfold fieldSpec
        simp only [typesOf_get, shown_get, hu]
        rfl
      obtain ⟨g1, g2⟩ := specifier_eval (ts := typesOf us) hk (c := c) w nc e
      have hok := g1.2 ⟨hw, t, by rw [typesOf_get, hu, htp]; rfl, by rw [hfs]; exact hv2⟩
      obtain ⟨q1, q2⟩ := specifierU_std (e.trans el) w.pos hl hu
      have hall : parseSpecifierU k us c = ((parseSpecifierU k us c).1, walk c f.refs r) := by
        exact Prod.ext rfl (by rw [q2, g2 hok])
      refine ⟨_, hall, ⟨by rw [q1, g2 hok, hfs], fun d => ⟨.std p, ?_, ?_⟩⟩⟩
      · rw [q1, g2 hok, hfs, hpos]; exact hu
      · rw [fieldText_shown (by rw [hpos]; exact hu)]
        show formatParam _ (parseSpecifierU k us c).1.spec (erased us) p = _
        rw [q1, g2 hok, hfs]
        exact formatParam_shown safe.widths p
    | parsing p tx => exact absurd (by rw [hpos]; exact hu) (safe.parsing p tx)
    | plain tx =>
      obtain ⟨hopt, hlen⟩ := safe.plain tx (by rw [hpos]; exact hu)
      have hwalk : walk c f.refs r = afterRef c f.pos r := by
        rw [field_refs]
        rcases hopt with ho | ho <;> rw [ho] <;> rfl
      have htext : ∀ s : FSpec, s = fieldSpec k ((shownAll us).map Param.type) c.next f →
          formatParam (maxCharOf k) s (shownAll us) (.str tx) = tx := by
        intro s hs
        have : s = { position := refPos k c.next f.pos, kind := (inferKind ((shownAll us).map Param.type)[refPos k c.next f.pos]?), size := f.body.length + 1 } := by
          rw [hs]; unfold fieldSpec
          rcases hopt with ho | ho <;> simp only [ho, Option.getD_none, Option.getD_some, optSpec_default]
        rw [this]
        show formatString _ _ tx = tx
        unfold formatString formatStringWith
        simp only [FSpec.widthOf, FSpec.precisionOf, Option.getD_none, id]
        rw [Nat.min_eq_right (by omega), List.take_length]
        simp [padding]
      have hfin : ∀ q : USpec, parseSpecifierU k us c = (q, walk c f.refs r) → q.spec.size = f.body.length + 1 →
          q.spec.position = refPos k c.next f.pos → ∃ q, parseSpecifierU k us c = (q, walk c f.refs r) ∧
            Same k us (fieldSpec k ((shownAll us).map Param.type) c.next f) q := by
        intro q h1 h2 h3
        refine ⟨q, h1, ⟨h2, fun d => ⟨.plain tx, by rw [h3]; exact hu, ?_⟩⟩⟩
        rw [fieldText_shown (by rw [hpos]; exact hu)]
        exact (htext _ rfl).symm
      rcases hopt with ho | ho
      · have hll := h0 ho
        have hps : parseSpecifierU k us c = (⟨{ position := refPos k c.next f.pos, kind := (inferU us[refPos k c.next f.pos]?), size := f.body.length + 1 }, 0x7d :: r, false⟩,
            walk c f.refs r) := by
          rw [specifierU_open (e.trans el) w.pos hl]
          simp only
          rw [rangeCheck_eq hty, consumeIf_neg (by show l.head? ≠ _; rw [hll]; simp)]
          simp only
          rw [closeField_eval (r := r) hll, afterRef_set, hwalk]
          simp only [afterRef]
          rw [el2, hll]
        exact hfin _ hps rfl rfl
      · have hll := h1 _ ho
        have htxt : Opts.text {} = [] := rfl
        rw [htxt, List.nil_append] at hll
        have hps : parseSpecifierU k us c = (⟨{ position := refPos k c.next f.pos, kind := (inferU us[refPos k c.next f.pos]?), size := f.body.length + 1 }, 0x7d :: r, false⟩,
            walk c f.refs r) := by
          rw [specifierU_open (e.trans el) w.pos hl]
          simp only
          rw [rangeCheck_eq hty, consumeIf_pos (r := 0x7d :: r) hll]
          simp only
          rw [rangeCheck_eq hty]
          unfold parseBody
          simp only [hu]
          rw [afterRef_set, consumeIf_pos (r := r) rfl, hwalk]
          simp only [afterRef]
          rw [el2]
        exact hfin _ hps rfl rfl
    | derived b =>
      have htb : t = b.type := htu
      cases ho : f.opts with
      | none =>
        obtain ⟨hnt, hfol⟩ := safe.bare b (by rw [hpos]; exact hu) ho
        have hll := h0 ho
        have hwalk : walk c f.refs r = afterRef c f.pos r := by rw [field_refs, ho]; rfl
        have hps : parseSpecifierU k us c = (⟨{ position := refPos k c.next f.pos, kind := (inferU us[refPos k c.next f.pos]?), size := f.body.length + 1 }, 0x7d :: r, false⟩,
            walk c f.refs r) := by
          rw [specifierU_open (e.trans el) w.pos hl]
          simp only
          rw [rangeCheck_eq hty, consumeIf_neg (by show l.head? ≠ _; rw [hll]; simp)]
          simp only
          rw [closeField_eval (r := r) hll, afterRef_set, hwalk]
          simp only [afterRef]
          rw [el2, hll]
        refine ⟨_, hps, ⟨rfl, fun d => ⟨.derived b, hu, ?_⟩⟩⟩
        rw [fieldText_shown (by rw [hpos]; exact hu)]
        show (formatU1 k us _ d (.derived b)).1 = formatParam _ _ _ b
        unfold formatU1
        simp only [Bool.false_eq_true, if_false]
        have hside : Sides k ({} : Opts) (0x7d :: r) := sides_of_wf hk (opts_wf_default k) (by
          rintro ⟨_, x, hx, hx2⟩
          have := hfol x hx
          omega)
        rw [parseOptionsAs_eval (o := {}) (r := 0x7d :: r) hk rfl hside, finishOptionsAs_fst, optSpec_default]
        have hfs : fieldSpec k ((shownAll us).map Param.type) c.next f = { position := refPos k c.next f.pos, kind := (inferKind ((shownAll us).map Param.type)[refPos k c.next f.pos]?), size := f.body.length + 1 } := by
          unfold fieldSpec
          simp only [ho, Option.getD_none, optSpec_default]
        rw [hfs, formatParam_congr (ps' := shownAll us) (fun _ => rfl) (fun _ => rfl)]
        exact (formatParam_noType (s := { position := refPos k c.next f.pos, kind := inferU us[refPos k c.next f.pos]? }) hnt _ _ _).symm
      | some o =>
        obtain ⟨hzero, hnt⟩ := safe.options b o (by rw [hpos]; exact hu) ho
        rw [hpos] at hzero
        have hll := h1 o ho
        have wo := w.opts o ho
        have hside := sides_of_wf hk (r := r) wo (by
          rintro ⟨a, b⟩
          exact nc ⟨o, ho, a, b⟩)
        have hwk : ∀ x, walk c f.refs r = walk (afterRef c f.pos x) o.refs r := by
          intro x; rw [field_refs, ho]
          show walk (afterRef c f.pos r) o.refs r = _
          cases o.refs <;> rfl
        generalize hc1 : afterRef c f.pos (o.text ++ 0x7d :: r) = c1 at *
        have hc1n : c1.next = if f.pos = [] then c.next + 1 else c.next := by rw [← hc1]; rfl
        have hwk1 := hwk (o.text ++ 0x7d :: r)
        rw [hc1] at hwk1
        have hfs : fieldSpec k ((shownAll us).map Param.type) c.next f =
            { optSpec k 0 (defaultKind t) c1.next o with size := f.body.length + 1 } := by
          unfold fieldSpec
          simp only [ho, Option.getD_some, hc1n, hzero]
          rw [hzero] at ht
          rw [inferKind_default ht]
        have hspec : ∃ kd, optSpec k 0 (defaultKind t) c1.next o = { optSpec k 0 .none c1.next o with kind := kd } ∧
            ((optSpec k 0 .none c1.next o).kind = kd ∨
              ((optSpec k 0 .none c1.next o).kind = .none ∧ NeedsNoType b.type)) := by
          refine ⟨(o.type.bind typeOf).getD (defaultKind t), rfl, ?_⟩
          show (o.type.bind typeOf).getD .none = _ ∨ ((o.type.bind typeOf).getD .none = .none ∧ _)
          cases hty : o.type with
          | none =>
            right
            exact ⟨rfl, by rcases hnt with h | h; exact h; rw [hty] at h; cases h⟩
          | some ch =>
            left
            have := wo.type ch hty
            rw [← typeOf_eq] at this
            obtain ⟨y, hy⟩ := Option.isSome_iff_exists.1 this
            simp [hy]
        obtain ⟨kd, hkd, hor⟩ := hspec
        rw [hfs] at hv2
        have hv3 := valid_size.1 hv2
        rw [hkd, htb] at hv3
        have hctx : ∀ r', optCtx k (typesOf us) c1 o r' = walk c1 o.refs r' := fun r' =>
          optCtx_of_walk (fun q hq => ⟨_, hv3.widthPos q hq⟩) (fun q hq => ⟨_, hv3.precPos q hq⟩)
        have hbody : parseBody k us { position := 0, kind := inferU us[0]? } c1 =
            (true, optSpec k 0 .none c1.next o, walk c f.refs r) := by
          unfold parseBody
          rw [hzero] at hu
          simp only [hu]
          have : ({} : FSpec) = { position := 0, kind := .none } := rfl
          rw [this, parseOptionsAs_eval hk (by rw [← hc1]; rfl) hside,
            finishOptionsAs_same (r := r) kd hv3 hor
              (by rw [hctx, walk_err_any _ _ _ r, ← hwk1]; exact hw) (by unfold optCtx; exact argCtx_rest _ _ _ _ _)]
          congr 2
          rw [hwk1, ← hctx]
          unfold optCtx
          rw [argCtx_set]
          exact argCtx_twice _ _ _ _ _ _ _ _
        have hps : parseSpecifierU k us c = (⟨{ optSpec k 0 .none c1.next o with size := f.body.length + 1 },
            o.text ++ 0x7d :: r, true⟩, walk c f.refs r) := by
          rw [specifierU_open (e.trans el) w.pos hl]
          simp only
          rw [rangeCheck_eq hty, consumeIf_pos (r := o.text ++ 0x7d :: r) hll]
          simp only
          rw [rangeCheck_eq hty, afterRef_set, hc1, hzero, hbody]
          simp only [walk_rest, el2]
          rw [← hc1]; rfl
        refine ⟨_, hps, ⟨rfl, fun d => ⟨.derived b, by rw [← hu, hzero]; rfl, ?_⟩⟩⟩
        rw [fieldText_shown (by rw [hpos]; exact hu)]
        show formatParam _ { optSpec k 0 .none c1.next o with size := f.body.length + 1 } (erased us) b =
          formatParam _ _ (shownAll us) b
        rw [hfs]
        have hw' : ∀ p ∈ (optSpec k 0 .none c1.next o).widthPos.toList ++ (optSpec k 0 .none c1.next o).precPos.toList,
            ∃ q, us[p]? = some (.std q) := by
          have := safe.widths
          rw [hfs] at this
          exact this
        rw [formatParam_size, formatParam_size, formatParam_shown hw' b, hkd]
        rcases hor with h | ⟨_, h⟩
        · subst h; rfl
        · exact (formatParam_noType (s := optSpec k 0 .none c1.next o) h kd _ _).symm

/-- The requests `qs` show what the requests `ss` show. -/
inductive Sames (k : CharKind) (us : List UParam) : List FSpec → List USpec → Prop
  | nil : Sames k us [] []
  | cons {s ss q qs} : Same k us s q → Sames k us ss qs → Sames k us (s :: ss) (q :: qs)

theorem loopU_complete {k : CharKind} (hk : IsCharKind k) {us : List UParam} (segs : List Seg) :
    ∀ (fuel : Nat) (c : Ctx) (acc : List USpec) (ss : List FSpec), Wf k segs → c.rest = render segs →
      c.rest.length < fuel → (walk c ((fieldsOf segs).flatMap Field.refs) []).err = none →
      Mean k ((shownAll us).map Param.type) (fieldsOf segs) ss →
      ss.flatMap FSpec.refs = assign k c.next ((fieldsOf segs).flatMap Field.refs) →
      acc.length + (fieldsOf segs).length ≤ 64 → SafeFields us segs ss →
      ∃ qs, parseLoopU k us fuel acc c = (acc ++ qs, walk c ((fieldsOf segs).flatMap Field.refs) []) ∧
        Sames k us ss qs := by
  induction segs with
  | nil =>
    intro fuel c acc ss _ e hf herr m _ _ _
    cases fuel with
    | zero => omega
    | succ fuel =>
      cases m
      have e' : c.rest = [] := e
      have h0 : c.err = none := walk_err herr
      refine ⟨[], ?_, .nil⟩
      unfold parseLoopU
      rw [if_neg (by rw [h0]; simp), e', List.append_nil]
      exact congrArg _ (ctx_eta c [] e').symm
  | cons sg segs ih =>
    intro fuel c acc ss w e hf herr m hr hn safe
    have h0 : c.err = none := walk_err herr
    cases fuel with
    | zero => omega
    | succ fuel =>
      unfold parseLoopU
      rw [if_neg (by rw [h0]; simp)]
      cases sg with
      | chr ch =>
        obtain ⟨w1, w2, w⟩ := w
        have e' : c.rest = ch :: render segs := e
        cases safe with
        | chr safe =>
        rw [e']
        simp only
        rw [if_neg w1, if_neg w2]
        obtain ⟨qs, h1, h2⟩ := ih fuel { c with rest := render segs } acc ss w rfl (by
          rw [e'] at hf; simp only [List.length_cons] at hf; simp only; omega)
          (by rw [walk_with]; exact herr) m hr hn safe
        exact ⟨qs, by rw [h1, walk_with]; rfl, h2⟩
      | lbrace =>
        have e' : c.rest = 0x7b :: 0x7b :: render segs := e
        cases safe with
        | lbrace safe =>
        rw [e']
        simp only
        rw [if_pos trivial, consumeIf_pos (r := render segs) rfl]
        simp only
        obtain ⟨qs, h1, h2⟩ := ih fuel { c with rest := render segs } acc ss w rfl (by
          rw [e'] at hf; simp only [List.length_cons] at hf; simp only; omega)
          (by rw [walk_with]; exact herr) m hr hn safe
        exact ⟨qs, by rw [h1, walk_with]; rfl, h2⟩
      | rbrace =>
        have e' : c.rest = 0x7d :: 0x7d :: render segs := e
        cases safe with
        | rbrace safe =>
        rw [e']
        simp only
        rw [if_neg (by decide), if_pos trivial, consumeIf_pos (r := render segs) rfl]
        simp only
        obtain ⟨qs, h1, h2⟩ := ih fuel { c with rest := render segs } acc ss w rfl (by
          rw [e'] at hf; simp only [List.length_cons] at hf; simp only; omega)
          (by rw [walk_with]; exact herr) m hr hn safe
        exact ⟨qs, by rw [h1, walk_with]; rfl, h2⟩
      | field f =>
        obtain ⟨wf, nc, w⟩ := w
        have e' : c.rest = 0x7b :: (f.body ++ render segs) := e
        rw [e']
        simp only
        rw [if_pos trivial, consumeIf_neg (body_first hk wf _)]
        simp only
        have hfs : fieldsOf (Seg.field f :: segs) = f :: fieldsOf segs := rfl
        rw [hfs] at herr m hr hn ⊢
        rw [if_neg (by simp only [List.length_cons] at hn; omega)]
        obtain ⟨s, ss', rfl, fm, m', r1, r2⟩ := mean_split m hr
        have hs := fieldSpec_unique hk wf fm r1
        obtain ⟨t, ht, _, v, _⟩ := fm
        cases safe with
        | field sf safe =>
        rw [List.flatMap_cons] at herr
        have hw1 : (walk c f.refs (render segs)).err = none := by
          rw [← walk_append c f.refs _ [] (render segs)] at herr
          exact walk_err herr
        have hp : s.position = refPos k c.next f.pos := by rw [hs]; rfl
        obtain ⟨q, hq, hsame⟩ := field_same (us := us) hk (c := { c with rest := f.body ++ render segs }) wf nc rfl
          (by rw [walk_with]; exact hw1) (t := t) (by rw [← hp]; exact ht) (by rw [← hs]; exact v)
          (by rw [← hs]; exact sf)
        rw [hq, walk_with]
        simp only
        have hlen : (render segs).length < fuel := by
          rw [e'] at hf; simp only [List.length_cons, List.length_append] at hf; omega
        obtain ⟨qs, h1, h2⟩ := ih fuel (walk c f.refs (render segs)) (acc ++ [q]) ss' w (walk_rest _ _ _)
          (by rw [walk_rest]; exact hlen)
          (by rw [walk_append]; exact herr) m' (by rw [walk_next]; exact r2)
          (by simp only [List.length_append, List.length_cons, List.length_nil] at hn ⊢; omega) safe
        refine ⟨q :: qs, ?_, .cons (by rw [hs]; exact hsame) h2⟩
        rw [h1, walk_append, List.flatMap_cons, List.append_assoc]
        rfl

theorem formatLoopU_eval {k : CharKind} (hk : IsCharKind k) {us : List UParam} {ts : List PType}
    (segs : List Seg) : ∀ (fuel : Nat) (ss : List FSpec) (qs : List USpec) (d : Ctx), Wf k segs →
      Mean k ts (fieldsOf segs) ss → Sames k us ss qs → (render segs).length < fuel →
      formatLoopU k us fuel qs (render segs) d =
        some (output segs (ss.map (fieldText (maxCharOf k) (shownAll us)))) := by
  induction segs with
  | nil =>
    intro fuel ss qs d _ _ _ hf
    cases fuel with
    | zero => omega
    | succ fuel => rfl
  | cons sg segs ih =>
    intro fuel ss qs d w m sm hf
    cases fuel with
    | zero => omega
    | succ fuel =>
      cases sg with
      | chr c =>
        obtain ⟨w1, w2, w⟩ := w
        have hf' : (render segs).length < fuel := by
          have : render (.chr c :: segs) = c :: render segs := rfl
          rw [this] at hf; simp only [List.length_cons] at hf; omega
        show formatLoopU k us (fuel + 1) qs (c :: render segs) d = _
        unfold formatLoopU
        rw [if_neg w1, if_neg w2, ih fuel ss qs d w m sm hf']
        rfl
      | lbrace =>
        have hf' : (render segs).length < fuel := by
          have : render (.lbrace :: segs) = 0x7b :: 0x7b :: render segs := rfl
          rw [this] at hf; simp only [List.length_cons] at hf; omega
        show formatLoopU k us (fuel + 1) qs (0x7b :: 0x7b :: render segs) d = _
        unfold formatLoopU
        rw [if_pos rfl]
        simp only
        rw [if_pos trivial, ih fuel ss qs d w m sm hf']
        rfl
      | rbrace =>
        have hf' : (render segs).length < fuel := by
          have : render (.rbrace :: segs) = 0x7d :: 0x7d :: render segs := rfl
          rw [this] at hf; simp only [List.length_cons] at hf; omega
        show formatLoopU k us (fuel + 1) qs (0x7d :: 0x7d :: render segs) d = _
        unfold formatLoopU
        rw [if_neg (by decide), if_pos rfl]
        show Option.map _ (formatLoopU k us fuel qs (render segs) d) = _
        rw [ih fuel ss qs d w m sm hf']
        rfl
      | field f =>
        obtain ⟨wf, nc, w⟩ := w
        have hr : render (.field f :: segs) = 0x7b :: (f.body ++ render segs) := rfl
        have hf' : (render segs).length < fuel := by
          rw [hr] at hf; simp only [List.length_cons, List.length_append] at hf; omega
        have hfs : fieldsOf (Seg.field f :: segs) = f :: fieldsOf segs := rfl
        rw [hfs] at m
        cases m with
        | cons fm m =>
          rename_i s ss
          cases sm with
          | cons same sm =>
          rename_i q qs
          obtain ⟨t, ht, _, _, hz⟩ := fm
          rw [hr]
          unfold formatLoopU
          rw [if_pos rfl]
          have hb := body_first hk wf (render segs)
          cases hbr : f.body ++ render segs with
          | nil => 
            have := congrArg List.length hbr
            simp [Field.body] at this
          | cons x r' =>
            rw [hbr] at hb
            simp only
            rw [if_neg (by simpa using hb)]
            have hd : (0x7b :: x :: r').drop q.spec.size = render segs := by
              rw [← hbr, same.size, hz]
              simp
            obtain ⟨u, hu, ht⟩ := same.text d
            rw [hd, hu]
            simp only
            rw [ih fuel ss qs _ w m sm hf', ht]
            rfl

/-- User-defined types in the fields that the library gets right are shown like the standard value they stand
for. What is missing is in the theorems below. -/
theorem user_types_partial {k : CharKind} (hk : IsCharKind k) {us : List UParam} {segs : List Seg} (w : Wf k segs)
    {ss : List FSpec} (d : Denotes k ((us.map UParam.shown).map Param.type) (fieldsOf segs) ss)
    (safe : SafeFields us segs ss) :
    formatU k (render segs) us = format k (render segs) (us.map UParam.shown) := by
  obtain ⟨d1, d2, d3⟩ := d
  obtain ⟨e1, e2⟩ := positions_iff.2 d3
  obtain ⟨qs, h1, h2⟩ := loopU_complete hk (us := us) segs _ { rest := render segs } [] ss w rfl
    (Nat.lt_succ_self _) e1 d2 e2 (by simpa using d1) safe
  unfold formatU format
  rw [h1, (parseFormat_iff hk).2 ⟨segs, w, rfl, ⟨d1, d2, d3⟩⟩]
  simp only [e1, List.nil_append]
  rw [formatLoopU_eval hk segs _ ss qs _ w d2 h2 (Nat.lt_succ_self _),
    formatLoop_eval hk segs _ ss w d2 (Nat.lt_succ_self _)]
  rfl

/-- `{:>3} {}` with a value of a type derived from strings and one with a plain formatter. -/
def userExample : List Seg :=
  [.field ⟨[], some { align := some (none, .right), width := some (.number [0x33]) }⟩, .chr 0x20, .field ⟨[], none⟩]

/-- The hypotheses of `user_types_partial` are met by the example. -/
example : Wf ⟨8, true⟩ userExample ∧
    ∃ ss, Denotes ⟨8, true⟩ ((([.derived (.str [0x61]), .plain [0x62]] : List UParam).map UParam.shown).map Param.type)
      (fieldsOf userExample) ss ∧ SafeFields [.derived (.str [0x61]), .plain [0x62]] userExample ss := by
  have wo : Opts.Wf ⟨8, true⟩ { align := some (none, .right), width := some (.number [0x33]) } :=
    ⟨by simp, by intro a h; cases h; exact ⟨by simp, by intro d hd; simp at hd; subst hd; decide⟩, by intro ds _ h; cases h; decide, by simp, by simp⟩
  refine ⟨⟨⟨?_, ?_⟩, ?_, by decide, by decide, ⟨?_, ?_⟩, ?_, trivial⟩,
    [{ position := 0, align := .right, width := some 3, kind := .string, size := 5 },
     { position := 1, kind := .string, size := 2 }], ⟨by decide, ?_, ?_⟩, ?_⟩
  · intro d hd; cases hd
  · intro o h; cases h; exact wo
  · rintro ⟨o, h, h2, _⟩; cases h; cases h2
  · intro d hd; cases hd
  · intro o h; cases h
  · rintro ⟨o, h, _⟩; cases h
  · exact .cons ⟨.string, rfl, ⟨rfl, rfl, rfl, rfl, rfl, rfl, rfl, rfl, rfl, rfl, rfl, rfl⟩,
      ⟨by simp, by simp, by simp, by simp, by simp, by simp, by simp, by simp, by simp, by decide⟩, rfl⟩
      (.cons ⟨.string, rfl, ⟨rfl, rfl, rfl, rfl, rfl, rfl, rfl, rfl, rfl, rfl, rfl, rfl⟩,
      ⟨by simp, by simp, by simp, by simp, by simp, by simp, by simp, by simp, by simp, by decide⟩, rfl⟩ .nil)
  · left; exact ⟨by decide, rfl⟩
  · refine .field ⟨?_, ?_, ?_, ?_, ?_⟩ (.chr (.field ⟨?_, ?_, ?_, ?_, ?_⟩ .nil))
    · intro t h; cases h
    · intro p t h; cases h
    · intro b _ h; cases h
    · intro b o h _; cases h; exact ⟨rfl, .inl (.inl rfl)⟩
    · intro p h; simp at h
    · intro t h; cases h; exact ⟨.inl rfl, by decide⟩
    · intro p t h; cases h
    · intro b h; cases h
    · intro b o h; cases h
    · intro p h; simp at h

example : formatU ⟨8, true⟩ (render userExample) [.derived (.str [0x61]), .plain [0x62]] =
    .text [0x20, 0x20, 0x61, 0x20, 0x62] := by decide +kernel

/-- A formatter with its own `parse` method gets the characters after the colon, and what it consumed when the
value is shown; an error it reports makes the format string invalid. -/
theorem own_parser (k : CharKind) (hk : IsCharKind k) (parse : List Nat → Nat × Option String) (text : List Nat → List Nat)
    (options : List Nat) (h : (parse (options ++ [0x7d])).1 = options.length + 1) :
    formatU k (0x7b :: 0x3a :: (options ++ [0x7d])) [.parsing parse text] =
      match (parse (options ++ [0x7d])).2 with
      | some e => .invalid e
      | none => .text (text (options ++ [0x7d])) := by
  have hd : (options ++ [0x7d]).drop (options.length + 1) = [] := by simp
  have ht : (options ++ [0x7d]).take (options.length + 1) = options ++ [0x7d] := by
    rw [List.take_of_length_le (by simp)]
  have hsp : parseSpecifierU k [.parsing parse text] { rest := 0x3a :: (options ++ [0x7d]) } =
      (⟨{ position := 0, kind := .none, size := options.length + 3 }, options ++ [0x7d], false⟩,
        { rest := [], next := 1, auto := true, err := (parse (options ++ [0x7d])).2 }) := by
    rw [specifierU_open (ds := []) (l := 0x3a :: (options ++ [0x7d])) rfl (by intro d hd; cases hd)
      (by intro x hx; simp at hx; subst hx; exact not_digit hk (by omega))]
    simp only
    have hty : (typesOf [.parsing parse text])[0]? = some .pointer := rfl
    rw [show refPos k 0 [] = 0 from rfl, rangeCheck_eq hty, consumeIf_pos (r := options ++ [0x7d]) rfl]
    simp only
    rw [rangeCheck_eq hty]
    unfold parseBody
    simp only [List.getElem?_cons_zero, Ctx.ownParse, h, hd, inferU]
    cases (parse (options ++ [0x7d])).2 <;> simp [afterRef]
  have hloop : parseLoopU k [.parsing parse text] ((0x7b :: 0x3a :: (options ++ [0x7d])).length + 1) []
      { rest := 0x7b :: 0x3a :: (options ++ [0x7d]) } =
      ([⟨{ position := 0, kind := .none, size := options.length + 3 }, options ++ [0x7d], false⟩],
        { rest := [], next := 1, auto := true, err := (parse (options ++ [0x7d])).2 }) := by
    unfold parseLoopU
    simp only [ne_eq, not_true_eq_false, if_false, if_true]
    rw [consumeIf_neg (by simp)]
    simp only [List.length_nil, hsp]
    rw [if_neg (by omega)]
    simp only [List.length_cons]
    unfold parseLoopU
    simp
  unfold formatU
  rw [hloop]
  cases he : (parse (options ++ [0x7d])).2 with
  | some e => rfl
  | none =>
    simp only
    unfold formatLoopU
    simp only [if_true, List.getElem?_cons_zero, formatU1, h, ht]
    rw [if_neg (by decide)]
    have : (0x7b :: 0x3a :: (options ++ [0x7d])).drop (options.length + 3) = [] := by simp
    simp only [this, List.length_cons]
    unfold formatLoopU
    simp

/-- A formatter that takes one letter: `{:z}`. -/
example : formatU ⟨8, true⟩ [0x7b, 0x3a, 0x7a, 0x7d] [.parsing (fun l => (2, if l.head? = some 0x7a then none else some "bad"))
    (fun l => l.take 1 ++ [0x21])] = .text [0x7a, 0x21] := by decide +kernel

/-- C112 does not hold in general: options on a field of a derived type make it refer to the first parameter
(format_string.hpp 213-219 with format_specifier.hpp 211-235 overwrites the position with 0), so `{:d} {:>3}`
with 5 and a JSON value shows 5 twice. -/
theorem derived_options_violated :
    formatU ⟨8, true⟩ [0x7b, 0x3a, 0x64, 0x7d, 0x20, 0x7b, 0x3a, 0x3e, 0x33, 0x7d]
        [.std (.int false true 32 5), .derived (.str [0x61])] = .text [0x35, 0x20, 0x20, 0x20, 0x35] ∧
    format ⟨8, true⟩ [0x7b, 0x3a, 0x64, 0x7d, 0x20, 0x7b, 0x3a, 0x3e, 0x33, 0x7d]
        [.int false true 32 5, .str [0x61]] = .text [0x35, 0x20, 0x20, 0x20, 0x61] := by
  exact ⟨by decide +kernel, by decide +kernel⟩

/-- C112 does not hold in general: a field `{}` of a derived type reads the text that follows it as its options
if an alignment character comes first (format_parameters.hpp 305-332 parses again): `{}<5` shows the value padded
with closing braces. -/
theorem derived_lookahead_violated :
    formatU ⟨8, true⟩ [0x7b, 0x7d, 0x3c, 0x35] [.derived (.str [0x61])] =
      .text [0x61, 0x7d, 0x7d, 0x7d, 0x7d, 0x3c, 0x35] ∧
    format ⟨8, true⟩ [0x7b, 0x7d, 0x3c, 0x35] [.str [0x61]] = .text [0x61, 0x3c, 0x35] := by
  exact ⟨by decide +kernel, by decide +kernel⟩

/-- C112 does not hold in general: a field `{}` of a type derived from the formatter of integers has no
presentation type, and the value of the enumerator for that, 20, is the base the number is shown in
(format_specifier.hpp 150-164, formatters.hpp 291-350): 30 is shown as `1a`. -/
theorem derived_integer_violated :
    formatU ⟨8, true⟩ [0x7b, 0x7d] [.derived (.int false true 32 30)] = .text [0x31, 0x61] ∧
    format ⟨8, true⟩ [0x7b, 0x7d] [.int false true 32 30] = .text [0x33, 0x30] := by
  exact ⟨by decide +kernel, by decide +kernel⟩

end Verif.Format
