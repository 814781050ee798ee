import Verif.Format.Props

/-!
# Format parameters of user-defined types

Model of what `Verif/Format/Model.lean` leaves out: `ParameterType::UserDefined`
(format_parameter_type.hpp, format_string.hpp 167-170 and 190-226) and `format_user_defined_value`
(format_parameters.hpp 305-332). Sources below `/repo/fly/types/string`.

A user defines `Formatter<T>` in one of three ways: with a `format` method only, with a `parse` method of
his own, or derived from the formatter of a standard type (as the library does for `Json`, `IOMode`,
`ConfigFileType` and `std::filesystem::path`) and handing a standard value to it. Left out: a formatter that
has its own `parse` and also derives from a standard one, or derives from another user-defined one; a `parse`
method that calls `next_position`.
-/

namespace Verif.Format

open Verif.Str (CharKind IsCharKind)

/-- A format parameter. The user-defined ones are given by their formatter applied to the value. -/
inductive UParam where
  | std (p : Param)
  /-- no `parse` method: the text that `format` writes -/
  | plain (text : List Nat)
  /-- its own `parse` method: how many characters of the format string it consumes and the error it reports;
  the text that `format` writes depends on what was consumed -/
  | parsing (parse : List Nat → Nat × Option String) (text : List Nat → List Nat)
  /-- derived from the formatter of a standard type: the value handed to that formatter -/
  | derived (base : Param)

/-- The place of a user-defined parameter in the list of standard ones. All that the code for standard
parameters asks about a parameter other than its own is whether it is an integer (format_specifier.hpp
762-766, 778-783, 888-910), so a pointer does. -/
def UParam.erase : UParam → Param
  | .std p => p
  | _ => .ptr 0

/-- The parameter types as `format_specifier.hpp` sees them. -/
def typesOf (us : List UParam) : List PType := us.map (fun u => u.erase.type)

/-- The parameters as `format_specifier.hpp` sees them. -/
def erased (us : List UParam) : List Param := us.map UParam.erase

/-- `BasicFormatSpecifier` with `m_parse_index` (here the characters from there on) and
`m_was_parsed_as_standard_formatter` (format_specifier.hpp 268-271). -/
structure USpec where
  spec : FSpec
  from_ : List Nat
  parsed : Bool

/-- `infer_type` (format_specifier.hpp 690-720): no presentation type for user-defined parameters. -/
def inferU : Option UParam → Kind
  | some (.std p) => inferKind (some p.type)
  | _ => .none

/-- `validate` (format_specifier.hpp 722-800) of a formatter, whose `m_parameter_type` is set
(format_specifier.hpp 491-494, 913-922). -/
def validateAs (ts : List PType) (t : PType) (s : FSpec) (c : Ctx) : Ctx :=
  checkKind (some t) s (checkLocale (some t) s (checkPrecision ts (some t) s (checkWidth ts s
    (checkNumeric s (checkFill s c)))))

/-- The end of `BasicFormatSpecifier::parse` (format_specifier.hpp 523-528) of such a formatter. -/
def finishOptionsAs (ts : List PType) (t : PType) (s : FSpec) (c : Ctx) : FSpec × Ctx :=
  if (validateAs ts t s c).err = .none then closeField s (validateAs ts t s c) else (s, validateAs ts t s c)

/-- `BasicFormatSpecifier::parse` (format_specifier.hpp 510-529) of such a formatter. -/
def parseOptionsAs (k : CharKind) (ts : List PType) (t : PType) (s : FSpec) (c : Ctx) : FSpec × Ctx :=
  let (s, c) := parseFillAlign s c
  let (s, c) := parseSign s c
  let (s, c) := parseAltZero s c
  let (s, c) := parseWidth k ts s c
  let (s, c) := parsePrecision k ts s c
  let (s, c) := parseLocale s c
  let (s, c) := parseType k s c
  finishOptionsAs ts t s c

/-- The `parse` method of a user. -/
def Ctx.ownParse (c : Ctx) (parse : List Nat → Nat × Option String) : Ctx :=
  { c with rest := c.rest.drop (parse c.rest).1, err := match (parse c.rest).2 with
      | some e => some e
      | .none => c.err }

/-- `parse_user_defined_specifier` (format_string.hpp 190-226), or `parse` for a standard parameter
(format_string.hpp 167-175). `copy_formatting_options_into` (format_specifier.hpp 211-235) copies every
member named there, the position among them, which is 0 in the formatter that was just constructed. -/
def parseBody (k : CharKind) (us : List UParam) (s : FSpec) (c : Ctx) : Bool × FSpec × Ctx :=
  match us[s.position]? with
  | some (.plain _) =>
    match c.consumeIf 0x7d with
    | (true, c) => (false, s, c)
    | (false, c) =>
      (false, s, c.onError "User-defined formatter without a parser may not have formatting options")
  | some (.parsing parse _) => (false, s, c.ownParse parse)
  | some (.derived b) => (true, parseOptionsAs k (typesOf us) b.type {} c)
  | _ => (true, parseOptions k (typesOf us) s c)

/-- `parse_specifier` (format_string.hpp 157-186), after the opening brace. -/
def parseSpecifierU (k : CharKind) (us : List UParam) (c : Ctx) : USpec × Ctx :=
  let start := c.rest.length + 1
  let (p, c) := c.nextPosition k
  let (_, c) := c.parameterType (typesOf us) p
  let s : FSpec := { position := p, kind := inferU us[p]? }
  match c.consumeIf 0x3a with
  | (true, c) =>
    let (_, c) := c.parameterType (typesOf us) p
    let r := parseBody k us s c
    (⟨{ r.2.1 with size := start - r.2.2.rest.length }, c.rest, r.1⟩, r.2.2)
  | (false, c) =>
    let r := closeField s c
    (⟨{ r.1 with size := start - r.2.rest.length }, c.rest, false⟩, r.2)

/-- The loop of the constructor of `BasicFormatString` (format_string.hpp 104-132). -/
def parseLoopU (k : CharKind) (us : List UParam) : Nat → List USpec → Ctx → List USpec × Ctx
  | 0, ss, c => (ss, c.onError "out of fuel")
  | fuel + 1, ss, c =>
    if c.err ≠ .none then (ss, c)
    else
      match c.rest with
      | [] => (ss, c)
      | ch :: r =>
        let c := { c with rest := r }
        if ch = 0x7b then
          match c.consumeIf 0x7b with
          | (true, c) => parseLoopU k us fuel ss c
          | (false, c) =>
            if ss.length ≥ 64 then
              parseLoopU k us fuel ss (c.onError "Exceeded maximum allowed number of specifiers")
            else
              let (s, c) := parseSpecifierU k us c
              parseLoopU k us fuel (ss ++ [s]) c
        else if ch = 0x7d then
          match c.consumeIf 0x7d with
          | (true, c) => parseLoopU k us fuel ss c
          | (false, c) => parseLoopU k us fuel ss (c.onError "Closing brace } must be escaped")
        else parseLoopU k us fuel ss c

/-- `BasicFormatParameter::format` (format_parameters.hpp 494-527) with `format_user_defined_value`
(format_parameters.hpp 305-332): a formatter with a `parse` method reads its options again, from
`m_parse_index` on, unless they were read by a standard formatter. Errors it reports now are not looked at. -/
def formatU1 (k : CharKind) (us : List UParam) (s : USpec) (c : Ctx) : UParam → List Nat × Ctx
  | .std p => (formatParam (maxCharOf k) s.spec (erased us) p, c)
  | .plain t => (t, c)
  | .parsing parse text =>
    (text (s.from_.take (parse s.from_).1), { c with rest := s.from_ }.ownParse parse)
  | .derived b =>
    if s.parsed then (formatParam (maxCharOf k) s.spec (erased us) b, c)
    else
      let r := parseOptionsAs k (typesOf us) b.type { s.spec with size := 0 } { c with rest := s.from_ }
      (formatParam (maxCharOf k) r.1 (erased us) b, r.2)

/-- The loop of `format_to` (format.hpp 53-83), with the parse context that the formatters of user-defined
types use again. -/
def formatLoopU (k : CharKind) (us : List UParam) : Nat → List USpec → List Nat → Ctx → Option (List Nat)
  | 0, _, _, _ => .none
  | _ + 1, _, [], _ => some []
  | fuel + 1, ss, ch :: r, c =>
    if ch = 0x7b then
      match r with
      | [] => .none
      | x :: r' =>
        if x = 0x7b then (formatLoopU k us fuel ss r' c).map (ch :: ·)
        else
          match ss with
          | [] => .none
          | s :: ss =>
            let t := match us[s.spec.position]? with
              | some u => formatU1 k us s c u
              | .none => ([], c)
            (formatLoopU k us fuel ss ((ch :: r).drop s.spec.size) t.2).map (t.1 ++ ·)
    else if ch = 0x7d then (formatLoopU k us fuel ss (r.drop 1) c).map (ch :: ·)
    else (formatLoopU k us fuel ss r c).map (ch :: ·)

/-- `fly::string::format` (format.hpp 31-87) with parameters of any type. -/
def formatU (k : CharKind) (fmt : List Nat) (us : List UParam) : Outcome :=
  match parseLoopU k us (fmt.length + 1) [] { rest := fmt } with
  | (ss, c) =>
    match c.err with
    | some e => .invalid e
    | .none =>
      match formatLoopU k us (fmt.length + 1) ss fmt c with
      | some t => .text t
      | .none => .ub

/-! ## Only standard types: the model of `Verif/Format/Model.lean` -/

theorem typesOf_std (ps : List Param) : typesOf (ps.map .std) = ps.map Param.type := by
  simp [typesOf, UParam.erase, Function.comp_def]

theorem erased_std (ps : List Param) : erased (ps.map .std) = ps := by
  simp [erased, UParam.erase, Function.comp_def]

theorem inferU_std (ps : List Param) (p : Nat) :
    inferU (ps.map UParam.std)[p]? = inferKind (ps.map Param.type)[p]? := by
  rw [List.getElem?_map, List.getElem?_map]
  cases ps[p]? <;> rfl

theorem parseBody_std (k : CharKind) (ps : List Param) (s : FSpec) (c : Ctx) :
    parseBody k (ps.map .std) s c = (true, parseOptions k (ps.map Param.type) s c) := by
  unfold parseBody
  rw [typesOf_std, List.getElem?_map]
  cases ps[s.position]? <;> rfl

theorem parseSpecifierU_std (k : CharKind) (ps : List Param) (c : Ctx) :
    (parseSpecifierU k (ps.map .std) c).1.spec = (parseSpecifier k (ps.map Param.type) c).1 ∧
    (parseSpecifierU k (ps.map .std) c).2 = (parseSpecifier k (ps.map Param.type) c).2 := by
  unfold parseSpecifierU parseSpecifier
  simp only [typesOf_std, inferU_std, parseBody_std, parameterType_ctx]
  rcases hb : Ctx.consumeIf _ 0x3a with ⟨b, c'⟩
  cases b <;> exact ⟨rfl, rfl⟩

theorem parseLoopU_std (k : CharKind) (ps : List Param) : ∀ (fuel : Nat) (ss : List USpec) (c : Ctx),
    (parseLoopU k (ps.map .std) fuel ss c).1.map USpec.spec =
      (parseLoop k (ps.map Param.type) fuel (ss.map USpec.spec) c).1 ∧
    (parseLoopU k (ps.map .std) fuel ss c).2 =
      (parseLoop k (ps.map Param.type) fuel (ss.map USpec.spec) c).2 := by
  intro fuel
  induction fuel with
  | zero => intro ss c; exact ⟨rfl, rfl⟩
  | succ fuel ih =>
    intro ss c
    unfold parseLoopU parseLoop
    split
    · exact ⟨rfl, rfl⟩
    cases c.rest with
    | nil => exact ⟨rfl, rfl⟩
    | cons ch r =>
      simp only
      split
      · rcases hb : Ctx.consumeIf _ 0x7b with ⟨b, c'⟩
        cases b with
        | true => exact ih _ _
        | false =>
          simp only [List.length_map]
          split
          · exact ih _ _
          · obtain ⟨e1, e2⟩ := parseSpecifierU_std k ps c'
            have := ih (ss ++ [(parseSpecifierU k (ps.map .std) c').1]) (parseSpecifierU k (ps.map .std) c').2
            rw [List.map_append, List.map_cons, List.map_nil, e1, e2] at this
            rw [e2]
            exact this
      · split
        · rcases hb : Ctx.consumeIf _ 0x7d with ⟨b, c'⟩
          cases b <;> exact ih _ _
        · exact ih _ _

theorem formatLoopU_std (k : CharKind) (ps : List Param) : ∀ (fuel : Nat) (ss : List USpec) (v : List Nat) (c : Ctx),
    formatLoopU k (ps.map .std) fuel ss v c = formatLoop (maxCharOf k) ps fuel (ss.map USpec.spec) v := by
  intro fuel
  induction fuel with
  | zero => intro ss v c; rfl
  | succ fuel ih =>
    intro ss v c
    cases v with
    | nil => rfl
    | cons ch r =>
      unfold formatLoopU formatLoop
      split
      · cases r with
        | nil => rfl
        | cons x r' =>
          simp only
          split
          · rw [ih]
          · cases ss with
            | nil => rfl
            | cons s ss =>
              simp only [List.map_cons, List.getElem?_map]
              cases ps[s.spec.position]? with
              | none => simp only [Option.map_none, ih]
              | some p => simp only [Option.map_some, formatU1, erased_std, ih]
      · split
        · rw [ih]
        · rw [ih]

/-- With standard parameters only, this is the model the other theorems are about. -/
theorem format_standard_types (k : CharKind) (fmt : List Nat) (ps : List Param) :
    formatU k fmt (ps.map .std) = format k fmt ps := by
  unfold formatU format parseFormat
  obtain ⟨e1, e2⟩ := parseLoopU_std k ps (fmt.length + 1) [] { rest := fmt }
  rw [List.map_nil] at e1 e2
  simp only [e2]
  cases (parseLoop k (ps.map Param.type) (fmt.length + 1) [] { rest := fmt }).2.err with
  | some e => rfl
  | none => simp only [formatLoopU_std, e1]; rfl

/-! ## No undefined behaviour -/

theorem consumeIf_suffix (c : Ctx) (ch : Nat) : (c.consumeIf ch).2.rest <:+ c.rest := by
  unfold Ctx.consumeIf
  split
  · rename_i x r h
    split
    · rw [h]; exact ⟨[x], rfl⟩
    · exact List.suffix_refl _
  · exact List.suffix_refl _

theorem consumeNumber_suffix (k : CharKind) (c : Ctx) : (c.consumeNumber k).2.rest <:+ c.rest := by
  unfold Ctx.consumeNumber
  simp only
  split
  · exact List.suffix_refl _
  · exact List.dropWhile_suffix _

theorem nextPosition_suffix (k : CharKind) (c : Ctx) : (c.nextPosition k).2.rest <:+ c.rest := by
  have h := consumeNumber_suffix k c
  unfold Ctx.nextPosition
  cases hc : c.consumeNumber k with
  | mk o c' =>
    rw [hc] at h
    cases o <;> simp only [errorIf_rest] <;> exact h

theorem parameterType_rest (ts : List PType) (c : Ctx) (p : Nat) : (c.parameterType ts p).2.rest = c.rest := by
  rw [parameterType_ctx]; exact rangeCheck_rest _ _ _

theorem parseFillAlign_suffix (s : FSpec) (c : Ctx) : (parseFillAlign s c).2.rest <:+ c.rest := by
  have h1 : (parseFill s c).2.rest <:+ c.rest := by
    unfold parseFill
    split
    · rename_i f a r h
      split
      · rw [h]; exact ⟨[f], rfl⟩
      · exact List.suffix_refl _
    · exact List.suffix_refl _
  unfold parseFillAlign
  rcases hf : parseFill s c with ⟨s1, c1⟩
  rw [hf] at h1
  simp only at h1 ⊢
  have h2 := consumeIf_suffix c1 0x3c
  rcases hc : c1.consumeIf 0x3c with ⟨b, c2⟩
  rw [hc] at h2
  cases b with
  | true => exact h2.trans h1
  | false =>
    simp only at h2 ⊢
    have h3 := consumeIf_suffix c2 0x3e
    rcases hc3 : c2.consumeIf 0x3e with ⟨b, c3⟩
    rw [hc3] at h3
    cases b with
    | true => exact h3.trans (h2.trans h1)
    | false =>
      simp only at h3 ⊢
      have h4 := consumeIf_suffix c3 0x5e
      rcases hc4 : c3.consumeIf 0x5e with ⟨b, c4⟩
      rw [hc4] at h4
      cases b <;> exact h4.trans (h3.trans (h2.trans h1))

theorem parseSign_suffix (s : FSpec) (c : Ctx) : (parseSign s c).2.rest <:+ c.rest := by
  unfold parseSign
  have h2 := consumeIf_suffix c 0x2b
  rcases hc : c.consumeIf 0x2b with ⟨b, c2⟩
  rw [hc] at h2
  cases b with
  | true => exact h2
  | false =>
    simp only at h2 ⊢
    have h3 := consumeIf_suffix c2 0x2d
    rcases hc3 : c2.consumeIf 0x2d with ⟨b, c3⟩
    rw [hc3] at h3
    cases b with
    | true => exact h3.trans h2
    | false =>
      simp only at h3 ⊢
      have h4 := consumeIf_suffix c3 0x20
      rcases hc4 : c3.consumeIf 0x20 with ⟨b, c4⟩
      rw [hc4] at h4
      cases b <;> exact h4.trans (h3.trans h2)

theorem parseAltZero_suffix (s : FSpec) (c : Ctx) : (parseAltZero s c).2.rest <:+ c.rest := by
  unfold parseAltZero
  exact (consumeIf_suffix _ _).trans (consumeIf_suffix _ _)

theorem parseNested_suffix (k : CharKind) (ts : List PType) (c : Ctx) : (parseNested k ts c).2.rest <:+ c.rest := by
  unfold parseNested
  have h1 := nextPosition_suffix k c
  rcases hn : c.nextPosition k with ⟨p, c1⟩
  rw [hn] at h1
  simp only [parameterType_ctx] at h1 ⊢
  have h2 := consumeIf_suffix (rangeCheck ts p c1) 0x7d
  rw [rangeCheck_rest] at h2
  rcases hc : (rangeCheck ts p c1).consumeIf 0x7d with ⟨b, c2⟩
  rw [hc] at h2
  cases b <;> exact h2.trans h1

theorem parseWidth_suffix (k : CharKind) (ts : List PType) (s : FSpec) (c : Ctx) :
    (parseWidth k ts s c).2.rest <:+ c.rest := by
  unfold parseWidth
  have h1 := consumeNumber_suffix k c
  rcases hn : c.consumeNumber k with ⟨o, c1⟩
  rw [hn] at h1
  cases o with
  | some w => exact h1
  | none =>
    simp only at h1 ⊢
    have h2 := consumeIf_suffix c1 0x7b
    rcases hc : c1.consumeIf 0x7b with ⟨b, c2⟩
    rw [hc] at h2
    cases b with
    | false => exact h2.trans h1
    | true =>
      simp only at h2 ⊢
      have h3 := parseNested_suffix k ts c2
      rcases hp : parseNested k ts c2 with ⟨o, c3⟩
      rw [hp] at h3
      cases o <;> exact h3.trans (h2.trans h1)

theorem parsePrecision_suffix (k : CharKind) (ts : List PType) (s : FSpec) (c : Ctx) :
    (parsePrecision k ts s c).2.rest <:+ c.rest := by
  unfold parsePrecision
  have h0 := consumeIf_suffix c 0x2e
  rcases hc0 : c.consumeIf 0x2e with ⟨b, c0⟩
  rw [hc0] at h0
  cases b with
  | false => exact h0
  | true =>
    simp only at h0 ⊢
    have h1 := consumeNumber_suffix k c0
    rcases hn : c0.consumeNumber k with ⟨o, c1⟩
    rw [hn] at h1
    cases o with
    | some w => exact h1.trans h0
    | none =>
      simp only at h1 ⊢
      have h2 := consumeIf_suffix c1 0x7b
      rcases hc : c1.consumeIf 0x7b with ⟨b, c2⟩
      rw [hc] at h2
      cases b with
      | false => exact h2.trans (h1.trans h0)
      | true =>
        simp only at h2 ⊢
        have h3 := parseNested_suffix k ts c2
        rcases hp : parseNested k ts c2 with ⟨o, c3⟩
        rw [hp] at h3
        cases o <;> exact h3.trans (h2.trans (h1.trans h0))

theorem parseLocale_suffix (s : FSpec) (c : Ctx) : (parseLocale s c).2.rest <:+ c.rest := by
  unfold parseLocale
  have h0 := consumeIf_suffix c 0x4c
  rcases hc0 : c.consumeIf 0x4c with ⟨b, c0⟩
  rw [hc0] at h0
  cases b <;> exact h0

theorem parseType_suffix (k : CharKind) (s : FSpec) (c : Ctx) : (parseType k s c).2.rest <:+ c.rest := by
  unfold parseType
  split
  · rename_i ch r h
    split
    · rw [h]; exact ⟨[ch], rfl⟩
    · exact List.suffix_refl _
  · exact List.suffix_refl _

theorem closeField_suffix (s : FSpec) (c : Ctx) : (closeField s c).2.rest <:+ c.rest := by
  unfold closeField
  have h0 := consumeIf_suffix c 0x7d
  rcases hc0 : c.consumeIf 0x7d with ⟨b, c0⟩
  rw [hc0] at h0
  cases b <;> exact h0

theorem validateAs_rest (ts : List PType) (t : PType) (s : FSpec) (c : Ctx) :
    (validateAs ts t s c).rest = c.rest := by
  unfold validateAs checkKind checkLocale checkPrecision checkWidth checkNumeric checkFill
  simp only [parameterType_ctx]
  repeat' split
  all_goals simp only [errorIf_rest, rangeCheck_rest, Ctx.onError]

theorem finishOptions_suffix (ts : List PType) (s : FSpec) (c : Ctx) : (finishOptions ts s c).2.rest <:+ c.rest := by
  unfold finishOptions
  split
  · have := closeField_suffix s (validate ts s c)
    rwa [validate_rest] at this
  · rw [validate_rest]; exact List.suffix_refl _

theorem finishOptionsAs_suffix (ts : List PType) (t : PType) (s : FSpec) (c : Ctx) :
    (finishOptionsAs ts t s c).2.rest <:+ c.rest := by
  unfold finishOptionsAs
  split
  · have := closeField_suffix s (validateAs ts t s c)
    rwa [validateAs_rest] at this
  · rw [validateAs_rest]; exact List.suffix_refl _

theorem parseOptionsAs_suffix (k : CharKind) (ts : List PType) (t : PType) (s : FSpec) (c : Ctx) :
    (parseOptionsAs k ts t s c).2.rest <:+ c.rest := by
  unfold parseOptionsAs
  simp only
  exact (finishOptionsAs_suffix _ _ _ _).trans ((parseType_suffix _ _ _).trans ((parseLocale_suffix _ _).trans
    ((parsePrecision_suffix _ _ _ _).trans ((parseWidth_suffix _ _ _ _).trans ((parseAltZero_suffix _ _).trans
    ((parseSign_suffix _ _).trans (parseFillAlign_suffix _ _)))))))

theorem parseOptions_suffix (k : CharKind) (ts : List PType) (s : FSpec) (c : Ctx) :
    (parseOptions k ts s c).2.rest <:+ c.rest := by
  unfold parseOptions
  simp only
  exact (finishOptions_suffix _ _ _).trans ((parseType_suffix _ _ _).trans ((parseLocale_suffix _ _).trans
    ((parsePrecision_suffix _ _ _ _).trans ((parseWidth_suffix _ _ _ _).trans ((parseAltZero_suffix _ _).trans
    ((parseSign_suffix _ _).trans (parseFillAlign_suffix _ _)))))))

theorem parseBody_suffix (k : CharKind) (us : List UParam) (s : FSpec) (c : Ctx) :
    (parseBody k us s c).2.2.rest <:+ c.rest := by
  unfold parseBody
  split
  · have h0 := consumeIf_suffix c 0x7d
    rcases hc0 : c.consumeIf 0x7d with ⟨b, c0⟩
    rw [hc0] at h0
    cases b <;> exact h0
  · exact List.drop_suffix _ _
  · exact parseOptionsAs_suffix _ _ _ _ _
  · exact parseOptions_suffix _ _ _ _

theorem parseSpecifierU_suffix (k : CharKind) (us : List UParam) (c : Ctx) :
    (parseSpecifierU k us c).2.rest <:+ c.rest ∧
      (parseSpecifierU k us c).1.spec.size = c.rest.length + 1 - (parseSpecifierU k us c).2.rest.length := by
  unfold parseSpecifierU
  have h1 := nextPosition_suffix k c
  rcases hn : c.nextPosition k with ⟨p, c1⟩
  rw [hn] at h1
  simp only [parameterType_ctx] at h1 ⊢
  have h2 := consumeIf_suffix (rangeCheck (typesOf us) p c1) 0x3a
  rw [rangeCheck_rest] at h2
  rcases hc : (rangeCheck (typesOf us) p c1).consumeIf 0x3a with ⟨b, c2⟩
  rw [hc] at h2
  cases b with
  | true =>
    refine ⟨?_, rfl⟩
    have h3 := parseBody_suffix k us { position := p, kind := inferU us[p]? } (rangeCheck (typesOf us) p c2)
    rw [rangeCheck_rest] at h3
    exact h3.trans (h2.trans h1)
  | false => exact ⟨(closeField_suffix _ _).trans (h2.trans h1), rfl⟩

/-- An unfinished field is an error. -/
theorem parseSpecifierU_nil (k : CharKind) (us : List UParam) (c : Ctx) (h : c.rest = []) :
    (parseSpecifierU k us c).2.err ≠ none := by
  unfold parseSpecifierU
  have h1 := nextPosition_suffix k c
  rcases hn : c.nextPosition k with ⟨p, c1⟩
  rw [hn, h] at h1
  have h1 : c1.rest = [] := List.eq_nil_of_suffix_nil h1
  simp only [parameterType_ctx]
  rw [consumeIf_neg (by rw [rangeCheck_rest, h1]; simp)]
  simp only
  unfold closeField
  rw [consumeIf_neg (by rw [rangeCheck_rest, h1]; simp)]
  simp [Ctx.onError]

theorem loopU_lockstep (k : CharKind) (us : List UParam) : ∀ (fuel : Nat) (ss : List USpec) (c : Ctx),
    (parseLoopU k us fuel ss c).2.err = none → ∃ ss', (parseLoopU k us fuel ss c).1 = ss ++ ss' ∧
      ∀ (n : Nat) (d : Ctx), c.rest.length < n → formatLoopU k us n ss' c.rest d ≠ none := by
  intro fuel
  induction fuel with
  | zero => intro ss c h; exact absurd h (by simp [parseLoopU, Ctx.onError])
  | succ fuel ih =>
    intro ss c h
    have stop : ∀ ss c, c.err ≠ none → (parseLoopU k us fuel ss c).2.err ≠ none := by
      intro ss c hc
      cases fuel with
      | zero => simp [parseLoopU, Ctx.onError]
      | succ fuel => unfold parseLoopU; rw [if_pos hc]; exact hc
    unfold parseLoopU at h ⊢
    split at h
    · rename_i hc; exact absurd h hc
    rename_i hc
    rw [if_neg hc]
    cases hr : c.rest with
    | nil =>
      exact ⟨[], by simp, fun n d hn => by cases n with | zero => simp at hn | succ n => simp [formatLoopU]⟩
    | cons ch r =>
      rw [hr] at h
      simp only at h ⊢
      by_cases hb : ch = 0x7b
      · subst hb
        rw [if_pos rfl] at h
        rw [if_pos rfl]
        by_cases hb2 : r.head? = some 0x7b
        · obtain ⟨r', rfl⟩ : ∃ r', r = 0x7b :: r' := by
            cases r with
            | nil => simp at hb2
            | cons x r => simp at hb2; subst hb2; exact ⟨r, rfl⟩
          rw [consumeIf_pos (r := r') rfl] at h ⊢
          simp only at h ⊢
          obtain ⟨ss', e, hf⟩ := ih _ _ h
          refine ⟨ss', e, fun n d hn => ?_⟩
          cases n with
          | zero => simp at hn
          | succ n =>
            have := hf n d (by simp at hn ⊢; omega)
            simp only at this
            unfold formatLoopU
            rw [if_pos rfl]
            simp only [if_true]
            simpa using this
        · rw [consumeIf_neg hb2] at h ⊢
          simp only at h ⊢
          split at h
          · exact absurd h (stop _ _ (by simp [Ctx.onError]))
          rename_i hlen
          rw [if_neg hlen]
          generalize hc' : ({ c with rest := r } : Ctx) = c' at h ⊢
          have hr' : c'.rest = r := by rw [← hc']
          obtain ⟨hsuf, hsize⟩ := parseSpecifierU_suffix k us c'
          have hne : c'.rest ≠ [] := by
            intro e
            exact absurd h (stop _ _ (parseSpecifierU_nil k us c' e))
          obtain ⟨ss', e, hf⟩ := ih _ _ h
          refine ⟨(parseSpecifierU k us c').1 :: ss', by rw [e, List.append_assoc]; rfl, fun n d hn => ?_⟩
          cases n with
          | zero => simp at hn
          | succ n =>
            unfold formatLoopU
            rw [if_pos rfl]
            cases hrr : r with
            | nil => exact absurd (hr'.trans hrr) hne
            | cons x r' =>
              simp only
              rw [if_neg (by rintro rfl; exact hb2 (by rw [hrr]; rfl))]
              obtain ⟨pre, hpre⟩ := hsuf
              have hd : (0x7b :: x :: r').drop (parseSpecifierU k us c').1.spec.size =
                  (parseSpecifierU k us c').2.rest := by
                rw [hsize, ← hrr, ← hr', ← hpre]
                have : (pre ++ (parseSpecifierU k us c').2.rest).length + 1 -
                    (parseSpecifierU k us c').2.rest.length = pre.length + 1 := by
                  rw [List.length_append]; omega
                rw [this, List.drop_succ_cons, List.drop_left]
              rw [hd]
              have hlt : (parseSpecifierU k us c').2.rest.length < n := by
                have := congrArg List.length hpre
                rw [List.length_append, hr'] at this
                simp only [List.length_cons] at hn
                omega
              have := hf n ((match us[(parseSpecifierU k us c').1.spec.position]? with
                | some u => formatU1 k us (parseSpecifierU k us c').1 d u
                | .none => ([], d)).2) hlt
              simpa using this
      · rw [if_neg hb] at h
        rw [if_neg hb]
        by_cases hb3 : ch = 0x7d
        · subst hb3
          rw [if_pos rfl] at h
          rw [if_pos rfl]
          by_cases hb2 : r.head? = some 0x7d
          · obtain ⟨r', rfl⟩ : ∃ r', r = 0x7d :: r' := by
              cases r with
              | nil => simp at hb2
              | cons x r => simp at hb2; subst hb2; exact ⟨r, rfl⟩
            rw [consumeIf_pos (r := r') rfl] at h ⊢
            simp only at h ⊢
            obtain ⟨ss', e, hf⟩ := ih _ _ h
            refine ⟨ss', e, fun n d hn => ?_⟩
            cases n with
            | zero => simp at hn
            | succ n =>
              have := hf n d (by simp at hn ⊢; omega)
              unfold formatLoopU
              rw [if_neg (by decide), if_pos rfl]
              simpa using this
          · rw [consumeIf_neg hb2] at h
            exact absurd h (stop _ _ (by simp [Ctx.onError]))
        · rw [if_neg hb3] at h
          rw [if_neg hb3]
          obtain ⟨ss', e, hf⟩ := ih _ _ h
          refine ⟨ss', e, fun n d hn => ?_⟩
          cases n with
          | zero => simp at hn
          | succ n =>
            have := hf n d (by simp at hn ⊢; omega)
            unfold formatLoopU
            rw [if_neg hb, if_neg hb3]
            simpa using this

/-- Formatting has no undefined behaviour whatever the types of the parameters are and whatever the `parse`
methods of user-defined formatters consume: an accepted string is walked within its bounds and its list of
fields. -/
theorem format_user_never_ub (k : CharKind) (fmt : List Nat) (us : List UParam) : formatU k fmt us ≠ .ub := by
  unfold formatU
  rcases hl : parseLoopU k us (fmt.length + 1) [] { rest := fmt } with ⟨ss, c⟩
  simp only
  cases he : c.err with
  | some e => simp
  | none =>
    obtain ⟨ss', e, hf⟩ := loopU_lockstep k us (fmt.length + 1) [] { rest := fmt } (by rw [hl]; exact he)
    rw [hl, List.nil_append] at e
    simp only at e ⊢
    have := hf (fmt.length + 1) c (by simp)
    rw [e]
    cases hx : formatLoopU k us (fmt.length + 1) ss' fmt c with
    | none => exact absurd hx this
    | some t => simp

end Verif.Format
