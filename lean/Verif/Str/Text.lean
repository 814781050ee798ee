import Verif.Format.Props
import Verif.Json.ConvertProps
import Verif.Unicode.Props

/-!
# `BasicString::join`, `BasicString::convert` and `BasicString::generate_random_string` (C99-C101)

Sources: `/repo/fly/types/string/string.hpp` 752-831 and
`/repo/fly/types/string/detail/converter.hpp`. `std::from_chars` (standard library) is modelled for
integral types only; the random engine is an arbitrary sequence of values in the range asked for.
-/

namespace Verif.Str

open Verif.Format (Param Outcome format FSpec PType)
open Verif.Unicode (Enc)

/-! ## Model -/

/-- The string returned by `format`; `none` if the format string was refused or the behaviour is
undefined. -/
def textOf : Outcome → Option (List Nat)
  | .text t => some t
  | _ => none

/-- `join` and `join_internal` (string.hpp 778-807): every argument but the last is formatted together
with the separator. At least one argument is required by the language. -/
def join (k : CharKind) (sep : Nat) : List Param → Option (List Nat)
  | [] => some []
  | [v] => textOf (format k [0x7b, 0x7d] [v])
  | v :: w :: vs => do
    let t ← textOf (format k [0x7b, 0x7d, 0x7b, 0x7d] [v, .int true k.signed k.width sep])
    let r ← join k sep (w :: vs)
    return t ++ r

/-- `convert<T>` for an integral type (string.hpp 810-831): strings of other character types are
converted to UTF-8 first. `src` is the encoding of the string, `plain` whether its characters are
`char`. -/
def convertInt (src : Enc) (plain : Bool) (t : Verif.Json.IntTy) (s : List Nat) : Option Int :=
  if plain then Verif.Json.fromChars t s
  else match Verif.Unicode.convert src (.utf8 true) s with
    | some u => Verif.Json.fromChars t u
    | none => none

/-- `s_alpha_num` (string.hpp 430-431). -/
def alphaNum : List Nat :=
  (List.range 10).map (0x30 + ·) ++ (List.range 26).map (0x41 + ·) ++ (List.range 26).map (0x61 + ·)

/-- `generate_random_string` (string.hpp 752-775): `draw i` is the `i`-th value of the distribution
over `0 .. limit`; `none` is a read outside the table. -/
def randomString (draw : Nat → Nat) : Nat → Nat → Option (List Nat)
  | _, 0 => some []
  | i, n + 1 => do
    let c ← alphaNum[draw i]?
    let r ← randomString draw (i + 1) n
    return c :: r

/-- `limit` (string.hpp 757). -/
def randomLimit : Nat := alphaNum.length - 1

/-- `generate_random_string` with the distribution it makes (string.hpp 757-775): `draw limit i` is the `i`-th value
a uniform distribution over `0 .. limit` gives on this thread; `i` values were drawn before the call. -/
def generateRandomString (draw : Nat → Nat → Nat) (i n : Nat) : Option (List Nat) :=
  randomString (draw randomLimit) i n

/-! ## The format strings of `join` -/

theorem parse_one {k : CharKind} (hk : IsCharKind k) (t : PType) :
    Verif.Format.parseFormat k [t] [0x7b, 0x7d]
      = .ok [{ position := 0, kind := Verif.Format.defaultKind t, size := 2 }] := by
  cases hk <;> cases t <;> rfl

theorem parse_two {k : CharKind} (hk : IsCharKind k) (t : PType) :
    Verif.Format.parseFormat k [t, .character] [0x7b, 0x7d, 0x7b, 0x7d]
      = .ok [{ position := 0, kind := Verif.Format.defaultKind t, size := 2 },
        { position := 1, kind := .character, size := 2 }] := by
  cases hk <;> cases t <;> rfl

/-- The request of an empty replacement field. -/
def plainSpec (t : PType) : FSpec := { position := 0, kind := Verif.Format.defaultKind t, size := 2 }

theorem format_one {k : CharKind} (hk : IsCharKind k) (v : Param) :
    format k [0x7b, 0x7d] [v]
      = .text (Verif.Format.formatParam (Verif.Format.maxCharOf k) (plainSpec v.type) [v] v) := by
  unfold format
  simp only [List.map_cons, List.map_nil, parse_one hk v.type]
  simp [Verif.Format.formatLoop, plainSpec]

theorem formatParam_alone {mc : Nat} {s : FSpec} (hw : s.widthPos = none) (hp : s.precPos = none)
    (ps ps' : List Param) (v : Param) :
    Verif.Format.formatParam mc s ps v = Verif.Format.formatParam mc s ps' v := by
  have ew : ∀ f, s.widthOf ps f = s.widthOf ps' f := fun f => by simp [FSpec.widthOf, hw]
  have ep : ∀ f, s.precisionOf ps f = s.precisionOf ps' f := fun f => by simp [FSpec.precisionOf, hp]
  have eu : ∀ v n, Verif.Format.formatUnsigned mc s ps v n = Verif.Format.formatUnsigned mc s ps' v n := by
    intro v n
    unfold Verif.Format.formatUnsigned Verif.Format.formatAsCharacter
    simp only [ew]
  have es : ∀ ap u, Verif.Format.formatStringWith ap s ps u = Verif.Format.formatStringWith ap s ps' u := by
    intro ap u
    unfold Verif.Format.formatStringWith
    simp only [ew, ep]
  cases v with
  | int c sg b r => simp only [Verif.Format.formatParam, Verif.Format.formatInteger, eu]
  | str u => simp only [Verif.Format.formatParam, Verif.Format.formatString, es]
  | foreign a b u => simp only [Verif.Format.formatParam, Verif.Format.formatForeign, es]
  | ptr a =>
    simp only [Verif.Format.formatParam]
    unfold Verif.Format.formatUnsigned
    simp [FSpec.widthOf, hw]
  | float f =>
    simp only [Verif.Format.formatParam]
    unfold Verif.Format.formatFloat
    simp only [ew, ep]
  | bool b => simp only [Verif.Format.formatParam, Verif.Format.formatString, es, eu]

/-- What a separator is printed as: itself, unless it is a negative character. -/
theorem format_two {k : CharKind} (hk : IsCharKind k) (v : Param) (sep : Nat) (hs : sep < 2 ^ k.width) :
    format k [0x7b, 0x7d, 0x7b, 0x7d] [v, .int true k.signed k.width sep]
      = .text (Verif.Format.formatParam (Verif.Format.maxCharOf k) (plainSpec v.type) [v] v
          ++ (if k.neg sep then [] else [sep])) := by
  have hsep : Verif.Format.formatParam (Verif.Format.maxCharOf k)
      { position := 1, kind := .character, size := 2 } [v, .int true k.signed k.width sep]
      (.int true k.signed k.width sep) = if k.neg sep then [] else [sep] := by
    have hw : 0 < k.width := by cases hk <;> decide
    have hch : ∀ (ps : List Param) (n : Nat) (b : Bool), Verif.Format.formatUnsigned (Verif.Format.maxCharOf k)
        { position := 1, kind := .character, size := 2 } ps n b
        = if b ∨ n > Verif.Format.maxCharOf k then [] else [n] := by
      intro ps n b
      simp [Verif.Format.formatUnsigned, Verif.Format.formatAsCharacter, FSpec.widthOf,
        Verif.Format.padding]
    simp only [Verif.Format.formatParam, Verif.Format.formatInteger]
    cases hg : k.signed with
    | true =>
      obtain ⟨h1, h2⟩ := Verif.Format.absolute hw hs
      simp only [if_true]
      rw [h1, h2, hch]
      have hm : Verif.Format.maxCharOf k = 2 ^ (k.width - 1) - 1 := by simp [Verif.Format.maxCharOf, hg]
      have hpos : 0 < 2 ^ (k.width - 1) := Nat.two_pow_pos _
      have hlt : (sep : Int) < 2 ^ k.width := by exact_mod_cast hs
      rw [hm]
      by_cases hn : 2 ^ (k.width - 1) ≤ sep
      · have hi : Verif.Format.intValue true k.width sep < 0 := by
          unfold Verif.Format.intValue; rw [if_pos ⟨rfl, hn⟩]; omega
        simp [CharKind.neg, hg, hn, hi]
      · have hi : Verif.Format.intValue true k.width sep = sep := by
          unfold Verif.Format.intValue; rw [if_neg (fun h => hn h.2)]
        rw [hi]
        simp only [CharKind.neg, hg, hn, decide_false, Bool.and_false, Bool.false_eq_true, if_false,
          Int.natAbs_natCast]
        rw [if_neg (by simp; omega)]
    | false =>
      simp only [Bool.false_eq_true, if_false]
      rw [hch]
      have hm : Verif.Format.maxCharOf k = 2 ^ k.width - 1 := by simp [Verif.Format.maxCharOf, hg]
      rw [hm, if_neg (by simp; omega)]
      simp [CharKind.neg, hg]
  have halone := formatParam_alone (mc := Verif.Format.maxCharOf k) (s := plainSpec v.type) rfl rfl
    [v, .int true k.signed k.width sep] [v] v
  unfold format
  have hp := parse_two hk v.type
  have ht : [v, Param.int true k.signed k.width sep].map Param.type = [v.type, .character] := rfl
  rw [ht, hp]
  simp only [plainSpec] at halone ⊢
  simp [Verif.Format.formatLoop, hsep, halone]

/-! ## C99 -/

/-- The text of a value printed alone. -/
def shown (k : CharKind) (v : Param) : List Nat :=
  Verif.Format.formatParam (Verif.Format.maxCharOf k) (plainSpec v.type) [v] v

theorem format_shown {k : CharKind} (hk : IsCharKind k) (v : Param) :
    format k [0x7b, 0x7d] [v] = .text (shown k v) := format_one hk v

theorem join_shown {k : CharKind} (hk : IsCharKind k) (sep : Nat) (hs : sep < 2 ^ k.width)
    (hn : k.neg sep = false) : ∀ vs : List Param, join k sep vs = some (joinWith sep (vs.map (shown k)))
  | [] => rfl
  | [v] => by simp [join, format_shown hk, textOf, joinWith]
  | v :: w :: vs => by
    rw [join, format_two hk v sep hs, join_shown hk sep hs hn (w :: vs)]
    simp [textOf, hn, joinWith, shown]

/-- C99: `join` is the texts of its arguments, each as formatted alone, with one separator between
neighbours; for every separator that is not a negative character. -/
theorem join_texts_partial {k : CharKind} (hk : IsCharKind k) (sep : Nat) (hs : sep < 2 ^ k.width)
    (hn : k.neg sep = false) (vs : List Param) :
    ∃ texts : List (List Nat), vs.map (fun v => format k [0x7b, 0x7d] [v]) = texts.map Outcome.text
      ∧ join k sep vs = some (joinWith sep texts) :=
  ⟨vs.map (shown k), by simp [format_shown hk], join_shown hk sep hs hn vs⟩

example : join ⟨8, true⟩ 0x2c [.str [0x61], .int false true 32 (2 ^ 32 - 7), .bool true]
    = some [0x61, 0x2c, 0x2d, 0x37, 0x2c, 0x74, 0x72, 0x75, 0x65] := by decide +kernel

/-- C99 refuted: a separator at or above 0x80 (negative as `char`) is left out. -/
theorem join_negative_separator_violated :
    join ⟨8, true⟩ 0xa7 [.str [0x61], .str [0x62]] = some [0x61, 0x62] := by decide +kernel

/-- A string prints as itself. -/
theorem shown_str (k : CharKind) (u : List Nat) (h : u.length < 2 ^ 64) : shown k (.str u) = u := by
  have hl : min (2 ^ 64 - 1) u.length = u.length := by omega
  simp only [shown, Verif.Format.formatParam, Verif.Format.formatString, Verif.Format.formatStringWith,
    plainSpec, FSpec.precisionOf, FSpec.widthOf, Option.getD_none]
  simp [Verif.Format.padding]
  exact List.take_of_length_le (by omega)

theorem pieces_join {d : Nat} : ∀ {ps : List (List Nat)}, (∀ p ∈ ps, p ≠ [] ∧ d ∉ p) →
    Pieces d (joinWith d ps) ps
  | [], _ => .nil
  | [p], h => .last (h p (by simp)).1 (h p (by simp)).2
  | p :: q :: r, h => by
    rw [joinWith]
    exact .piece (h p (by simp)).1 (h p (by simp)).2
      (pieces_join (fun x hx => h x (List.mem_cons_of_mem _ hx)))

/-- C99: splitting a joined string gives the strings back. -/
theorem split_join {k : CharKind} (hk : IsCharKind k) (sep : Nat) (hs : sep < 2 ^ k.width)
    (hn : k.neg sep = false) (ps : List (List Nat)) (hp : ∀ p ∈ ps, p ≠ [] ∧ sep ∉ p ∧ p.length < 2 ^ 64) :
    ∃ s, join k sep (ps.map Param.str) = some s ∧ split s sep 0 = ps := by
  refine ⟨joinWith sep ps, ?_, ?_⟩
  · rw [join_shown hk sep hs hn, List.map_map]
    have e : ps.map (shown k ∘ Param.str) = ps.map id :=
      List.map_congr_left (fun p h => shown_str k p (hp p h).2.2)
    rw [e, List.map_id]
  · exact pieces_unique (split_pieces _ _) (pieces_join (fun p h => ⟨(hp p h).1, (hp p h).2.1⟩))

example : join ⟨16, false⟩ 0x2f ([[0x61], [0x62, 0x63]].map Param.str) = some [0x61, 0x2f, 0x62, 0x63]
    ∧ split [0x61, 0x2f, 0x62, 0x63] 0x2f 0 = [[0x61], [0x62, 0x63]] := by decide +kernel

/-! ## C100 -/

open Verif.Json (IntTy DecimalText fromChars) in
theorem fromChars_iff (t : IntTy) (s : List Nat) (x : Int) :
    fromChars t s = some x ↔ DecimalText t.signed s x ∧ t.Holds x := by
  rw [← (Verif.Json.json_text_to_integer t s).1 x]
  simp only [Verif.Json.toInt]
  cases fromChars t s <;> simp

theorem formOf_small (e : Enc) {c : Nat} (h : c < 0x80) : Verif.Unicode.formOf e c = [c] := by
  cases e
  · simp [Verif.Unicode.formOf, Verif.Unicode.utf8Of, h]
  · simp only [Verif.Unicode.formOf, Verif.Unicode.utf16Of]; rw [if_pos (by omega)]
  · rfl

theorem flatMap_small (e : Enc) (cps : List Nat) (h : ∀ c ∈ cps, c < 0x80) :
    cps.flatMap (Verif.Unicode.formOf e) = cps := by
  induction cps with
  | nil => rfl
  | cons c cps ih =>
    rw [List.flatMap_cons, formOf_small e (h c List.mem_cons_self),
      ih (fun x hx => h x (List.mem_cons_of_mem _ hx))]
    rfl

theorem utf8_large {c : Nat} (h : 0x80 ≤ c) : ∃ b ∈ Verif.Unicode.utf8Of c, 0x80 ≤ b := by
  unfold Verif.Unicode.utf8Of
  rw [if_neg (by omega)]
  split
  · exact ⟨_, List.mem_cons_self, by omega⟩
  · split
    · exact ⟨_, List.mem_cons_self, by omega⟩
    · exact ⟨_, List.mem_cons_self, by omega⟩

/-- Converting to UTF-8 leaves exactly the ASCII strings unchanged, and gives an ASCII string only for
them. -/
theorem convert_ascii (src : Enc) (s u : List Nat) (hs : ∀ c ∈ s, c < Verif.Unicode.unitBound src)
    (hu : ∀ c ∈ u, c < 0x80) :
    Verif.Unicode.convert src (.utf8 true) s = some u ↔ s = u := by
  constructor
  · intro h
    obtain ⟨h0, h1⟩ := Verif.Unicode.convert_roundtrip src (.utf8 true) s hs
    cases hv : Verif.Unicode.validate src s with
    | false => rw [h0 hv] at h; cases h
    | true =>
      obtain ⟨cps, t, _, e1, e2, e3, _, _⟩ := h1 hv
      rw [e3] at h
      cases h
      have hc : ∀ c ∈ cps, c < 0x80 := by
        intro c hc
        refine Nat.lt_of_not_le fun hle => ?_
        obtain ⟨b, hb, hb'⟩ := utf8_large hle
        have := hu b (by rw [e2]; exact List.mem_flatMap.2 ⟨c, hc, hb⟩)
        omega
      rw [e1, e2, flatMap_small _ _ hc, flatMap_small _ _ hc]
  · rintro rfl
    have hd : Verif.Unicode.decodeAll src s = some s := by
      rw [Verif.Unicode.decodeAll_iff src _ s rfl hs]
      refine ⟨fun c hc => ?_, (flatMap_small _ _ hu).symm⟩
      have := hu c hc
      unfold Verif.Unicode.Scalar
      omega
    have hf : s.flatMap (Verif.Unicode.codepointToString (.utf8 true))
        = s.flatMap (Verif.Unicode.formOf (.utf8 true)) := by
      simp only [List.flatMap_def]
      congr 1
      refine List.map_congr_left fun c hc => Verif.Unicode.codepointToString_eq _ ?_
      have := hu c hc
      unfold Verif.Unicode.Scalar
      omega
    rw [Verif.Unicode.convert, hd, Option.map_some, hf, flatMap_small _ _ hu]

theorem decimal_ascii {m : Bool} {s : List Nat} {x : Int} (h : Verif.Json.DecimalText m s x) :
    ∀ c ∈ s, c < 0x80 := by
  have hd : ∀ ds : List Nat, (∀ c ∈ ds, AsciiDigit c) → ∀ c ∈ ds, c < 0x80 := by
    intro ds h c hc
    have := h c hc
    unfold AsciiDigit at this
    omega
  cases h with
  | pos _ _ h2 => exact hd _ h2
  | neg ds _ _ h2 =>
    intro c hc
    rw [List.mem_cons] at hc
    rcases hc with rfl | hc
    · omega
    · exact hd ds h2 c hc

/-- C100: a string of any character type converts to an integer exactly if it is a decimal numeral
(with a minus sign only for signed types) of a value of the type, and gives that value; there are no
blanks, no plus sign, no trailing text, no wrapping. -/
theorem convert_integer (src : Enc) (plain : Bool) (t : Verif.Json.IntTy) (s : List Nat)
    (hs : ∀ c ∈ s, c < Verif.Unicode.unitBound src) (x : Int) :
    convertInt src plain t s = some x ↔ Verif.Json.DecimalText t.signed s x ∧ t.Holds x := by
  unfold convertInt
  cases plain with
  | true => exact fromChars_iff t s x
  | false =>
    simp only [Bool.false_eq_true, if_false]
    constructor
    · intro h
      cases hc : Verif.Unicode.convert src (.utf8 true) s with
      | none => rw [hc] at h; cases h
      | some u =>
        rw [hc] at h
        have hd := (fromChars_iff t u x).1 h
        rw [(convert_ascii src s u hs (decimal_ascii hd.1)).1 hc]
        exact hd
    · intro h
      rw [(convert_ascii src s s hs (decimal_ascii h.1)).2 rfl]
      exact (fromChars_iff t s x).2 h

example : convertInt .utf16 false ⟨true, 8⟩ [0x2d, 0x31, 0x32, 0x38] = some (-128) ∧
    convertInt .utf16 false ⟨true, 8⟩ [0x31, 0x32, 0x38] = none ∧
    convertInt (.utf8 true) true ⟨false, 32⟩ [0x2d, 0x31] = none := by decide +kernel

/-- The text of an integer printed alone. -/
theorem shown_int {k : CharKind} {signed : Bool} {bits repr : Nat} (hb : 0 < bits) (hr : repr < 2 ^ bits) :
    Verif.Json.DecimalText signed (shown k (.int false signed bits repr))
      (Verif.Format.intValue signed bits repr) := by
  have h := Verif.Format.format_integer (maxChar := Verif.Format.maxCharOf k)
    (s := plainSpec .integral) (ps := [.int false signed bits repr]) (b := 10) rfl
    (signed := signed) hb hr
  obtain ⟨base, ds, hbase, hn, _, hpad⟩ := h
  have hb10 : base = 10 := hbase
  subst hb10
  have hz : (plainSpec PType.integral).zero = false := rfl
  rw [if_neg (by simp [hz])] at hpad
  obtain ⟨l, r, ho, hlr, _⟩ := hpad
  have hw : (plainSpec PType.integral).widthOf [Param.int false signed bits repr] 0 = 0 := rfl
  rw [hw] at hlr
  have hl : l = 0 := by omega
  have hr0 : r = 0 := by omega
  subst hl hr0
  simp only [List.replicate_zero, List.nil_append, List.append_nil] at ho
  have hsh : shown k (.int false signed bits repr) = Verif.Format.formatInteger (Verif.Format.maxCharOf k)
      (plainSpec .integral) [.int false signed bits repr] signed bits repr := rfl
  rw [hsh, ho]
  have hdig : ∀ c ∈ ds, AsciiDigit c := by
    intro c hc
    have := hn.digits c hc
    simp only [Verif.Format.BaseDigit] at this
    unfold AsciiDigit
    omega
  have hval := hn.value
  by_cases hneg : Verif.Format.intValue signed bits repr < 0
  · have hsig : signed = true := by
      cases hs : signed with
      | true => rfl
      | false => rw [hs] at hneg; simp only [Verif.Format.intValue] at hneg; exact absurd hneg (by simp)
    have e : Verif.Format.intValue signed bits repr = -(numeral 10 ds : Int) := by rw [hval]; omega
    simp only [hneg, decide_true, Verif.Format.signText, Verif.Format.altText, if_true, plainSpec]
    rw [e]
    exact .neg ds hsig hn.nonempty hdig
  · have e : Verif.Format.intValue signed bits repr = (numeral 10 ds : Int) := by rw [hval]; omega
    simp only [hneg, decide_false, Verif.Format.signText, Verif.Format.altText, plainSpec]
    rw [e]
    exact .pos ds hn.nonempty hdig

/-- The value of a representation is a value of the type. -/
theorem intValue_holds {signed : Bool} {bits repr : Nat} (hb : 0 < bits) (hr : repr < 2 ^ bits) :
    (⟨signed, bits⟩ : Verif.Json.IntTy).Holds (Verif.Format.intValue signed bits repr) := by
  have hp : 2 ^ bits = 2 * 2 ^ (bits - 1) := by
    obtain ⟨n, rfl⟩ : ∃ n, bits = n + 1 := ⟨bits - 1, by omega⟩
    rw [Nat.pow_succ]; simp; omega
  have hpi : (2 : Int) ^ bits = 2 * 2 ^ (bits - 1) := by exact_mod_cast hp
  have hri : (repr : Int) < 2 ^ bits := by exact_mod_cast hr
  unfold Verif.Json.IntTy.Holds Verif.Format.intValue
  cases signed with
  | false => simp; exact hri
  | true =>
    simp only [if_true, true_and]
    by_cases h : 2 ^ (bits - 1) ≤ repr
    · have hi : (2 : Int) ^ (bits - 1) ≤ repr := by exact_mod_cast h
      rw [if_pos h]
      omega
    · have hi : (repr : Int) < 2 ^ (bits - 1) := by exact_mod_cast (Nat.lt_of_not_le h)
      rw [if_neg h]
      omega

/-- C100: an integer formatted with `{}` converts back to itself, in every character type. -/
theorem format_convert_roundtrip {k : CharKind} (hk : IsCharKind k) (src : Enc) (plain : Bool)
    {signed : Bool} {bits repr : Nat} (hb : 0 < bits) (hr : repr < 2 ^ bits) :
    ∃ s, format k [0x7b, 0x7d] [.int false signed bits repr] = .text s ∧
      convertInt src plain ⟨signed, bits⟩ s = some (Verif.Format.intValue signed bits repr) := by
  refine ⟨_, format_shown hk _, ?_⟩
  have hd := shown_int (k := k) (signed := signed) hb hr
  rw [convert_integer]
  · exact ⟨hd, intValue_holds hb hr⟩
  · intro c hc
    have := decimal_ascii hd c hc
    cases src <;> simp only [Verif.Unicode.unitBound] <;> omega

example : format ⟨32, false⟩ [0x7b, 0x7d] [.int false true 16 0xff85] = .text [0x2d, 0x31, 0x32, 0x33] ∧
    Verif.Format.intValue true 16 0xff85 = -123 := by decide +kernel

/-! ## C101 -/

theorem random_string_raw (draw : Nat → Nat) (hd : ∀ i, draw i ≤ alphaNum.length - 1) (n i : Nat) :
    ∃ s, randomString draw i n = some s ∧ s.length = n ∧
      ∀ c ∈ s, AsciiDigit c ∨ AsciiUpper c ∨ AsciiLower c := by
  have hlen : alphaNum.length = 62 := by decide
  have hall : ∀ c ∈ alphaNum, AsciiDigit c ∨ AsciiUpper c ∨ AsciiLower c := by
    intro c hc
    simp only [alphaNum, List.mem_append, List.mem_map, List.mem_range] at hc
    unfold AsciiDigit AsciiUpper AsciiLower
    rcases hc with (⟨a, ha, rfl⟩ | ⟨a, ha, rfl⟩) | ⟨a, ha, rfl⟩ <;> omega
  induction n generalizing i with
  | zero => exact ⟨[], rfl, rfl, by simp⟩
  | succ n ih =>
    obtain ⟨r, h1, h2, h3⟩ := ih (i + 1)
    have hi : draw i < alphaNum.length := by have := hd i; omega
    refine ⟨alphaNum[draw i] :: r, ?_, by simp [h2], ?_⟩
    · rw [randomString, List.getElem?_eq_getElem hi, h1]; rfl
    · intro c hc
      rw [List.mem_cons] at hc
      rcases hc with rfl | hc
      · exact hall _ (List.getElem_mem hi)
      · exact h3 c hc

theorem random_string_onto_raw (s : List Nat) (hs : ∀ c ∈ s, AsciiDigit c ∨ AsciiUpper c ∨ AsciiLower c) :
    ∃ draw, (∀ i, draw i ≤ alphaNum.length - 1) ∧ randomString draw 0 s.length = some s := by
  have hall : ∀ c, (AsciiDigit c ∨ AsciiUpper c ∨ AsciiLower c) → c ∈ alphaNum := by
    intro c hc
    simp only [alphaNum, List.mem_append, List.mem_map, List.mem_range]
    unfold AsciiDigit AsciiUpper AsciiLower at hc
    rcases hc with h | h | h
    · exact Or.inl (Or.inl ⟨c - 0x30, by omega, by omega⟩)
    · exact Or.inl (Or.inr ⟨c - 0x41, by omega, by omega⟩)
    · exact Or.inr ⟨c - 0x61, by omega, by omega⟩
  have hlen : alphaNum.length = 62 := by decide
  refine ⟨fun i => min (alphaNum.idxOf (s.getD i 0)) 61, fun i => by rw [hlen]; exact Nat.min_le_right _ _, ?_⟩
  have gen : ∀ (pre r : List Nat), (∀ c ∈ r, c ∈ alphaNum) →
      randomString (fun i => min (alphaNum.idxOf ((pre ++ r).getD i 0)) 61) pre.length r.length = some r := by
    intro pre r
    induction r generalizing pre with
    | nil => intro _; rfl
    | cons c r ih =>
      intro h
      have hc : c ∈ alphaNum := h c List.mem_cons_self
      have hlt := List.idxOf_lt_length_of_mem hc
      have e0 : (pre ++ c :: r).getD pre.length 0 = c := by
        simp [List.getD_eq_getElem?_getD]
      have e1 : min (alphaNum.idxOf c) 61 = alphaNum.idxOf c := by omega
      have e2 : pre ++ c :: r = (pre ++ [c]) ++ r := by simp
      have := ih (pre ++ [c]) (fun x hx => h x (List.mem_cons_of_mem _ hx))
      rw [List.length_cons, randomString, e0, e1, List.getElem?_eq_getElem hlt, List.getElem_idxOf hlt]
      rw [e2]
      rw [List.length_append, List.length_singleton] at this
      rw [this]
      rfl
  exact gen [] s (fun c hc => hall c (hs c hc))

/-- C101: a random string has exactly the length asked for and consists of ASCII letters and digits,
whatever the random engine draws; the table is never read out of bounds. -/
theorem random_string (draw : Nat → Nat → Nat) (hd : ∀ limit i, draw limit i ≤ limit) (n i : Nat) :
    ∃ s, generateRandomString draw i n = some s ∧ s.length = n ∧
      ∀ c ∈ s, AsciiDigit c ∨ AsciiUpper c ∨ AsciiLower c :=
  random_string_raw _ (fun i => hd _ i) n i

/-- C101: every string of letters and digits can come out. -/
theorem random_string_onto (s : List Nat) (hs : ∀ c ∈ s, AsciiDigit c ∨ AsciiUpper c ∨ AsciiLower c) :
    ∃ draw : Nat → Nat → Nat, (∀ limit i, draw limit i ≤ limit) ∧ generateRandomString draw 0 s.length = some s := by
  obtain ⟨draw, h1, h2⟩ := random_string_onto_raw s hs
  refine ⟨fun limit i => min (draw i) limit, fun _ _ => Nat.min_le_right _ _, ?_⟩
  have : (fun i => min (draw i) randomLimit) = draw := funext fun i => Nat.min_eq_left (h1 i)
  show randomString (fun i => min (draw i) randomLimit) 0 s.length = some s
  rw [this]
  exact h2

example : generateRandomString (fun limit i => limit - i) 0 3 = some [0x7a, 0x79, 0x78] := by decide

example : randomString (fun i => 61 - i) 0 3 = some [0x7a, 0x79, 0x78] := by decide

end Verif.Str
