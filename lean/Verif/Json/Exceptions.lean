import Verif.Json.Exchange
import Verif.Format.Props

/-!
# C116: the exceptions of JSON values say what went wrong

Sources: `/repo/fly/types/json/json_exception.cpp`, `/repo/fly/types/json/json.hpp` 1781-1806, 2119-2149.
-/

namespace Verif.Json

open Verif.Format (format Outcome Param)

/-! ## Model -/

/-- `"JsonException: {}"` (json_exception.cpp 10). -/
def plainFmt : List Nat :=
  [0x4a, 0x73, 0x6f, 0x6e, 0x45, 0x78, 0x63, 0x65, 0x70, 0x74, 0x69, 0x6f, 0x6e, 0x3a, 0x20, 0x7b, 0x7d]

/-- `"JsonException: {}: ({})"` (json_exception.cpp 16). -/
def jsonFmt : List Nat :=
  [0x4a, 0x73, 0x6f, 0x6e, 0x45, 0x78, 0x63, 0x65, 0x70, 0x74, 0x69, 0x6f, 0x6e, 0x3a, 0x20, 0x7b, 0x7d,
   0x3a, 0x20, 0x28, 0x7b, 0x7d, 0x29]

/-- `"{}: {}"` (json_exception.cpp 22). -/
def classFmt : List Nat :=
  [0x7b, 0x7d, 0x3a, 0x20, 0x7b, 0x7d]

/-- `"{}: ({})"` (json_exception.cpp 34). -/
def iteratorFmt : List Nat :=
  [0x7b, 0x7d, 0x3a, 0x20, 0x28, 0x7b, 0x7d, 0x29]

/-- `"Cannot compare iterators of different JSON instances: ({}) ({})"` (json_exception.cpp 44-45). -/
def comparisonFmt : List Nat :=
  [0x43, 0x61, 0x6e, 0x6e, 0x6f, 0x74, 0x20, 0x63, 0x6f, 0x6d, 0x70, 0x61, 0x72, 0x65, 0x20, 0x69, 0x74,
   0x65, 0x72, 0x61, 0x74, 0x6f, 0x72, 0x73, 0x20, 0x6f, 0x66, 0x20, 0x64, 0x69, 0x66, 0x66, 0x65, 0x72,
   0x65, 0x6e, 0x74, 0x20, 0x4a, 0x53, 0x4f, 0x4e, 0x20, 0x69, 0x6e, 0x73, 0x74, 0x61, 0x6e, 0x63, 0x65,
   0x73, 0x3a, 0x20, 0x28, 0x7b, 0x7d, 0x29, 0x20, 0x28, 0x7b, 0x7d, 0x29]

/-- `"Cannot dereference an empty or past-the-end iterator: ({})"` (json_exception.cpp 55). -/
def nullFmt : List Nat :=
  [0x43, 0x61, 0x6e, 0x6e, 0x6f, 0x74, 0x20, 0x64, 0x65, 0x72, 0x65, 0x66, 0x65, 0x72, 0x65, 0x6e, 0x63,
   0x65, 0x20, 0x61, 0x6e, 0x20, 0x65, 0x6d, 0x70, 0x74, 0x79, 0x20, 0x6f, 0x72, 0x20, 0x70, 0x61, 0x73,
   0x74, 0x2d, 0x74, 0x68, 0x65, 0x2d, 0x65, 0x6e, 0x64, 0x20, 0x69, 0x74, 0x65, 0x72, 0x61, 0x74, 0x6f,
   0x72, 0x3a, 0x20, 0x28, 0x7b, 0x7d, 0x29]

/-- `"Cannot dereference an empty or past-the-end iterator"` (json_exception.cpp 63). -/
def nullText0 : List Nat :=
  [0x43, 0x61, 0x6e, 0x6e, 0x6f, 0x74, 0x20, 0x64, 0x65, 0x72, 0x65, 0x66, 0x65, 0x72, 0x65, 0x6e, 0x63,
   0x65, 0x20, 0x61, 0x6e, 0x20, 0x65, 0x6d, 0x70, 0x74, 0x79, 0x20, 0x6f, 0x72, 0x20, 0x70, 0x61, 0x73,
   0x74, 0x2d, 0x74, 0x68, 0x65, 0x2d, 0x65, 0x6e, 0x64, 0x20, 0x69, 0x74, 0x65, 0x72, 0x61, 0x74, 0x6f, 0x72]

/-- `"Given key ({}) not found"` (json.hpp 1788). -/
def keyFmt : List Nat :=
  [0x47, 0x69, 0x76, 0x65, 0x6e, 0x20, 0x6b, 0x65, 0x79, 0x20, 0x28, 0x7b, 0x7d, 0x29, 0x20, 0x6e, 0x6f,
   0x74, 0x20, 0x66, 0x6f, 0x75, 0x6e, 0x64]

/-- `"JsonIteratorException"` (json_exception.cpp 34). -/
def iteratorClass : List Nat :=
  [0x4a, 0x73, 0x6f, 0x6e, 0x49, 0x74, 0x65, 0x72, 0x61, 0x74, 0x6f, 0x72, 0x45, 0x78, 0x63, 0x65, 0x70,
   0x74, 0x69, 0x6f, 0x6e]

/-- `"BadJsonComparisonException"` (json_exception.cpp 43). -/
def comparisonClass : List Nat :=
  [0x42, 0x61, 0x64, 0x4a, 0x73, 0x6f, 0x6e, 0x43, 0x6f, 0x6d, 0x70, 0x61, 0x72, 0x69, 0x73, 0x6f, 0x6e,
   0x45, 0x78, 0x63, 0x65, 0x70, 0x74, 0x69, 0x6f, 0x6e]

/-- `"NullJsonException"` (json_exception.cpp 54, 62). -/
def nullClass : List Nat :=
  [0x4e, 0x75, 0x6c, 0x6c, 0x4a, 0x73, 0x6f, 0x6e, 0x45, 0x78, 0x63, 0x65, 0x70, 0x74, 0x69, 0x6f, 0x6e]

/-- `Formatter<fly::Json>` (json.hpp 2119-2149): the value is shown as the string `serialize` gives; `ub` when
that dereferences an empty optional. -/
def withText (io : FloatIO) (v : Value) (f : List Nat → Outcome) : Outcome :=
  match serialize io v with
  | some t => f t
  | none => .ub

/-- `JsonException(std::string &&)` and `what()` (json_exception.cpp 9-12, 27-30). -/
def whatPlain (message : List Nat) : Outcome := format ⟨8, true⟩ plainFmt [.str message]

/-- `JsonException(Json const &, std::string &&)` (json_exception.cpp 15-18). -/
def whatJson (io : FloatIO) (v : Value) (message : List Nat) : Outcome :=
  withText io v fun t => format ⟨8, true⟩ jsonFmt [.str message, .str t]

/-- `JsonException(char const *, std::string &&)` (json_exception.cpp 21-24) with a message that was formatted
before. -/
def whatClass (name : List Nat) (message : Outcome) : Outcome :=
  match message with
  | .text m => format ⟨8, true⟩ classFmt [.str name, .str m]
  | o => o

/-- `JsonIteratorException` (json_exception.cpp 33-36). -/
def whatIterator (io : FloatIO) (v : Value) (message : List Nat) : Outcome :=
  whatClass iteratorClass (withText io v fun t => format ⟨8, true⟩ iteratorFmt [.str message, .str t])

/-- `BadJsonComparisonException` (json_exception.cpp 39-49). -/
def whatComparison (io : FloatIO) (v w : Value) : Outcome :=
  whatClass comparisonClass
    (withText io v fun t => withText io w fun u => format ⟨8, true⟩ comparisonFmt [.str t, .str u])

/-- `NullJsonException` (json_exception.cpp 52-66). -/
def whatNull (io : FloatIO) (v : Option Value) : Outcome :=
  whatClass nullClass (match v with
    | some v => withText io v fun t => format ⟨8, true⟩ nullFmt [.str t]
    | none => format ⟨8, true⟩ nullText0 [])

/-- The exception of `at(T key)` for a missing key (json.hpp 1781-1806): the key has been moved from when its text
is put into the message, so for `std::string` keys (`moved`) it is empty. -/
def whatMissing (io : FloatIO) (v : Value) (moved : Bool) (key : List Nat) : Outcome :=
  match format ⟨8, true⟩ keyFmt [.str (if moved then [] else key)] with
  | .text m => whatJson io v m
  | o => o

/-! ## Specification -/

/-- The bytes of a text in ASCII. -/
def ascii (s : String) : List Nat := s.toList.map Char.toNat

/-! ## Proof -/

deriving instance DecidableEq for Except

theorem take_all {l : List Nat} (h : l.length < 2 ^ 64) : l.take (min (2 ^ 64 - 1) l.length) = l := by
  rw [show min (2 ^ 64 - 1) l.length = l.length by omega, List.take_length]

/-- A field without options shows a string as it is. -/
theorem formatParam_plain (mc p z : Nat) (ps : List Param) (s : List Nat) (h : s.length < 2 ^ 64) :
    Verif.Format.formatParam mc { position := p, size := z, kind := .string } ps (.str s) = s := by
  have : max (min (2 ^ 64 - 1) s.length) 0 - min (2 ^ 64 - 1) s.length = 0 := by omega
  simp only [Verif.Format.formatParam, Verif.Format.formatString, Verif.Format.formatStringWith,
    Verif.Format.FSpec.widthOf, Verif.Format.FSpec.precisionOf, Option.getD_none, id, take_all h, this,
    Verif.Format.padding, List.replicate_zero, List.append_nil]

/-- One step of the loop over the format string, on a character that is not a brace. -/
theorem loop_char {mc : Nat} {ps : List Param} {n : Nat} {ss : List Verif.Format.FSpec} {c : Nat} {r t : List Nat}
    (hc : c ≠ 0x7b ∧ c ≠ 0x7d) (h : Verif.Format.formatLoop mc ps n ss r = some t) :
    Verif.Format.formatLoop mc ps (n + 1) ss (c :: r) = some (c :: t) := by
  unfold Verif.Format.formatLoop
  simp only [if_neg hc.1, if_neg hc.2, h, Option.map_some]

/-- A run of such characters. -/
theorem loop_chars {mc : Nat} {ps : List Param} {ss : List Verif.Format.FSpec} {r t : List Nat} :
    ∀ (l : List Nat) (n : Nat), (∀ c ∈ l, c ≠ 0x7b ∧ c ≠ 0x7d) → Verif.Format.formatLoop mc ps n ss r = some t →
    Verif.Format.formatLoop mc ps (l.length + n) ss (l ++ r) = some (l ++ t) := by
  intro l
  induction l with
  | nil => intro n _ h; simpa using h
  | cons c l ih =>
    intro n hl h
    have := loop_char (hl c (by simp)) (ih n (fun x hx => hl x (List.mem_cons_of_mem _ hx)) h)
    rw [List.length_cons, show l.length + 1 + n = l.length + n + 1 by omega]
    exact this

/-- A field `{}` of a string. -/
theorem loop_field {mc : Nat} {ps : List Param} {n p : Nat} {ss : List Verif.Format.FSpec} {r t s : List Nat}
    (hp : ps[p]? = some (.str s)) (hs : s.length < 2 ^ 64) (h : Verif.Format.formatLoop mc ps n ss r = some t) :
    Verif.Format.formatLoop mc ps (n + 1) ({ position := p, size := 2, kind := .string } :: ss) (0x7b :: 0x7d :: r) =
      some (s ++ t) := by
  unfold Verif.Format.formatLoop
  simp only [if_true, if_neg (show ¬ (0x7d : Nat) = 0x7b by decide), hp, formatParam_plain mc p 2 ps s hs, List.drop_succ_cons,
    List.drop_zero, h, Option.map_some]

/-- The whole of a format string: `a{}b`. -/
theorem format_one {fmt a b s : List Nat} (hf : fmt = a ++ 0x7b :: 0x7d :: b) (hb : ∀ c ∈ a ++ b, c ≠ 0x7b ∧ c ≠ 0x7d)
    (hp : Verif.Format.parseFormat ⟨8, true⟩ [.string] fmt = .ok [{ position := 0, size := 2, kind := .string }])
    (hs : s.length < 2 ^ 64) : format ⟨8, true⟩ fmt [.str s] = .text (a ++ (s ++ b)) := by
  have h0 : ∀ (mc : Nat) (n : Nat), Verif.Format.formatLoop mc [.str s] (b.length + (n + 1)) [] (b ++ []) = some (b ++ []) :=
    fun mc n => loop_chars b _ (fun c hc => hb c (List.mem_append_right _ hc)) rfl
  have h1 : ∀ mc n, Verif.Format.formatLoop mc [.str s] (a.length + (b.length + (n + 1) + 1)) [{ position := 0, size := 2, kind := .string }]
      fmt = some (a ++ (s ++ b)) := by
    intro mc n
    have := loop_chars a _ (fun c hc => hb c (List.mem_append_left _ hc)) (loop_field (p := 0) rfl hs (h0 mc n))
    simpa [hf] using this
  unfold format
  simp only [List.map_cons, List.map_nil, Param.type, hp]
  have hl : fmt.length + 1 = a.length + (b.length + (1 + 1) + 1) := by rw [hf]; simp; omega
  rw [hl, h1]

/-- The whole of a format string: `a{}b{}c`. -/
theorem format_two {fmt a b c s t : List Nat} (hf : fmt = a ++ 0x7b :: 0x7d :: (b ++ 0x7b :: 0x7d :: c))
    (hb : ∀ x ∈ a ++ (b ++ c), x ≠ 0x7b ∧ x ≠ 0x7d)
    (hp : Verif.Format.parseFormat ⟨8, true⟩ [.string, .string] fmt =
      .ok [{ position := 0, size := 2, kind := .string }, { position := 1, size := 2, kind := .string }])
    (hs : s.length < 2 ^ 64) (ht : t.length < 2 ^ 64) :
    format ⟨8, true⟩ fmt [.str s, .str t] = .text (a ++ (s ++ (b ++ (t ++ c)))) := by
  have h0 : ∀ (mc : Nat) (n : Nat), Verif.Format.formatLoop mc [.str s, .str t] (c.length + (n + 1)) [] (c ++ []) = some (c ++ []) :=
    fun mc n => loop_chars c _ (fun x hc => hb x (List.mem_append_right _ (List.mem_append_right _ hc))) rfl
  have h1 : ∀ mc n, Verif.Format.formatLoop mc [.str s, .str t]
      (a.length + ((b.length + (c.length + (n + 1) + 1)) + 1))
      [{ position := 0, size := 2, kind := .string }, { position := 1, size := 2, kind := .string }] fmt = some (a ++ (s ++ (b ++ (t ++ c)))) := by
    intro mc n
    have h2 := loop_chars b _ (fun x hc => hb x (List.mem_append_right _ (List.mem_append_left _ hc)))
      (loop_field (p := 1) rfl ht (h0 mc n))
    have := loop_chars a _ (fun x hc => hb x (List.mem_append_left _ hc)) (loop_field (p := 0) rfl hs h2)
    simpa [hf] using this
  unfold format
  simp only [List.map_cons, List.map_nil, Param.type, hp]
  have hl : fmt.length + 1 = a.length + ((b.length + (c.length + (2 + 1) + 1)) + 1) := by rw [hf]; simp; omega
  rw [hl, h1]

theorem exception_raw (io : FloatIO) (v : Value) (hw : v.WF) (message : List Nat) (hm : message.length < 2 ^ 64) :
    ∃ t, serialize io v = some t ∧ (t.length < 2 ^ 64 → whatJson io v message =
      .text ([0x4a, 0x73, 0x6f, 0x6e, 0x45, 0x78, 0x63, 0x65, 0x70, 0x74, 0x69, 0x6f, 0x6e, 0x3a, 0x20] ++
        (message ++ ([0x3a, 0x20, 0x28] ++ (t ++ [0x29]))))) := by
  obtain ⟨t, ht, _⟩ := text_value (io := io) v hw
  refine ⟨t, ht, fun hl => ?_⟩
  unfold whatJson withText
  rw [ht]
  exact format_two rfl (by decide) (by decide +kernel) hm hl

/-- C116: the exception of a well-formed value reads "JsonException: message: (value)", the value being its
JSON text. -/
theorem exception_text (io : FloatIO) (v : Value) (hw : v.WF) (message : List Nat) (hm : message.length < 2 ^ 64) :
    ∃ t, serialize io v = some t ∧ (t.length < 2 ^ 64 →
      whatJson io v message = .text (ascii "JsonException: " ++ message ++ ascii ": (" ++ t ++ ascii ")")) := by
  obtain ⟨t, h1, h2⟩ := exception_raw io v hw message hm
  refine ⟨t, h1, fun hl => ?_⟩
  rw [h2 hl, show ascii "JsonException: " = _ from
      (by decide +kernel : _ = [0x4a, 0x73, 0x6f, 0x6e, 0x45, 0x78, 0x63, 0x65, 0x70, 0x74, 0x69, 0x6f, 0x6e, 0x3a, 0x20]),
    show ascii ": (" = _ from (by decide +kernel : _ = [0x3a, 0x20, 0x28]),
    show ascii ")" = _ from (by decide +kernel : _ = [0x29])]
  simp only [List.append_assoc]

/-- C116: an exception without a value reads "JsonException: message". -/
theorem exception_plain (message : List Nat) (hm : message.length < 2 ^ 64) :
    whatPlain message = .text (ascii "JsonException: " ++ message) := by
  rw [show ascii "JsonException: " = _ from
      (by decide +kernel : _ = [0x4a, 0x73, 0x6f, 0x6e, 0x45, 0x78, 0x63, 0x65, 0x70, 0x74, 0x69, 0x6f, 0x6e, 0x3a, 0x20])]
  have := format_one (fmt := plainFmt) (a := plainFmt.take 15) (b := []) (s := message) rfl (by decide)
    (by decide +kernel) hm
  rw [List.append_nil] at this
  exact this

theorem whatClass_text {name m : List Nat} (hn : name.length < 2 ^ 64) (hm : m.length < 2 ^ 64) :
    whatClass name (.text m) = .text (name ++ ([0x3a, 0x20] ++ m)) := by
  unfold whatClass
  have := format_two (fmt := classFmt) (a := []) (b := [0x3a, 0x20]) (c := []) (s := name) (t := m) rfl (by decide)
    (by decide +kernel) hn hm
  simpa using this

theorem iterator_exception_raw (io : FloatIO) (v w : Value) (hv : v.WF) (hw : w.WF) (message : List Nat) :
    ∃ t u, serialize io v = some t ∧ serialize io w = some u ∧
      (message.length + t.length + u.length + 100 < 2 ^ 64 →
        whatIterator io v message = .text (iteratorClass ++ ([0x3a, 0x20] ++ (message ++ ([0x3a, 0x20, 0x28] ++
          (t ++ [0x29]))))) ∧
        whatComparison io v w = .text (comparisonClass ++ ([0x3a, 0x20] ++ (comparisonFmt.take 55 ++ (t ++
          ([0x29, 0x20, 0x28] ++ (u ++ [0x29])))))) ∧
        whatNull io (some v) = .text (nullClass ++ ([0x3a, 0x20] ++ (nullFmt.take 55 ++ (t ++ [0x29])))) ∧
        whatNull io none = .text (nullClass ++ ([0x3a, 0x20] ++ nullText0))) := by
  obtain ⟨t, ht, _⟩ := text_value (io := io) v hv
  obtain ⟨u, hu, _⟩ := text_value (io := io) w hw
  refine ⟨t, u, ht, hu, fun hl => ⟨?_, ?_, ?_, ?_⟩⟩
  · unfold whatIterator withText
    rw [ht]
    simp only
    have := format_two (fmt := iteratorFmt) (a := []) (b := [0x3a, 0x20, 0x28]) (c := [0x29]) (s := message) (t := t) rfl
      (by decide) (by decide +kernel) (by omega) (by omega)
    rw [this, whatClass_text (by decide) (by simp; omega)]
    simp
  · unfold whatComparison withText
    rw [ht, hu]
    simp only
    have := format_two (fmt := comparisonFmt) (a := comparisonFmt.take 55) (b := [0x29, 0x20, 0x28]) (c := [0x29])
      (s := t) (t := u) rfl (by decide) (by decide +kernel) (by omega) (by omega)
    have hlen : (comparisonFmt.take 55).length = 55 := by decide
    rw [this, whatClass_text (by decide) (by simp only [List.length_append, hlen, List.length_cons, List.length_nil]; omega)]
  · unfold whatNull withText
    simp only
    rw [ht]
    simp only
    have := format_one (fmt := nullFmt) (a := nullFmt.take 55) (b := [0x29]) (s := t) rfl (by decide)
      (by decide +kernel) (by omega)
    have hlen : (nullFmt.take 55).length = 55 := by decide
    rw [this, whatClass_text (by decide) (by simp only [List.length_append, hlen, List.length_cons, List.length_nil]; omega)]
  · unfold whatNull
    simp only
    have : format ⟨8, true⟩ nullText0 [] = .text nullText0 := by decide +kernel
    rw [this, whatClass_text (by decide) (by decide)]

/-- C116: an iterator exception reads "JsonIteratorException: message: (value)"; the exception for comparing
iterators of two values shows both; the one for an iterator that cannot be dereferenced shows the value. -/
theorem iterator_exception_text (io : FloatIO) (v w : Value) (hv : v.WF) (hw : w.WF) (message : List Nat) :
    ∃ t u, serialize io v = some t ∧ serialize io w = some u ∧
      (message.length + t.length + u.length + 100 < 2 ^ 64 →
        whatIterator io v message = .text (ascii "JsonIteratorException: " ++ message ++ ascii ": (" ++ t ++ ascii ")") ∧
        whatComparison io v w =
          .text (ascii "BadJsonComparisonException: Cannot compare iterators of different JSON instances: (" ++ t ++
            ascii ") (" ++ u ++ ascii ")") ∧
        whatNull io (some v) =
          .text (ascii "NullJsonException: Cannot dereference an empty or past-the-end iterator: (" ++ t ++ ascii ")") ∧
        whatNull io none =
          .text (ascii "NullJsonException: Cannot dereference an empty or past-the-end iterator")) := by
  obtain ⟨t, u, ht, hu, h⟩ := iterator_exception_raw io v w hv hw message
  refine ⟨t, u, ht, hu, fun hl => ?_⟩
  obtain ⟨h1, h2, h3, h4⟩ := h hl
  have e1 : ascii "JsonIteratorException: " = iteratorClass ++ [0x3a, 0x20] := by decide +kernel
  have e2 : ascii "BadJsonComparisonException: Cannot compare iterators of different JSON instances: (" =
      comparisonClass ++ ([0x3a, 0x20] ++ comparisonFmt.take 55) := by decide +kernel
  have e3 : ascii "NullJsonException: Cannot dereference an empty or past-the-end iterator: (" =
      nullClass ++ ([0x3a, 0x20] ++ nullFmt.take 55) := by decide +kernel
  have e4 : ascii "NullJsonException: Cannot dereference an empty or past-the-end iterator" =
      nullClass ++ ([0x3a, 0x20] ++ nullText0) := by decide +kernel
  have e5 : ascii ": (" = [0x3a, 0x20, 0x28] := by decide +kernel
  have e6 : ascii ")" = [0x29] := by decide +kernel
  have e7 : ascii ") (" = [0x29, 0x20, 0x28] := by decide +kernel
  rw [h1, h2, h3, h4, e1, e2, e3, e4, e5, e6, e7]
  simp only [List.append_assoc, and_self]

/-- `{"a":1}` and "no": the text of the exception. -/
example (io : FloatIO) : whatJson io (.obj [([0x61], .int 1)]) [0x6e, 0x6f] =
    .text ([0x4a, 0x73, 0x6f, 0x6e, 0x45, 0x78, 0x63, 0x65, 0x70, 0x74, 0x69, 0x6f, 0x6e, 0x3a, 0x20] ++
      ([0x6e, 0x6f] ++ ([0x3a, 0x20, 0x28] ++ ([0x7b, 0x22, 0x61, 0x22, 0x3a, 0x31, 0x7d] ++ [0x29])))) := by
  have hw : (Value.obj [([0x61], .int 1)]).WF :=
    (wf_obj_iff _).2 ⟨by simp [SortedKeys], by
      intro p hp
      simp only [List.mem_singleton] at hp
      subst hp
      exact ⟨.one (by decide) .nil, ⟨by decide, by decide⟩⟩⟩
  obtain ⟨t, h1, h2⟩ := exception_raw io _ hw [0x6e, 0x6f] (by decide)
  have h3 : serialize io (.obj [([0x61], .int 1)]) = some [0x7b, 0x22, 0x61, 0x22, 0x3a, 0x31, 0x7d] := by
    have e1 : serializeString [0x61] = some [0x22, 0x61, 0x22] := by decide +kernel
    simp [serialize, serializeMembers, e1, commaThen, fmtInt]
    decide +kernel
  rw [h3] at h1
  cases h1
  exact h2 (by decide)

/-- C116 fails for a string shortened in the middle of a character: building any exception that shows it is
undefined behaviour, so a wrong index into an array that holds it is not reported but undefined. -/
theorem exception_cut_violated (io : FloatIO) (cap : Nat) (message : List Nat) :
    whatJson io (.arr [(step cap (.str [0xc3, 0xa9]) (.resize 1)).1]) message = .ub := by
  have h : (step cap (.str [0xc3, 0xa9]) (.resize 1)).1 = .str [0xc3] := rfl
  have e : serializeString [0xc3] = none := by decide +kernel
  rw [h]
  simp [whatJson, withText, serialize, serializeElems, e]

theorem missing_key_raw (io : FloatIO) (v : Value) (hw : v.WF) (key : List Nat)
    (hk : key.length + 100 < 2 ^ 64) :
    ∃ t, serialize io v = some t ∧ (t.length < 2 ^ 64 → whatMissing io v false key =
      .text ([0x4a, 0x73, 0x6f, 0x6e, 0x45, 0x78, 0x63, 0x65, 0x70, 0x74, 0x69, 0x6f, 0x6e, 0x3a, 0x20] ++
        ((keyFmt.take 11 ++ (key ++ keyFmt.drop 13)) ++ ([0x3a, 0x20, 0x28] ++ (t ++ [0x29]))))) := by
  have h1 := format_one (fmt := keyFmt) (a := keyFmt.take 11) (b := keyFmt.drop 13) (s := key) rfl (by decide)
    (by decide +kernel) (by omega)
  obtain ⟨t, ht, h2⟩ := exception_raw io v hw (keyFmt.take 11 ++ (key ++ keyFmt.drop 13)) (by
    have e1 : (keyFmt.take 11).length = 11 := by decide
    have e2 : (keyFmt.drop 13).length = 11 := by decide
    simp only [List.length_append, e1, e2]; omega)
  refine ⟨t, ht, fun hl => ?_⟩
  unfold whatMissing
  simp only [Bool.false_eq_true, if_false]
  rw [h1]
  exact h2 hl

/-- The exception of `at` for a missing key names the key when it was given as a view or a character array. -/
theorem missing_key_text_partial (io : FloatIO) (v : Value) (hw : v.WF) (key : List Nat)
    (hk : key.length + 100 < 2 ^ 64) :
    ∃ t, serialize io v = some t ∧ (t.length < 2 ^ 64 → whatMissing io v false key =
      .text (ascii "JsonException: Given key (" ++ key ++ ascii ") not found: (" ++ t ++ ascii ")")) := by
  obtain ⟨t, ht, h⟩ := missing_key_raw io v hw key hk
  refine ⟨t, ht, fun hl => ?_⟩
  have e1 : ascii "JsonException: Given key (" =
      [0x4a, 0x73, 0x6f, 0x6e, 0x45, 0x78, 0x63, 0x65, 0x70, 0x74, 0x69, 0x6f, 0x6e, 0x3a, 0x20] ++ keyFmt.take 11 := by
    decide +kernel
  have e2 : ascii ") not found: (" = keyFmt.drop 13 ++ [0x3a, 0x20, 0x28] := by decide +kernel
  have e3 : ascii ")" = [0x29] := by decide +kernel
  rw [h hl, e1, e2, e3]
  simp only [List.append_assoc]

/-- C116 fails for keys given as `std::string`: the message is the same for all of them, without the key. -/
theorem missing_key_text_violated (io : FloatIO) :
    ¬ ∀ (v : Value) (key t : List Nat), v.WF → whatMissing io v true key = .text t → ∃ a b, t = a ++ key ++ b := by
  intro h
  have h1 : whatMissing io .null true [0x7a] = .text ([0x4a, 0x73, 0x6f, 0x6e, 0x45, 0x78, 0x63, 0x65, 0x70, 0x74,
      0x69, 0x6f, 0x6e, 0x3a, 0x20] ++ (keyFmt.take 11 ++ (keyFmt.drop 13 ++ ([0x3a, 0x20, 0x28] ++
        ([0x6e, 0x75, 0x6c, 0x6c] ++ [0x29]))))) := by
    obtain ⟨t, ht, h2⟩ := missing_key_raw io .null trivial [] (by decide)
    simp only [serialize, Option.some.injEq] at ht
    subst ht
    have := h2 (by decide)
    simp only [List.nil_append, List.append_assoc] at this
    exact this
  obtain ⟨a, b, he⟩ := h .null [0x7a] _ trivial h1
  have hm : (0x7a : Nat) ∈ a ++ [0x7a] ++ b := by simp
  rw [← he] at hm
  revert hm
  decide

end Verif.Json
