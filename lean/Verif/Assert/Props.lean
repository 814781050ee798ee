import Verif.Format.Plain

/-!
# C128: what a failed assertion reports

Sources: `/repo/fly/assert/assert.hpp`, `/repo/fly/assert/detail/assert_enabled.hpp` and `.cpp`. The stylers write
nothing: the model is of a standard error that is no terminal (C97 says what they add on one).
-/

namespace Verif.Assert

open Verif.Format (format Outcome Param)

/-! ## Model -/

/-- The bytes of a text in ASCII. -/
def ascii (s : String) : List Nat := s.toList.map Char.toNat

/-- `Assertion` (assert_enabled.hpp 101-163): the stringified expression, the file, the function, the line, and the
stringified names of what follows the expression. -/
structure Assertion where
  expression : List Nat
  file : List Nat
  function : List Nat
  line : Nat
  names : List (List Nat)

/-- Writing one text after another. -/
def andThen (a b : Outcome) : Outcome :=
  match a, b with
  | .text s, .text t => .text (s ++ t)
  | .text _, o => o
  | o, _ => o

/-- `Capture::format` (assert_enabled.cpp 11-14, assert_enabled.hpp 172-181). -/
def formatCapture (name : List Nat) (value : Param) : Outcome :=
  format ⟨8, true⟩ (ascii "\t{} => {}\n") [.str name, value]

/-- The loop over the captures (assert_enabled.cpp 51-54) from index `i`; a name that does not exist is undefined
behaviour. -/
def formatCaptures (names : List (List Nat)) : Nat → List Param → Outcome
  | _, [] => .text []
  | i, p :: r =>
    match names[i]? with
    | some n => andThen (formatCapture n p) (formatCaptures names (i + 1) r)
    | none => .ub

/-- `Assertion::log_assertion` (assert_enabled.cpp 33-62); `trace` is what `print_backtrace` writes. -/
def logAssertion (trace : List Nat) (a : Assertion) (message : List Nat) (captures : List Param) : Outcome :=
  let out := Outcome.text (ascii "\nAssertion failed:" ++ if message = [] then [] else ascii " " ++ message)
  let out := andThen out (format ⟨8, true⟩ (ascii "\n\tFLY_ASSERT({})\n\n") [.str a.expression])
  let out := andThen out (format ⟨8, true⟩ (ascii "\tat {}:{}\n") [.str a.file, .int false false 32 a.line])
  let out := andThen out (format ⟨8, true⟩ (ascii "\tin {}\n\n") [.str a.function])
  let out := if captures.isEmpty then out
    else andThen (andThen (andThen out (.text (ascii "Captures:\n"))) (formatCaptures a.names 0 captures))
      (.text (ascii "\n"))
  andThen out (.text (ascii "Call stack:\n" ++ trace ++ ascii "\n"))

/-- What the source says: `FLY_ASSERT(expression, "message", captures...)` with its place. `quoted` is the message as
the preprocessor makes a string of it. -/
structure Source where
  expression : List Nat
  file : List Nat
  function : List Nat
  line : Nat
  message : Option (List Nat)
  quoted : List Nat
  captures : List (List Nat × Param)

/-- The two overloads of `assertion_failed` (assert_enabled.hpp 184-203): a string literal in front is the message, its
array counts the terminating zero, and the first name is dropped. -/
def assertionFailed (trace : List Nat) (a : Assertion) (message : Option (List Nat)) (captures : List Param) :
    Outcome :=
  match message with
  | none => logAssertion trace a [] captures
  | some m => logAssertion trace { a with names := a.names.drop 1 } (m ++ [0]) captures

/-- `FLY_ASSERT` (assert.hpp 42-43, assert_enabled.hpp 26-46): what is written, and whether the program aborts. -/
def flyAssert (trace : List Nat) (s : Source) (value : Bool) : Outcome × Bool :=
  if value then (.text [], false)
  else
    (assertionFailed trace ⟨s.expression, s.file, s.function, s.line,
        (match s.message with | some _ => [s.quoted] | none => []) ++ s.captures.map (·.1)⟩ s.message
      (s.captures.map (·.2)), true)

/-! ## Specification -/

/-- One line of the report for each captured value, in order: its name and the value as `{}` shows it. -/
def CaptureLines : List (List Nat × Param) → List Nat → Prop
  | [], out => out = []
  | (name, p) :: r, out =>
    ∃ t rest, format ⟨8, true⟩ (ascii "{}") [p] = .text t ∧ CaptureLines r rest ∧
      out = ascii "\t" ++ name ++ ascii " => " ++ t ++ ascii "\n" ++ rest

/-- The message, if there is one, after a space. -/
def messageText : Option (List Nat) → List Nat
  | some m => ascii " " ++ m
  | none => []

/-- The report of an assertion with a message, or with none. -/
def Report (trace : List Nat) (s : Source) (message : Option (List Nat)) (out : List Nat) : Prop :=
  ∃ line captures, Verif.Format.Numeral 10 false s.line line ∧ CaptureLines s.captures captures ∧
    out = ascii "\nAssertion failed:" ++ messageText message ++
      ascii "\n\tFLY_ASSERT(" ++ s.expression ++ ascii ")\n\n\tat " ++ s.file ++ ascii ":" ++ line ++
      ascii "\n\tin " ++ s.function ++ ascii "\n\n" ++
      (if s.captures = [] then [] else ascii "Captures:\n" ++ captures ++ ascii "\n") ++
      ascii "Call stack:\n" ++ trace ++ ascii "\n"

/-- The texts fit in memory and the line is a 32-bit number. -/
structure Source.Ok (s : Source) : Prop where
  expression : s.expression.length < 2 ^ 64
  file : s.file.length < 2 ^ 64
  function : s.function.length < 2 ^ 64
  line : s.line < 2 ^ 32
  names : ∀ c ∈ s.captures, c.1.length < 2 ^ 64

/-! ## Proofs -/

open Verif.Format (shown shown_str shown_int format_plain_one format_plain_two format_shown)

theorem parse_capture (t : Verif.Format.PType) :
    Verif.Format.parseFormat ⟨8, true⟩ [.string, t] (ascii "\t{} => {}\n") =
      .ok [Verif.Format.plainSpec 0 .string, Verif.Format.plainSpec 1 t] := by
  cases t <;> rfl

theorem formatCapture_text (name : List Nat) (h : name.length < 2 ^ 64) (p : Param) :
    formatCapture name p = .text (ascii "\t" ++ name ++ ascii " => " ++ shown p ++ ascii "\n") := by
  unfold formatCapture
  rw [format_plain_two (p := .str name) (q := p) (a := ascii "\t") (b := ascii " => ") (c := ascii "\n") (by decide +kernel) (by decide +kernel)
    (parse_capture p.type), shown_str _ h]
  simp only [List.append_assoc]

theorem captures_text (pre : List (List Nat)) (cs : List (List Nat × Param)) (h : ∀ c ∈ cs, c.1.length < 2 ^ 64) :
    ∃ out, formatCaptures (pre ++ cs.map (·.1)) pre.length (cs.map (·.2)) = .text out ∧ CaptureLines cs out := by
  induction cs generalizing pre with
  | nil => exact ⟨[], rfl, rfl⟩
  | cons c r ih =>
    obtain ⟨out, h1, h2⟩ := ih (pre ++ [c.1]) (fun x hx => h x (List.mem_cons_of_mem _ hx))
    have e : pre ++ (c :: r).map (·.1) = (pre ++ [c.1]) ++ r.map (·.1) := by simp
    have hg : (pre ++ (c :: r).map (·.1))[pre.length]? = some c.1 := by simp
    refine ⟨ascii "\t" ++ c.1 ++ ascii " => " ++ shown c.2 ++ ascii "\n" ++ out, ?_, shown c.2, out, ?_, h2, rfl⟩
    · rw [List.length_append, List.length_singleton] at h1
      rw [List.map_cons (l := r) (f := fun x : List Nat × Param => x.2)]
      unfold formatCaptures
      rw [hg, e]
      simp only
      rw [h1, formatCapture_text _ (h c (by simp))]
      rfl
    · have := format_shown c.2
      rw [show ascii "{}" = [0x7b, 0x7d] by decide +kernel]
      exact this

/-- The report, for any message text. -/
theorem log_report (trace : List Nat) (s : Source) (ok : s.Ok) (m : Option (List Nat)) (hm : m ≠ some []) :
    ∃ out, logAssertion trace ⟨s.expression, s.file, s.function, s.line, s.captures.map (·.1)⟩ (m.getD [])
      (s.captures.map (·.2)) = .text out ∧ Report trace s m out := by
  obtain ⟨ds, hd, hs⟩ := shown_int false 32 s.line (by decide) ok.line
  have hv : Verif.Format.intValue false 32 s.line = s.line := by simp [Verif.Format.intValue]
  rw [hv] at hd hs
  rw [if_neg (by omega)] at hs
  simp only [Int.natAbs_natCast] at hd
  obtain ⟨cl, hc1, hc2⟩ := captures_text [] s.captures ok.names
  have f1 : format ⟨8, true⟩ (ascii "\n\tFLY_ASSERT({})\n\n") [.str s.expression] =
      .text (ascii "\n\tFLY_ASSERT(" ++ (s.expression ++ ascii ")\n\n")) := by
    rw [format_plain_one (a := ascii "\n\tFLY_ASSERT(") (b := ascii ")\n\n") (by decide +kernel) (by decide +kernel)
      (by rfl), shown_str _ ok.expression]
  have f2 : format ⟨8, true⟩ (ascii "\tat {}:{}\n") [.str s.file, .int false false 32 s.line] =
      .text (ascii "\tat " ++ (s.file ++ (ascii ":" ++ (ds ++ ascii "\n")))) := by
    rw [format_plain_two (a := ascii "\tat ") (b := ascii ":") (c := ascii "\n") (by decide +kernel) (by decide +kernel)
      (by rfl), shown_str _ ok.file, hs]
    rfl
  have f3 : format ⟨8, true⟩ (ascii "\tin {}\n\n") [.str s.function] =
      .text (ascii "\tin " ++ (s.function ++ ascii "\n\n")) := by
    rw [format_plain_one (a := ascii "\tin ") (b := ascii "\n\n") (by decide +kernel) (by decide +kernel)
      (by rfl), shown_str _ ok.function]
  have e1 : ascii ")\n\n\tat " = ascii ")\n\n" ++ ascii "\tat " := by decide +kernel
  have e2 : ascii "\n\tin " = ascii "\n" ++ ascii "\tin " := by decide +kernel
  have em : (if m.getD [] = [] then [] else ascii " " ++ m.getD []) =
      messageText m := by
    cases m with
    | none => rfl
    | some m => simp at hm; simp [hm, messageText]
  unfold logAssertion
  simp only [f1, f2, f3, em]
  cases hcap : s.captures with
  | nil =>
    refine ⟨_, rfl, ds, [], hd, by rw [hcap]; rfl, ?_⟩
    rw [e1, e2, hcap]
    simp
  | cons c r =>
    rw [hcap] at hc1
    have hne : ¬ ((c :: r).map (fun x : List Nat × Param => x.2)).isEmpty = true := by simp
    rw [if_neg hne]
    simp only [List.nil_append, List.length_nil] at hc1
    rw [hc1]
    refine ⟨_, rfl, ds, cl, hd, hc2, ?_⟩
    rw [e1, e2, hcap]
    simp

/-- C128: an assertion that holds writes nothing and the program goes on. -/
theorem assert_holds (trace : List Nat) (s : Source) : flyAssert trace s true = (.text [], false) := rfl

/-- C128, for assertions without a message: the report is the documented one, with every captured value under its own
name, and the program aborts. -/
theorem assert_report_partial (trace : List Nat) (s : Source) (ok : s.Ok) (hm : s.message = none) :
    ∃ out, flyAssert trace s false = (.text out, true) ∧ Report trace s none out := by
  obtain ⟨out, h1, h2⟩ := log_report trace s ok none (by simp)
  refine ⟨out, ?_, h2⟩
  unfold flyAssert assertionFailed
  simp only [Bool.false_eq_true, if_false, hm]
  exact congrArg (·, true) h1

/-- C128, for assertions with a message: the report is the documented one, but for a zero byte after the message. -/
theorem assert_message (trace : List Nat) (s : Source) (ok : s.Ok) (m : List Nat) (hm : s.message = some m) :
    ∃ out, flyAssert trace s false = (.text out, true) ∧ Report trace s (some (m ++ [0])) out := by
  obtain ⟨out, h1, h2⟩ := log_report trace s ok (some (m ++ [0])) (by simp)
  refine ⟨out, ?_, h2⟩
  unfold flyAssert assertionFailed
  simp only [Bool.false_eq_true, if_false, hm]
  exact congrArg (·, true) h1

/-- C128 fails for messages: the terminating zero of the string literal is written too. -/
theorem assert_message_violated (trace : List Nat) (s : Source) (ok : s.Ok) (m : List Nat) (hm : s.message = some m)
    (hc : s.captures = []) (hz : 0 ∉ s.expression ++ s.file ++ s.function ++ m ++ trace) :
    ∃ out, flyAssert trace s false = (.text out, true) ∧ 0 ∈ out ∧ ¬ Report trace s (some m) out := by
  obtain ⟨out, h1, h2⟩ := assert_message trace s ok m hm
  have h0 : 0 ∈ out := by
    obtain ⟨l, c, -, -, rfl⟩ := h2
    simp [messageText]
  refine ⟨out, h1, h0, fun h => ?_⟩
  obtain ⟨l, c, hl, -, rfl⟩ := h
  have hd : 0 ∉ l := by
    intro h
    have := hl.digits 0 h
    unfold Verif.Format.BaseDigit at this
    omega
  have e : ∀ t ∈ ["\nAssertion failed:", " ", "\n\tFLY_ASSERT(", ")\n\n\tat ", ":", "\n\tin ", "\n\n", "Call stack:\n", "\n"],
      0 ∉ ascii t := by decide +kernel
  simp only [hc, if_true, messageText, List.mem_append, not_or, List.append_nil] at h0 hz
  have e1 := e "\nAssertion failed:" (by simp)
  have e2 := e " " (by simp)
  have e3 := e "\n\tFLY_ASSERT(" (by simp)
  have e4 := e ")\n\n\tat " (by simp)
  have e5 := e ":" (by simp)
  have e6 := e "\n\tin " (by simp)
  have e7 := e "\n\n" (by simp)
  have e8 := e "Call stack:\n" (by simp)
  have e9 := e "\n" (by simp)
  simp [e1, e2, e3, e4, e5, e6, e7, e8, e9, hz, hd] at h0

/-- `FLY_ASSERT(a == b, a, b)`. -/
def sample : Source where
  expression := ascii "a == {b}"
  file := ascii "main.cpp"
  function := ascii "main"
  line := 12
  message := none
  quoted := []
  captures := [(ascii "a", .int false true 32 4294967295), (ascii "b", .bool true)]

example : sample.Ok := ⟨by decide +kernel, by decide +kernel, by decide +kernel, by decide +kernel, by decide +kernel⟩

example : flyAssert (ascii "main\n") sample false = (.text (ascii
    "\nAssertion failed:\n\tFLY_ASSERT(a == {b})\n\n\tat main.cpp:12\n\tin main\n\nCaptures:\n\ta => -1\n\tb => true\n\nCall stack:\nmain\n\n"),
    true) := by decide +kernel

example : ({ sample with captures := [], message := some (ascii "bad") } : Source).Ok ∧
    0 ∉ sample.expression ++ sample.file ++ sample.function ++ ascii "bad" ++ ascii "main\n" :=
  ⟨⟨by decide +kernel, by decide +kernel, by decide +kernel, by decide +kernel, by decide +kernel⟩, by decide +kernel⟩

end Verif.Assert
