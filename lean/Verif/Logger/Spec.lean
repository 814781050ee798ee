import Verif.Logger.Model
import Verif.Huffman.Spec

/-!
# What the logger should do
-/

namespace Verif.Logger

/-! ## Names (C63) -/

/-- The object is a logger the program can still reach, or is about to get. -/
def Registry.reachable (r : Registry) (i : Nat) : Prop := r.phase i = .live ∨ r.phase i = .starting

/-- No logger object of this name exists, not even one whose destructor is still to run. -/
def Registry.unused (r : Registry) (n : List Nat) : Prop := ∀ i, r.name i = n → r.phase i = .gone

/-- The promise of C63: the loggers in reach have different names, `get` finds exactly them, and
registering a name fails exactly if one of them has it. -/
structure Registry.NamesUnique (r : Registry) : Prop where
  unique : ∀ i j, r.reachable i → r.reachable j → r.name i = r.name j → i = j
  found : ∀ n i, r.get n = some i ↔ r.name i = n ∧ r.reachable i
  create : ∀ n, (r.register n).2 = false ↔ ∃ i, r.name i = n ∧ r.reachable i

/-- Executions in which the program registers a name only when no logger object of that name exists,
and never uses the reserved name. -/
inductive RegReachD : Registry → Prop
  | init : RegReachD Registry.init
  | register {r : Registry} (n : List Nat) (h : RegReachD r) (hn : r.unused n) (hd : n ≠ defaultName) :
    RegReachD (r.register n).1
  | initialized {r : Registry} (i : Nat) (ok : Bool) (h : RegReachD r) (hp : r.phase i = .starting) :
    RegReachD (r.initialized i ok)
  | release {r : Registry} (i : Nat) (h : RegReachD r) (hp : r.phase i = .live) : RegReachD (r.release i)
  | destroy {r : Registry} (i : Nat) (h : RegReachD r) (hp : r.phase i = .dying) : RegReachD (r.destroy i)

/-! ## Logging (C65) -/

/-- The calls that ask for a record: made with one of the four levels while the logger has an owner. -/
def validCalls : List Op → List Call
  | [] => []
  | .log c _ :: ops => if c.level < 4 then c :: validCalls ops else validCalls ops
  | .drop :: _ => []
  | .run _ :: ops => validCalls ops
  | .setMax _ :: ops => validCalls ops

/-- The record call number `i` asks for, when messages are cut to `max` bytes. -/
def recordOf (max i : Nat) (c : Call) : Log := ⟨i, c.level, c.time, c.trace, c.message.take max⟩

/-- The message sizes configured during a history. -/
def sizes : List Op → List Nat
  | [] => []
  | .setMax n :: ops => n :: sizes ops
  | _ :: ops => sizes ops

/-- What the sink may be offered for the calls `cs`, the first of which is number `i`: the records of the
first so many of them, one each, in order, with consecutive indices (which wrap after 2^64), cut to a
configured size; every one accepted except possibly the last. -/
inductive Offered (sizes : List Nat) : Nat → List Call → List Offer → Prop
  | nil (i : Nat) (cs : List Call) : Offered sizes i cs []
  | refused (i m : Nat) (c : Call) (cs : List Call) (hm : m ∈ sizes) :
    Offered sizes i (c :: cs) [⟨recordOf m (i % 2 ^ 64) c, false⟩]
  | accepted (i m : Nat) (c : Call) (cs : List Call) (os : List Offer) (hm : m ∈ sizes)
    (h : Offered sizes (i + 1) cs os) : Offered sizes i (c :: cs) (⟨recordOf m (i % 2 ^ 64) c, true⟩ :: os)

/-! ## Log files (C66) -/

/-- Split at the first occurrence of a separator. -/
def cut (sep : Nat) : List Nat → Option (List Nat × List Nat)
  | [] => none
  | b :: bs => if b = sep then some ([], bs) else (cut sep bs).map fun p => (b :: p.1, p.2)

/-- The pieces a reader of log files can get out of one record: index, level, time, trace, message. -/
structure Fields where
  index : List Nat
  level : List Nat
  time : List Nat
  trace : List Nat
  message : List Nat
  deriving DecidableEq, Repr

/-- A reader of one record: a record ends at the first 0x1e, its fields are separated by the first four
0x1f. -/
def readRecord (bytes : List Nat) : Option (Fields × List Nat) :=
  (cut 0x1e bytes).bind fun (body, rest) =>
  (cut 0x1f body).bind fun (index, b1) =>
  (cut 0x1f b1).bind fun (level, b2) =>
  (cut 0x1f b2).bind fun (time, b3) =>
  (cut 0x1f b3).bind fun (trace, message) => some (⟨index, level, time, trace, message⟩, rest)

/-- A reader of a whole file (every record has at least one byte, so the length is enough fuel). -/
def readFile : Nat → List Nat → Option (List Fields)
  | _, [] => some []
  | 0, _ :: _ => none
  | fuel + 1, b :: bs => (readRecord (b :: bs)).bind fun (f, rest) => (readFile fuel rest).map (f :: ·)

/-- What a trace is shown as: nothing unless both the file and the function are known, else
`file:function:line`. -/
def Trace.shown (t : Trace) : List Nat :=
  match t.file, t.function with
  | [], _ => []
  | _, [] => []
  | f :: fs, g :: gs => (f :: fs) ++ 0x3a :: ((g :: gs) ++ 0x3a :: Verif.Digits.digits 10 t.line)

/-- The texts of the trace (file name and function name) are without separators. -/
def Trace.Plain (t : Trace) : Prop := ∀ c ∈ t.file ++ t.function, c ≠ 0x1e ∧ c ≠ 0x1f

/-- The fields of a record. -/
def Log.fields (l : Log) : Fields := ⟨Verif.Digits.digits 10 l.index, [l.level], l.time, l.trace.shown, l.message⟩

/-! ## Files (C64) -/

/-- Records in files: a file takes records until it holds more than `max` bytes; then the next file
begins. `acc` is what the current file holds already. The last file may be empty. -/
def fill (max : Nat) (acc : List (List Nat)) : List (List Nat) → List (List (List Nat))
  | [] => [acc]
  | r :: rs => if max < (acc ++ [r]).flatten.length then (acc ++ [r]) :: fill max [] rs else fill max (acc ++ [r]) rs

/-- The bytes that can be got back from a log file: the file itself, or, if there is none, what the
Huffman decoder makes of its compressed version. -/
def contents (dir : Name → Option (List Nat)) (n : Name) : Option (List Nat) :=
  match dir n with
  | some c => some c
  | none =>
    match dir (encName n) with
    | some e => match Verif.Huffman.decode e with
      | .ok c => some c
      | _ => none
    | none => none

/-- The surroundings behave: every record is written completely, and a successful encoder run leaves the
complete output of the Huffman encoder (for some valid configuration) in the compressed file. Whether files can be
opened, whether `file_size` works, whether the encoder fails, the limits and the names are arbitrary. -/
def Faithful (s : FileSink) : List (World × List Nat) → Prop
  | [] => True
  | (w, b) :: rest => w.wrote = none ∧ (∀ x ∈ b, x < 256) ∧
    (∀ out c, w.encode = .done out → (s.write w b).dir s.file = some c →
      ∃ kb M, Verif.Huffman.Valid kb M c ∧ Verif.Huffman.Encodes kb M c out) ∧
    Faithful (s.stream w b).1 rest

end Verif.Logger
