import Verif.Json.Spec
import Verif.Json.World
import Verif.Json.OpsSpec

/-!
# Specification of programs with several JSON objects and iterators

A program state is reached by calls from the state without any value and any iterator. An iterator
stands at an index of the sequence of entries of a variable. Only the vocabulary (`World`, `It`,
`Call`, `Got`) and the function `call` under test are taken from the model.
-/

namespace Verif.Json

/-- The iterator stands at index `n` of variable `x`, and `x` has not changed its structure since. -/
def Stands (w : World) (i : It) (x n : Nat) : Prop := i.owner = some x ∧ i.ver = w.ver x ∧ i.pos = n

/-- The iterator has no object, or its object has not changed its structure since. -/
def Usable (w : World) (i : It) : Prop := ∀ x, i.owner = some x → i.ver = w.ver x

/-- The iterators a call is given. -/
def Call.uses : Call → List It
  | .eq i j | .ne i j | .lt i j | .le i j | .gt i j | .ge i j | .diff i j | .revDiff i j => [i, j]
  | .inc i | .dec i | .add i _ | .sub i _ | .get i | .index i _ | .key i | .set i _ | .revGet i
  | .revKey i => [i]
  | .insert _ i _ | .insertMany _ i _ _ | .erase _ i => [i]
  | .insertRange _ i j k => [i, j, k]
  | .insertEntries _ i j | .eraseRange _ i j => [i, j]
  | _ => []

/-- The iterators a call returns. -/
def Got.iters : Got → List It
  | .it i => [i]
  | .itFlag i _ => [i]
  | _ => []

/-- Arguments a caller can pass: byte strings, values that fit into memory with sorted entries, 64-bit
sizes and offsets. -/
def Call.Ok (cap : Nat) : Call → Prop
  | .make _ v => Fits cap v
  | .find _ raw | .insertKey _ raw _ => ∀ b ∈ raw, b < 256
  | .add _ off | .sub _ off | .index _ off => -(2 ^ 63) ≤ off ∧ off < 2 ^ 63
  | .other _ o => o.Ok
  | _ => True

/-- The state `w` is reached by calls with iterators obtained earlier (`its`: all there are). -/
inductive Prog (cap : Nat) : World → List It → Prop
  | start : Prog cap ⟨fun _ => .null, fun _ => 0⟩ []
  /-- `Json::iterator it;` -/
  | null {w its} : Prog cap w its → Prog cap w (⟨none, 0, false, 0⟩ :: its)
  | call {w its c w' r} : Prog cap w its → c.Ok cap → (∀ i ∈ c.uses, i ∈ its) →
      call cap w c = .ok (w', r) → Prog cap w' (r.iters ++ its)

/-- What the library does not check: the offset -2^63, ranges the wrong way round, and ranges of an
object inserted into itself. -/
def Call.Sane : Call → Prop
  | .add _ off | .sub _ off | .index _ off => off ≠ -(2 ^ 63)
  | .insertRange _ _ first last | .eraseRange _ first last =>
    first.owner = last.owner → first.pos ≤ last.pos
  | .insertEntries x first last => first.owner = last.owner → first.pos ≤ last.pos ∧ first.owner ≠ some x
  | _ => True

/-- The sequence of entries of a value that can be iterated: keys (of objects) and values. -/
inductive Entries : Value → List (Option (List Nat) × Value) → Prop
  | obj (m : List (List Nat × Value)) : Entries (.obj m) (m.map fun e => (some e.1, e.2))
  | arr (l : List Value) : Entries (.arr l) (l.map fun v => (none, v))

/-- The call returns `r` and changes nothing. -/
def Answers (cap : Nat) (w : World) (c : Call) (r : Got) : Prop := call cap w c = .ok (w, r)

/-- `w'` is `w` with another value of `x`. -/
def Only (w w' : World) (x : Nat) (v : Value) : Prop := w'.value x = v ∧ ∀ y, y ≠ x → w'.value y = w.value y ∧
  w'.ver y = w.ver y

/-- The loop `for (; it != x.end(); ++it)`, started at `i`: the values `*it` it sees. -/
inductive Sees (cap : Nat) (w : World) (x : Nat) : It → List Value → Prop
  | done {i e} : Answers cap w (.endOf x) (.it e) → Answers cap w (.ne i e) (.flag false) →
      Sees cap w x i []
  | next {i e j v vs} : Answers cap w (.endOf x) (.it e) → Answers cap w (.ne i e) (.flag true) →
      Answers cap w (.get i) (.val v) → Answers cap w (.inc i) (.it j) → Sees cap w x j vs →
      Sees cap w x i (v :: vs)

/-- The same loop with reverse iterators, `for (; it != x.rend(); ++it)`; `i` is the base. -/
inductive SeesBack (cap : Nat) (w : World) (x : Nat) : It → List Value → Prop
  | done {i b} : Answers cap w (.beginOf x) (.it b) → Answers cap w (.ne i b) (.flag false) →
      SeesBack cap w x i []
  | next {i b j v vs} : Answers cap w (.beginOf x) (.it b) → Answers cap w (.ne i b) (.flag true) →
      Answers cap w (.revGet i) (.val v) → Answers cap w (.dec i) (.it j) → SeesBack cap w x j vs →
      SeesBack cap w x i (v :: vs)

/-- The loop `while (it != x.end()) if (p(*it)) it = x.erase(it); else ++it;`. -/
inductive EraseLoop (cap : Nat) (p : Value → Bool) (x : Nat) : World → It → World → Prop
  | done {w i e} : Answers cap w (.endOf x) (.it e) → Answers cap w (.ne i e) (.flag false) →
      EraseLoop cap p x w i w
  | drop {w i e v w' j w''} : Answers cap w (.endOf x) (.it e) → Answers cap w (.ne i e) (.flag true) →
      Answers cap w (.get i) (.val v) → p v = true → call cap w (.erase x i) = .ok (w', .it j) →
      EraseLoop cap p x w' j w'' → EraseLoop cap p x w i w''
  | keep {w i e v j w''} : Answers cap w (.endOf x) (.it e) → Answers cap w (.ne i e) (.flag true) →
      Answers cap w (.get i) (.val v) → p v = false → Answers cap w (.inc i) (.it j) →
      EraseLoop cap p x w j w'' → EraseLoop cap p x w i w''

end Verif.Json
