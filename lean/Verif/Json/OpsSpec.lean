import Verif.Json.Spec
import Verif.Json.Ops

/-!
# Specification of the container operations

A JSON object is a function from keys to values, a JSON array is a sequence. Nothing of the model is
used but the vocabulary `Op`, `Ret`.
-/

namespace Verif.Json

/-- What a `fly::Json` holds, abstractly. -/
inductive Abs where
  | null
  | map (f : List Nat → Option Value)
  | seq (l : List Value)
  | other (v : Value)

/-- A function changed at one point. -/
def upd (f : List Nat → Option Value) (k : List Nat) (x : Option Value) : List Nat → Option Value :=
  fun k' => if k' = k then x else f k'

/-- The call fails and nothing has changed. -/
def Fails (s s' : Abs) (r : Ret) : Prop := s' = s ∧ r = .threw

/-- The raw key text denotes the key `k` and `P k`, or it is no JSON string and the call fails. -/
def Keyed (s : Abs) (raw : List Nat) (s' : Abs) (r : Ret) (P : List Nat → Prop) : Prop :=
  (∃ k, StringBody raw k ∧ P k) ∨ ((∀ k, ¬ StringBody raw k) ∧ Fails s s' r)

/-- Operations on a map. -/
def ExpectedMap (s : Abs) (f : List Nat → Option Value) (op : Op) (s' : Abs) (r : Ret) : Prop :=
  match op with
  | .size => s' = s ∧ ∃ ks : List (List Nat), ks.Nodup ∧ (∀ k, k ∈ ks ↔ f k ≠ none) ∧ r = .num ks.length
  | .empty => s' = s ∧ ((r = .flag true ∧ ∀ k, f k = none) ∨ (r = .flag false ∧ ∃ k, f k ≠ none))
  | .atKey raw => Keyed s raw s' r fun k =>
      (∃ x, f k = some x ∧ s' = s ∧ r = .val x) ∨ (f k = none ∧ Fails s s' r)
  | .subKey raw => Keyed s raw s' r fun k =>
      s' = .map (upd f k (some ((f k).getD .null))) ∧ r = .val ((f k).getD .null)
  | .setKey raw x => Keyed s raw s' r fun k => s' = .map (upd f k (some x)) ∧ r = .unit
  | .contains raw => Keyed s raw s' r fun k => s' = s ∧ r = .flag (f k).isSome
  | .insert raw x => Keyed s raw s' r fun k =>
      (f k = none ∧ s' = .map (upd f k (some x)) ∧ r = .flag true) ∨
      (f k ≠ none ∧ s' = s ∧ r = .flag false)
  | .insertOrAssign raw x => Keyed s raw s' r fun k =>
      s' = .map (upd f k (some x)) ∧ r = .flag (f k).isNone
  | .eraseKey raw => Keyed s raw s' r fun k =>
      s' = .map (upd f k none) ∧ r = .num (if (f k).isSome then 1 else 0)
  | .clear => s' = .map (fun _ => none) ∧ r = .unit
  | .merge (.obj m) => ∃ g : List Nat → Option Value, (∀ k x, g k = some x ↔ (k, x) ∈ m) ∧
      s' = .map (fun k => (f k).or (g k)) ∧ r = .unit
  | _ => Fails s s' r

/-- `l`, extended with nulls to at least `n` elements. -/
def padded (l : List Value) (n : Nat) : List Value := l ++ List.replicate (n - l.length) .null

/-- Operations on a sequence; at most `cap` elements can be stored. -/
def ExpectedSeq (cap : Nat) (s : Abs) (l : List Value) (op : Op) (s' : Abs) (r : Ret) : Prop :=
  match op with
  | .size => s' = s ∧ r = .num l.length
  | .empty => s' = s ∧ ((r = .flag true ∧ l = []) ∨ (r = .flag false ∧ l ≠ []))
  | .atIdx i => (∃ x, l[i]? = some x ∧ s' = s ∧ r = .val x) ∨ (l.length ≤ i ∧ Fails s s' r)
  | .subIdx i => (i < cap ∧ s' = .seq (padded l (i + 1)) ∧
        ∃ x, (padded l (i + 1))[i]? = some x ∧ r = .val x) ∨
      (cap ≤ i ∧ Fails s s' r)
  | .setIdx i x => (i < cap ∧ r = .unit ∧ ∃ a y b, padded l (i + 1) = a ++ y :: b ∧ a.length = i ∧
        s' = .seq (a ++ x :: b)) ∨
      (cap ≤ i ∧ Fails s s' r)
  | .eraseIdx i => (∃ a y b, l = a ++ y :: b ∧ a.length = i ∧ s' = .seq (a ++ b) ∧ r = .unit) ∨
      (l.length ≤ i ∧ Fails s s' r)
  | .insertAt i x => (∃ a b, l = a ++ b ∧ a.length = i ∧ l.length < cap ∧ s' = .seq (a ++ x :: b) ∧
        r = .unit) ∨
      ((l.length < i ∨ cap ≤ l.length) ∧ Fails s s' r)
  | .pushBack x => (l.length < cap ∧ s' = .seq (l ++ [x]) ∧ r = .unit) ∨
      (cap ≤ l.length ∧ Fails s s' r)
  | .popBack => (∃ a x, l = a ++ [x] ∧ s' = .seq a ∧ r = .unit) ∨ (l = [] ∧ Fails s s' r)
  | .resize n => (n ≤ cap ∧ s' = .seq ((padded l n).take n) ∧ r = .unit) ∨ (cap < n ∧ Fails s s' r)
  | .clear => s' = .seq [] ∧ r = .unit
  | _ => Fails s s' r

/-- What a call has to do: on a null value, `operator[]`, `push_back` and `merge` work as on an empty
object or array; everything else that is not supported fails. -/
def Expected (cap : Nat) (s : Abs) (op : Op) (s' : Abs) (r : Ret) : Prop :=
  match s with
  | .map f => ExpectedMap s f op s' r
  | .seq l => ExpectedSeq cap s l op s' r
  | .null => match op with
    | .size => s' = s ∧ r = .num 0
    | .empty => s' = s ∧ r = .flag true
    | .clear => s' = s ∧ r = .unit
    | .subKey _ => ExpectedMap s (fun _ => none) op s' r
    | .setKey _ _ => ExpectedMap s (fun _ => none) op s' r
    | .merge _ => ExpectedMap s (fun _ => none) op s' r
    | .subIdx _ => ExpectedSeq cap s [] op s' r
    | .setIdx _ _ => ExpectedSeq cap s [] op s' r
    | .pushBack _ => ExpectedSeq cap s [] op s' r
    | _ => Fails s s' r
  | .other v => match op with
    | .size => s' = s ∧ r = .num (match v with | .str t => t.length | _ => 1)
    | .empty => s' = s ∧ r = .flag (match v with | .str t => t.isEmpty | _ => false)
    | .clear => r = .unit ∧ s' = .other (match v with
      | .str _ => .str []
      | .bool _ => .bool false
      | .int _ => .int 0
      | .uint _ => .uint 0
      | .flt _ => .flt (.fin 0 0)
      | v => v)
    | .resize n => (∃ t, v = .str t ∧ n ≤ max cap t.length ∧ r = .unit ∧
          s' = .other (.str ((t ++ List.replicate (n - t.length) 0).take n))) ∨
        ((∀ t, v = .str t → max cap t.length < n) ∧ Fails s s' r)
    | _ => Fails s s' r

/-- A history of calls. -/
inductive History (cap : Nat) : Abs → List Op → Abs → List Ret → Prop
  | nil {s} : History cap s [] s []
  | cons {s s' s'' op ops r rs} : Expected cap s op s' r → History cap s' ops s'' rs →
      History cap s (op :: ops) s'' (r :: rs)

/-- The value of the first entry with a key. -/
def valueAt (k : List Nat) (m : List (List Nat × Value)) : Option Value :=
  (m.find? fun e => e.1 == k).map (·.2)

/-- The abstract view of a value. -/
def abs : Value → Abs
  | .null => .null
  | .obj m => .map (fun k => valueAt k m)
  | .arr l => .seq l
  | v => .other v

/-- A value whose object entries are sorted and whose array fits into memory. -/
def Fits (cap : Nat) : Value → Prop
  | .obj m => SortedKeys m
  | .arr l => l.length ≤ cap
  | _ => True

/-- Arguments a caller can pass: byte strings, 64-bit sizes, sorted maps. -/
def Op.Ok : Op → Prop
  | .atKey raw | .subKey raw | .setKey raw _ | .contains raw | .insert raw _ | .insertOrAssign raw _
  | .eraseKey raw => ∀ b ∈ raw, b < 256
  | .atIdx i | .subIdx i | .setIdx i _ | .eraseIdx i | .resize i | .insertAt i _ => i < 2 ^ 64
  | .merge (.obj m) => SortedKeys m
  | _ => True

/-- The calls that break the rule that a failing call changes nothing: `operator[]` with an invalid
key, or with an index too large to store, or `merge` with something that is not an object, on a null
value (which becomes an empty container); and `operator[]` with the largest index on an array (which
becomes empty). -/
def Deviates (cap : Nat) (v : Value) : Op → Prop
  | .subKey raw | .setKey raw _ => v = .null ∧ ∀ k, ¬ StringBody raw k
  | .subIdx i | .setIdx i _ => (v = .null ∧ cap ≤ i) ∨ ((∃ l, v = .arr l) ∧ i = 2 ^ 64 - 1)
  | .merge o => v = .null ∧ ∀ m, o ≠ .obj m
  | _ => False

end Verif.Json
