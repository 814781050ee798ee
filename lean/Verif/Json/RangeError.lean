import Verif.Json.Exceptions
import Verif.Json.IterProof

/-!
# C116, C150: which exception an iterator throws, and what it says

Sources: `/repo/fly/types/json/detail/json_iterator.hpp` 542-887, `detail/json_reverse_iterator.hpp` 256-386, `/repo/fly/types/json/json_exception.cpp`
67-80.
-/

namespace Verif.Json

open Verif.Format (format Outcome Param)

/-! ## Model -/

/-- What an iterator of a value throws. -/
inductive ItThrow
  /-- `NullJsonException` -/
  | null
  /-- `JsonIteratorException`: the type of the value has no such operation -/
  | kind
  /-- `OutOfRangeJsonException` with its `offset()` -/
  | range (offset : Int)
deriving DecidableEq, Repr

/-- `validate_offset` (json_iterator.hpp 852-874), for offsets whose absolute value exists. -/
def throwOffset (n pos : Nat) (off : Int) : Option ItThrow :=
  if (off.natAbs : Int) > (if 0 ≤ off then (n : Int) - pos else pos) then some (.range off) else none

/-- `validate_dereference` (json_iterator.hpp 876-887). -/
def throwDeref (n : Nat) (pos : Int) : Option ItThrow := if pos = n then some .null else none

/-- What an operation throws, if it does. Comparison with `itStep`, which only says whether: `itThrow_step`. -/
def itThrow (v : Value) (n pos : Nat) : ItOp → Option ItThrow
  -- json_iterator.hpp 679-691
  | .inc => throwOffset n pos 1
  -- json_iterator.hpp 705-717
  | .dec => throwOffset n pos (-1)
  -- json_iterator.hpp 721-739
  | .add off => if hasOffsets v then throwOffset n pos off else some .kind
  -- json_iterator.hpp 743-746: `*this += -offset`
  | .sub off => if hasOffsets v then throwOffset n pos (-off) else some .kind
  -- json_iterator.hpp 544-562
  | .get => throwDeref n pos
  -- json_iterator.hpp 588-609
  | .index off => if hasOffsets v then (throwOffset n pos off).or (throwDeref n (pos + off)) else some .kind
  -- json_reverse_iterator.hpp 258-281: the exception of `--` is replaced
  | .getReverse => (throwOffset n pos (-1)).map (fun _ => .null) |>.or (throwDeref n (pos - 1))

/-- What is done with a reverse iterator over the same container; `pos` is that of its base. -/
inductive RevOp
  | inc
  | dec
  | add (off : Int)
  | sub (off : Int)
  | index (off : Int)

/-- What an operation on a reverse iterator throws: the standard's `operator++` is `--` of the base, `+=` is `-=`, and so on
(json_reverse_iterator.hpp 284-346); `operator[]` is `*(*this + offset)`. -/
def revThrow (v : Value) (n pos : Nat) : RevOp → Option ItThrow
  | .inc => itThrow v n pos .dec
  | .dec => itThrow v n pos .inc
  | .add off => itThrow v n pos (.sub off)
  | .sub off => itThrow v n pos (.add off)
  | .index off => (itThrow v n pos (.sub off)).or (itThrow v n (pos - off).toNat .getReverse)

/-- `"Offset {} is out-of-range: ({})"` (json_exception.cpp 71). -/
def rangeFmt : List Nat :=
  [0x4f, 0x66, 0x66, 0x73, 0x65, 0x74, 0x20, 0x7b, 0x7d, 0x20, 0x69, 0x73, 0x20, 0x6f, 0x75, 0x74, 0x2d, 0x6f, 0x66, 0x2d, 0x72, 0x61, 0x6e, 0x67,
   0x65, 0x3a, 0x20, 0x28, 0x7b, 0x7d, 0x29]

/-- `"OutOfRangeJsonException"` (json_exception.cpp 70). -/
def rangeClass : List Nat :=
  [0x4f, 0x75, 0x74, 0x4f, 0x66, 0x52, 0x61, 0x6e, 0x67, 0x65, 0x4a, 0x73, 0x6f, 0x6e, 0x45, 0x78, 0x63, 0x65, 0x70, 0x74, 0x69, 0x6f, 0x6e]

/-- `OutOfRangeJsonException` (json_exception.cpp 67-74); the offset is a 64-bit signed number. -/
def whatRange (io : FloatIO) (v : Value) (offset : Int) : Outcome :=
  whatClass rangeClass (withText io v fun t => format ⟨8, true⟩ rangeFmt [.int false true 64 (offset % 2 ^ 64).toNat, .str t])

/-! ## Specification -/

/-- Where a forward operation moves or looks, from `pos`; an array is needed for all but single steps. -/
inductive Goes (array : Bool) (pos : Nat) : ItOp → Int → Prop
  | inc : Goes array pos .inc (pos + 1)
  | dec : Goes array pos .dec (pos - 1)
  | add {off : Int} : array = true → Goes array pos (.add off) (pos + off)
  | sub {off : Int} : array = true → Goes array pos (.sub off) (pos - off)
  | index {off : Int} : array = true → Goes array pos (.index off) (pos + off)

/-- Where a reverse operation moves the base. -/
inductive GoesBack (array : Bool) (pos : Nat) : RevOp → Int → Prop
  | inc : GoesBack array pos .inc (pos - 1)
  | dec : GoesBack array pos .dec (pos + 1)
  | add {off : Int} : array = true → GoesBack array pos (.add off) (pos - off)
  | sub {off : Int} : array = true → GoesBack array pos (.sub off) (pos + off)
  | index {off : Int} : array = true → GoesBack array pos (.index off) (pos - off)

/-- The position is none of the container's: its entries and the end. -/
def Outside (n : Nat) (p : Int) : Prop := p < 0 ∨ (n : Int) < p

/-- Decimal numerals of integers. -/
def Shows (o : Int) (t : List Nat) : Prop :=
  ∃ ds, Verif.Format.Numeral 10 false o.natAbs ds ∧ t = if o < 0 then 0x2d :: ds else ds

/-! ## Proofs -/

theorem throwOffset_iff {n pos : Nat} (hp : pos ≤ n) {off : Int} {t : ItThrow} :
    throwOffset n pos off = some t ↔ t = .range off ∧ Outside n (pos + off) := by
  unfold throwOffset Outside
  by_cases h : 0 ≤ off
  · rw [if_pos h]
    by_cases h2 : (off.natAbs : Int) > (n : Int) - pos
    · rw [if_pos h2]
      constructor
      · intro e; injection e with e; exact ⟨e.symm, by omega⟩
      · rintro ⟨e, _⟩; rw [e]
    · rw [if_neg h2]
      constructor
      · intro e; cases e
      · rintro ⟨_, h3⟩; omega
  · rw [if_neg h]
    by_cases h2 : (off.natAbs : Int) > (pos : Int)
    · rw [if_pos h2]
      constructor
      · intro e; injection e with e; exact ⟨e.symm, by omega⟩
      · rintro ⟨e, _⟩; rw [e]
    · rw [if_neg h2]
      constructor
      · intro e; cases e
      · rintro ⟨_, h3⟩; omega

theorem throwOffset_none {n pos : Nat} (hp : pos ≤ n) {off : Int} : throwOffset n pos off = none ↔ ¬ Outside n (pos + off) := by
  constructor
  · intro h ho
    have := (throwOffset_iff hp (t := .range off)).mpr ⟨rfl, ho⟩
    rw [h] at this; cases this
  · intro h
    cases e : throwOffset n pos off with
    | none => rfl
    | some t => exact absurd ((throwOffset_iff hp).mp e).2 h

theorem throwDeref_iff {n : Nat} {p : Int} {t : ItThrow} : throwDeref n p = some t ↔ t = .null ∧ p = n := by
  unfold throwDeref
  by_cases h : p = n
  · rw [if_pos h]
    constructor
    · intro e; injection e with e; exact ⟨e.symm, h⟩
    · rintro ⟨e, _⟩; rw [e]
  · rw [if_neg h]
    constructor
    · intro e; cases e
    · rintro ⟨_, h2⟩; exact absurd h2 h

/-- An operation of the iterator model throws exactly if an exception is named for it. -/
theorem itThrow_step {v : Value} {l : List Value} {pos : Nat} (hp : pos ≤ l.length) {op : ItOp} (ho : op.Ok) :
    itStep v l pos op = .threw ↔ itThrow v l.length pos op ≠ none := by
  have mv : ∀ off : Int, off ≠ -(2 ^ 63) → (moveBy l.length pos off = .threw ↔ throwOffset l.length pos off ≠ none) := by
    intro off h
    rw [Ne, throwOffset_none hp]
    rcases move_spec hp h with ⟨q, h1, h2, h3⟩ | ⟨h1, h2⟩
    · rw [h3]
      constructor
      · intro e; cases e
      · intro e; exfalso; apply e; unfold Outside; omega
    · rw [h2]; exact ⟨fun _ e => e h1, fun _ => rfl⟩
  have nub : ∀ off : Int, off ≠ -(2 ^ 63) → moveBy l.length pos off ≠ .ub := by
    intro off h
    rcases move_spec hp h with ⟨q, h1, h2, h3⟩ | ⟨h1, h2⟩ <;> simp [*]
  have mvo : ∀ off : Int, off ≠ -(2 ^ 63) → ((match moveBy l.length pos off with
      | .ok p => Out.ok (p, (none : Option Value))
      | .threw => .threw
      | .ub => .ub) = .threw ↔ throwOffset l.length pos off ≠ none) := by
    intro off h
    rw [← mv off h]
    cases e : moveBy l.length pos off <;> simp
  have rd : ∀ off : Int, off ≠ -(2 ^ 63) → ((match moveBy l.length pos off with
      | .ok p => (match deref l p with
        | .ok x => Out.ok (pos, some x)
        | .threw => .threw
        | .ub => .ub)
      | .threw => .threw
      | .ub => .ub) = .threw ↔ throwOffset l.length pos off ≠ none ∨ (pos : Int) + off = l.length) := by
    intro off h
    rcases move_spec hp h with ⟨q, h1, h2, h3⟩ | ⟨h1, h2⟩
    · have h4 : throwOffset l.length pos off = none := (throwOffset_none hp).mpr (by unfold Outside; omega)
      rw [h3, h4]
      simp only [ne_eq, not_true_eq_false, false_or]
      rcases deref_spec h2 with ⟨x, g1, g2⟩ | ⟨g1, g2⟩
      · rw [g2]
        constructor
        · intro e; cases e
        · intro e
          exfalso
          have : q = l.length := by omega
          rw [this] at g1; simp at g1
      · rw [g2]; exact ⟨fun _ => by omega, fun _ => rfl⟩
    · rw [h2]
      exact ⟨fun _ => .inl ((mv off h).mp h2), fun _ => rfl⟩
  cases op with
  | inc => exact mvo 1 (by decide)
  | dec => exact mvo (-1) (by decide)
  | add off =>
    simp only [itStep, itThrow]
    by_cases hv : hasOffsets v = true
    · simp only [hv, if_true]; exact mvo off (by have := ho.1; omega)
    · simp [hv]
  | sub off =>
    have h1 : off ≠ -(2 ^ 63) := by have := ho.1; omega
    simp only [itStep, itThrow, negate, if_neg h1]
    by_cases hv : hasOffsets v = true
    · simp only [hv, if_true]; exact mvo (-off) (by have := ho.2; omega)
    · simp [hv]
  | get =>
    simp only [itStep, itThrow]
    rcases deref_spec hp with ⟨x, g1, g2⟩ | ⟨g1, g2⟩
    · have : pos ≠ l.length := by intro e; rw [e] at g1; simp at g1
      rw [g2]
      unfold throwDeref
      rw [if_neg (by omega)]
      constructor
      · intro e; cases e
      · intro e; exact absurd rfl e
    · rw [g2]
      unfold throwDeref
      rw [if_pos (by omega)]
      exact ⟨fun _ e => (by cases e), fun _ => rfl⟩
  | index off =>
    simp only [itStep, itThrow]
    by_cases hv : hasOffsets v = true
    · simp only [hv, if_true]
      refine (rd off (by have := ho.1; omega)).trans ?_
      cases e : throwOffset l.length pos off with
      | some t => simp
      | none =>
        unfold throwDeref
        by_cases h : (pos : Int) + off = l.length <;> simp [h]
    · simp [hv]
  | getReverse =>
    simp only [itStep, itThrow]
    refine (rd (-1) (by decide)).trans ?_
    cases e : throwOffset l.length pos (-1) with
    | some t => simp
    | none =>
      unfold throwDeref
      by_cases h : (pos : Int) - 1 = l.length
      · simp [h]; omega
      · have : ¬ ((pos : Int) + -1 = l.length) := by omega
        simp [h, this]

/-! ## Theorems -/

/-- **C150.** Which exception an iterator's operation throws, at any position of its container. Out of range: exactly if it would leave the container,
and `offset()` tells where to, counted from the iterator's position. No entry there: exactly for reading at the end (in reverse, at the
beginning). Wrong type: exactly for offsets on an object's iterator. Nothing is thrown otherwise. -/
theorem iterator_throws {v : Value} {l : List Value} (_hv : elements v = some l) {pos : Nat} (hp : pos ≤ l.length) {op : ItOp} (ho : op.Ok) :
    (itStep v l pos op = .threw ↔ itThrow v l.length pos op ≠ none) ∧
    (∀ o, itThrow v l.length pos op = some (.range o) ↔ ∃ p, Goes (isArr v) pos op p ∧ Outside l.length p ∧ pos + o = p) ∧
    (itThrow v l.length pos op = some .null ↔ (op = .get ∧ pos = l.length) ∨ (op = .getReverse ∧ pos = 0) ∨
      ∃ off, op = .index off ∧ isArr v = true ∧ (pos : Int) + off = l.length) ∧
    (itThrow v l.length pos op = some .kind ↔ isArr v = false ∧ ∃ off, op = .add off ∨ op = .sub off ∨ op = .index off) := by
  rw [← hasOffsets_isArr]
  refine ⟨itThrow_step hp ho, ?_⟩
  have h1 : ∀ {off : Int} {t : ItThrow}, throwOffset l.length pos off = some t ↔ t = .range off ∧ Outside l.length (pos + off) := throwOffset_iff hp
  cases op with
  | inc =>
    simp only [itThrow, h1]
    refine ⟨fun o => ?_, by simp, by simp⟩
    constructor
    · rintro ⟨e, h⟩; injection e with e; exact ⟨_, .inc, h, by omega⟩
    · rintro ⟨p, g, h, e⟩; cases g; exact ⟨by congr 1; omega, h⟩
  | dec =>
    simp only [itThrow, h1]
    refine ⟨fun o => ?_, by simp, by simp⟩
    constructor
    · rintro ⟨e, h⟩; injection e with e; exact ⟨_, .dec, h, by omega⟩
    · rintro ⟨p, g, h, e⟩; cases g; exact ⟨by congr 1; omega, h⟩
  | add off =>
    simp only [itThrow]
    by_cases hv : hasOffsets v = true
    · simp only [hv, if_true, h1]
      refine ⟨fun o => ?_, by simp, by simp⟩
      constructor
      · rintro ⟨e, h⟩; injection e with e; exact ⟨_, .add rfl, h, by omega⟩
      · rintro ⟨p, g, h, e⟩; cases g; exact ⟨by congr 1; omega, h⟩
    · simp only [hv]
      refine ⟨fun o => ?_, by simp, by simp⟩
      constructor
      · intro e; cases e
      · rintro ⟨p, g, h, e⟩; cases g; contradiction
  | sub off =>
    simp only [itThrow]
    by_cases hv : hasOffsets v = true
    · simp only [hv, if_true, h1]
      refine ⟨fun o => ?_, by simp, by simp⟩
      constructor
      · rintro ⟨e, h⟩; injection e with e; exact ⟨_, .sub rfl, h, by omega⟩
      · rintro ⟨p, g, h, e⟩; cases g; exact ⟨by congr 1; omega, h⟩
    · simp only [hv]
      refine ⟨fun o => ?_, by simp, by simp⟩
      constructor
      · intro e; cases e
      · rintro ⟨p, g, h, e⟩; cases g; contradiction
  | get =>
    simp only [itThrow, throwDeref_iff]
    refine ⟨fun o => ?_, by simp; omega, by simp⟩
    constructor
    · rintro ⟨e, _⟩; cases e
    · rintro ⟨p, g, h, e⟩; cases g
  | index off =>
    simp only [itThrow]
    by_cases hv : hasOffsets v = true
    · simp only [hv, if_true, Option.or_eq_some_iff, h1, throwDeref_iff, throwOffset_none hp]
      refine ⟨fun o => ?_, ?_, by simp⟩
      · constructor
        · rintro (⟨e, h⟩ | ⟨_, e, _⟩)
          · injection e with e; exact ⟨_, .index rfl, h, by omega⟩
          · cases e
        · rintro ⟨p, g, h, e⟩; cases g; exact .inl ⟨by congr 1; omega, h⟩
      · constructor
        · rintro (⟨e, _⟩ | ⟨_, _, e⟩)
          · cases e
          · exact .inr (.inr ⟨off, rfl, trivial, e⟩)
        · rintro (⟨e, _⟩ | ⟨e, _⟩ | ⟨off', e, _, h⟩)
          · cases e
          · cases e
          · cases e; exact .inr ⟨by unfold Outside; omega, trivial, h⟩
    · simp only [hv]
      refine ⟨fun o => ?_, by simp, by simp⟩
      constructor
      · intro e; cases e
      · rintro ⟨p, g, h, e⟩; cases g; contradiction
  | getReverse =>
    simp only [itThrow, Option.or_eq_some_iff, throwDeref_iff, Option.map_eq_some_iff, Option.map_eq_none_iff, h1]
    refine ⟨fun o => ?_, ?_, ?_⟩
    · constructor
      · rintro (⟨t, _, e⟩ | ⟨_, e, _⟩) <;> cases e
      · rintro ⟨p, g, h, e⟩; cases g
    · constructor
      · rintro (⟨t, ⟨_, h⟩, _⟩ | ⟨_, _, h⟩)
        · exact .inr (.inl ⟨trivial, by unfold Outside at h; omega⟩)
        · omega
      · rintro (⟨e, _⟩ | ⟨_, h⟩ | ⟨off, e, _⟩)
        · cases e
        · exact .inl ⟨_, ⟨rfl, by unfold Outside; omega⟩, trivial⟩
        · cases e
    · constructor
      · rintro (⟨t, _, e⟩ | ⟨_, e, _⟩) <;> cases e
      · rintro ⟨_, off, e | e | e⟩ <;> cases e

/-- `[1,2]`, second entry: five back is out of range by five, the next entry but one too; the end cannot be read. An object has no offsets. -/
example : elements (.arr [.int 1, .int 2]) = some [.int 1, .int 2] ∧
    itThrow (.arr [.int 1, .int 2]) 2 1 (.sub 5) = some (.range (-5)) ∧ itThrow (.arr [.int 1, .int 2]) 2 1 (.add 2) = some (.range 2) ∧
    itThrow (.arr [.int 1, .int 2]) 2 1 (.index 1) = some .null ∧ itThrow (.arr [.int 1, .int 2]) 2 1 (.index (-1)) = none ∧
    itThrow (.obj [([0x61], .int 1)]) 1 0 (.add 1) = some .kind ∧ itThrow (.obj [([0x61], .int 1)]) 1 0 .inc = none := by
  refine ⟨rfl, ?_, ?_, ?_, ?_, ?_, ?_⟩ <;> decide

/-- C150 fails for the smallest offset, -2^63: on every array, at every position, `+=`, `-=` and `[]` have undefined behaviour (the
magnitude of that offset is no `difference_type`) instead of throwing; so does `-=` on the iterators of an object. -/
theorem iterator_throws_violated (l : List Value) (pos : Nat) :
    (∀ op ∈ [ItOp.add (-(2 ^ 63)), .sub (-(2 ^ 63)), .index (-(2 ^ 63))], itStep (.arr l) l pos op = .ub) ∧
    (∀ m, itStep (.obj m) l pos (.sub (-(2 ^ 63))) = .ub) := by
  refine ⟨fun op h => ?_, fun m => rfl⟩
  simp only [List.mem_cons, List.not_mem_nil, or_false] at h
  rcases h with rfl | rfl | rfl <;> rfl

/-- One above it is checked: it leaves the array, and that is what is thrown. -/
example (l : List Value) (hl : l.length < 2 ^ 63 - 1) : itStep (.arr l) l 0 (.sub (-(2 ^ 63) + 1)) = .threw := by
  simp only [itStep, negate, hasOffsets, moveBy, validateOffset]
  rw [if_neg (by omega)]
  simp only [if_true]
  rw [if_neg (by omega), if_pos (by omega), if_pos (by omega)]

/-- The same for reverse iterators: `offset()` counts from the base, in the direction of the container, so it is the negative of the offset
that `+=` of the reverse iterator was given. -/
theorem reverse_iterator_throws {v : Value} {n pos : Nat} (hp : pos ≤ n) (op : RevOp) :
    (∀ o, revThrow v n pos op = some (.range o) ↔ ∃ p, GoesBack (isArr v) pos op p ∧ Outside n p ∧ pos + o = p) ∧
    (revThrow v n pos op = some .null ↔ ∃ off, op = .index off ∧ isArr v = true ∧ off = pos) ∧
    (revThrow v n pos op = some .kind ↔ isArr v = false ∧ ∃ off, op = .add off ∨ op = .sub off ∨ op = .index off) := by
  rw [← hasOffsets_isArr]
  have h1 : ∀ {off : Int} {t : ItThrow}, throwOffset n pos off = some t ↔ t = .range off ∧ Outside n (pos + off) := throwOffset_iff hp
  cases op with
  | inc =>
    simp only [revThrow, itThrow, h1]
    refine ⟨fun o => ?_, by simp, by simp⟩
    constructor
    · rintro ⟨e, h⟩; injection e with e; exact ⟨_, .inc, h, by omega⟩
    · rintro ⟨p, g, h, e⟩; cases g; exact ⟨by congr 1; omega, h⟩
  | dec =>
    simp only [revThrow, itThrow, h1]
    refine ⟨fun o => ?_, by simp, by simp⟩
    constructor
    · rintro ⟨e, h⟩; injection e with e; exact ⟨_, .dec, h, by omega⟩
    · rintro ⟨p, g, h, e⟩; cases g; exact ⟨by congr 1; omega, h⟩
  | add off =>
    simp only [revThrow, itThrow]
    by_cases hv : hasOffsets v = true
    · simp only [hv, if_true, h1]
      refine ⟨fun o => ?_, by simp, by simp⟩
      constructor
      · rintro ⟨e, h⟩; injection e with e; exact ⟨_, .add rfl, h, by omega⟩
      · rintro ⟨p, g, h, e⟩; cases g; exact ⟨by congr 1; omega, h⟩
    · simp only [hv]
      refine ⟨fun o => ?_, by simp, by simp⟩
      constructor
      · intro e; cases e
      · rintro ⟨p, g, h, e⟩; cases g; contradiction
  | sub off =>
    simp only [revThrow, itThrow]
    by_cases hv : hasOffsets v = true
    · simp only [hv, if_true, h1]
      refine ⟨fun o => ?_, by simp, by simp⟩
      constructor
      · rintro ⟨e, h⟩; injection e with e; exact ⟨_, .sub rfl, h, by omega⟩
      · rintro ⟨p, g, h, e⟩; cases g; exact ⟨by congr 1; omega, h⟩
    · simp only [hv]
      refine ⟨fun o => ?_, by simp, by simp⟩
      constructor
      · intro e; cases e
      · rintro ⟨p, g, h, e⟩; cases g; contradiction
  | index off =>
    simp only [revThrow, itThrow]
    by_cases hv : hasOffsets v = true
    · simp only [hv, if_true]
      by_cases hout : Outside n (pos - off)
      · have h2 : throwOffset n pos (-off) = some (.range (-off)) := h1.mpr ⟨rfl, hout⟩
        rw [h2]
        refine ⟨fun o => ?_, ?_, by simp⟩
        · simp only [Option.some_or, Option.some.injEq, ItThrow.range.injEq]
          constructor
          · intro e; exact ⟨_, .index rfl, hout, by omega⟩
          · rintro ⟨p, g, h, e⟩; cases g; omega
        · constructor
          · intro e; cases e
          · rintro ⟨off', e, _, h⟩; cases e; unfold Outside at hout; omega
      · have h2 : throwOffset n pos (-off) = none := (throwOffset_none hp).mpr hout
        have hq : (((pos : Int) - off).toNat : Int) = pos - off := by unfold Outside at hout; omega
        have hq' : ((pos : Int) - off).toNat ≤ n := by unfold Outside at hout; omega
        rw [h2]
        simp only [Option.none_or, Option.or_eq_some_iff, Option.map_eq_some_iff, throwOffset_iff hq', throwDeref_iff]
        refine ⟨fun o => ?_, ?_, ?_⟩
        · constructor
          · rintro (⟨t, _, e⟩ | ⟨_, e, _⟩) <;> cases e
          · rintro ⟨p, g, h, e⟩; cases g; exact absurd h hout
        · constructor
          · rintro (⟨t, ⟨_, h⟩, _⟩ | ⟨_, _, h⟩)
            · exact ⟨off, rfl, trivial, by unfold Outside at h; omega⟩
            · omega
          · rintro ⟨off', e, _, h⟩
            cases e
            exact .inl ⟨_, ⟨rfl, by unfold Outside; omega⟩, trivial⟩
        · simp
    · simp only [hv]
      refine ⟨fun o => ?_, by simp, by simp⟩
      constructor
      · intro e; cases e
      · rintro ⟨p, g, h, e⟩; cases g; contradiction

/-- `[1,2]`, reverse iterator on the first entry: one more step is the end, two are out of range, by two backwards. -/
example : revThrow (.arr [.int 1, .int 2]) 2 1 .inc = none ∧ revThrow (.arr [.int 1, .int 2]) 2 1 (.add 2) = some (.range (-2)) ∧
    revThrow (.arr [.int 1, .int 2]) 2 1 (.index 1) = some .null ∧ revThrow (.arr [.int 1, .int 2]) 2 1 (.index (-1)) = none := by decide

/-- A field `{}` of a signed number. -/
theorem loop_int {mc : Nat} {ps : List Param} {n p repr : Nat} {ss : List Verif.Format.FSpec} {r t : List Nat}
    (hp : ps[p]? = some (.int false true 64 repr)) (h : Verif.Format.formatLoop mc ps n ss r = some t) :
    Verif.Format.formatLoop mc ps (n + 1) ({ position := p, size := 2, kind := .decimal } :: ss) (0x7b :: 0x7d :: r) =
      some (Verif.Format.formatInteger mc { position := p, size := 2, kind := .decimal } ps true 64 repr ++ t) := by
  unfold Verif.Format.formatLoop
  simp only [if_true, if_neg (show ¬ (0x7d : Nat) = 0x7b by decide), hp, Verif.Format.formatParam, List.drop_succ_cons,
    List.drop_zero, h, Option.map_some]

theorem int_shown {mc p z repr : Nat} {ps : List Param} {o : Int} (hr : repr < 2 ^ 64) (ho : Verif.Format.intValue true 64 repr = o) :
    Shows o (Verif.Format.formatInteger mc { position := p, size := z, kind := .decimal } ps true 64 repr) := by
  obtain ⟨base, ds, h1, h2, h3, h4⟩ := Verif.Format.format_integer (maxChar := mc) (ps := ps)
    (s := { position := p, size := z, kind := .decimal }) (b := 10) rfl (signed := true) (bits := 64) (repr := repr) (by decide) hr
  rw [ho] at h2 h3 h4
  cases h1
  simp only [Verif.Format.FSpec.widthOf, Option.getD_none] at h3 h4
  refine ⟨ds, by simpa using h2, ?_⟩
  simp only [Bool.false_eq_true, false_and, if_false, Verif.Format.Padded, Verif.Format.PaddedBy] at h4
  obtain ⟨a, b, e, hab, -⟩ := h4
  have hab' : a + b = 0 := by omega
  have ha : a = 0 := by omega
  have hb : b = 0 := by omega
  rw [e, ha, hb]
  by_cases hn : o < 0
  · simp [Verif.Format.signText, Verif.Format.altText, hn]
  · simp [Verif.Format.signText, Verif.Format.altText, hn]

theorem repr_value {o : Int} (h1 : -(2 ^ 63) ≤ o) (h2 : o < 2 ^ 63) :
    (o % 2 ^ 64).toNat < 2 ^ 64 ∧ Verif.Format.intValue true 64 (o % 2 ^ 64).toNat = o := by
  unfold Verif.Format.intValue
  refine ⟨by omega, ?_⟩
  split <;> rename_i h <;> simp only [true_and, Nat.reduceSub, Nat.reducePow] at h <;> omega

/-- **C116.** The text of `OutOfRangeJsonException` has the offset and the value. -/
theorem range_exception_text (io : FloatIO) (v : Value) (hw : v.WF) (o : Int) (h1 : -(2 ^ 63) ≤ o) (h2 : o < 2 ^ 63) :
    ∃ t n, serialize io v = some t ∧ Shows o n ∧ (n.length + t.length + 100 < 2 ^ 64 →
      whatRange io v o = .text (ascii "OutOfRangeJsonException: Offset " ++ n ++ ascii " is out-of-range: (" ++ t ++ ascii ")")) := by
  obtain ⟨t, ht, _⟩ := text_value (io := io) v hw
  obtain ⟨hr, hv⟩ := repr_value h1 h2
  have key : ∃ n, Shows o n ∧ (t.length < 2 ^ 64 → format ⟨8, true⟩ rangeFmt [.int false true 64 (o % 2 ^ 64).toNat, .str t] =
      .text (rangeFmt.take 7 ++ (n ++ ((rangeFmt.drop 9).take 19 ++ (t ++ [0x29]))))) := by
    refine ⟨_, int_shown (mc := Verif.Format.maxCharOf ⟨8, true⟩) (p := 0) (z := 2) (ps := [.int false true 64 (o % 2 ^ 64).toNat, .str t]) hr hv,
      fun hl => ?_⟩
    have hp : Verif.Format.parseFormat ⟨8, true⟩ [.integral, .string] rangeFmt =
        .ok [{ position := 0, size := 2, kind := .decimal }, { position := 1, size := 2, kind := .string }] := by decide +kernel
    unfold format
    simp only [List.map_cons, List.map_nil, Param.type, hp]
    generalize hps : [Param.int false true 64 (o % 2 ^ 64).toNat, Param.str t] = ps
    have p0 : ps[0]? = some (.int false true 64 (o % 2 ^ 64).toNat) := by rw [← hps]; rfl
    have p1 : ps[1]? = some (.str t) := by rw [← hps]; rfl
    have h0 : Verif.Format.formatLoop (Verif.Format.maxCharOf ⟨8, true⟩) ps (1 + (2 + 1)) [] ([0x29] ++ []) = some ([0x29] ++ []) :=
      loop_chars [0x29] _ (by decide) rfl
    have h3 := loop_chars ((rangeFmt.drop 9).take 19) _ (by decide) (loop_field p1 hl h0)
    have h4 := loop_chars (rangeFmt.take 7) _ (by decide) (loop_int p0 h3)
    have e1 : rangeFmt.length + 1 = (rangeFmt.take 7).length + ((((rangeFmt.drop 9).take 19).length + ((1 + (2 + 1)) + 1)) + 1) := by decide
    have e2 : rangeFmt = rangeFmt.take 7 ++ (0x7b :: 0x7d :: ((rangeFmt.drop 9).take 19 ++ (0x7b :: 0x7d :: ([0x29] ++ [])))) := by decide
    rw [e1]
    rw [← e2] at h4
    rw [h4]
    simp
  obtain ⟨n, hn, hk⟩ := key
  refine ⟨t, n, ht, hn, fun hl => ?_⟩
  have e1 : ascii "OutOfRangeJsonException: Offset " = rangeClass ++ ([0x3a, 0x20] ++ rangeFmt.take 7) := by decide +kernel
  have e2 : ascii " is out-of-range: (" = (rangeFmt.drop 9).take 19 := by decide +kernel
  have e3 : ascii ")" = [0x29] := by decide +kernel
  have l1 : (rangeFmt.take 7).length = 7 := by decide
  have l2 : ((rangeFmt.drop 9).take 19).length = 19 := by decide
  unfold whatRange withText
  rw [ht]
  simp only
  rw [hk (by omega), whatClass_text (by decide) (by simp only [List.length_append, l1, l2, List.length_cons, List.length_nil]; omega), e1, e2, e3]
  simp only [List.append_assoc]

/-- `null`, five back. -/
example (io : FloatIO) : whatRange io .null (-5) =
    .text (ascii "OutOfRangeJsonException: Offset -5 is out-of-range: (null)") := by
  have h : serialize io .null = some [0x6e, 0x75, 0x6c, 0x6c] := by simp [serialize]; rfl
  unfold whatRange withText
  rw [h]
  decide +kernel

end Verif.Json
