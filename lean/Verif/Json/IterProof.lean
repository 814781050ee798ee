import Verif.Json.Ops

/-!
# Iterators: specification and proof

An iterator is a cursor between `0` (begin) and the number of elements (end). The specification
`ItExpected` uses integer arithmetic on the cursor only.
-/

namespace Verif.Json

/-- Moving the cursor by `off` either reaches a position of the container, or throws. -/
def MovesTo (l : List Value) (pos : Nat) (off : Int) (res : Out (Nat × Option Value)) : Prop :=
  (∃ q : Nat, (q : Int) = pos + off ∧ q ≤ l.length ∧ res = .ok (q, none)) ∨
  (((pos : Int) + off < 0 ∨ (l.length : Int) < pos + off) ∧ res = .threw)

/-- Reading at distance `off` from the cursor gives the element there, or throws; the cursor stays. -/
def Reads (l : List Value) (pos : Nat) (off : Int) (res : Out (Nat × Option Value)) : Prop :=
  (∃ (q : Nat) (x : Value), (q : Int) = pos + off ∧ l[q]? = some x ∧ res = .ok (pos, some x)) ∨
  (((pos : Int) + off < 0 ∨ (l.length : Int) ≤ pos + off) ∧ res = .threw)

/-- The value is an array. -/
def isArr : Value → Bool
  | .arr _ => true
  | _ => false

/-- What an operation on the cursor has to do. `offsets` tells whether the container is an array. -/
def ItExpected (offsets : Bool) (l : List Value) (pos : Nat) (op : ItOp)
    (res : Out (Nat × Option Value)) : Prop :=
  match op with
  | .inc => MovesTo l pos 1 res
  | .dec => MovesTo l pos (-1) res
  | .add off => if offsets then MovesTo l pos off res else res = .threw
  | .sub off => if offsets then MovesTo l pos (-off) res else res = .threw
  | .get => Reads l pos 0 res
  | .index off => if offsets then Reads l pos off res else res = .threw
  | .getReverse => Reads l pos (-1) res

/-- The offsets of the operation are values of `difference_type` (64 bits), but not the smallest. -/
def ItOp.Ok : ItOp → Prop
  | .add off | .sub off | .index off => -(2 ^ 63) < off ∧ off < 2 ^ 63
  | _ => True

/-- A sequence of operations on a cursor; one that throws leaves it where it was. `xs` are the
elements read. -/
inductive ItHistory (offsets : Bool) (l : List Value) : Nat → List ItOp → Nat → List Value → Prop
  | nil {pos} : ItHistory offsets l pos [] pos []
  | threw {pos op ops q xs} : ItExpected offsets l pos op .threw →
      ItHistory offsets l pos ops q xs → ItHistory offsets l pos (op :: ops) q xs
  | done {pos op ops p x q xs} : ItExpected offsets l pos op (.ok (p, x)) →
      ItHistory offsets l p ops q xs → ItHistory offsets l pos (op :: ops) q (x.toList ++ xs)

theorem move_spec {l : List Value} {pos : Nat} (hp : pos ≤ l.length) {off : Int} (ho : off ≠ -(2 ^ 63)) :
    (∃ q : Nat, (q : Int) = pos + off ∧ q ≤ l.length ∧ moveBy l.length pos off = .ok q) ∨
    (((pos : Int) + off < 0 ∨ (l.length : Int) < pos + off) ∧ moveBy l.length pos off = .threw) := by
  unfold moveBy validateOffset
  rw [if_neg ho]
  by_cases h0 : 0 ≤ off
  · rw [if_pos h0]
    by_cases h1 : off > (l.length : Int) - pos
    · rw [if_pos h1]; right; exact ⟨Or.inr (by omega), rfl⟩
    · rw [if_neg h1]; left
      exact ⟨advance pos off, by unfold advance; omega, by unfold advance; omega, rfl⟩
  · rw [if_neg h0]
    by_cases h1 : -off > (pos : Int)
    · rw [if_pos h1]; right; exact ⟨Or.inl (by omega), rfl⟩
    · rw [if_neg h1]; left
      exact ⟨advance pos off, by unfold advance; omega, by unfold advance; omega, rfl⟩

theorem deref_spec {l : List Value} {q : Nat} (hq : q ≤ l.length) :
    (∃ x, l[q]? = some x ∧ deref l q = .ok x) ∨ (q = l.length ∧ deref l q = .threw) := by
  unfold deref
  by_cases h : q = l.length
  · right; rw [if_pos h]; exact ⟨h, rfl⟩
  · left; rw [if_neg h]
    have hlt : q < l.length := by omega
    rw [List.getElem?_eq_getElem hlt]
    exact ⟨_, rfl, rfl⟩

theorem iter_step {v : Value} {l : List Value} {pos : Nat} (hp : pos ≤ l.length) {op : ItOp}
    (ho : op.Ok) : ItExpected (hasOffsets v) l pos op (itStep v l pos op) := by
  have mv : ∀ off : Int, off ≠ -(2 ^ 63) → MovesTo l pos off (match moveBy l.length pos off with
      | .ok p => .ok (p, none)
      | .threw => .threw
      | .ub => .ub) := by
    intro off h
    rcases move_spec hp h with ⟨q, h1, h2, h3⟩ | ⟨h1, h2⟩
    · rw [h3]; exact Or.inl ⟨q, h1, h2, rfl⟩
    · rw [h2]; exact Or.inr ⟨h1, rfl⟩
  have rd : ∀ off : Int, off ≠ -(2 ^ 63) → Reads l pos off (match moveBy l.length pos off with
      | .ok p => match deref l p with
        | .ok x => .ok (pos, some x)
        | .threw => .threw
        | .ub => .ub
      | .threw => .threw
      | .ub => .ub) := by
    intro off h
    rcases move_spec hp h with ⟨q, h1, h2, h3⟩ | ⟨h1, h2⟩
    · rw [h3]
      rcases deref_spec h2 with ⟨x, h4, h5⟩ | ⟨h4, h5⟩
      · show Reads l pos off (match deref l q with
          | .ok x => .ok (pos, some x) | .threw => .threw | .ub => .ub)
        rw [h5]; exact Or.inl ⟨q, x, h1, h4, rfl⟩
      · show Reads l pos off (match deref l q with
          | .ok x => .ok (pos, some x) | .threw => .threw | .ub => .ub)
        rw [h5]; exact Or.inr ⟨Or.inr (by omega), rfl⟩
    · rw [h2]; refine Or.inr ⟨?_, rfl⟩; omega
  cases op with
  | inc => exact mv 1 (by omega)
  | dec => exact mv (-1) (by omega)
  | add off =>
    show if hasOffsets v then MovesTo l pos off _ else _
    simp only [itStep]
    by_cases hv : hasOffsets v = true
    · rw [if_pos hv, if_pos hv]; exact mv off (by have := ho.1; omega)
    · rw [if_neg hv, if_neg hv]
  | sub off =>
    show if hasOffsets v then MovesTo l pos (-off) _ else _
    have hn : negate off = .ok (-off) := by unfold negate; rw [if_neg (by have := ho.1; omega)]
    simp only [itStep, hn]
    by_cases hv : hasOffsets v = true
    · rw [if_pos hv, if_pos hv]
      exact mv (-off) (by have := ho.2; omega)
    · rw [if_neg hv, if_neg hv]
  | get =>
    show Reads l pos 0 _
    simp only [itStep]
    rcases deref_spec hp with ⟨x, h4, h5⟩ | ⟨h4, h5⟩
    · rw [h5]; exact Or.inl ⟨pos, x, by omega, h4, rfl⟩
    · rw [h5]; exact Or.inr ⟨Or.inr (by omega), rfl⟩
  | index off =>
    show if hasOffsets v then Reads l pos off _ else _
    simp only [itStep]
    by_cases hv : hasOffsets v = true
    · rw [if_pos hv, if_pos hv]; exact rd off (by have := ho.1; omega)
    · rw [if_neg hv, if_neg hv]
  | getReverse => exact rd (-1) (by omega)

/-- An expected outcome is not undefined, stays in the container and reads its elements. -/
theorem expected_inside {offsets : Bool} {l : List Value} {pos : Nat} (hp : pos ≤ l.length) {op : ItOp}
    {res : Out (Nat × Option Value)} (h : ItExpected offsets l pos op res) :
    res = .threw ∨ ∃ p x, res = .ok (p, x) ∧ p ≤ l.length ∧ ∀ y ∈ x, y ∈ l := by
  have mv : ∀ off, MovesTo l pos off res →
      res = .threw ∨ ∃ p x, res = .ok (p, x) ∧ p ≤ l.length ∧ ∀ y ∈ x, y ∈ l := by
    rintro off (⟨q, _, h2, h3⟩ | ⟨_, h2⟩)
    · exact Or.inr ⟨q, none, h3, h2, by simp⟩
    · exact Or.inl h2
  have rd : ∀ off, Reads l pos off res →
      res = .threw ∨ ∃ p x, res = .ok (p, x) ∧ p ≤ l.length ∧ ∀ y ∈ x, y ∈ l := by
    rintro off (⟨q, x, _, h2, h3⟩ | ⟨_, h2⟩)
    · refine Or.inr ⟨pos, some x, h3, hp, ?_⟩
      intro y hy
      rw [Option.mem_some_iff] at hy; subst hy
      exact List.mem_of_getElem? h2
    · exact Or.inl h2
  cases op <;> simp only [ItExpected] at h
  · exact mv _ h
  · exact mv _ h
  · split at h
    · exact mv _ h
    · exact Or.inl h
  · split at h
    · exact mv _ h
    · exact Or.inl h
  · exact rd _ h
  · split at h
    · exact rd _ h
    · exact Or.inl h
  · exact rd _ h

theorem hasOffsets_isArr (v : Value) : hasOffsets v = isArr v := by cases v <;> rfl

theorem iter_run {v : Value} {l : List Value} : ∀ (ops : List ItOp) (pos : Nat), pos ≤ l.length →
    (∀ o ∈ ops, o.Ok) → ∃ q xs, itRun v l pos ops = .ok (q, xs) ∧ q ≤ l.length ∧ (∀ x ∈ xs, x ∈ l) ∧
      ItHistory (hasOffsets v) l pos ops q xs := by
  intro ops
  induction ops with
  | nil => intro pos hp _; exact ⟨pos, [], rfl, hp, by simp, .nil⟩
  | cons o os ih =>
    intro pos hp ho
    have hs := iter_step (v := v) hp (ho o List.mem_cons_self)
    have hos : ∀ x ∈ os, x.Ok := fun x hx => ho x (List.mem_cons_of_mem _ hx)
    simp only [itRun]
    rcases expected_inside hp hs with h | ⟨p, x, h, hpl, hx⟩
    · rw [h] at hs ⊢
      obtain ⟨q, xs, h1, h2, h3, h4⟩ := ih pos hp hos
      exact ⟨q, xs, h1, h2, h3, .threw hs h4⟩
    · rw [h] at hs ⊢
      obtain ⟨q, xs, h1, h2, h3, h4⟩ := ih p hpl hos
      refine ⟨q, x.toList ++ xs, ?_, h2, ?_, .done hs h4⟩
      · show (match itRun v l p os with
          | .ok (q, xs) => Out.ok (q, x.toList ++ xs) | .threw => .threw | .ub => .ub) = _
        rw [h1]
      · intro y hy
        rcases List.mem_append.mp hy with hy | hy
        · exact hx y (by simpa using hy)
        · exact h3 y hy

end Verif.Json
