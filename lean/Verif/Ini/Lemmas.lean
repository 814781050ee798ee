import Verif.Ini.Model
import Verif.Ini.Spec
import Verif.Json.OpsLemmas
import Verif.Str.Props

/-! # The INI parser against its specification -/

namespace Verif.Ini

open Verif.Json (Value MapOf StringBody SortedKeys convertToString convertToString_iff insertOrAssign
  lookup mapOf_nil mapOf_insert mapOf_unique lastOf_append lookup_iff insert_ne_nil)
open Verif.Str (AsciiSpace Pieces joinWith split trim)

theorem stripped_iff (l t : List Nat) : Stripped l t ↔ trim ch l = t := by
  constructor
  · rintro ⟨a, b, h1, h2, h3, h4, h5⟩
    exact Verif.Str.trim_unique ch l t a b h1 h2 h3 h4 h5
  · rintro rfl
    exact Verif.Str.trim_decomposition ch l

theorem trimValue_inner {q p : Nat} {b : List Nat} (hb : b.length < 2 ^ 63) :
    trimValue (q :: (b ++ [p])) q p = (.trimmed, b) := by
  unfold trimValue
  have h1 : (q :: (b ++ [p])).head? = some q := rfl
  have h2 : (q :: (b ++ [p])).getLast? = some p := by
    rw [← List.cons_append, List.getLast?_append]; rfl
  have h3 : (q :: (b ++ [p])).length = b.length + 2 := by simp
  rw [h1, h2, h3]
  have h4 : (b.length + 2 + 2 ^ 64 - 2) % 2 ^ 64 = b.length := by omega
  rw [h4]
  simp

theorem trimValue_one (q : Nat) : trimValue [q] q q = (.trimmed, []) := by
  unfold trimValue; simp

/-- A list with given first and last elements. -/
theorem ends_cases {t : List Nat} {q p : Nat} (h1 : t.head? = some q) (h2 : t.getLast? = some p) :
    (t = [q] ∧ q = p) ∨ ∃ b, t = q :: (b ++ [p]) := by
  cases t with
  | nil => simp at h1
  | cons c t =>
    simp at h1; subst h1
    by_cases ht : t = []
    · subst ht; left; simp at h2; exact ⟨rfl, h2⟩
    · right
      rw [List.getLast?_cons, List.getLast?_eq_some_getLast ht] at h2
      simp at h2
      refine ⟨t.dropLast, ?_⟩
      rw [← h2, List.dropLast_concat_getLast ht]

theorem trimValue_untrimmed {t : List Nat} {q p : Nat} :
    (trimValue t q p).1 = .untrimmed ↔ t.head? ≠ some q ∧ t.getLast? ≠ some p := by
  unfold trimValue
  by_cases h1 : t.head? = some q <;> by_cases h2 : t.getLast? = some p <;> simp [h1, h2]

theorem trimValue_eq {t : List Nat} {q p : Nat} (h1 : t.head? ≠ some q) (h2 : t.getLast? ≠ some p) :
    trimValue t q p = (.untrimmed, t) := by
  unfold trimValue; simp [h1, h2]

theorem trimValue_unquoted {t u : List Nat} {q : Nat} (ht : t.length < 2 ^ 63) :
    ((trimValue t q q).1 ≠ .imbalanced ∧ (trimValue t q q).2 = u) ↔ Unquoted q t u := by
  constructor
  · intro ⟨h1, h2⟩
    by_cases ha : t.head? = some q
    · by_cases hb : t.getLast? = some q
      · rcases ends_cases ha hb with ⟨rfl, _⟩ | ⟨b, rfl⟩
        · rw [trimValue_one] at h2
          exact Or.inr (Or.inl ⟨rfl, h2.symm⟩)
        · rw [trimValue_inner (by simp at ht; omega)] at h2
          left; rw [← h2]
      · exact absurd (by unfold trimValue; simp [ha, hb]) h1
    · by_cases hb : t.getLast? = some q
      · exact absurd (by unfold trimValue; simp [ha, hb]) h1
      · rw [trimValue_eq ha hb] at h2
        exact Or.inr (Or.inr ⟨ha, hb, h2.symm⟩)
  · rintro (rfl | ⟨rfl, rfl⟩ | ⟨h1, h2, rfl⟩)
    · rw [trimValue_inner (by simp at ht; omega)]; exact ⟨by simp, rfl⟩
    · rw [trimValue_one]; exact ⟨by simp, rfl⟩
    · rw [trimValue_eq h1 h2]; exact ⟨by simp, rfl⟩

theorem bare_iff (t : List Nat) :
    ¬ ((trimValue t 0x27 0x27).1 ≠ .untrimmed ∨ (trimValue t 0x22 0x22).1 ≠ .untrimmed) ↔ Bare t := by
  have e : ∀ q, ¬ ((trimValue t q q).1 ≠ .untrimmed) ↔ t.head? ≠ some q ∧ t.getLast? ≠ some q := by
    intro q
    rw [← trimValue_untrimmed]
    exact Decidable.not_not
  unfold Bare
  rw [not_or, e, e]
  constructor
  · rintro ⟨⟨a, b⟩, c, d⟩; exact ⟨a, b, c, d⟩
  · rintro ⟨a, b, c, d⟩; exact ⟨⟨a, b⟩, c, d⟩

theorem unquote_iff {t u : List Nat} (ht : t.length < 2 ^ 63) :
    unquote t = some u ↔ ∃ w, Unquoted 0x27 t w ∧ Unquoted 0x22 w u := by
  have hlen : ∀ q : Nat, (trimValue t q q).2.length ≤ t.length := by
    intro q
    unfold trimValue
    simp only []
    split
    · simp only [List.length_take, List.length_drop]; omega
    · split <;> simp
  unfold unquote
  constructor
  · intro h
    simp only [] at h
    split at h
    · simp at h
    · rename_i h1
      split at h
      · simp at h
      · rename_i h2
        simp at h
        exact ⟨_, (trimValue_unquoted ht).1 ⟨h1, rfl⟩,
          (trimValue_unquoted (by have := hlen 0x27; omega)).1 ⟨h2, h⟩⟩
  · rintro ⟨w, h1, h2⟩
    obtain ⟨a1, a2⟩ := (trimValue_unquoted ht).2 h1
    have hw : w.length < 2 ^ 63 := by have := hlen 0x27; rw [a2] at this; omega
    obtain ⟨b1, b2⟩ := (trimValue_unquoted hw).2 h2
    simp only [a1, a2, b1, b2, if_false]

theorem split_two {t : List Nat} {ps : List (List Nat)} (hp : Pieces 0x3d t ps) :
    (∀ n v r, ps = n :: v :: r → split t 0x3d 2 = [n, joinWith 0x3d (v :: r)]) ∧
    (ps.length < 2 → split t 0x3d 2 = ps) := by
  constructor
  · rintro n v r rfl
    rw [Verif.Str.split_eq hp]
    cases r with
    | nil => simp [joinWith]
    | cons x r => simp
  · intro h
    rw [Verif.Str.split_eq hp, if_pos (Or.inr (by omega))]

theorem onPair_iff {t n w : List Nat} (ht : t.length < 2 ^ 63) :
    onPair t = some (n, w) ↔ ∃ n0 v0 r v v1, Pieces 0x3d t (n0 :: v0 :: r) ∧ Stripped n0 n ∧ Bare n ∧
      Stripped (joinWith 0x3d (v0 :: r)) v ∧ Unquoted 0x27 v v1 ∧ Unquoted 0x22 v1 w := by
  have sub : ∀ {ps : List (List Nat)}, Pieces 0x3d t ps → (joinWith 0x3d ps).length ≤ t.length := by
    intro ps h
    clear ht
    induction h with
    | nil => simp [joinWith]
    | skip _ ih => simp; omega
    | last _ _ => simp [joinWith]
    | @piece p s ps _ _ _ ih =>
      cases ps with
      | nil => simp [joinWith]
      | cons q ps => simp only [joinWith, List.length_append, List.length_cons] at ih ⊢; omega
  have tl : ∀ x : List Nat, (trim ch x).length ≤ x.length := by
    intro x
    obtain ⟨a, b, h, _⟩ := Verif.Str.trim_decomposition ch x
    have := congrArg List.length h
    simp only [List.length_append] at this; omega
  obtain ⟨ps, hp⟩ := Verif.Str.pieces_exists 0x3d t
  have hs := split_two hp
  have key : ∀ n0 v0 r, ps = n0 :: v0 :: r →
      (joinWith 0x3d (v0 :: r)).length < 2 ^ 63 := by
    rintro n0 v0 r rfl
    have := sub hp
    simp only [joinWith, List.length_append, List.length_cons] at this; omega
  constructor
  · intro h
    unfold onPair at h
    cases ps with
    | nil => rw [hs.2 (by simp)] at h; simp at h
    | cons n0 ps =>
      cases ps with
      | nil => rw [hs.2 (by simp)] at h; simp at h
      | cons v0 r =>
        rw [hs.1 n0 v0 r rfl] at h
        simp only [] at h
        split at h
        · simp at h
        · rename_i hb
          cases hu : unquote (trim ch (joinWith 0x3d (v0 :: r))) with
          | none => rw [hu] at h; simp at h
          | some u =>
            rw [hu] at h
            simp only [Option.map_some, Option.some.injEq, Prod.mk.injEq] at h
            obtain ⟨rfl, rfl⟩ := h
            have hl : (trim ch (joinWith 0x3d (v0 :: r))).length < 2 ^ 63 :=
              Nat.lt_of_le_of_lt (tl _) (key n0 v0 r rfl)
            obtain ⟨w', h1, h2⟩ := (unquote_iff hl).1 hu
            exact ⟨n0, v0, r, _, w', hp, (stripped_iff _ _).2 rfl, (bare_iff _).1 hb,
              (stripped_iff _ _).2 rfl, h1, h2⟩
  · rintro ⟨n0, v0, r, v, v1, h1, h2, h3, h4, h5, h6⟩
    have e := Verif.Str.pieces_unique hp h1
    subst e
    unfold onPair
    rw [hs.1 n0 v0 r rfl]
    simp only []
    rw [stripped_iff] at h2 h4
    subst h2; subst h4
    have hl : (trim ch (joinWith 0x3d (v0 :: r))).length < 2 ^ 63 :=
      Nat.lt_of_le_of_lt (tl _) (key n0 v0 r rfl)
    rw [if_neg ((bare_iff _).2 h3), (unquote_iff hl).2 ⟨v1, h5, h6⟩]
    rfl

end Verif.Ini
