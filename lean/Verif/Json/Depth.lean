import Verif.Json.Props

/-!
# C165: JSON texts of any depth

Source: `/repo/fly/parser/json_parser.cpp` 31-163.

`Verif.Json.Parser` does not limit the recursion of the parser. Here every call of `parse_json` takes a level of the stack, and a call
that finds none left overflows it: the process is lost.
-/

namespace Verif.Json.Depth

open Verif.Json

/-! ## Model -/

mutual
/-- `parse_json` (json_parser.cpp 67-93) with `d` levels of the stack left; `none`: the stack overflows. -/
def parseJsonIn (io : FloatIO) (ft : Features) : Nat → Nat → List Nat → Option (Res Value)
  | 0, _, _ => some .oom
  | n + 1, d, s =>
    if d = 0 then none
    else
      match wsComments ft.comments s with
      | (false, _) => some .fail
      | (true, []) => some (parseValue io [])
      | (true, c :: t) =>
        if c = 0x7b then objLoopIn io ft n (d - 1) [] t
        else if c = 0x5b then arrLoopIn io ft n (d - 1) [] t
        else if c = 0x22 then some (parseString (c :: t))
        else some (parseValue io (c :: t))
/-- The loop of `parse_object` (json_parser.cpp 106-130). -/
def objLoopIn (io : FloatIO) (ft : Features) : Nat → Nat → List (List Nat × Value) → List Nat → Option (Res Value)
  | 0, _, _, _ => some .oom
  | n + 1, d, m, s =>
    match stateFor ft.comments 0x7d s with
    | (.invalid, _) => some .fail
    | (.stop, r) => some (.ok (.obj m) r)
    | (.keep, r) =>
      match separator ft 0x7d m.isEmpty r with
      | (.invalid, _) => some .fail
      | (.stop, r) => some (.ok (.obj m) r)
      | (.keep, r) =>
        match parseKey r with
        | none => some .fail
        | some (raw, r) =>
          match parseJsonIn io ft n d r with
          | none => none
          | some .fail => some .fail
          | some .oom => some .oom
          | some (.ok v r) =>
            match convertToString raw with
            | none => some .fail
            | some k => objLoopIn io ft n d (insertOrAssign k v m) r
/-- The loop of `parse_array` (json_parser.cpp 144-162). -/
def arrLoopIn (io : FloatIO) (ft : Features) : Nat → Nat → List Value → List Nat → Option (Res Value)
  | 0, _, _, _ => some .oom
  | n + 1, d, l, s =>
    match stateFor ft.comments 0x5d s with
    | (.invalid, _) => some .fail
    | (.stop, r) => some (.ok (.arr l) r)
    | (.keep, r) =>
      match separator ft 0x5d l.isEmpty r with
      | (.invalid, _) => some .fail
      | (.stop, r) => some (.ok (.arr l) r)
      | (.keep, r) =>
        match parseJsonIn io ft n d r with
        | none => none
        | some .fail => some .fail
        | some .oom => some .oom
        | some (.ok v r) => arrLoopIn io ft n d (l ++ [v]) r
end

/-- `parse_internal` (json_parser.cpp 31-64) on a stream holding `s`, on a stack of `d` levels; `none`: it overflows. -/
def parseIn (io : FloatIO) (ft : Features) (d : Nat) (s : List Nat) : Option (Option Value) :=
  match parseJsonIn io ft (2 * s.length + 2) d s with
  | none => none
  | some (.ok v r) => some (finish ft v r)
  | some _ => some none

/-! ## Specification -/

/-- The brackets and braces that open something, anywhere in the text. -/
def openers (s : List Nat) : Nat := s.countP (fun c => c == 0x5b || c == 0x7b)

/-- `n` arrays in each other. -/
def nested : Nat → Value
  | 0 => .arr []
  | n + 1 => .arr [nested n]

/-- Their text: `n + 1` opening and as many closing brackets. -/
def nestedText (n : Nat) : List Nat := List.replicate (n + 1) 0x5b ++ List.replicate (n + 1) 0x5d

/-! ## Proof -/

/-- A run on a limited stack that does not overflow is a run on an unlimited one. -/
structure Same (io : FloatIO) (ft : Features) (n : Nat) : Prop where
  json : ∀ d s r, parseJsonIn io ft n d s = some r → parseJson io ft n s = r
  obj : ∀ d m s r, objLoopIn io ft n d m s = some r → objLoop io ft n m s = r
  arr : ∀ d l s r, arrLoopIn io ft n d l s = some r → arrLoop io ft n l s = r

theorem same (io : FloatIO) (ft : Features) : ∀ n, Same io ft n := by
  intro n
  induction n with
  | zero =>
    refine ⟨?_, ?_, ?_⟩
    · intro d s r h; rw [parseJsonIn] at h; rw [parseJson]; exact Option.some.inj h
    · intro d m s r h; rw [objLoopIn] at h; rw [objLoop]; exact Option.some.inj h
    · intro d l s r h; rw [arrLoopIn] at h; rw [arrLoop]; exact Option.some.inj h
  | succ n ih =>
    refine ⟨?_, ?_, ?_⟩
    · intro d s r h
      rw [parseJsonIn] at h
      rw [parseJson]
      split at h
      · exact absurd h (by simp)
      · rcases hw : wsComments ft.comments s with ⟨_ | _, _ | ⟨c, t⟩⟩ <;> rw [hw] at h <;> simp only at h ⊢
        · exact Option.some.inj h
        · exact Option.some.inj h
        · exact Option.some.inj h
        · split at h
          · rename_i hc; rw [if_pos hc]; exact ih.obj _ _ _ _ h
          · rename_i hc; rw [if_neg hc]
            split at h
            · rename_i hc; rw [if_pos hc]; exact ih.arr _ _ _ _ h
            · rename_i hc; rw [if_neg hc]
              split at h
              · rename_i hc; rw [if_pos hc]; exact Option.some.inj h
              · rename_i hc; rw [if_neg hc]; exact Option.some.inj h
    · intro d m s r h
      rw [objLoopIn] at h
      rw [objLoop]
      rcases hw : stateFor ft.comments 0x7d s with ⟨_ | _ | _, r1⟩ <;> rw [hw] at h <;> simp only at h ⊢
      · exact Option.some.inj h
      · exact Option.some.inj h
      · rcases hs : separator ft 0x7d m.isEmpty r1 with ⟨_ | _ | _, r2⟩ <;> rw [hs] at h <;> simp only at h ⊢
        · exact Option.some.inj h
        · exact Option.some.inj h
        · rcases hk : parseKey r2 with _ | ⟨raw, r3⟩ <;> rw [hk] at h <;> simp only at h ⊢
          · exact Option.some.inj h
          · rcases hp : parseJsonIn io ft n d r3 with _ | q <;> rw [hp] at h
            · exact absurd h (by simp)
            · rw [ih.json _ _ _ hp]
              cases q with
              | fail => exact Option.some.inj h
              | oom => exact Option.some.inj h
              | ok v r4 =>
                simp only at h ⊢
                rcases hc : convertToString raw with _ | k <;> rw [hc] at h <;> simp only at h ⊢
                · exact Option.some.inj h
                · exact ih.obj _ _ _ _ h
    · intro d l s r h
      rw [arrLoopIn] at h
      rw [arrLoop]
      rcases hw : stateFor ft.comments 0x5d s with ⟨_ | _ | _, r1⟩ <;> rw [hw] at h <;> simp only at h ⊢
      · exact Option.some.inj h
      · exact Option.some.inj h
      · rcases hs : separator ft 0x5d l.isEmpty r1 with ⟨_ | _ | _, r2⟩ <;> rw [hs] at h <;> simp only at h ⊢
        · exact Option.some.inj h
        · exact Option.some.inj h
        · rcases hp : parseJsonIn io ft n d r2 with _ | q <;> rw [hp] at h
          · exact absurd h (by simp)
          · rw [ih.json _ _ _ hp]
            cases q with
            | fail => exact Option.some.inj h
            | oom => exact Option.some.inj h
            | ok v r4 => exact ih.arr _ _ _ _ h

/-! ### What is left to read is the end of the text -/

theorem skipWs_suffix (s : List Nat) : skipWs s <:+ s := List.dropWhile_suffix _

theorem dropLine_suffix : ∀ s, dropLine s <:+ s := by
  intro s
  induction s with
  | nil => exact List.suffix_refl _
  | cons c s ih =>
    rw [dropLine]
    split
    · exact List.suffix_cons _ _
    · exact ih.trans (List.suffix_cons _ _)

theorem dropBlock_suffix : ∀ s r, dropBlock s = some r → r <:+ s := by
  intro s
  induction s with
  | nil => intro r h; simp [dropBlock] at h
  | cons c s ih =>
    intro r h
    rw [dropBlock] at h
    split at h
    · simp only [Option.some.injEq] at h
      subst h
      exact (List.tail_suffix _).trans (List.suffix_cons _ _)
    · exact (ih r h).trans (List.suffix_cons _ _)

theorem skipComment_suffix (allow : Bool) (t : List Nat) : (skipComment allow t).2 <:+ 0x2f :: t := by
  unfold skipComment
  split
  · exact List.suffix_refl _
  · split
    · exact List.nil_suffix
    · rename_i c u
      have hu : u <:+ 0x2f :: c :: u := (List.suffix_cons _ _).trans (List.suffix_cons _ _)
      split
      · exact (dropLine_suffix u).trans hu
      · split
        · split
          · rename_i r hb; exact (dropBlock_suffix u r hb).trans hu
          · exact List.nil_suffix
        · exact hu

theorem wsComments_suffix (allow : Bool) : ∀ (k : Nat) (s : List Nat), s.length ≤ k → (wsComments allow s).2 <:+ s := by
  intro k
  induction k with
  | zero =>
    intro s h
    have : s = [] := List.eq_nil_of_length_eq_zero (by omega)
    subst this
    rw [wsComments]
    split
    · exact List.nil_suffix
    · rename_i h2; exact absurd h2 (by simp [skipWs])
  | succ k ih =>
    intro s h
    rw [wsComments]
    have hw := skipWs_suffix s
    split
    · exact List.nil_suffix
    · rename_i c t h2
      rw [h2] at hw
      split
      · rename_i hc
        subst hc
        have hsk := skipComment_suffix allow t
        have hle := hw.length_le
        split
        · rename_i r hr
          rw [hr] at hsk
          exact hsk.trans hw
        · rename_i r hr
          have hlen := skipComment_length allow t (by rw [hr])
          rw [hr] at hsk
          rw [hr] at hlen
          simp only [List.length_cons] at hle hlen
          exact (ih r (by omega)).trans (hsk.trans hw)
      · exact hw

theorem stateFor_suffix (allow : Bool) (e : Nat) (s : List Nat) : (stateFor allow e s).2 <:+ s := by
  have h := wsComments_suffix allow _ s (Nat.le_refl _)
  unfold stateFor
  rcases hw : wsComments allow s with ⟨_ | _, _ | ⟨c, t⟩⟩ <;> rw [hw] at h <;> simp only at h ⊢
  · exact h
  · exact h
  · exact h
  · split
    · exact (List.suffix_cons _ _).trans h
    · exact h

theorem consumeToken_suffix (tok : Nat) (s : List Nat) : (consumeToken tok s).2 <:+ s := by
  have h := skipWs_suffix s
  unfold consumeToken
  split
  · exact List.nil_suffix
  · rename_i c t hw
    rw [hw] at h
    split
    · exact (List.suffix_cons _ _).trans h
    · exact (List.suffix_cons _ _).trans h

theorem separator_suffix (ft : Features) (e : Nat) (first : Bool) (s : List Nat) : (separator ft e first s).2 <:+ s := by
  unfold separator
  split
  · exact List.suffix_refl _
  · unfold consumeComma
    have h := consumeToken_suffix 0x2c s
    rcases hc : consumeToken 0x2c s with ⟨_ | _ | _, r⟩ <;> rw [hc] at h <;> simp only at h ⊢
    · exact h
    · exact h
    · unfold afterComma
      have h2 := stateFor_suffix ft.comments e r
      rcases hs : stateFor ft.comments e r with ⟨_ | _ | _, r2⟩ <;> rw [hs] at h2 <;> simp only at h2 ⊢
      · exact h2.trans h
      · split <;> exact h2.trans h
      · exact h2.trans h

theorem quotedBody_suffix : ∀ (k : Nat) (s a r : List Nat), s.length ≤ k → quotedBody s = some (a, r) → r <:+ s := by
  intro k
  induction k with
  | zero =>
    intro s a r h e
    have : s = [] := List.eq_nil_of_length_eq_zero (by omega)
    subst this
    simp [quotedBody] at e
  | succ k ih =>
    intro s a r h e
    match s, h, e with
    | [], _, e => simp [quotedBody] at e
    | [c], _, e =>
      rw [quotedBody] at e
      split at e
      · simp only [Option.some.injEq, Prod.mk.injEq] at e
        rw [← e.2]; exact List.nil_suffix
      · exact absurd e (by simp)
    | c :: d :: s, h, e =>
      rw [quotedBody] at e
      simp only [List.length_cons] at h
      split at e
      · simp only [Option.some.injEq, Prod.mk.injEq] at e
        rw [← e.2]; exact List.suffix_cons _ _
      · split at e
        · cases hq : quotedBody s with
          | none => rw [hq] at e; simp at e
          | some p =>
            rw [hq] at e
            simp only [Option.map_some, Option.some.injEq, Prod.mk.injEq] at e
            rw [← e.2]
            exact (ih s p.1 p.2 (by omega) hq).trans ((List.suffix_cons _ _).trans (List.suffix_cons _ _))
        · cases hq : quotedBody (d :: s) with
          | none => rw [hq] at e; simp at e
          | some p =>
            rw [hq] at e
            simp only [Option.map_some, Option.some.injEq, Prod.mk.injEq] at e
            rw [← e.2]
            exact (ih (d :: s) p.1 p.2 (by simp only [List.length_cons]; omega) hq).trans (List.suffix_cons _ _)

theorem parseKey_suffix {s raw r : List Nat} (h : parseKey s = some (raw, r)) : r <:+ s := by
  unfold parseKey parseQuoted at h
  have h1 := consumeToken_suffix 0x22 s
  rcases hc : consumeToken 0x22 s with ⟨_ | _ | _, r1⟩ <;> rw [hc] at h h1 <;> simp only at h h1
  · exact absurd h (by simp)
  · exact absurd h (by simp)
  · rcases hq : quotedBody r1 with _ | ⟨a, r2⟩ <;> rw [hq] at h <;> simp only at h
    · exact absurd h (by simp)
    · have h2 := quotedBody_suffix _ r1 a r2 (Nat.le_refl _) hq
      have h3 := consumeToken_suffix 0x3a r2
      rcases hc2 : consumeToken 0x3a r2 with ⟨_ | _ | _, r3⟩ <;> rw [hc2] at h h3 <;> simp only at h h3
      · exact absurd h (by simp)
      · exact absurd h (by simp)
      · simp only [Option.some.injEq, Prod.mk.injEq] at h
        rw [← h.2]
        exact h3.trans (h2.trans h1)

theorem openers_suffix {r s : List Nat} (h : r <:+ s) : openers r ≤ openers s := h.sublist.countP_le

theorem bytes_suffix {r s : List Nat} (h : r <:+ s) (hb : Bytes s) : Bytes r := fun c hc => hb c (h.subset hc)

/-- A stack with a level for every opening bracket, and one more, is enough. -/
structure Enough (io : FloatIO) (ft : Features) (n : Nat) : Prop where
  json : ∀ d s, Bytes s → openers s < d → parseJsonIn io ft n d s ≠ none
  obj : ∀ d m s, Bytes s → openers s < d → objLoopIn io ft n d m s ≠ none
  arr : ∀ d l s, Bytes s → openers s < d → arrLoopIn io ft n d l s ≠ none

theorem json_suffix {io : FloatIO} {ft : Features} {n d : Nat} {s r : List Nat} {v : Value} (hb : Bytes s)
    (h : parseJsonIn io ft n d s = some (.ok v r)) : r <:+ s := by
  obtain ⟨a, t, rfl, _, _⟩ := (sound io ft n).json s v r hb ((same io ft n).json d s _ h)
  exact List.suffix_append _ _

theorem enough (io : FloatIO) (ft : Features) : ∀ n, Enough io ft n := by
  intro n
  induction n with
  | zero =>
    refine ⟨?_, ?_, ?_⟩
    · intro d s _ _; rw [parseJsonIn]; simp
    · intro d m s _ _; rw [objLoopIn]; simp
    · intro d l s _ _; rw [arrLoopIn]; simp
  | succ n ih =>
    refine ⟨?_, ?_, ?_⟩
    · intro d s hb hd
      rw [parseJsonIn, if_neg (by omega)]
      have hw := wsComments_suffix ft.comments _ s (Nat.le_refl _)
      rcases he : wsComments ft.comments s with ⟨_ | _, _ | ⟨c, t⟩⟩ <;> rw [he] at hw <;> simp only at hw ⊢
      · simp
      · simp
      · simp
      · have ho := openers_suffix hw
        have hb' := bytes_suffix hw hb
        have hbt : Bytes t := fun x hx => hb' x (by simp [hx])
        by_cases h1 : c = 0x7b
        · rw [if_pos h1]
          refine ih.obj _ _ _ hbt ?_
          subst h1
          unfold openers at ho hd ⊢
          rw [List.countP_cons_of_pos (by decide)] at ho
          omega
        · rw [if_neg h1]
          by_cases h2 : c = 0x5b
          · rw [if_pos h2]
            refine ih.arr _ _ _ hbt ?_
            subst h2
            unfold openers at ho hd ⊢
            rw [List.countP_cons_of_pos (by decide)] at ho
            omega
          · rw [if_neg h2]
            split <;> simp
    · intro d m s hb hd
      rw [objLoopIn]
      have h1 := stateFor_suffix ft.comments 0x7d s
      rcases hw : stateFor ft.comments 0x7d s with ⟨_ | _ | _, r1⟩ <;> rw [hw] at h1 <;> simp only at h1 ⊢
      · simp
      · simp
      · have h2 := separator_suffix ft 0x7d m.isEmpty r1
        rcases hs : separator ft 0x7d m.isEmpty r1 with ⟨_ | _ | _, r2⟩ <;> rw [hs] at h2 <;> simp only at h2 ⊢
        · simp
        · simp
        · rcases hk : parseKey r2 with _ | ⟨raw, r3⟩ <;> simp only
          · simp
          · have h3 := (parseKey_suffix hk).trans (h2.trans h1)
            have ho := openers_suffix h3
            have hb3 := bytes_suffix h3 hb
            rcases hp : parseJsonIn io ft n d r3 with _ | q
            · exact absurd hp (ih.json d r3 hb3 (by omega))
            · cases q with
              | fail => simp
              | oom => simp
              | ok v r4 =>
                simp only
                have h4 := json_suffix hb3 hp
                have ho4 := openers_suffix h4
                cases convertToString raw with
                | none => simp
                | some k => exact ih.obj d _ r4 (bytes_suffix h4 hb3) (by omega)
    · intro d l s hb hd
      rw [arrLoopIn]
      have h1 := stateFor_suffix ft.comments 0x5d s
      rcases hw : stateFor ft.comments 0x5d s with ⟨_ | _ | _, r1⟩ <;> rw [hw] at h1 <;> simp only at h1 ⊢
      · simp
      · simp
      · have h2 := separator_suffix ft 0x5d l.isEmpty r1
        rcases hs : separator ft 0x5d l.isEmpty r1 with ⟨_ | _ | _, r2⟩ <;> rw [hs] at h2 <;> simp only at h2 ⊢
        · simp
        · simp
        · have h3 := h2.trans h1
          have ho := openers_suffix h3
          have hb3 := bytes_suffix h3 hb
          rcases hp : parseJsonIn io ft n d r2 with _ | q
          · exact absurd hp (ih.json d r2 hb3 (by omega))
          · cases q with
            | fail => simp
            | oom => simp
            | ok v r4 =>
              simp only
              have h4 := json_suffix hb3 hp
              have ho4 := openers_suffix h4
              exact ih.arr d _ r4 (bytes_suffix h4 hb3) (by omega)

/-! ### Deep texts -/

theorem wsComments_bracket (allow : Bool) (t : List Nat) : wsComments allow (0x5b :: t) = (true, 0x5b :: t) := by
  rw [wsComments]
  have : skipWs (0x5b :: t) = 0x5b :: t := by
    unfold skipWs
    exact List.dropWhile_cons_of_neg (by decide)
  split
  · rename_i h; rw [this] at h; simp at h
  · rename_i c u h
    rw [this] at h
    simp only [List.cons.injEq] at h
    obtain ⟨rfl, rfl⟩ := h
    rw [if_neg (by decide)]

theorem deep (io : FloatIO) (ft : Features) : ∀ (d n k : Nat) (t : List Nat), d < k → 2 * d < n →
    parseJsonIn io ft n d (List.replicate k 0x5b ++ t) = none := by
  intro d
  induction d with
  | zero =>
    intro n k t _ hn
    obtain ⟨m, rfl⟩ : ∃ m, n = m + 1 := ⟨n - 1, by omega⟩
    rw [parseJsonIn, if_pos rfl]
  | succ d ih =>
    intro n k t hk hn
    obtain ⟨m, rfl⟩ : ∃ m, n = m + 2 := ⟨n - 2, by omega⟩
    obtain ⟨j, rfl⟩ : ∃ j, k = j + 2 := ⟨k - 2, by omega⟩
    rw [parseJsonIn, if_neg (by omega)]
    have e1 : List.replicate (j + 2) 0x5b ++ t = 0x5b :: (List.replicate (j + 1) 0x5b ++ t) := rfl
    have e2 : List.replicate (j + 1) 0x5b ++ t = 0x5b :: (List.replicate j 0x5b ++ t) := rfl
    rw [e1, wsComments_bracket]
    simp only
    rw [if_neg (by decide), if_pos trivial, arrLoopIn]
    have hst : stateFor ft.comments 0x5d (List.replicate (j + 1) 0x5b ++ t) =
        (.keep, List.replicate (j + 1) 0x5b ++ t) := by
      unfold stateFor
      rw [e2, wsComments_bracket]
      rfl
    rw [hst]
    simp only [List.isEmpty_nil, separator, if_true, Nat.add_sub_cancel]
    rw [ih m (j + 1) t (by omega) (by omega)]

theorem nested_value (io : FloatIO) : ∀ n, JValue io rfc8259 (nestedText n) (nested n) := by
  have blank : rfc8259.blank [] := by intro c hc; simp at hc
  intro n
  induction n with
  | zero => exact JValue.arr0 (a := []) blank
  | succ n ih =>
    have := JValue.arr (a := []) (r := []) (vs := []) blank ih (.nil (b := []) blank)
    have e : nestedText (n + 1) = 0x5b :: ([] ++ nestedText n ++ [] ++ [0x5d]) := by
      unfold nestedText
      rw [List.replicate_succ' (n := n + 1) (a := 0x5d), List.replicate_succ (n := n + 1) (a := 0x5b)]
      simp
    rw [e]
    exact this

/-! ## C165 -/

/-- C165: on any stack, a parser run that comes back gives what the parser gives on a stack without end; it comes back when the stack
has a level for every opening bracket and brace of the text, and one more. For every text of bytes and every combination of flags. -/
theorem json_depth_partial (io : FloatIO) (ft : Features) (d : Nat) (s : List Nat) (hb : ∀ b ∈ s, b < 256) :
    (∀ r, parseIn io ft d s = some r → r = parse io ft s) ∧ (openers s < d → parseIn io ft d s = some (parse io ft s)) := by
  have h1 : ∀ r, parseIn io ft d s = some r → r = parse io ft s := by
    intro r h
    unfold parseIn at h
    cases hp : parseJsonIn io ft (2 * s.length + 2) d s with
    | none => rw [hp] at h; simp at h
    | some q =>
      have hq := (same io ft _).json d s q hp
      rw [hp] at h
      unfold parse parseFuel
      rw [hq]
      cases q with
      | fail => simpa using h.symm
      | oom => simpa using h.symm
      | ok v rest =>
        simp only [Option.some.injEq] at h ⊢
        subst h
        cases finish ft v rest <;> rfl
  refine ⟨h1, fun ho => ?_⟩
  have h2 := (enough io ft (2 * s.length + 2)).json d s hb ho
  have h3 : parseIn io ft d s ≠ none := by
    unfold parseIn
    cases hp : parseJsonIn io ft (2 * s.length + 2) d s with
    | none => exact absurd hp h2
    | some q => cases q <;> simp
  cases hr : parseIn io ft d s with
  | none => exact absurd hr h3
  | some r => rw [h1 r hr]

/-- C165 refuted: however large the stack, there is an RFC 8259 array on which the parser overflows it, although the array is no
longer than twice the number of levels and a parser without a limit reads it. -/
theorem json_depth_violated (io : FloatIO) (ft : Features) (d : Nat) :
    ∃ s v, s.length = 2 * (d + 1) ∧ JText io rfc8259 s v ∧ parse io {} s = some v ∧ parseIn io ft d s = none := by
  have blank : rfc8259.blank [] := by intro c hc; simp at hc
  have final : rfc8259.final [] := by intro c hc; simp at hc
  have hj : JText io rfc8259 (nestedText d) (nested d) :=
    ⟨[], nestedText d, [], by simp, blank, nested_value io d, final⟩
  have hlen : (nestedText d).length = 2 * (d + 1) := by unfold nestedText; simp; omega
  refine ⟨nestedText d, nested d, hlen, hj, ?_, ?_⟩
  · refine (json_parser_strict_partial io _ _ ?_).2 hj (by cases d <;> exact .arr _)
    intro b hbm
    unfold nestedText at hbm
    simp only [List.mem_append, List.mem_replicate] at hbm
    omega
  · unfold parseIn
    rw [hlen]
    unfold nestedText
    rw [deep io ft d _ (d + 1) _ (by omega) (by omega)]

/-- C165 refuted for malformed texts: opening brackets alone overflow the stack, whatever follows them; no closing bracket is read
first. -/
theorem json_open_violated (io : FloatIO) (ft : Features) (d : Nat) (t : List Nat) :
    parseIn io ft d (List.replicate (d + 1) 0x5b ++ t) = none := by
  unfold parseIn
  rw [deep io ft d _ (d + 1) t (by omega) (by simp; omega)]

/-- "[[1],{}]" has three openers and needs two levels and one for the number. -/
example (io : FloatIO) : openers [0x5b, 0x5b, 0x31, 0x5d, 0x2c, 0x7b, 0x7d, 0x5d] = 3 ∧
    nested 1 = .arr [.arr []] ∧ nestedText 1 = [0x5b, 0x5b, 0x5d, 0x5d] ∧
    parseIn io {} 3 (nestedText 1) = some (parse io {} (nestedText 1)) ∧ parseIn io {} 1 (nestedText 1) = none :=
  ⟨by decide, rfl, rfl, (json_depth_partial io {} 3 _ (by decide)).2 (by decide), json_open_violated io {} 1 [0x5d, 0x5d]⟩

end Verif.Json.Depth
