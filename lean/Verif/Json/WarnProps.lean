import Verif.Json.Warn
import Verif.Json.Props

/-!
# What the JSON parser's warnings say

Every warning carries the position reached in the text, and its arguments are found there; a text that is refused either gives a warning
or was read to its end.
-/

namespace Verif.Json

open Verif.Parser (Pos)

/-! ## Specification -/

/-- `l` is the last, unfinished line of the text `p`. -/
def LastLine (p l : List Nat) : Prop := 0x0a ∉ l ∧ (p = l ∨ ∃ q, p = q ++ 0x0a :: l)

/-- The position that goes with a text of which `p` has been read, and its end `k` times: lines are counted from 1; columns are the
symbols read, plus one on all lines but the first. -/
def PosAfter (p : List Nat) (k : Nat) (q : Pos) : Prop :=
  q.line = (1 + p.count 0x0a) % 2 ^ 32 ∧
    ∃ l, LastLine p l ∧ q.column = (l.length + k + if 0x0a ∈ p then 1 else 0) % 2 ^ 32

/-- What a warning says about the place: `p` is before it, `rest` after it, `k` is how often the end was read. -/
def Explains (io : FloatIO) (ft : Features) (p : List Nat) (k : Nat) (rest : List Nat) : Note → Prop
  | .commentOff => ft.comments = false ∧ rest.head? = some 0x2f
  | .commentStart (some c) => (∃ q, p = q ++ [0x2f, c]) ∧ c ≠ 0x2f ∧ c ≠ 0x2a ∧ ft.comments = true
  | .commentStart none => (∃ q, p = q ++ [0x2f]) ∧ 1 ≤ k ∧ ft.comments = true
  | .unexpected (some c) tok => (∃ q, p = q ++ [c]) ∧ c ≠ tok
  | .unexpected none _ => 1 ≤ k
  | .trailing => ft.trailingComma = false ∧ ∃ q c, p = q ++ [c] ∧ (c = 0x5d ∨ c = 0x7d)
  | .badValue v => (∃ q, p = q ++ v) ∧ ¬ ∃ x, Scalar1 io v x
  | .extraneous c => rest.head? = some c
  | .anyType => rest = [] ∧ ft.anyType = false
  | .json => True

/-- The warning carries the position of a place in the text where what it says is found. -/
def Located (io : FloatIO) (ft : Features) (text : List Nat) (w : Warn) : Prop :=
  ∃ p k rest, text = p ++ rest ∧ (k ≠ 0 → rest = []) ∧ PosAfter p k w.1 ∧ Explains io ft p k rest w.2

/-! ## Proofs -/

/-- Reading the end `k` times. -/
def eofs : Nat → Pos → Pos
  | 0, q => q
  | k + 1, q => (eofs k q).eof

theorem posAfter_walk (p : List Nat) : PosAfter p 0 (p.foldl Pos.get .start) := by
  suffices H : ∀ (n : Nat) (p : List Nat), p.length = n → PosAfter p 0 (p.foldl Pos.get .start) from H _ p rfl
  intro n
  induction n with
  | zero =>
    intro p hp
    rw [List.eq_nil_of_length_eq_zero hp]
    exact ⟨rfl, [], ⟨by simp, .inl rfl⟩, rfl⟩
  | succ n ih =>
    intro p hp
    obtain ⟨p, c, rfl⟩ : ∃ q c, p = q ++ [c] := by
      rcases List.eq_nil_or_concat p with rfl | ⟨q, c, e⟩
      · cases hp
      · exact ⟨q, c, by rw [e, List.concat_eq_append]⟩
    replace ih := ih p (by simpa using hp)
    rw [List.foldl_append]
    obtain ⟨h1, l, ⟨h2, h3⟩, h4⟩ := ih
    simp only [List.foldl_cons, List.foldl_nil]
    generalize p.foldl Pos.get .start = q at h1 h4
    unfold Pos.get
    by_cases hc : c = 0x0a
    · subst hc
      rw [if_pos rfl]
      refine ⟨?_, [], ⟨by simp, .inr ⟨p, rfl⟩⟩, by simp⟩
      show (q.line + 1) % 2 ^ 32 = _
      rw [h1, List.count_append]
      simp
      omega
    · rw [if_neg hc]
      have hcount : (p ++ [c]).count 0x0a = p.count 0x0a := by
        rw [List.count_append]
        simp [List.count_cons, hc]
      have hmem : (0x0a ∈ p ++ [c]) ↔ 0x0a ∈ p := by
        simp
        intro e; exact absurd e.symm hc
      refine ⟨by rw [hcount]; exact h1, l ++ [c], ⟨?_, ?_⟩, ?_⟩
      · simp only [List.mem_append, List.mem_singleton, not_or]
        exact ⟨h2, fun e => hc e.symm⟩
      · rcases h3 with rfl | ⟨q', rfl⟩
        · exact .inl rfl
        · exact .inr ⟨q', by simp⟩
      · show (q.column + 1) % 2 ^ 32 = _
        rw [h4]
        simp only [hmem, List.length_append, List.length_singleton]
        split <;> omega

theorem posAfter_eofs {p : List Nat} {q : Pos} (h : PosAfter p 0 q) : ∀ k, PosAfter p k (eofs k q) := by
  intro k
  induction k with
  | zero => exact h
  | succ k ih =>
    obtain ⟨h1, l, h2, h3⟩ := ih
    refine ⟨h1, l, h2, ?_⟩
    show ((eofs k q).column + 1) % 2 ^ 32 = _
    rw [h3]
    split <;> omega

/-- The stream and the position are those of a text partly read. -/
def Fine (text : List Nat) (s : Src) : Prop :=
  ∃ p k, text = p ++ s.rest ∧ (k ≠ 0 → s.rest = []) ∧ s.pos = eofs k (p.foldl Pos.get .start)

theorem Fine.get {text : List Nat} {c : Nat} {s : List Nat} {q : Pos} (h : Fine text ⟨c :: s, q⟩) :
    ∃ p, text = p ++ c :: s ∧ q = p.foldl Pos.get .start ∧ q.get c = (p ++ [c]).foldl Pos.get .start := by
  obtain ⟨p, k, h1, h2, h3⟩ := h
  have hk : k = 0 := by
    rcases Nat.eq_zero_or_pos k with e | e
    · exact e
    · exact absurd (h2 (by omega)) (by simp)
  subst hk
  exact ⟨p, h1, h3, by rw [List.foldl_append, ← show q = p.foldl Pos.get .start from h3]; rfl⟩

theorem Fine.next {text : List Nat} {c : Nat} {s : List Nat} {q : Pos} (h : Fine text ⟨c :: s, q⟩) : Fine text ⟨s, q.get c⟩ := by
  obtain ⟨p, h1, _, h3⟩ := h.get
  exact ⟨p ++ [c], 0, by rw [h1]; simp, fun h => absurd rfl h, h3⟩

theorem Fine.eof {text : List Nat} {q : Pos} (h : Fine text ⟨[], q⟩) : Fine text ⟨[], q.eof⟩ := by
  obtain ⟨p, k, h1, _, h3⟩ := h
  exact ⟨p, k + 1, h1, fun _ => rfl, by show q.eof = (eofs k _).eof; rw [show q = _ from h3]⟩

theorem Fine.located {io : FloatIO} {ft : Features} {text : List Nat} {s : Src} (h : Fine text s) {n : Note}
    (hn : ∀ p k, text = p ++ s.rest → Explains io ft p k s.rest n) : Located io ft text (s.pos, n) := by
  obtain ⟨p, k, h1, h2, h3⟩ := h
  exact ⟨p, k, s.rest, h1, h2, by rw [h3]; exact posAfter_eofs (posAfter_walk p) k, hn p k h1⟩

/-- After a step: the stream is fine, the warnings are located, and a failure gave a warning or came at the end. -/
structure Ok (io : FloatIO) (ft : Features) (text : List Nat) (bad : Prop) (r : Src) (ws : List Warn) : Prop where
  fine : Fine text r
  located : ∀ w ∈ ws, Located io ft text w
  honest : bad → ws ≠ [] ∨ r.rest = []

theorem Ok.append {io : FloatIO} {ft : Features} {text : List Nat} {bad bad' : Prop} {r' : Src} {ws ws' : List Warn}
    (h : ∀ w ∈ ws, Located io ft text w) (h' : Ok io ft text bad' r' ws') (hb : bad → bad') : Ok io ft text bad r' (ws ++ ws') :=
  ⟨h'.fine, fun w hw => (List.mem_append.1 hw).elim (h w) (h'.located w), fun b => (h'.honest (hb b)).imp
    (fun h => by simp [h]) id⟩

theorem skipWsAt_fine {text : List Nat} : ∀ (s : List Nat) (q : Pos), Fine text ⟨s, q⟩ → Fine text (skipWsAt s q) := by
  intro s
  induction s with
  | nil => intro q h; exact h
  | cons c s ih =>
    intro q h
    unfold skipWsAt
    split
    · exact ih _ h.next
    · exact h

theorem dropLineAt_fine {text : List Nat} : ∀ (s : List Nat) (q : Pos), Fine text ⟨s, q⟩ → Fine text (dropLineAt s q) := by
  intro s
  induction s with
  | nil => intro q h; exact h.eof
  | cons c s ih =>
    intro q h
    unfold dropLineAt
    split
    · exact h.next
    · exact ih _ h.next

theorem dropBlockAt_fine {text : List Nat} : ∀ (s : List Nat) (q : Pos), Fine text ⟨s, q⟩ → Fine text (dropBlockAt s q).2 := by
  intro s
  induction s with
  | nil => intro q h; exact h.eof
  | cons c s ih =>
    intro q h
    unfold dropBlockAt
    split
    · rename_i hc
      cases s with
      | nil => simp at hc
      | cons d s =>
        have : d = 0x2f := by simpa using hc.2
        subst this
        exact h.next.next
    · exact ih _ h.next

theorem skipCommentAt_ok {io : FloatIO} {ft : Features} {text t : List Nat} {q : Pos} (h : Fine text ⟨0x2f :: t, q⟩) :
    Ok io ft text ((skipCommentAt ft.comments t q).1 = false) (skipCommentAt ft.comments t q).2.1 (skipCommentAt ft.comments t q).2.2 := by
  unfold skipCommentAt
  cases ha : ft.comments with
  | false =>
    refine ⟨h, ?_, fun _ => .inl (by simp)⟩
    intro w hw
    simp only [Bool.not_false, if_true, List.mem_singleton] at hw
    subst hw
    exact h.located fun p k _ => ⟨ha, rfl⟩
  | true =>
    simp only [Bool.not_true, Bool.false_eq_true, if_false]
    cases t with
    | nil =>
      obtain ⟨p, h1, _, h3⟩ := h.get
      refine ⟨h.next.eof, ?_, fun _ => .inl (by simp)⟩
      intro w hw
      simp only [List.mem_singleton] at hw
      subst hw
      exact ⟨p ++ [0x2f], 1, [], by rw [h1]; simp, fun _ => rfl, by
        show PosAfter _ 1 (q.get 0x2f).eof; rw [h3]; exact posAfter_eofs (posAfter_walk _) 1, ⟨p, rfl⟩, Nat.le_refl 1, ha⟩
    | cons c u =>
      simp only []
      split
      · exact ⟨dropLineAt_fine _ _ h.next.next, by simp, fun hb => by cases hb⟩
      · split
        · refine ⟨dropBlockAt_fine _ _ h.next.next, by simp, fun hb => .inr ?_⟩
          exact (dropBlockAt_rest u _).2 hb
        · rename_i h1 h2
          obtain ⟨p, e1, _, _⟩ := h.get
          refine ⟨h.next.next, ?_, fun _ => .inl (by simp)⟩
          intro w hw
          simp only [List.mem_singleton] at hw
          subst hw
          refine h.next.next.located fun p' k e => ⟨⟨p, ?_⟩, h1, h2, ha⟩
          have : text = (p ++ [0x2f, c]) ++ u := by rw [e1]; simp
          rw [e] at this
          exact List.append_cancel_right this

theorem wsComments_unfold (allow : Bool) (s : List Nat) : wsComments allow s =
    match skipWs s with
    | [] => (true, [])
    | c :: t => if c = 0x2f then
        if (skipComment allow t).1 then wsComments allow (skipComment allow t).2
        else (false, (skipComment allow t).2)
      else (true, c :: t) := by
  rw [wsComments]
  split
  · rename_i h1; rw [h1]
  · rename_i d t h1
    rw [h1]
    dsimp only
    split
    · split
      · rename_i h2; rw [h2]; simp
      · rename_i h2; rw [h2]; simp
    · rfl

theorem wsCommentsAt_unfold (allow : Bool) (s : List Nat) (p : Pos) : wsCommentsAt allow s p =
    match skipWsAt s p with
    | ⟨[], q⟩ => (true, ⟨[], q⟩, [])
    | ⟨c :: t, q⟩ =>
      if c = 0x2f then
        if (skipCommentAt allow t q).1 then
          ((wsCommentsAt allow (skipCommentAt allow t q).2.1.rest (skipCommentAt allow t q).2.1.pos).1,
            (wsCommentsAt allow (skipCommentAt allow t q).2.1.rest (skipCommentAt allow t q).2.1.pos).2.1,
            (skipCommentAt allow t q).2.2 ++ (wsCommentsAt allow (skipCommentAt allow t q).2.1.rest (skipCommentAt allow t q).2.1.pos).2.2)
        else (false, (skipCommentAt allow t q).2.1, (skipCommentAt allow t q).2.2)
      else (true, ⟨c :: t, q⟩, []) := by
  rw [wsCommentsAt]
  split
  · rename_i h1; rw [h1]
  · rename_i d t q h1
    rw [h1]
    dsimp only
    split
    · split
      · rename_i h2; rw [h2]; simp
      · rename_i h2; rw [h2]; simp
    · rfl

theorem wsCommentsAt_ok {io : FloatIO} {ft : Features} {text : List Nat} : ∀ (n : Nat) (s : List Nat) (q : Pos), s.length = n → Fine text ⟨s, q⟩ →
    Ok io ft text ((wsCommentsAt ft.comments s q).1 = false) (wsCommentsAt ft.comments s q).2.1 (wsCommentsAt ft.comments s q).2.2 ∧
    wsComments ft.comments s = ((wsCommentsAt ft.comments s q).1, (wsCommentsAt ft.comments s q).2.1.rest) := by
  intro n
  induction n using Nat.strongRecOn with
  | _ n ih =>
    intro s q hn hf
    have hw := skipWsAt_fine s q hf
    have hr := skipWsAt_rest s q
    have hlen := dropWhile_length_le isWs s
    rw [wsCommentsAt_unfold, wsComments_unfold, ← hr]
    rcases e : skipWsAt s q with ⟨_ | ⟨c, t⟩, q'⟩
    · rw [e] at hw
      exact ⟨⟨hw, by simp, fun h => by cases h⟩, rfl⟩
    · rw [e] at hw hr
      dsimp only
      by_cases hc : c = 0x2f
      · subst hc
        have hk := skipCommentAt_ok (io := io) (ft := ft) hw
        have he := skipCommentAt_eq ft.comments t q'
        have hl := skipComment_length ft.comments t
        rw [if_pos rfl, if_pos rfl, he]
        rw [he] at hl
        generalize skipCommentAt ft.comments t q' = y at *
        obtain ⟨b, r, ws⟩ := y
        cases b with
        | false => exact ⟨hk, rfl⟩
        | true =>
          have hl2 : r.rest.length < n := by
            rw [show s.dropWhile isWs = 0x2f :: t from hr.symm] at hlen
            have := hl rfl
            simp only [List.length_cons] at hlen this
            omega
          have h := ih _ hl2 r.rest r.pos rfl hk.fine
          simp only [if_true]
          exact ⟨Ok.append hk.located h.1 id, h.2⟩
      · rw [if_neg hc, if_neg hc]
        exact ⟨⟨hw, by simp, fun h => by cases h⟩, rfl⟩

theorem stateForAt_ok {io : FloatIO} {ft : Features} {text : List Nat} {s : Src} (e : Nat) (hf : Fine text s) :
    Ok io ft text ((stateForAt ft.comments e s).1 = .invalid) (stateForAt ft.comments e s).2.1 (stateForAt ft.comments e s).2.2 ∧
    stateFor ft.comments e s.rest = ((stateForAt ft.comments e s).1, (stateForAt ft.comments e s).2.1.rest) ∧
    ((stateForAt ft.comments e s).1 = .stop → ∃ q, text = q ++ [e] ++ (stateForAt ft.comments e s).2.1.rest) := by
  obtain ⟨h1, h2⟩ := wsCommentsAt_ok (io := io) (ft := ft) _ s.rest s.pos rfl hf
  unfold stateForAt stateFor
  rw [h2]
  generalize wsCommentsAt ft.comments s.rest s.pos = y at *
  obtain ⟨_ | _, ⟨_ | ⟨c, t⟩, q⟩, ws⟩ := y
  · exact ⟨⟨h1.fine, h1.located, fun _ => h1.honest rfl⟩, rfl, fun h => by cases h⟩
  · exact ⟨⟨h1.fine, h1.located, fun _ => h1.honest rfl⟩, rfl, fun h => by cases h⟩
  · exact ⟨⟨h1.fine, h1.located, fun _ => .inr rfl⟩, rfl, fun h => by cases h⟩
  · dsimp only
    split
    · rename_i hc
      obtain ⟨p, e1, _⟩ := h1.fine.get
      exact ⟨⟨h1.fine.next, h1.located, fun h => by cases h⟩, rfl, fun _ => ⟨p, by rw [e1, hc]; simp⟩⟩
    · exact ⟨⟨h1.fine, h1.located, fun h => by cases h⟩, rfl, fun h => by cases h⟩

theorem consumeTokenAt_ok {io : FloatIO} {ft : Features} {text : List Nat} {s : Src} (tok : Nat) (hf : Fine text s) :
    Ok io ft text ((consumeTokenAt tok s).1 ≠ .keep) (consumeTokenAt tok s).2.1 (consumeTokenAt tok s).2.2 ∧
    consumeToken tok s.rest = ((consumeTokenAt tok s).1, (consumeTokenAt tok s).2.1.rest) := by
  have hw := skipWsAt_fine s.rest s.pos hf
  have hr := skipWsAt_rest s.rest s.pos
  unfold consumeTokenAt consumeToken
  rw [← hr]
  rcases e : skipWsAt s.rest s.pos with ⟨_ | ⟨c, t⟩, q⟩
  · rw [e] at hw
    refine ⟨⟨hw.eof, ?_, fun _ => .inr rfl⟩, rfl⟩
    intro w hwm
    simp only [List.mem_singleton] at hwm
    subst hwm
    obtain ⟨p, k, h1, h2, h3⟩ := hw
    exact ⟨p, k + 1, [], h1, fun _ => rfl, by
      rw [show q = _ from h3]; exact posAfter_eofs (posAfter_walk p) (k + 1), Nat.le_add_left 1 k⟩
  · rw [e] at hw
    dsimp only
    split
    · exact ⟨⟨hw.next, by simp, fun h => absurd rfl h⟩, rfl⟩
    · rename_i hc
      refine ⟨⟨hw.next, ?_, fun _ => .inl (by simp)⟩, rfl⟩
      intro w hwm
      simp only [List.mem_singleton] at hwm
      subst hwm
      obtain ⟨p, e1, _⟩ := hw.get
      refine hw.next.located fun p' k e' => ⟨⟨p, ?_⟩, hc⟩
      have : text = (p ++ [c]) ++ t := by rw [e1]; simp
      rw [e'] at this
      exact List.append_cancel_right this

theorem afterCommaAt_ok {io : FloatIO} {ft : Features} {text : List Nat} {s : Src} {e : Nat} (he : e = 0x5d ∨ e = 0x7d) (hf : Fine text s) :
    Ok io ft text ((afterCommaAt ft e s).1 = .invalid) (afterCommaAt ft e s).2.1 (afterCommaAt ft e s).2.2 ∧
    afterComma ft e s.rest = ((afterCommaAt ft e s).1, (afterCommaAt ft e s).2.1.rest) := by
  obtain ⟨h1, h2, h3⟩ := stateForAt_ok (io := io) (ft := ft) e hf
  unfold afterCommaAt afterComma
  rw [h2]
  generalize stateForAt ft.comments e s = y at *
  obtain ⟨_ | _ | _, r, ws⟩ := y
  · exact ⟨⟨h1.fine, h1.located, fun h => by cases h⟩, rfl⟩
  · dsimp only
    cases ht : ft.trailingComma with
    | true => exact ⟨⟨h1.fine, h1.located, fun h => by cases h⟩, rfl⟩
    | false =>
      refine ⟨⟨h1.fine, ?_, fun _ => .inl (by simp)⟩, rfl⟩
      intro w hw
      simp only [Bool.false_eq_true, if_false, List.mem_append, List.mem_singleton] at hw
      rcases hw with hw | rfl
      · exact h1.located w hw
      · obtain ⟨p, e1⟩ := h3 rfl
        refine h1.fine.located fun p' k e' => ⟨ht, p, e, ?_, he⟩
        rw [e'] at e1
        exact List.append_cancel_right e1
  · exact ⟨⟨h1.fine, h1.located, fun h => by cases h⟩, rfl⟩

theorem consumeCommaAt_ok {io : FloatIO} {ft : Features} {text : List Nat} {s : Src} {e : Nat} (he : e = 0x5d ∨ e = 0x7d) (hf : Fine text s) :
    Ok io ft text ((consumeCommaAt ft e s).1 = .invalid) (consumeCommaAt ft e s).2.1 (consumeCommaAt ft e s).2.2 ∧
    consumeComma ft e s.rest = ((consumeCommaAt ft e s).1, (consumeCommaAt ft e s).2.1.rest) := by
  obtain ⟨h1, h2⟩ := consumeTokenAt_ok (io := io) (ft := ft) 0x2c hf
  unfold consumeCommaAt consumeComma
  rw [h2]
  generalize consumeTokenAt 0x2c s = y at *
  obtain ⟨_ | _ | _, r, ws⟩ := y
  · exact ⟨⟨h1.fine, h1.located, fun _ => h1.honest (by simp)⟩, rfl⟩
  · exact ⟨⟨h1.fine, h1.located, fun _ => h1.honest (by simp)⟩, rfl⟩
  · obtain ⟨h3, h4⟩ := afterCommaAt_ok (io := io) he h1.fine
    exact ⟨Ok.append h1.located h3 id, h4⟩

theorem separatorAt_ok {io : FloatIO} {ft : Features} {text : List Nat} {s : Src} {e : Nat} (b : Bool) (he : e = 0x5d ∨ e = 0x7d) (hf : Fine text s) :
    Ok io ft text ((separatorAt ft e b s).1 = .invalid) (separatorAt ft e b s).2.1 (separatorAt ft e b s).2.2 ∧
    separator ft e b s.rest = ((separatorAt ft e b s).1, (separatorAt ft e b s).2.1.rest) := by
  cases b with
  | true => exact ⟨⟨hf, by simp [separatorAt], fun h => by cases h⟩, rfl⟩
  | false => exact consumeCommaAt_ok he hf

theorem quotedBodyAt_ok {text : List Nat} : ∀ (n : Nat) (s : List Nat) (q : Pos), s.length = n → Fine text ⟨s, q⟩ →
    Fine text (quotedBodyAt s q).2 ∧ ((quotedBodyAt s q).1 = none → (quotedBodyAt s q).2.rest = []) ∧
    quotedBody s = (quotedBodyAt s q).1.map (fun v => (v, (quotedBodyAt s q).2.rest)) := by
  intro n
  induction n using Nat.strongRecOn with
  | _ n ih =>
    intro s q hn hf
    match s, hn, hf with
    | [], _, hf => exact ⟨hf.eof, fun _ => rfl, rfl⟩
    | [c], _, hf =>
      unfold quotedBodyAt quotedBody
      split
      · exact ⟨hf.next, fun _ => rfl, rfl⟩
      · split
        · exact ⟨hf.next.eof.eof, fun _ => rfl, rfl⟩
        · exact ⟨hf.next.eof, fun _ => rfl, rfl⟩
    | c :: d :: s, hn, hf =>
      unfold quotedBodyAt quotedBody
      simp only [List.length_cons] at hn
      split
      · exact ⟨hf.next, (fun h => nomatch h), rfl⟩
      · split
        · obtain ⟨h1, h2, h3⟩ := ih s.length (by omega) s _ rfl hf.next.next
          refine ⟨h1, fun h => h2 (by simpa using h), ?_⟩
          rw [h3]
          cases (quotedBodyAt s ((q.get c).get d)).1 <;> rfl
        · obtain ⟨h1, h2, h3⟩ := ih (d :: s).length (by simp only [List.length_cons]; omega) (d :: s) _ rfl hf.next
          refine ⟨h1, fun h => h2 (by simpa using h), ?_⟩
          rw [h3]
          cases (quotedBodyAt (d :: s) (q.get c)).1 <;> rfl

theorem parseQuotedAt_ok {io : FloatIO} {ft : Features} {text : List Nat} {s : Src} (hf : Fine text s) :
    Ok io ft text ((parseQuotedAt s).1 = none) (parseQuotedAt s).2.1 (parseQuotedAt s).2.2 ∧
    parseQuoted s.rest = (parseQuotedAt s).1.map (fun v => (v, (parseQuotedAt s).2.1.rest)) := by
  obtain ⟨h1, h2⟩ := consumeTokenAt_ok (io := io) (ft := ft) 0x22 hf
  unfold parseQuotedAt parseQuoted
  rw [h2]
  generalize consumeTokenAt 0x22 s = y at *
  obtain ⟨_ | _ | _, r, ws⟩ := y
  · exact ⟨⟨h1.fine, h1.located, fun _ => h1.honest (by simp)⟩, rfl⟩
  · exact ⟨⟨h1.fine, h1.located, fun _ => h1.honest (by simp)⟩, rfl⟩
  · obtain ⟨h3, h4, h5⟩ := quotedBodyAt_ok _ r.rest r.pos rfl h1.fine
    exact ⟨⟨h3, h1.located, fun h => .inr (h4 h)⟩, h5⟩

theorem parseKeyAt_ok {io : FloatIO} {ft : Features} {text : List Nat} {s : Src} (hf : Fine text s) :
    Ok io ft text ((parseKeyAt s).1 = none) (parseKeyAt s).2.1 (parseKeyAt s).2.2 ∧
    parseKey s.rest = (parseKeyAt s).1.map (fun v => (v, (parseKeyAt s).2.1.rest)) := by
  obtain ⟨h1, h2⟩ := parseQuotedAt_ok (io := io) (ft := ft) hf
  unfold parseKeyAt parseKey
  rw [h2]
  generalize parseQuotedAt s = y at *
  obtain ⟨_ | raw, r, ws⟩ := y
  · exact ⟨h1, rfl⟩
  · obtain ⟨h3, h4⟩ := consumeTokenAt_ok (io := io) (ft := ft) 0x3a h1.fine
    simp only [Option.map_some]
    rw [h4]
    generalize consumeTokenAt 0x3a r = y at *
    obtain ⟨_ | _ | _, r', ws'⟩ := y
    · exact ⟨Ok.append h1.located h3 (by simp), rfl⟩
    · exact ⟨Ok.append h1.located h3 (by simp), rfl⟩
    · exact ⟨Ok.append h1.located h3 (by simp), rfl⟩

theorem foldl_fine {text : List Nat} : ∀ (v u : List Nat) (q : Pos), Fine text ⟨v ++ u, q⟩ → Fine text ⟨u, v.foldl Pos.get q⟩ := by
  intro v
  induction v with
  | nil => intro u q h; exact h
  | cons c v ih => intro u q h; exact ih u _ h.next

/-- What the parser of `Verif.Json.Parser` returns. -/
def Got'.res (g : Got') (rest : List Nat) : Res Value :=
  match g with
  | .fail => .fail
  | .threw => .fail
  | .oom => .oom
  | .ok v => .ok v rest

theorem parseValueAt_ok {io : FloatIO} {ft : Features} {text : List Nat} {s : Src} (hf : Fine text s) :
    Ok io ft text ((parseValueAt io s).1 = .fail) (parseValueAt io s).2.1 (parseValueAt io s).2.2 ∧
    parseValue io s.rest = (parseValueAt io s).1.res (parseValueAt io s).2.1.rest := by
  have hs : s.rest = s.rest.takeWhile isValueChar ++ s.rest.dropWhile isValueChar := List.takeWhile_append_dropWhile.symm
  have h2 : Fine text ⟨s.rest.dropWhile isValueChar, (s.rest.takeWhile isValueChar).foldl Pos.get s.pos⟩ := by
    apply foldl_fine
    rw [← hs]; exact hf
  unfold parseValueAt parseValue
  rcases hv : valueOf io (s.rest.takeWhile isValueChar) with _ | v
  · refine ⟨⟨h2, ?_, fun _ => .inl (by simp)⟩, rfl⟩
    intro w hw
    simp only [List.mem_singleton] at hw
    subst hw
    obtain ⟨p, k, h3, _⟩ := hf
    refine h2.located fun p' k' e => ⟨⟨p, ?_⟩, ?_⟩
    · rw [hs, ← List.append_assoc] at h3
      rw [h3] at e
      exact (List.append_cancel_right e).symm
    · rintro ⟨x, hx⟩
      rw [← valueOf_iff] at hx
      rw [hx] at hv
      cases hv
  · exact ⟨⟨h2, by simp, fun h => by cases h⟩, rfl⟩

theorem parseStringAt_ok {io : FloatIO} {ft : Features} {text : List Nat} {s : Src} (hf : Fine text s) :
    Ok io ft text ((parseStringAt s).1 = .fail) (parseStringAt s).2.1 (parseStringAt s).2.2 ∧
    parseString s.rest = (parseStringAt s).1.res (parseStringAt s).2.1.rest := by
  obtain ⟨h1, h2⟩ := parseQuotedAt_ok (io := io) (ft := ft) hf
  unfold parseStringAt parseString
  rw [h2]
  generalize parseQuotedAt s = y at *
  obtain ⟨_ | raw, r, ws⟩ := y
  · exact ⟨⟨h1.fine, h1.located, fun _ => h1.honest rfl⟩, rfl⟩
  · simp only [Option.map_some]
    cases convertToString raw with
    | none => exact ⟨⟨h1.fine, h1.located, fun h => by cases h⟩, rfl⟩
    | some v => exact ⟨⟨h1.fine, h1.located, fun h => by cases h⟩, rfl⟩

theorem Ok.more {io : FloatIO} {ft : Features} {text : List Nat} {bad bad' : Prop} {r : Src} {ws : List Warn}
    (h : Ok io ft text bad' r ws) (hb : bad → bad') : Ok io ft text bad r ws :=
  ⟨h.fine, h.located, fun b => h.honest (hb b)⟩

theorem loopsAt_ok {io : FloatIO} {ft : Features} {text : List Nat} : ∀ (n : Nat),
    (∀ s, Fine text s → Ok io ft text ((parseJsonAt io ft n s).1 = .fail) (parseJsonAt io ft n s).2.1 (parseJsonAt io ft n s).2.2 ∧
      parseJson io ft n s.rest = (parseJsonAt io ft n s).1.res (parseJsonAt io ft n s).2.1.rest) ∧
    (∀ m s, Fine text s → Ok io ft text ((objLoopAt io ft n m s).1 = .fail) (objLoopAt io ft n m s).2.1 (objLoopAt io ft n m s).2.2 ∧
      objLoop io ft n m s.rest = (objLoopAt io ft n m s).1.res (objLoopAt io ft n m s).2.1.rest) ∧
    (∀ l s, Fine text s → Ok io ft text ((arrLoopAt io ft n l s).1 = .fail) (arrLoopAt io ft n l s).2.1 (arrLoopAt io ft n l s).2.2 ∧
      arrLoop io ft n l s.rest = (arrLoopAt io ft n l s).1.res (arrLoopAt io ft n l s).2.1.rest) := by
  intro n
  induction n with
  | zero =>
    refine ⟨fun s h => ?_, fun m s h => ?_, fun l s h => ?_⟩
    · exact ⟨⟨h, by simp [parseJsonAt], fun h => by simp [parseJsonAt] at h⟩, by simp [parseJsonAt, parseJson, Got'.res]⟩
    · exact ⟨⟨h, by simp [objLoopAt], fun h => by simp [objLoopAt] at h⟩, by simp [objLoopAt, objLoop, Got'.res]⟩
    · exact ⟨⟨h, by simp [arrLoopAt], fun h => by simp [arrLoopAt] at h⟩, by simp [arrLoopAt, arrLoop, Got'.res]⟩
  | succ n ih =>
    obtain ⟨ih1, ih2, ih3⟩ := ih
    refine ⟨fun s h => ?_, fun m s h => ?_, fun l s h => ?_⟩
    · obtain ⟨h1, h2⟩ := wsCommentsAt_ok (io := io) (ft := ft) _ s.rest s.pos rfl h
      rw [parseJsonAt, parseJson, h2]
      generalize wsCommentsAt ft.comments s.rest s.pos = y at *
      obtain ⟨_ | _, ⟨_ | ⟨c, t⟩, q⟩, ws⟩ := y
      · exact ⟨h1.more fun _ => rfl, rfl⟩
      · exact ⟨h1.more fun _ => rfl, rfl⟩
      · obtain ⟨h3, h4⟩ := parseValueAt_ok (io := io) (ft := ft) h1.fine
        exact ⟨Ok.append h1.located h3 id, h4⟩
      · dsimp only
        split
        · obtain ⟨h3, h4⟩ := ih2 [] _ h1.fine.next
          exact ⟨Ok.append h1.located h3 id, h4⟩
        · split
          · obtain ⟨h3, h4⟩ := ih3 [] _ h1.fine.next
            exact ⟨Ok.append h1.located h3 id, h4⟩
          · split
            · obtain ⟨h3, h4⟩ := parseStringAt_ok (io := io) (ft := ft) h1.fine
              exact ⟨Ok.append h1.located h3 id, h4⟩
            · obtain ⟨h3, h4⟩ := parseValueAt_ok (io := io) (ft := ft) h1.fine
              exact ⟨Ok.append h1.located h3 id, h4⟩
    · obtain ⟨h1, h2, _⟩ := stateForAt_ok (io := io) (ft := ft) 0x7d h
      rw [objLoopAt, objLoop, h2]
      generalize stateForAt ft.comments 0x7d s = y at *
      obtain ⟨_ | _ | _, r, ws⟩ := y
      · exact ⟨h1.more fun _ => rfl, rfl⟩
      · exact ⟨h1.more (fun h => nomatch h), rfl⟩
      · obtain ⟨h3, h4⟩ := separatorAt_ok (io := io) (ft := ft) m.isEmpty (.inr rfl) h1.fine
        dsimp only at h4 ⊢
        rw [h4]
        generalize separatorAt ft 0x7d m.isEmpty r = y at *
        obtain ⟨_ | _ | _, r2, ws2⟩ := y
        · exact ⟨Ok.append h1.located h3 fun _ => rfl, rfl⟩
        · exact ⟨Ok.append h1.located h3 (fun h => nomatch h), rfl⟩
        · obtain ⟨h5, h6⟩ := parseKeyAt_ok (io := io) (ft := ft) h3.fine
          have hl2 := (Ok.append h1.located h3 id).located
          dsimp only at h6 ⊢
          rw [h6]
          generalize parseKeyAt r2 = y at *
          obtain ⟨_ | raw, r3, ws3⟩ := y
          · exact ⟨Ok.append hl2 h5 fun _ => rfl, rfl⟩
          · have hl3 := (Ok.append hl2 h5 id).located
            obtain ⟨h7, h8⟩ := ih1 r3 h5.fine
            simp only [Option.map_some]
            rw [h8]
            generalize parseJsonAt io ft n r3 = y at *
            obtain ⟨_ | _ | _ | v, r4, ws4⟩ := y
            · exact ⟨Ok.append hl3 h7 fun _ => rfl, rfl⟩
            · exact ⟨Ok.append hl3 h7 (fun h => nomatch h), rfl⟩
            · exact ⟨Ok.append hl3 h7 (fun h => nomatch h), rfl⟩
            · have hl4 := (Ok.append hl3 h7 id).located
              dsimp only [Got'.res]
              cases convertToString raw with
              | none => exact ⟨Ok.append hl3 h7 (fun h => nomatch h), rfl⟩
              | some k =>
                obtain ⟨h9, h10⟩ := ih2 (insertOrAssign k v m) r4 h7.fine
                exact ⟨Ok.append hl4 h9 id, h10⟩
    · obtain ⟨h1, h2, _⟩ := stateForAt_ok (io := io) (ft := ft) 0x5d h
      rw [arrLoopAt, arrLoop, h2]
      generalize stateForAt ft.comments 0x5d s = y at *
      obtain ⟨_ | _ | _, r, ws⟩ := y
      · exact ⟨h1.more fun _ => rfl, rfl⟩
      · exact ⟨h1.more (fun h => nomatch h), rfl⟩
      · obtain ⟨h3, h4⟩ := separatorAt_ok (io := io) (ft := ft) l.isEmpty (.inl rfl) h1.fine
        dsimp only at h4 ⊢
        rw [h4]
        generalize separatorAt ft 0x5d l.isEmpty r = y at *
        obtain ⟨_ | _ | _, r2, ws2⟩ := y
        · exact ⟨Ok.append h1.located h3 fun _ => rfl, rfl⟩
        · exact ⟨Ok.append h1.located h3 (fun h => nomatch h), rfl⟩
        · have hl2 := (Ok.append h1.located h3 id).located
          obtain ⟨h7, h8⟩ := ih1 r2 h3.fine
          dsimp only at h8 ⊢
          rw [h8]
          generalize parseJsonAt io ft n r2 = y at *
          obtain ⟨_ | _ | _ | v, r4, ws4⟩ := y
          · exact ⟨Ok.append hl2 h7 fun _ => rfl, rfl⟩
          · exact ⟨Ok.append hl2 h7 (fun h => nomatch h), rfl⟩
          · exact ⟨Ok.append hl2 h7 (fun h => nomatch h), rfl⟩
          · have hl4 := (Ok.append hl2 h7 id).located
            dsimp only [Got'.res]
            obtain ⟨h9, h10⟩ := ih3 (l ++ [v]) r4 h7.fine
            exact ⟨Ok.append hl4 h9 id, h10⟩

theorem finishAt_ok {io : FloatIO} {ft : Features} {text : List Nat} {s : Src} (g : Got') (hf : Fine text s) :
    Ok io ft text ((finishAt ft g s).1 = none ∧ g ≠ .fail ∧ g ≠ .threw ∧ g ≠ .oom) (finishAt ft g s).2.1 (finishAt ft g s).2.2 ∧
    (∀ v, g = .ok v → (finishAt ft g s).1 = finish ft v s.rest) ∧ ((∀ v, g ≠ .ok v) → (finishAt ft g s).1 = none) ∧
    (s.rest = [] → (finishAt ft g s).2.1.rest = []) := by
  obtain ⟨h1, h2⟩ := wsCommentsAt_ok (io := io) (ft := ft) _ s.rest s.pos rfl hf
  have h0 : s.rest = [] → (wsCommentsAt ft.comments s.rest s.pos).2.1.rest = [] := by
    intro e
    have h3 : wsComments ft.comments s.rest = (true, []) := by rw [e]; exact wsComments_stop (by intro c t h; cases h)
    rw [h2] at h3
    exact congrArg (·.2) h3
  unfold finishAt finish
  rw [h2]
  generalize wsCommentsAt ft.comments s.rest s.pos = y at *
  obtain ⟨_ | _, r, ws⟩ := y
  · exact ⟨h1.more (fun _ => rfl), fun v _ => rfl, fun _ => rfl, h0⟩
  · dsimp only
    cases g with
    | fail => exact ⟨⟨h1.fine, h1.located, fun h => absurd rfl h.2.1⟩, (fun _ h => nomatch h), fun _ => rfl, h0⟩
    | threw => exact ⟨⟨h1.fine, h1.located, fun h => absurd rfl h.2.2.1⟩, (fun _ h => nomatch h), fun _ => rfl, h0⟩
    | oom => exact ⟨⟨h1.fine, h1.located, fun h => absurd rfl h.2.2.2⟩, (fun _ h => nomatch h), fun _ => rfl, h0⟩
    | ok v =>
      obtain ⟨_ | ⟨c, t⟩, q⟩ := r
      · dsimp only
        cases hc : (isContainer v || ft.anyType) with
        | true =>
          refine ⟨⟨h1.fine, h1.located, fun h => by simp at h⟩, ?_, fun h => absurd rfl (h v), h0⟩
          intro v' hv
          injection hv with hv
          subst hv
          rw [if_pos rfl, hc, if_pos rfl]
        | false =>
          refine ⟨⟨h1.fine, ?_, fun _ => .inl (by simp)⟩, ?_, fun h => absurd rfl (h v), h0⟩
          · intro w hw
            simp only [Bool.false_eq_true, if_false, List.mem_append, List.mem_singleton] at hw
            rcases hw with hw | rfl
            · exact h1.located w hw
            · exact h1.fine.located fun _ _ _ => ⟨rfl, by simp at hc; exact hc.2⟩
          · intro v' hv
            injection hv with hv
            subst hv
            rw [hc]
            rfl
      · refine ⟨⟨h1.fine, ?_, fun _ => .inl (by simp)⟩, fun _ _ => rfl, fun _ => rfl, h0⟩
        intro w hw
        simp only [List.mem_append, List.mem_singleton] at hw
        rcases hw with hw | rfl
        · exact h1.located w hw
        · exact h1.fine.located fun _ _ _ => rfl

theorem parseAt_ok (io : FloatIO) (ft : Features) (text : List Nat) (hb : Bytes text) :
    (parseAt io ft text).1 = parse io ft text ∧ (∀ w ∈ (parseAt io ft text).2.2, Located io ft text w) ∧
    ((parseAt io ft text).1 = none → (parseAt io ft text).2.2 ≠ [] ∨ (parseAt io ft text).2.1.rest = []) := by
  have hf : Fine text ⟨text, .start⟩ := ⟨[], 0, rfl, fun h => absurd rfl h, rfl⟩
  obtain ⟨h1, h2⟩ := (loopsAt_ok (io := io) (ft := ft) (2 * text.length + 2)).1 _ hf
  have hn := parse_no_fuel io ft text hb
  unfold parseAt parse
  unfold parseFuel at hn ⊢
  dsimp only at h2
  rw [h2] at hn ⊢
  generalize parseJsonAt io ft (2 * text.length + 2) ⟨text, .start⟩ = y at *
  obtain ⟨g, r, ws⟩ := y
  cases g with
  | threw =>
    refine ⟨rfl, ?_, fun _ => .inl (by simp)⟩
    intro w hw
    simp only [List.mem_append, List.mem_singleton] at hw
    rcases hw with hw | rfl
    · exact h1.located w hw
    · exact h1.fine.located fun _ _ _ => trivial
  | oom => exact absurd rfl hn
  | fail =>
    obtain ⟨h3, _, h5, h6⟩ := finishAt_ok (io := io) (ft := ft) .fail h1.fine
    refine ⟨h5 (fun _ h => nomatch h), (Ok.append h1.located h3 id).located, fun _ => ?_⟩
    rcases h1.honest rfl with h | h
    · exact .inl (by simp only [ne_eq, List.append_eq_nil_iff, not_and]; intro e; exact absurd e h)
    · exact .inr (h6 h)
  | ok v =>
    obtain ⟨h3, h4, h5, h6⟩ := finishAt_ok (io := io) (ft := ft) (.ok v) h1.fine
    have h7 := h4 v rfl
    refine ⟨?_, (Ok.append h1.located h3 id).located, fun h => ?_⟩
    · dsimp only [Got'.res]
      rw [h7]
      cases finish ft v r.rest <;> rfl
    · exact (Ok.append h1.located h3 (bad := (finishAt ft (.ok v) r).1 = none) fun h =>
        ⟨h, (fun h => nomatch h), (fun h => nomatch h), (fun h => nomatch h)⟩).honest h

/-- Only warnings about the start of a comment. -/
def Minor (ws : List Warn) : Prop := ∀ w ∈ ws, ∃ c, w.2 = .commentStart c

theorem Minor.append {ws ws' : List Warn} (h : Minor ws) (h' : Minor ws') : Minor (ws ++ ws') :=
  fun w hw => (List.mem_append.1 hw).elim (h w) (h' w)

theorem Minor.nil : Minor [] := fun _ h => nomatch h

theorem wsCommentsAt_minor {allow : Bool} : ∀ (n : Nat) (s : List Nat) (q : Pos), s.length = n →
    ((wsCommentsAt allow s q).1 = true → (wsCommentsAt allow s q).2.2 = []) ∧
    ((wsCommentsAt allow s q).1 = false → Minor (wsCommentsAt allow s q).2.2 ∨ (allow = false ∧ (wsCommentsAt allow s q).2.1.rest.head? = some 0x2f)) := by
  intro n
  induction n using Nat.strongRecOn with
  | _ n ih =>
    intro s q hn
    have hr := skipWsAt_rest s q
    have hlen := dropWhile_length_le isWs s
    rw [wsCommentsAt_unfold]
    rcases e : skipWsAt s q with ⟨_ | ⟨c, t⟩, q'⟩
    · exact ⟨fun _ => rfl, (fun h => nomatch h)⟩
    · rw [e] at hr
      dsimp only
      by_cases hc : c = 0x2f
      · subst hc
        have he := skipCommentAt_eq allow t q'
        have hl := skipComment_length allow t
        rw [if_pos rfl]
        rw [he] at hl
        have hm : ((skipCommentAt allow t q').1 = true → (skipCommentAt allow t q').2.2 = []) ∧
            ((skipCommentAt allow t q').1 = false → Minor (skipCommentAt allow t q').2.2 ∨ (allow = false ∧ (skipCommentAt allow t q').2.1.rest.head? = some 0x2f)) := by
          unfold skipCommentAt
          cases allow with
          | false => exact ⟨(fun h => nomatch h), fun _ => .inr ⟨rfl, rfl⟩⟩
          | true =>
            simp only [Bool.not_true, Bool.false_eq_true, if_false]
            cases t with
            | nil => exact ⟨(fun h => nomatch h), fun _ => .inl fun w hw => by
                simp only [List.mem_singleton] at hw; subst hw; exact ⟨_, rfl⟩⟩
            | cons c u =>
              dsimp only
              split
              · exact ⟨fun _ => rfl, fun _ => .inl .nil⟩
              · split
                · exact ⟨fun _ => rfl, fun _ => .inl .nil⟩
                · exact ⟨(fun h => nomatch h), fun _ => .inl fun w hw => by
                    simp only [List.mem_singleton] at hw; subst hw; exact ⟨_, rfl⟩⟩
        generalize skipCommentAt allow t q' = y at *
        obtain ⟨b, r, ws⟩ := y
        cases b with
        | false => exact hm
        | true =>
          have hl2 : r.rest.length < n := by
            rw [show s.dropWhile isWs = 0x2f :: t from hr.symm] at hlen
            have := hl rfl
            simp only [List.length_cons] at hlen this
            omega
          have h := ih _ hl2 r.rest r.pos rfl
          have hw : ws = [] := hm.1 rfl
          simp only [if_true, hw, List.nil_append]
          exact h
      · rw [if_neg hc]
        exact ⟨fun _ => rfl, (fun h => nomatch h)⟩

theorem stateForAt_minor {allow : Bool} {e : Nat} {s : Src} :
    ((stateForAt allow e s).1 ≠ .invalid → (stateForAt allow e s).2.2 = []) ∧
    (Minor (stateForAt allow e s).2.2 ∨ (allow = false ∧ (stateForAt allow e s).2.1.rest.head? = some 0x2f)) := by
  obtain ⟨h1, h2⟩ := wsCommentsAt_minor (allow := allow) _ s.rest s.pos rfl
  unfold stateForAt
  generalize wsCommentsAt allow s.rest s.pos = y at *
  obtain ⟨_ | _, ⟨_ | ⟨c, t⟩, q⟩, ws⟩ := y
  · exact ⟨fun h => absurd rfl h, h2 rfl⟩
  · exact ⟨fun h => absurd rfl h, h2 rfl⟩
  · have : ws = [] := h1 rfl
    subst this
    exact ⟨fun _ => rfl, .inl .nil⟩
  · have : ws = [] := h1 rfl
    subst this
    dsimp only
    split
    · exact ⟨fun _ => rfl, .inl .nil⟩
    · exact ⟨fun _ => rfl, .inl .nil⟩

theorem consumeTokenAt_minor {tok : Nat} {s : Src} (h : (consumeTokenAt tok s).1 = .keep) : (consumeTokenAt tok s).2.2 = [] := by
  unfold consumeTokenAt at h ⊢
  split
  · rename_i e; rw [e] at h; cases h
  · rename_i e
    rw [e] at h
    dsimp only at h ⊢
    split
    · rfl
    · rename_i hc; rw [if_neg hc] at h; cases h

theorem separatorAt_minor {ft : Features} {e : Nat} {b : Bool} {s : Src} (h : (separatorAt ft e b s).1 ≠ .invalid) :
    ((separatorAt ft e b s).1 = .stop → Minor (separatorAt ft e b s).2.2) ∧
    (Minor (separatorAt ft e b s).2.2 ∨ (ft.comments = false ∧ (separatorAt ft e b s).2.1.rest.head? = some 0x2f)) := by
  cases b with
  | true => exact ⟨fun _ => .nil, .inl .nil⟩
  | false =>
    change (consumeCommaAt ft e s).1 ≠ .invalid at h
    change ((consumeCommaAt ft e s).1 = .stop → Minor (consumeCommaAt ft e s).2.2) ∧
      (Minor (consumeCommaAt ft e s).2.2 ∨ (ft.comments = false ∧ (consumeCommaAt ft e s).2.1.rest.head? = some 0x2f))
    have h1 := consumeTokenAt_minor (tok := 0x2c) (s := s)
    unfold consumeCommaAt at h ⊢
    generalize consumeTokenAt 0x2c s = y at *
    obtain ⟨_ | _ | _, r, ws⟩ := y
    · exact absurd rfl h
    · exact absurd rfl h
    · have : ws = [] := h1 rfl
      subst this
      simp only [List.nil_append]
      obtain ⟨h2, h3⟩ := stateForAt_minor (allow := ft.comments) (e := e) (s := r)
      simp only [ne_eq] at h
      unfold afterCommaAt at h ⊢
      generalize stateForAt ft.comments e r = y at *
      obtain ⟨_ | _ | _, r, ws⟩ := y
      · exact ⟨(fun h => nomatch h), h3⟩
      · dsimp only at h ⊢
        have : ws = [] := h2 (by simp)
        subst this
        cases ht : ft.trailingComma with
        | true => exact ⟨fun _ => .nil, .inl .nil⟩
        | false => rw [ht] at h; exact absurd rfl h
      · exact ⟨(fun h => nomatch h), h3⟩

theorem skipWsAt_slash {t : List Nat} {q : Pos} : skipWsAt (0x2f :: t) q = ⟨0x2f :: t, q⟩ := by
  unfold skipWsAt
  rw [if_neg (by decide)]

theorem parseKeyAt_minor {s : Src} {k : List Nat} (h : (parseKeyAt s).1 = some k) :
    (parseKeyAt s).2.2 = [] ∧ s.rest.head? ≠ some 0x2f := by
  have hq : (parseQuotedAt s).1 ≠ none → (parseQuotedAt s).2.2 = [] ∧ s.rest.head? ≠ some 0x2f := by
    intro h
    have h1 := consumeTokenAt_minor (tok := 0x22) (s := s)
    have h2 : s.rest.head? = some 0x2f → (consumeTokenAt 0x22 s).1 = .invalid := by
      intro e
      obtain ⟨rest, pos⟩ := s
      cases rest with
      | nil => cases e
      | cons c t =>
        have : c = 0x2f := by simpa using e
        subst this
        unfold consumeTokenAt
        rw [skipWsAt_slash]
        rfl
    unfold parseQuotedAt at h ⊢
    generalize consumeTokenAt 0x22 s = y at *
    obtain ⟨_ | _ | _, r, ws⟩ := y
    · exact absurd rfl h
    · exact absurd rfl h
    · exact ⟨h1 rfl, fun e => nomatch h2 e⟩
  unfold parseKeyAt at h ⊢
  generalize parseQuotedAt s = y at *
  obtain ⟨_ | raw, r, ws⟩ := y
  · cases h
  · obtain ⟨h1, h2⟩ := hq (by simp)
    have h3 := consumeTokenAt_minor (tok := 0x3a) (s := r)
    dsimp only at h h1 ⊢
    generalize consumeTokenAt 0x3a r = y at *
    obtain ⟨_ | _ | _, r', ws'⟩ := y
    · cases h
    · cases h
    · refine ⟨?_, h2⟩
      have : ws' = [] := h3 rfl
      dsimp only
      rw [h1, this]
      rfl

theorem loopsAt_minor {io : FloatIO} {ft : Features} : ∀ (n : Nat),
    (∀ s v, (parseJsonAt io ft n s).1 = .ok v → Minor (parseJsonAt io ft n s).2.2 ∧ (ft.comments = false → s.rest.head? ≠ some 0x2f)) ∧
    (∀ m s v, (objLoopAt io ft n m s).1 = .ok v → Minor (objLoopAt io ft n m s).2.2) ∧
    (∀ l s v, (arrLoopAt io ft n l s).1 = .ok v → Minor (arrLoopAt io ft n l s).2.2) := by
  intro n
  induction n with
  | zero =>
    refine ⟨fun s v h => ?_, fun m s v h => ?_, fun l s v h => ?_⟩
    · simp [parseJsonAt] at h
    · simp [objLoopAt] at h
    · simp [arrLoopAt] at h
  | succ n ih =>
    obtain ⟨ih1, ih2, ih3⟩ := ih
    refine ⟨fun s v h => ?_, fun m s v h => ?_, fun l s v h => ?_⟩
    · have hv : ∀ s v, (parseValueAt io s).1 = .ok v → Minor (parseValueAt io s).2.2 := by
        intro s v h
        unfold parseValueAt at h ⊢
        split
        · exact .nil
        · rename_i e; rw [e] at h; cases h
      have hq : ∀ s v, (parseStringAt s).1 = .ok v → Minor (parseStringAt s).2.2 := by
        intro s v h
        have h1 := consumeTokenAt_minor (tok := 0x22) (s := s)
        unfold parseStringAt parseQuotedAt at h ⊢
        generalize consumeTokenAt 0x22 s = y at *
        obtain ⟨_ | _ | _, r, ws⟩ := y
        · cases h
        · cases h
        · have : ws = [] := h1 rfl
          subst this
          dsimp only at h ⊢
          generalize quotedBodyAt r.rest r.pos = y at *
          obtain ⟨_ | raw, r⟩ := y
          · cases h
          · dsimp only
            cases convertToString raw with
            | none => exact .nil
            | some v => exact .nil
      obtain ⟨h1, h2⟩ := wsCommentsAt_minor (allow := ft.comments) _ s.rest s.pos rfl
      have h3 : ft.comments = false → s.rest.head? = some 0x2f → (wsCommentsAt ft.comments s.rest s.pos).1 = false := by
        intro ha e
        obtain ⟨rest, pos⟩ := s
        cases rest with
        | nil => cases e
        | cons c t =>
          have : c = 0x2f := by simpa using e
          subst this
          rw [wsCommentsAt_unfold, skipWsAt_slash, ha]
          rfl
      rw [parseJsonAt] at h ⊢
      generalize wsCommentsAt ft.comments s.rest s.pos = y at *
      obtain ⟨_ | _, ⟨_ | ⟨c, t⟩, q⟩, ws⟩ := y
      · cases h
      · cases h
      · have : ws = [] := h1 rfl
        subst this
        exact ⟨Minor.append .nil (hv _ v h), fun ha e => nomatch h3 ha e⟩
      · have : ws = [] := h1 rfl
        subst this
        refine ⟨?_, fun ha e => nomatch h3 ha e⟩
        dsimp only at h ⊢
        split
        · rename_i hc; rw [if_pos hc] at h; exact Minor.append .nil (ih2 _ _ v h)
        · rename_i hc
          rw [if_neg hc] at h
          split
          · rename_i hc; rw [if_pos hc] at h; exact Minor.append .nil (ih3 _ _ v h)
          · rename_i hc
            rw [if_neg hc] at h
            split
            · rename_i hc; rw [if_pos hc] at h; exact Minor.append .nil (hq _ v h)
            · rename_i hc; rw [if_neg hc] at h; exact Minor.append .nil (hv _ v h)
    · obtain ⟨h1, _⟩ := stateForAt_minor (allow := ft.comments) (e := 0x7d) (s := s)
      rw [objLoopAt] at h ⊢
      generalize stateForAt ft.comments 0x7d s = y at *
      obtain ⟨_ | _ | _, r, ws⟩ := y
      · cases h
      · have : ws = [] := h1 (by simp)
        subst this
        exact .nil
      · have : ws = [] := h1 (by simp)
        subst this
        have h3 := separatorAt_minor (ft := ft) (e := 0x7d) (b := m.isEmpty) (s := r)
        dsimp only at h ⊢
        generalize separatorAt ft 0x7d m.isEmpty r = y at *
        obtain ⟨_ | _ | _, r2, ws2⟩ := y
        · cases h
        · exact Minor.append .nil ((h3 (by simp)).1 rfl)
        · have h4 := (h3 (by simp)).2
          have h5 := fun k => parseKeyAt_minor (s := r2) (k := k)
          dsimp only at h h4 ⊢
          generalize parseKeyAt r2 = y at *
          obtain ⟨_ | raw, r3, ws3⟩ := y
          · cases h
          · obtain ⟨h6, h7⟩ := h5 raw rfl
            dsimp only at h6
            subst h6
            have h8 : Minor ws2 := h4.resolve_right fun e => h7 e.2
            have h9 := ih1 r3
            dsimp only at h ⊢
            generalize parseJsonAt io ft n r3 = y at *
            obtain ⟨_ | _ | _ | v', r4, ws4⟩ := y
            · cases h
            · cases h
            · cases h
            · have h10 : Minor ws4 := (h9 v' rfl).1
              have h11 : Minor ([] ++ ws2 ++ [] ++ ws4) := by
                rw [List.nil_append, List.append_nil]; exact h8.append h10
              dsimp only at h ⊢
              cases hk : convertToString raw with
              | none => exact h11
              | some k => rw [hk] at h; exact h11.append (ih2 _ _ v h)
    · obtain ⟨h1, _⟩ := stateForAt_minor (allow := ft.comments) (e := 0x5d) (s := s)
      rw [arrLoopAt] at h ⊢
      generalize stateForAt ft.comments 0x5d s = y at *
      obtain ⟨_ | _ | _, r, ws⟩ := y
      · cases h
      · have : ws = [] := h1 (by simp)
        subst this
        exact .nil
      · have : ws = [] := h1 (by simp)
        subst this
        have h3 := separatorAt_minor (ft := ft) (e := 0x5d) (b := l.isEmpty) (s := r)
        dsimp only at h ⊢
        generalize separatorAt ft 0x5d l.isEmpty r = y at *
        obtain ⟨_ | _ | _, r2, ws2⟩ := y
        · cases h
        · exact Minor.append .nil ((h3 (by simp)).1 rfl)
        · have h4 := (h3 (by simp)).2
          have h9 := ih1 r2
          dsimp only at h h4 ⊢
          generalize parseJsonAt io ft n r2 = y at *
          obtain ⟨_ | _ | _ | v', r4, ws4⟩ := y
          · cases h
          · cases h
          · cases h
          · obtain ⟨h10, h11⟩ := h9 v' rfl
            have h12 : Minor ws2 := h4.resolve_right fun e => h11 e.1 e.2
            exact Minor.append (Minor.append (Minor.append .nil h12) h10) (ih3 _ _ v h)

theorem parseAt_minor {io : FloatIO} {ft : Features} {text : List Nat} {v : Value} (h : (parseAt io ft text).1 = some v) :
    Minor (parseAt io ft text).2.2 := by
  have h1 := (loopsAt_minor (io := io) (ft := ft) (2 * text.length + 2)).1 ⟨text, .start⟩
  unfold parseAt at h ⊢
  generalize parseJsonAt io ft (2 * text.length + 2) ⟨text, .start⟩ = y at *
  obtain ⟨g, r, ws⟩ := y
  obtain ⟨h2, _⟩ := wsCommentsAt_minor (allow := ft.comments) _ r.rest r.pos rfl
  have hx : ∀ g', (∀ v, g' ≠ Got'.ok v) → (finishAt ft g' r).1 = none := by
    intro g' hg
    unfold finishAt
    generalize wsCommentsAt ft.comments r.rest r.pos = y
    obtain ⟨_ | _, r', ws'⟩ := y
    · rfl
    · cases g' with
      | ok v => exact absurd rfl (hg v)
      | fail => rfl
      | threw => rfl
      | oom => rfl
  cases g with
  | threw => cases h
  | fail => rw [show (finishAt ft .fail r).1 = none from hx _ (fun _ h => nomatch h)] at h; cases h
  | oom => rw [show (finishAt ft .oom r).1 = none from hx _ (fun _ h => nomatch h)] at h; cases h
  | ok v' =>
    refine Minor.append (h1 v' rfl).1 ?_
    dsimp only at h
    unfold finishAt at h ⊢
    generalize wsCommentsAt ft.comments r.rest r.pos = y at *
    obtain ⟨_ | _, ⟨_ | ⟨c, t⟩, q⟩, ws'⟩ := y
    · cases h
    · cases h
    · have : ws' = [] := h2 rfl
      subst this
      dsimp only at h ⊢
      split
      · exact .nil
      · rename_i hc; rw [if_neg hc] at h; cases h
    · cases h

/-! ## Properties -/

/-- The instrumented parser returns what the parser returns. -/
theorem json_parser_with_log (io : FloatIO) (ft : Features) (text : List Nat) (hb : Bytes text) : (parseAt io ft text).1 = parse io ft text :=
  (parseAt_ok io ft text hb).1

/-- Every warning of the JSON parser names a place in the text, by line and column, at which what the warning says is true: the symbol
named is the one just read there and not the one expected, the text named is there and is no JSON value, the feature named is off. A text
refused without any warning was read to its end. A text accepted gives warnings about the start of a comment at most, and none unless
comments are allowed. -/
theorem json_warnings_partial (io : FloatIO) (ft : Features) (text : List Nat) (hb : Bytes text) :
    (∀ w ∈ (parseAt io ft text).2.2, Located io ft text w) ∧
    ((parseAt io ft text).1 = none → (parseAt io ft text).2.2 = [] → (parseAt io ft text).2.1.rest = []) ∧
    (∀ v, (parseAt io ft text).1 = some v → ft.comments = false → (parseAt io ft text).2.2 = []) ∧
    (∀ v, (parseAt io ft text).1 = some v → ∀ w ∈ (parseAt io ft text).2.2, ∃ c, w.2 = .commentStart c) := by
  obtain ⟨_, h1, h2⟩ := parseAt_ok io ft text hb
  refine ⟨h1, fun h e => (h2 h).resolve_left fun hn => hn e, fun v h hc => ?_, fun v h => parseAt_minor h⟩
  rcases hw : (parseAt io ft text).2.2 with _ | ⟨w, ws⟩
  · rfl
  · have hm : w ∈ (parseAt io ft text).2.2 := by rw [hw]; simp
    obtain ⟨c, e⟩ := parseAt_minor h w hm
    obtain ⟨p, k, rest, _, _, _, hx⟩ := h1 w hm
    rw [e] at hx
    cases c with
    | none => exact absurd hx.2.2 (by simp [hc])
    | some c => exact absurd hx.2.2.2 (by simp [hc])

/-- Nothing is read of a floating-point number here. -/
def noFloats : FloatIO := ⟨fun _ => [], fun _ => none⟩

/-- A refused text with a warning, one without, and an accepted text. -/
example : (parseAt noFloats {} [0x5b, 0x31, 0x3b]).2.2 = [(⟨1, 3⟩, .badValue [0x31, 0x3b])] ∧
    (parseAt noFloats {} [0x5b, 0x31, 0x20, 0x3b]).2.2 = [(⟨1, 4⟩, .unexpected (some 0x3b) 0x2c)] ∧
    (parseAt noFloats {} [0x5b, 0x22]).1.isNone = true ∧ (parseAt noFloats {} [0x5b, 0x22]).2.2 = [] ∧
    (parseAt noFloats {} [0x5b, 0x0a, 0x5d]).1.isSome = true := by
  decide +kernel

/-- The column is not the number of symbols read of the line, on any line but the first; and a text accepted can give a warning. -/
theorem json_warnings_violated :
    (parseAt noFloats {} [0x5b, 0x78]).2.2 = [(⟨1, 2⟩, .badValue [0x78])] ∧
    (parseAt noFloats {} [0x0a, 0x5b, 0x78]).2.2 = [(⟨2, 3⟩, .badValue [0x78])] ∧
    (parseAt noFloats { comments := true } [0x5b, 0x31, 0x2c, 0x2f, 0x78, 0x32, 0x5d]).1.isSome = true ∧
    (parseAt noFloats { comments := true } [0x5b, 0x31, 0x2c, 0x2f, 0x78, 0x32, 0x5d]).2.2 = [(⟨1, 5⟩, .commentStart (some 0x78))] := by
  decide +kernel

end Verif.Json
