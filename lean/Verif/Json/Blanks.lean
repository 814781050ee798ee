import Verif.Json.Spec
import Verif.Json.Parser

/-! # White space and comments -/

namespace Verif.Json

/-- The library's white space characters. -/
def WsChar (c : Nat) : Prop := c = 0x20 ∨ c = 0x09 ∨ c = 0x0a ∨ c = 0x0d ∨ c = 0x0b

theorem isWs_iff (c : Nat) : isWs c = true ↔ WsChar c := by
  unfold isWs WsChar
  simp only [Bool.or_eq_true, beq_iff_eq]
  omega

/-- `r` does not start with white space or a solidus. -/
def Stop (r : List Nat) : Prop := ∀ c t, r = c :: t → isWs c = false ∧ c ≠ 0x2f

theorem stop_nil : Stop [] := by intro c t h; simp at h

theorem stop_cons {c : Nat} {t : List Nat} (h : isWs c = false) (h' : c ≠ 0x2f) : Stop (c :: t) := by
  intro d u he; simp only [List.cons.injEq] at he; rw [← he.1]; exact ⟨h, h'⟩

/-! ## Plain white space -/

theorem skipWs_ws {c : Nat} (h : isWs c = true) (s : List Nat) : skipWs (c :: s) = skipWs s := by
  unfold skipWs; rw [List.dropWhile_cons, if_pos h]

theorem skipWs_stop {c : Nat} (h : isWs c = false) (s : List Nat) : skipWs (c :: s) = c :: s := by
  unfold skipWs; rw [List.dropWhile_cons, if_neg (by simp [h])]

theorem skipWs_append {a r : List Nat} (ha : LibWs a) (hr : ∀ c t, r = c :: t → isWs c = false) :
    skipWs (a ++ r) = r := by
  induction a with
  | nil =>
    cases r with
    | nil => rfl
    | cons c t => exact skipWs_stop (hr c t rfl) t
  | cons c a ih =>
    rw [List.cons_append, skipWs_ws ((isWs_iff c).2 (ha c List.mem_cons_self))]
    exact ih (fun d hd => ha d (List.mem_cons_of_mem _ hd))

theorem skipWs_inv (s : List Nat) : ∃ a, s = a ++ skipWs s ∧ LibWs a ∧
    ∀ c t, skipWs s = c :: t → isWs c = false := by
  induction s with
  | nil => exact ⟨[], rfl, by intro c hc; simp at hc, by simp [skipWs]⟩
  | cons c s ih =>
    by_cases h : isWs c = true
    · obtain ⟨a, h1, h2, h3⟩ := ih
      rw [skipWs_ws h]
      refine ⟨c :: a, by rw [List.cons_append, ← h1], ?_, h3⟩
      intro d hd
      rcases List.mem_cons.1 hd with rfl | hd
      · exact (isWs_iff _).1 h
      · exact h2 d hd
    · rw [Bool.not_eq_true] at h
      rw [skipWs_stop h]
      refine ⟨[], rfl, by intro c hc; simp at hc, ?_⟩
      intro d t hd
      simp only [List.cons.injEq] at hd
      rw [← hd.1]; exact h

/-! ## Comments -/

theorem dropLine_run {b s : List Nat} (h : 0x0a ∉ b) : dropLine (b ++ 0x0a :: s) = s := by
  induction b with
  | nil => simp [dropLine]
  | cons c b ih =>
    simp only [List.mem_cons, not_or] at h
    rw [List.cons_append, dropLine, if_neg (fun hc => h.1 hc.symm)]
    exact ih h.2

theorem dropLine_end {b : List Nat} (h : 0x0a ∉ b) : dropLine b = [] := by
  induction b with
  | nil => rfl
  | cons c b ih =>
    simp only [List.mem_cons, not_or] at h
    rw [dropLine, if_neg (fun hc => h.1 hc.symm)]
    exact ih h.2

theorem dropLine_inv (s : List Nat) : (∃ b, 0x0a ∉ b ∧ s = b ++ 0x0a :: dropLine s) ∨
    (0x0a ∉ s ∧ dropLine s = []) := by
  induction s with
  | nil => right; simp [dropLine]
  | cons c s ih =>
    rw [dropLine]
    split
    · rename_i h; left; exact ⟨[], by simp, by rw [h]; rfl⟩
    · rename_i h
      rcases ih with ⟨b, h1, h2⟩ | ⟨h1, h2⟩
      · left
        refine ⟨c :: b, ?_, by rw [List.cons_append, ← h2]⟩
        simp only [List.mem_cons, not_or]; exact ⟨fun hc => h hc.symm, h1⟩
      · right
        simp only [List.mem_cons, not_or]
        exact ⟨⟨fun hc => h hc.symm, h1⟩, h2⟩

/-- No `*/` inside a block comment's body, even with the closing `*`. -/
def NoClose (b : List Nat) : Prop := ∀ p q, b ++ [0x2a] ≠ p ++ 0x2a :: 0x2f :: q

theorem dropBlock_run {b s : List Nat} (h : NoClose b) :
    dropBlock (b ++ 0x2a :: 0x2f :: s) = some s := by
  induction b with
  | nil => rw [List.nil_append, dropBlock]; rfl
  | cons c b ih =>
    have hn : ¬ (c = 0x2a ∧ (b ++ 0x2a :: 0x2f :: s).head? = some 0x2f) := by
      rintro ⟨rfl, hh⟩
      cases b with
      | nil => simp at hh
      | cons d b =>
        simp only [List.cons_append, List.head?_cons, Option.some.injEq] at hh
        subst hh
        exact h [] (b ++ [0x2a]) rfl
    rw [List.cons_append, dropBlock, if_neg hn]
    refine ih ?_
    intro p q hpq
    exact h (c :: p) q (by rw [List.cons_append, hpq]; rfl)

theorem dropBlock_inv : ∀ (s r : List Nat), dropBlock s = some r →
    ∃ b, NoClose b ∧ s = b ++ 0x2a :: 0x2f :: r := by
  intro s
  induction s with
  | nil => intro r h; simp [dropBlock] at h
  | cons c s ih =>
    intro r h
    rw [dropBlock] at h
    split at h
    · rename_i hc
      obtain ⟨rfl, hh⟩ := hc
      cases s with
      | nil => simp at hh
      | cons d s =>
        simp only [List.head?_cons, Option.some.injEq] at hh
        subst hh
        simp only [List.tail_cons, Option.some.injEq] at h
        subst h
        refine ⟨[], ?_, rfl⟩
        intro p q hpq
        have := congrArg List.length hpq
        simp only [List.nil_append, List.length_append, List.length_cons, List.length_nil] at this
        omega
    · rename_i hc
      obtain ⟨b, h1, h2⟩ := ih r h
      refine ⟨c :: b, ?_, by rw [h2]; rfl⟩
      intro p q hpq
      cases p with
      | nil =>
        simp only [List.nil_append, List.cons_append, List.cons.injEq] at hpq
        refine hc ⟨hpq.1, ?_⟩
        rw [h2]
        cases b with
        | nil => simp at hpq
        | cons d b =>
          simp only [List.cons_append, List.cons.injEq] at hpq
          rw [hpq.2.1]; rfl
      | cons e p =>
        simp only [List.cons_append, List.cons.injEq] at hpq
        exact h1 p q hpq.2

/-! ## White space and comments -/

theorem wsComments_ws {allow : Bool} {c : Nat} (h : isWs c = true) (s : List Nat) :
    wsComments allow (c :: s) = wsComments allow s := by
  have key : ∀ u, skipWs u = skipWs (c :: s) → wsComments allow u =
      match skipWs (c :: s) with
      | [] => (true, [])
      | c :: t => if c = 0x2f then
          if (skipComment allow t).1 then wsComments allow (skipComment allow t).2
          else (false, (skipComment allow t).2)
        else (true, c :: t) := by
    intro u hu
    rw [wsComments, ← hu]
    split
    · rename_i h1; rw [h1]
    · rename_i d t h1
      rw [h1]
      dsimp only
      split
      · split
        · rename_i h2; rw [h2]; simp
        · rename_i h2; rw [h2]; simp
      · rfl
  rw [key (c :: s) rfl, key s (skipWs_ws h s).symm]

theorem wsComments_stop {allow : Bool} {r : List Nat} (h : Stop r) : wsComments allow r = (true, r) := by
  rw [wsComments]
  cases r with
  | nil => simp [skipWs]
  | cons c t =>
    obtain ⟨h1, h2⟩ := h c t rfl
    split
    · rename_i h3; rw [skipWs_stop h1] at h3; simp at h3
    · rename_i d u h3
      rw [skipWs_stop h1] at h3
      simp only [List.cons.injEq] at h3
      rw [if_neg (by rw [← h3.1]; exact h2), h3.1, h3.2]

theorem wsComments_slash (allow : Bool) (t : List Nat) : wsComments allow (0x2f :: t) =
    if (skipComment allow t).1 then wsComments allow (skipComment allow t).2
    else (false, (skipComment allow t).2) := by
  rw [wsComments]
  have h1 : skipWs (0x2f :: t) = 0x2f :: t := skipWs_stop (by decide) t
  split
  · rename_i h3; rw [h1] at h3; simp at h3
  · rename_i d u h3
    rw [h1] at h3
    simp only [List.cons.injEq] at h3
    obtain ⟨rfl, rfl⟩ := h3
    rw [if_pos rfl]
    split
    · rename_i h; rw [h]; simp
    · rename_i h; rw [h]; simp

theorem skipComment_line {u : List Nat} : skipComment true (0x2f :: u) = (true, dropLine u) := by
  simp [skipComment]

theorem skipComment_block {u r : List Nat} (h : dropBlock u = some r) :
    skipComment true (0x2a :: u) = (true, r) := by
  simp [skipComment, h]

theorem wsComments_skip {allow : Bool} {a : List Nat} (r : List Nat) (ha : Blank allow a) :
    wsComments allow (a ++ r) = wsComments allow r := by
  induction ha with
  | nil => rfl
  | ws h _ ih => rw [List.cons_append, wsComments_ws ((isWs_iff _).2 h)]; exact ih
  | line h1 h2 _ ih =>
    rename_i b s _
    subst h1
    rw [List.cons_append, List.cons_append, wsComments_slash, skipComment_line,
      List.append_assoc, List.cons_append, dropLine_run h2]
    simp only [if_true]; exact ih
  | block h1 h2 _ ih =>
    rename_i b s _
    subst h1
    rw [List.cons_append, List.cons_append, wsComments_slash,
      skipComment_block (r := s ++ r) (by
        rw [List.append_assoc, List.cons_append, List.cons_append]; exact dropBlock_run h2)]
    simp only [if_true]; exact ih

theorem wsComments_blank {allow : Bool} {a r : List Nat} (ha : Blank allow a) (hr : Stop r) :
    wsComments allow (a ++ r) = (true, r) := by
  rw [wsComments_skip r ha]; exact wsComments_stop hr

theorem wsComments_final {allow : Bool} {b : List Nat} (hb : FinalBlank allow b) :
    wsComments allow b = (true, []) := by
  rcases hb with h | ⟨a, b, rfl, ha, hb, rfl⟩
  · have := wsComments_blank h stop_nil
    rwa [List.append_nil] at this
  · rw [wsComments_skip _ ha, wsComments_slash, skipComment_line, dropLine_end hb]
    simp only [if_true]; exact wsComments_stop stop_nil

theorem blank_append {allow : Bool} {a b : List Nat} (ha : Blank allow a) (hb : Blank allow b) :
    Blank allow (a ++ b) := by
  induction ha with
  | nil => exact hb
  | ws h _ ih => exact .ws h ih
  | line h1 h2 _ ih =>
    rw [List.cons_append, List.cons_append, List.append_assoc, List.cons_append]
    exact .line h1 h2 ih
  | block h1 h2 _ ih =>
    rw [List.cons_append, List.cons_append, List.append_assoc, List.cons_append, List.cons_append]
    exact .block h1 h2 ih

theorem blank_of_libWs {allow : Bool} : ∀ {a : List Nat}, LibWs a → Blank allow a := by
  intro a
  induction a with
  | nil => intro _; exact .nil
  | cons c a ih =>
    intro h
    exact .ws (h c List.mem_cons_self) (ih (fun d hd => h d (List.mem_cons_of_mem _ hd)))

/-- What `consume_whitespace_and_comments` does, for every input. -/
inductive WsOutcome (allow : Bool) (s : List Nat) : Bool → List Nat → Prop
  /-- blanks skipped, something else follows (or nothing) -/
  | skipped {a r} : s = a ++ r → Blank allow a → Stop r → WsOutcome allow s true r
  /-- the input ends within a `//` comment -/
  | final : FinalBlank allow s → WsOutcome allow s true []
  /-- comments are not allowed -/
  | forbidden {a r} : allow = false → s = a ++ 0x2f :: r → Blank allow a →
      WsOutcome allow s false (0x2f :: r)
  /-- no comment starts like this -/
  | bad {a x r} : allow = true → s = a ++ 0x2f :: x :: r → Blank allow a → x ≠ 0x2f → x ≠ 0x2a →
      WsOutcome allow s false r
  /-- end of input within a block comment or after a solidus -/
  | eof : WsOutcome allow s false []

theorem wsComments_outcome (allow : Bool) : ∀ (n : Nat) (s : List Nat), s.length = n →
    WsOutcome allow s (wsComments allow s).1 (wsComments allow s).2 := by
  intro n
  induction n using Nat.strongRecOn with
  | _ n ih =>
    intro s hn
    have ext : ∀ (a r : List Nat), s = a ++ r → Blank allow a → r.length < n →
        wsComments allow s = wsComments allow r →
        WsOutcome allow s (wsComments allow s).1 (wsComments allow s).2 := by
      intro a r hs ha hlt he
      have := ih r.length hlt r rfl
      rw [he]
      generalize hb : (wsComments allow r).1 = x at this ⊢
      generalize hr : (wsComments allow r).2 = y at this ⊢
      cases this with
      | skipped h1 h2 h3 =>
        rename_i a'
        exact .skipped (a := a ++ a') (by rw [hs, h1, List.append_assoc]) (blank_append ha h2) h3
      | final h =>
        refine .final ?_
        rcases h with h | ⟨a', b', g1, g2, g3, g4⟩
        · left; rw [hs]; exact blank_append ha h
        · right
          exact ⟨a ++ a', b', g1, blank_append ha g2, g3, by rw [hs, g4, List.append_assoc]⟩
      | forbidden h1 h2 h3 =>
        rename_i a' _
        exact .forbidden (a := a ++ a') h1 (by rw [hs, h2, List.append_assoc]) (blank_append ha h3)
      | bad h1 h2 h3 h4 h5 =>
        rename_i a' _
        exact .bad (a := a ++ a') h1 (by rw [hs, h2, List.append_assoc]) (blank_append ha h3) h4 h5
      | eof => exact .eof
    cases s with
    | nil =>
      rw [wsComments_stop stop_nil]
      exact .skipped (a := []) rfl .nil stop_nil
    | cons c t =>
      simp only [List.length_cons] at hn
      by_cases hw : isWs c = true
      · exact ext [c] t rfl (.ws ((isWs_iff c).1 hw) .nil) (by omega) (wsComments_ws hw t)
      · rw [Bool.not_eq_true] at hw
        by_cases hc : c = 0x2f
        · subst hc
          cases allow with
          | false =>
            have h1 : skipComment false t = (false, 0x2f :: t) := by simp [skipComment]
            rw [wsComments_slash, h1]
            exact .forbidden (a := []) rfl rfl .nil
          | true =>
            cases t with
            | nil =>
              have h1 : skipComment true [] = (false, []) := by simp [skipComment]
              rw [wsComments_slash, h1]
              exact .eof
            | cons x u =>
              simp only [List.length_cons] at hn
              by_cases hx : x = 0x2f
              · subst hx
                have h2 := wsComments_slash true (0x2f :: u)
                rw [skipComment_line] at h2
                simp only [if_true] at h2
                have hl := dropLine_length u
                rcases dropLine_inv u with ⟨b, g1, g2⟩ | ⟨g1, g2⟩
                · refine ext (0x2f :: 0x2f :: (b ++ [0x0a])) (dropLine u) ?_
                    (.line rfl g1 .nil) (by omega) h2
                  simp only [List.cons_append, List.append_assoc,
                    List.nil_append]
                  rw [← g2]
                · rw [h2, g2, wsComments_stop stop_nil]
                  exact .final (Or.inr ⟨[], u, rfl, .nil, g1, rfl⟩)
              · by_cases hy : x = 0x2a
                · subst hy
                  cases hb : dropBlock u with
                  | none =>
                    have h1 : skipComment true (0x2a :: u) = (false, []) := by
                      simp [skipComment, hb]
                    rw [wsComments_slash, h1]
                    exact .eof
                  | some r =>
                    have h2 := wsComments_slash true (0x2a :: u)
                    rw [skipComment_block hb] at h2
                    simp only [if_true] at h2
                    obtain ⟨b, g1, g2⟩ := dropBlock_inv u r hb
                    have hl := dropBlock_length u r hb
                    refine ext (0x2f :: 0x2a :: (b ++ [0x2a, 0x2f])) r ?_
                      (.block rfl g1 .nil) (by omega) h2
                    rw [g2]; simp
                · have h1 : skipComment true (x :: u) = (false, u) := by
                    simp [skipComment, hx, hy]
                  rw [wsComments_slash, h1]
                  exact .bad (a := []) rfl rfl .nil hx hy
        · have hs : Stop (c :: t) := stop_cons hw hc
          rw [wsComments_stop hs]
          exact .skipped (a := []) rfl .nil hs

theorem wsComments_outcome' {allow : Bool} {s : List Nat} {b : Bool} {r : List Nat}
    (h : wsComments allow s = (b, r)) : WsOutcome allow s b r := by
  have := wsComments_outcome allow _ s rfl
  rw [h] at this; exact this

theorem wsComments_length {allow : Bool} (s : List Nat) : (wsComments allow s).2.length ≤ s.length := by
  have := wsComments_outcome allow _ s rfl
  generalize (wsComments allow s).1 = b at this
  generalize (wsComments allow s).2 = r at this ⊢
  cases this with
  | skipped h1 _ _ => rw [h1]; simp
  | final _ => simp
  | forbidden _ h2 _ => rw [h2]; simp
  | bad _ h2 _ _ _ => rw [h2]; simp only [List.length_append, List.length_cons]; omega
  | eof => simp

end Verif.Json
