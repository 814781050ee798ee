import Verif.Ini.Lemmas

/-! # Lines, documents and the parser's loop -/

namespace Verif.Ini

open Verif.Json (Value MapOf StringBody SortedKeys convertToString convertToString_iff insertOrAssign
  lookup mapOf_nil mapOf_insert mapOf_unique lastOf_append lookup_iff insert_ne_nil wf8_bytes)
open Verif.Str (AsciiSpace Pieces joinWith split trim)

theorem mem_trim {x : Nat} {l : List Nat} (h : x ∈ trim ch l) : x ∈ l := by
  obtain ⟨a, b, e, _⟩ := Verif.Str.trim_decomposition ch l
  rw [e]; simp [h]

theorem mem_unquoted {q x : Nat} {t u : List Nat} (hu : Unquoted q t u) (h : x ∈ u) : x ∈ t := by
  rcases hu with rfl | ⟨rfl, rfl⟩ | ⟨_, _, rfl⟩
  · simp [h]
  · simp at h
  · exact h

theorem mem_pieces {d x : Nat} {t : List Nat} {ps : List (List Nat)} (hp : Pieces d t ps) :
    ∀ p ∈ ps, x ∈ p → x ∈ t := by
  induction hp with
  | nil => simp
  | skip _ ih => intro p hp hx; exact List.mem_cons_of_mem _ (ih p hp hx)
  | last _ _ => intro p hp hx; simp at hp; subst hp; exact hx
  | piece _ _ _ ih =>
    intro p hp hx
    rcases List.mem_cons.mp hp with rfl | hp
    · simp [hx]
    · have := ih p hp hx; simp [this]

theorem mem_joinWith {d x : Nat} : ∀ {ps : List (List Nat)}, x ∈ joinWith d ps →
    x = d ∨ ∃ p ∈ ps, x ∈ p := by
  intro ps
  induction ps with
  | nil => intro h; simp [joinWith] at h
  | cons p ps ih =>
    intro h
    cases ps with
    | nil => exact Or.inr ⟨p, by simp, by simpa [joinWith] using h⟩
    | cons q ps =>
      simp only [joinWith, List.mem_append, List.mem_cons] at h
      rcases h with h | rfl | h
      · exact Or.inr ⟨p, by simp, h⟩
      · exact Or.inl rfl
      · rcases ih h with h | ⟨p', h1, h2⟩
        · exact Or.inl h
        · exact Or.inr ⟨p', List.mem_cons_of_mem _ h1, h2⟩

theorem trim_length (l : List Nat) : (trim ch l).length ≤ l.length := by
  obtain ⟨a, b, h, _⟩ := Verif.Str.trim_decomposition ch l
  have := congrArg List.length h
  simp only [List.length_append] at this; omega

theorem body_convert {t m : List Nat} (h : StringBody t m) : convertToString t = some m :=
  (convertToString_iff t m (wf8_bytes h.1)).2 h

theorem onSection_iff {b n : List Nat} : onSection b = some n ↔ Stripped b n ∧ Bare n := by
  unfold onSection
  simp only []
  constructor
  · intro h
    split at h
    · simp at h
    · rename_i hb
      simp at h; subst h
      exact ⟨(stripped_iff _ _).2 rfl, (bare_iff _).1 hb⟩
  · rintro ⟨h1, h2⟩
    rw [stripped_iff] at h1; subst h1
    rw [if_neg ((bare_iff _).2 h2)]

/-- What the loop body does to the state. -/
def Effect (st : State) (l : List Nat) (st' : State) : Prop :=
  (Line l .nothing ∧ st' = st) ∨
  (∃ k, Line l (.header k) ∧ st' = ⟨insertOrAssign k (.obj []) st.values, k⟩) ∨
  (∃ n v, Line l (.setting n v) ∧ st.values ≠ [] ∧ assign st n v = some st')

theorem lineStep_sound {st st' : State} {l : List Nat} (hb : ∀ c ∈ l, c < 256) (hl : l.length < 2 ^ 63)
    (h : lineStep st l = some st') : Effect st l st' := by
  have hst : Stripped l (trim ch l) := (stripped_iff _ _).2 rfl
  have htl := trim_length l
  have hmem : ∀ {x}, x ∈ trim ch l → x ∈ l := fun h => mem_trim h
  unfold lineStep at h
  simp only [] at h
  revert h hst htl hmem
  generalize trim ch l = t
  intro h hst htl hmem
  split at h
  · rename_i hc
    simp at h; subst h
    left
    rcases hc with rfl | hc
    · exact ⟨.blank hst, rfl⟩
    · cases t with
      | nil => simp at hc
      | cons c t => simp at hc; subst hc; exact ⟨.comment hst, rfl⟩
  · rename_i hc
    rw [not_or] at hc
    by_cases h1 : t.head? = some 0x5b
    · by_cases h2 : t.getLast? = some 0x5d
      · rcases ends_cases h1 h2 with ⟨_, h3⟩ | ⟨b, rfl⟩
        · exact absurd h3 (by decide)
        · rw [trimValue_inner (by simp at htl; omega)] at h
          simp only [] at h
          cases ho : onSection b with
          | none => rw [ho] at h; simp at h
          | some n =>
            rw [ho] at h
            simp only [] at h
            obtain ⟨hn1, hn2⟩ := onSection_iff.1 ho
            cases hk : convertToString n with
            | none => rw [hk] at h; simp at h
            | some k =>
              rw [hk] at h
              simp at h
              right; left
              refine ⟨k, .header hst hn1 hn2 ?_, h.symm⟩
              refine (convertToString_iff n k ?_).1 hk
              intro x hx
              rw [stripped_iff] at hn1
              rw [← hn1] at hx
              exact hb x (hmem (by simp [mem_trim hx]))
      · have e : trimValue t 0x5b 0x5d = (.imbalanced, t) := by unfold trimValue; simp [h1, h2]
        rw [e] at h; simp at h
    · by_cases h2 : t.getLast? = some 0x5d
      · have e : trimValue t 0x5b 0x5d = (.imbalanced, t) := by unfold trimValue; simp [h1, h2]
        rw [e] at h; simp at h
      · rw [trimValue_eq h1 h2] at h
        simp only [] at h
        split at h
        · simp at h
        · rename_i hv
          cases ho : onPair t with
          | none => rw [ho] at h; simp at h
          | some p =>
            obtain ⟨n, w⟩ := p
            rw [ho] at h
            simp only [] at h
            obtain ⟨n0, v0, r, v, v1, a1, a2, a3, a4, a5, a6⟩ := (onPair_iff (by omega)).1 ho
            have hn : ∀ x ∈ n, x < 256 := by
              intro x hx
              rw [stripped_iff] at a2; rw [← a2] at hx
              exact hb x (hmem (mem_pieces a1 n0 (by simp) (mem_trim hx)))
            have hw : ∀ x ∈ w, x < 256 := by
              intro x hx
              have hx := mem_unquoted a5 (mem_unquoted a6 hx)
              rw [stripped_iff] at a4; rw [← a4] at hx
              rcases mem_joinWith (mem_trim hx) with h | ⟨p, h3, h4⟩
              · omega
              · exact hb x (hmem (mem_pieces a1 p (List.mem_cons_of_mem _ h3) h4))
            cases hk1 : convertToString n with
            | none => rw [hk1] at h; simp at h
            | some kn =>
              cases hk2 : convertToString w with
              | none => rw [hk1, hk2] at h; simp at h
              | some kv =>
                rw [hk1, hk2] at h
                simp only [] at h
                right; right
                exact ⟨kn, kv, .setting hst hc.2 h1 h2 a1 a2 a3 a4 a5 a6
                  ((convertToString_iff n kn hn).1 hk1) ((convertToString_iff w kv hw).1 hk2), hv, h⟩

theorem lineStep_complete {st st' : State} {l : List Nat} (hl : l.length < 2 ^ 63)
    (h : Effect st l st') : lineStep st l = some st' := by
  have htl := trim_length l
  rcases h with ⟨h, rfl⟩ | ⟨k, h, rfl⟩ | ⟨n, v, h, hv, ha⟩
  · unfold lineStep
    cases h with
    | blank h => rw [(stripped_iff _ _).1 h]; simp
    | comment h => rw [(stripped_iff _ _).1 h]; simp
  · unfold lineStep
    cases h with
    | header h1 h2 h3 h4 =>
      rw [(stripped_iff _ _).1 h1] at htl ⊢
      simp only []
      rw [if_neg (by simp), trimValue_inner (by simp at htl; omega)]
      simp only [onSection_iff.2 ⟨h2, h3⟩, body_convert h4]
  · unfold lineStep
    cases h with
    | @setting t n0 v0 r n' v' v1 v2 kn kv h1 h2 h3 h4 h5 h6 h7 h8 h9 h10 h11 h12 =>
      rw [(stripped_iff _ _).1 h1] at htl ⊢
      have hne : t ≠ [] := by
        rintro rfl
        have := Verif.Str.pieces_unique h5 .nil
        simp at this
      simp only []
      rw [if_neg (by rw [not_or]; exact ⟨hne, h2⟩), trimValue_eq h3 h4]
      simp only []
      rw [if_neg hv, (onPair_iff (by omega)).2 ⟨n0, v0, r, v', v1, h5, h6, h7, h8, h9, h10⟩]
      simp only [body_convert h11, body_convert h12, ha]

/-! ## The loop is a fold over the lines -/

/-- The loop body over a list of lines. -/
def runLines (st : State) : List (List Nat) → Option State
  | [] => some st
  | l :: ls => match lineStep st l with
    | none => none
    | some st => runLines st ls

theorem runLines_append (st : State) : ∀ (ls : List (List Nat)) (l : List Nat),
    runLines st (ls ++ [l]) = (runLines st ls).bind (fun st => lineStep st l) := by
  intro ls
  induction ls generalizing st with
  | nil =>
    intro l
    show (match lineStep st l with | none => none | some st => some st) = _
    cases h : lineStep st l <;> simp [runLines, h]
  | cons a ls ih =>
    intro l
    show (match lineStep st a with | none => none | some st => runLines st (ls ++ [l])) = _
    cases h : lineStep st a with
    | none => simp [runLines, h]
    | some st' => simp only [runLines, h]; exact ih st' l

theorem lineStep_nil (st : State) : lineStep st [] = some st := by
  unfold lineStep
  have : trim ch [] = [] := rfl
  rw [this]; simp

theorem getline_line {l : List Nat} (hl : 0x0a ∉ l) (s : List Nat) :
    getline (l ++ 0x0a :: s) = (l, s) ∧ getline l = (l, []) := by
  induction l with
  | nil => exact ⟨by simp [getline], rfl⟩
  | cons c l ih =>
    simp only [List.mem_cons, not_or] at hl
    obtain ⟨h1, h2⟩ := ih hl.2
    constructor
    · rw [List.cons_append, getline, if_neg (Ne.symm hl.1), h1]
    · rw [getline, if_neg (Ne.symm hl.1), h2]

theorem loop_lines : ∀ (ls : List (List Nat)) (st : State), ls ≠ [] → (∀ l ∈ ls, 0x0a ∉ l) →
    loop st (joinWith 0x0a ls) = runLines st ls := by
  intro ls
  induction ls with
  | nil => intro st h; exact absurd rfl h
  | cons l ls ih =>
    intro st _ hn
    have hl := hn l List.mem_cons_self
    cases ls with
    | nil =>
      show loop st l = _
      rw [loop]
      obtain ⟨_, h2⟩ := getline_line hl []
      by_cases hle : l = []
      · subst hle
        rw [dif_pos ⟨rfl, rfl⟩]
        simp [runLines, lineStep_nil]
      · rw [dif_neg (by rw [h2]; exact fun h => hle h.2), h2]
        simp only [runLines]
        cases lineStep st l with
        | none => rfl
        | some st' =>
          show loop st' [] = some st'
          rw [loop, dif_pos ⟨rfl, rfl⟩]
    | cons l2 ls =>
      show loop st (l ++ 0x0a :: joinWith 0x0a (l2 :: ls)) = _
      have ih' := fun st => ih st (by simp) (fun x hx => hn x (List.mem_cons_of_mem _ hx))
      rw [loop]
      obtain ⟨h1, _⟩ := getline_line hl (joinWith 0x0a (l2 :: ls))
      rw [h1]
      by_cases hc : joinWith 0x0a (l2 :: ls) = [] ∧ l = []
      · rw [dif_pos hc]
        obtain ⟨hc1, rfl⟩ := hc
        rw [runLines, lineStep_nil]
        show some st = runLines st (l2 :: ls)
        rw [← ih' st, hc1, loop, dif_pos ⟨rfl, rfl⟩]
      · rw [dif_neg hc]
        simp only [runLines.eq_2 st l]
        cases lineStep st l with
        | none => rfl
        | some st' => exact ih' st'

theorem lines_exist : ∀ s : List Nat, ∃ ls, Lines s ls := by
  intro s
  induction s with
  | nil => exact ⟨[[]], by simp, by simp, rfl⟩
  | cons c s ih =>
    obtain ⟨ls, h1, h2, h3⟩ := ih
    by_cases hc : c = 0x0a
    · subst hc
      refine ⟨[] :: ls, by simp, ?_, ?_⟩
      · intro l hl
        rcases List.mem_cons.mp hl with rfl | hl
        · simp
        · exact h2 l hl
      · cases ls with
        | nil => exact absurd rfl h1
        | cons a ls => simp [joinWith, h3]
    · cases ls with
      | nil => exact absurd rfl h1
      | cons a ls =>
        refine ⟨(c :: a) :: ls, by simp, ?_, ?_⟩
        · intro l hl
          rcases List.mem_cons.mp hl with rfl | hl
          · have := h2 a List.mem_cons_self
            simp only [List.mem_cons, not_or]; exact ⟨Ne.symm hc, this⟩
          · exact h2 l (List.mem_cons_of_mem _ hl)
        · cases ls with
          | nil => simp only [joinWith] at h3 ⊢; rw [h3]
          | cons b ls => simp only [joinWith] at h3 ⊢; rw [← h3]; rfl

/-! ## The state denotes the document read so far -/

/-- The state after reading a document. -/
def Inv (d : Doc) (st : State) : Prop :=
  ∃ es, Entries d es ∧ MapOf es st.values ∧ ∀ d' k as, d = d' ++ [(k, as)] → st.current = k

theorem entries_snoc {d : Doc} {k : List Nat} {as : List (List Nat × List Nat)}
    {es : List (List Nat × Value)} (h : Entries (d ++ [(k, as)]) es) :
    ∃ es' v, es = es' ++ [(k, v)] ∧ Entries d es' ∧ SectionValue as v := by
  generalize he : d ++ [(k, as)] = d2 at h
  cases h with
  | nil => simp at he
  | @snoc d' es' k' as' v h1 h2 =>
    have := List.append_inj' he rfl
    obtain ⟨rfl, hk⟩ := this
    simp only [List.cons.injEq, Prod.mk.injEq, and_true] at hk
    obtain ⟨rfl, rfl⟩ := hk
    exact ⟨es', v, rfl, h1, h2⟩

theorem values_empty {d : Doc} {st : State} (h : Inv d st) : st.values = [] ↔ d = [] := by
  obtain ⟨es, h1, h2, _⟩ := h
  cases h1 with
  | nil => simp [mapOf_unique h2 mapOf_nil]
  | @snoc d es k as v _ _ =>
    constructor
    · intro h
      have := (h2.2 k v).2 (by rw [lastOf_append, if_pos rfl])
      rw [h] at this; simp at this
    · intro h; simp at h

theorem mapOf_replace {es m : List (List Nat × Value)} {k : List Nat} {x : Value} (y : Value)
    (h : MapOf (es ++ [(k, x)]) m) : MapOf (es ++ [(k, y)]) (insertOrAssign k y m) := by
  have h' := mapOf_insert h k y
  refine ⟨h'.1, ?_⟩
  intro k' v'
  rw [h'.2 k' v', lastOf_append, lastOf_append, lastOf_append]
  by_cases e : k = k' <;> simp [e]

theorem inv_nothing {d : Doc} {st : State} (h : Inv d st) : Inv d st := h

theorem inv_header {d : Doc} {st : State} (h : Inv d st) (k : List Nat) :
    Inv (d ++ [(k, [])]) ⟨insertOrAssign k (.obj []) st.values, k⟩ := by
  obtain ⟨es, h1, h2, _⟩ := h
  refine ⟨es ++ [(k, .obj [])], .snoc h1 ⟨[], rfl, mapOf_nil⟩, mapOf_insert h2 k _, ?_⟩
  intro d' k' as' he
  have := (List.append_inj' he rfl).2
  simp only [List.cons.injEq, Prod.mk.injEq, and_true] at this
  exact this.1

theorem inv_setting {d : Doc} {k : List Nat} {as : List (List Nat × List Nat)} {st : State}
    (h : Inv (d ++ [(k, as)]) st) (n v : List Nat) :
    ∃ st', assign st n v = some st' ∧ Inv (d ++ [(k, as ++ [(n, v)])]) st' := by
  obtain ⟨es, h1, h2, h3⟩ := h
  have hk := h3 d k as rfl
  obtain ⟨es', x, rfl, h4, ⟨m, rfl, h5⟩⟩ := entries_snoc h1
  have hl : lookup k st.values = some (.obj m) := by
    rw [lookup_iff h2.1, h2.2, lastOf_append, if_pos rfl]
  refine ⟨_, by unfold assign; rw [hk, hl], es' ++ [(k, .obj (insertOrAssign n (.str v) m))], ?_, ?_, ?_⟩
  · refine .snoc h4 ⟨_, rfl, ?_⟩
    have := mapOf_insert h5 n (.str v)
    simpa using this
  · exact mapOf_replace _ h2
  · intro d' k' as' he
    have := (List.append_inj' he rfl).2
    simp only [List.cons.injEq, Prod.mk.injEq, and_true] at this
    rw [← this.1, ← hk]

/-- A line has one meaning only. -/
theorem effect_complete {st : State} {l : List Nat} (hl : l.length < 2 ^ 63) {st' : State}
    (h : Effect st l st') : lineStep st l = some st' := lineStep_complete hl h

theorem run_complete {ls : List (List Nat)} {d : Doc} (h : Reads ls d)
    (hl : ∀ l ∈ ls, l.length < 2 ^ 63) : ∃ st, runLines ⟨[], []⟩ ls = some st ∧ Inv d st := by
  induction h with
  | nil =>
    refine ⟨_, rfl, [], .nil, mapOf_nil, ?_⟩
    intro d' k as he; simp at he
  | nothing h1 h2 ih =>
    obtain ⟨st, e, hi⟩ := ih (fun x hx => hl x (by simp [hx]))
    refine ⟨st, ?_, hi⟩
    rw [runLines_append, e]
    exact lineStep_complete (hl _ (by simp)) (Or.inl ⟨h2, rfl⟩)
  | header h1 h2 ih =>
    obtain ⟨st, e, hi⟩ := ih (fun x hx => hl x (by simp [hx]))
    refine ⟨_, ?_, inv_header hi _⟩
    rw [runLines_append, e]
    exact lineStep_complete (hl _ (by simp)) (Or.inr (Or.inl ⟨_, h2, rfl⟩))
  | setting h1 h2 ih =>
    obtain ⟨st, e, hi⟩ := ih (fun x hx => hl x (by simp [hx]))
    obtain ⟨st', h3, h4⟩ := inv_setting hi _ _
    refine ⟨st', ?_, h4⟩
    rw [runLines_append, e]
    refine lineStep_complete (hl _ (by simp)) (Or.inr (Or.inr ⟨_, _, h2, ?_, h3⟩))
    intro he
    have := (values_empty hi).1 he
    simp at this

theorem list_snoc_cases (ls : List (List Nat)) : ls = [] ∨ ∃ a l, ls = a ++ [l] := by
  rcases List.eq_nil_or_concat ls with h | ⟨a, l, h⟩
  · exact Or.inl h
  · exact Or.inr ⟨a, l, by rw [h, List.concat_eq_append]⟩

theorem run_sound : ∀ (n : Nat) (ls : List (List Nat)), ls.length = n →
    (∀ l ∈ ls, l.length < 2 ^ 63 ∧ ∀ c ∈ l, c < 256) → ∀ st, runLines ⟨[], []⟩ ls = some st →
    ∃ d, Reads ls d ∧ Inv d st := by
  intro n
  induction n with
  | zero =>
    intro ls hn _ st h
    have : ls = [] := List.length_eq_zero_iff.mp hn
    subst this
    simp [runLines] at h; subst h
    refine ⟨[], .nil, [], .nil, mapOf_nil, ?_⟩
    intro d' k as he; simp at he
  | succ n ih =>
    intro ls hn hl st h
    rcases list_snoc_cases ls with rfl | ⟨a, l, rfl⟩
    · simp at hn
    · rw [runLines_append] at h
      cases hr : runLines ⟨[], []⟩ a with
      | none => rw [hr] at h; simp at h
      | some st0 =>
        rw [hr] at h
        simp only [Option.bind_some] at h
        obtain ⟨d, h1, h2⟩ := ih a (by simp at hn; exact hn) (fun x hx => hl x (by simp [hx])) st0 hr
        have hll := hl l (by simp)
        rcases lineStep_sound hll.2 hll.1 h with ⟨h3, rfl⟩ | ⟨k, h3, rfl⟩ | ⟨nm, v, h3, h4, h5⟩
        · exact ⟨d, .nothing h1 h3, h2⟩
        · exact ⟨_, .header h1 h3, inv_header h2 k⟩
        · have hd : d ≠ [] := fun e => h4 ((values_empty h2).2 e)
          obtain ⟨d', k, as, rfl⟩ : ∃ d' k as, d = d' ++ [(k, as)] := by
            rcases List.eq_nil_or_concat d with h | ⟨a, ⟨k, as⟩, h⟩
            · exact absurd h hd
            · exact ⟨a, k, as, by rw [h, List.concat_eq_append]⟩
          obtain ⟨st', h6, h7⟩ := inv_setting h2 nm v
          rw [h5] at h6; simp at h6; subst h6
          exact ⟨_, .setting h1 h3, h7⟩

theorem lines_mem {ls : List (List Nat)} : ∀ {l}, l ∈ ls → (∀ x ∈ l, x ∈ joinWith 0x0a ls) ∧
    l.length ≤ (joinWith 0x0a ls).length := by
  induction ls with
  | nil => intro l h; simp at h
  | cons a ls ih =>
    intro l h
    cases ls with
    | nil => simp at h; subst h; exact ⟨fun x hx => hx, Nat.le_refl _⟩
    | cons b ls =>
      simp only [joinWith]
      rcases List.mem_cons.mp h with rfl | h
      · exact ⟨fun x hx => by simp [hx], by simp⟩
      · obtain ⟨h1, h2⟩ := ih h
        refine ⟨fun x hx => ?_, ?_⟩
        · have := h1 x hx; simp [this]
        · simp only [List.length_append, List.length_cons]; omega

theorem parse_iff (s : List Nat) (hb : ∀ c ∈ s, c < 256) (hs : s.length < 2 ^ 63) (v : Value) :
    parse s = some v ↔ ∃ ls d, Lines s ls ∧ Reads ls d ∧ d ≠ [] ∧ Denotes d v := by
  unfold parse
  constructor
  · intro h
    obtain ⟨ls, h1, h2, h3⟩ := lines_exist s
    rw [← h3, loop_lines ls _ h1 h2] at h
    cases hr : runLines ⟨[], []⟩ ls with
    | none => rw [hr] at h; simp at h
    | some st =>
      rw [hr] at h
      simp only [] at h
      split at h
      · simp at h
      · rename_i hv
        simp at h
        have hl : ∀ l ∈ ls, l.length < 2 ^ 63 ∧ ∀ c ∈ l, c < 256 := by
          intro l hl
          obtain ⟨a, b⟩ := lines_mem hl
          rw [h3] at a b
          exact ⟨by omega, fun c hc => hb c (a c hc)⟩
        obtain ⟨d, h4, h5⟩ := run_sound _ ls rfl hl st hr
        obtain ⟨es, h6, h7, _⟩ := id h5
        exact ⟨ls, d, ⟨h1, h2, h3⟩, h4, fun e => hv ((values_empty h5).2 e), es, _, h6, h7, h.symm⟩
  · rintro ⟨ls, d, ⟨h1, h2, h3⟩, h4, h5, es, m, h6, h7, rfl⟩
    have hl : ∀ l ∈ ls, l.length < 2 ^ 63 := by
      intro l hl
      obtain ⟨_, b⟩ := lines_mem hl
      rw [h3] at b; omega
    obtain ⟨st, h8, h9⟩ := run_complete h4 hl
    rw [← h3, loop_lines ls _ h1 h2, h8]
    simp only []
    rw [if_neg (fun e => h5 ((values_empty h9).1 e))]
    obtain ⟨es', ha, hbb, hcur⟩ := h9
    clear hcur
    have : es' = es := by
      clear h4 h5 h7 h8 hl h1 h2 h3 hb hs hbb
      induction ha generalizing es with
      | nil => generalize hd : ([] : Doc) = d at h6; cases h6 <;> simp_all
      | snoc hx hy ih =>
        obtain ⟨es2, v2, rfl, h10, h11⟩ := entries_snoc h6
        rw [ih es2 h10]
        obtain ⟨m1, rfl, e1⟩ := hy
        obtain ⟨m2, rfl, e2⟩ := h11
        rw [mapOf_unique e1 e2]
    subst this
    rw [mapOf_unique hbb h7]

end Verif.Ini
