import Verif.Json.Sound

/-! # Completeness: what is in the grammar is accepted; the fuel suffices -/

namespace Verif.Json

open Verif.Unicode (WellFormed8)

/-! ## Running the small steps -/

theorem stateFor_stop_run {al : Bool} {e : Nat} (he : isWs e = false) (he' : e ≠ 0x2f) {a : List Nat}
    (ha : Blank al a) (r : List Nat) : stateFor al e (a ++ e :: r) = (.stop, r) := by
  unfold stateFor
  rw [wsComments_blank ha (stop_cons he he')]
  simp

theorem stateFor_keep_run {al : Bool} {e c : Nat} {t a : List Nat} (ha : Blank al a)
    (hs : Stop (c :: t)) (hc : c ≠ e) : stateFor al e (a ++ c :: t) = (.keep, c :: t) := by
  unfold stateFor
  rw [wsComments_blank ha hs]
  simp [hc]

theorem wsComments_bad {al : Bool} (hal : al = true) {a r : List Nat} {x : Nat} (ha : Blank al a)
    (h1 : x ≠ 0x2f) (h2 : x ≠ 0x2a) : wsComments al (a ++ 0x2f :: x :: r) = (false, r) := by
  subst hal
  rw [wsComments_skip _ ha, wsComments_slash]
  simp [skipComment, h1, h2]

theorem afterComma_bad_run {ft : Features} {e : Nat} (hal : ft.comments = true) {a r : List Nat} {x : Nat}
    (ha : Blank ft.comments a) (h1 : x ≠ 0x2f) (h2 : x ≠ 0x2a) :
    afterComma ft e (a ++ 0x2f :: x :: r) = (.keep, r) := by
  unfold afterComma stateFor
  rw [wsComments_bad hal ha h1 h2]

theorem afterComma_keep_run {ft : Features} {e c : Nat} {t a : List Nat} (ha : Blank ft.comments a)
    (hs : Stop (c :: t)) (hc : c ≠ e) : afterComma ft e (a ++ c :: t) = (.keep, c :: t) := by
  unfold afterComma
  rw [stateFor_keep_run ha hs hc]

theorem afterComma_stop_run {ft : Features} {e : Nat} (he : isWs e = false) (he' : e ≠ 0x2f)
    {a : List Nat} (ht : ft.trailingComma = true) (ha : Blank ft.comments a) (r : List Nat) :
    afterComma ft e (a ++ e :: r) = (.stop, r) := by
  unfold afterComma
  rw [stateFor_stop_run he he' ha]
  simp [ht]

theorem consumeComma_run (ft : Features) (e : Nat) (u : List Nat) :
    consumeComma ft e (0x2c :: u) = afterComma ft e u := by
  unfold consumeComma
  have := consumeToken_run (tok := 0x2c) (by decide) (a := []) (by intro c hc; simp at hc) u
  rw [List.nil_append] at this
  rw [this]

theorem stop_head {c : Nat} {t : List Nat} (h : ValueHead c) : Stop (c :: t) := stop_cons h.1 h.2.1

theorem blank_term {al : Bool} {a r : List Nat} (ha : Blank al a) (hr : Term r) : Term (a ++ r) := by
  cases ha with
  | nil => exact hr
  | ws h _ =>
    intro c t e
    simp only [List.cons_append, List.cons.injEq] at e
    rw [← e.1]
    have := (isWs_iff _).2 h
    simp [isValueChar, this]
  | line _ _ _ =>
    intro c t e
    simp only [List.cons_append, List.cons.injEq] at e
    rw [← e.1]; decide
  | block _ _ _ =>
    intro c t e
    simp only [List.cons_append, List.cons.injEq] at e
    rw [← e.1]; decide

theorem term_cons {c : Nat} {t : List Nat} (h : isValueChar c = false) : Term (c :: t) := by
  intro d u e
  simp only [List.cons.injEq] at e
  rw [← e.1]; exact h

theorem jelems_term {io : FloatIO} {ft : Features} {u : List Nat} {vs : List Value}
    (h : JElems io ft.lang u vs) {r : List Nat} (hr : Term r) : Term (u ++ r) := by
  cases h with
  | nil hb => exact blank_term hb hr
  | trailing hb _ _ =>
    rw [List.append_assoc]; exact blank_term hb (term_cons (by decide))
  | cons hb _ _ _ =>
    rw [List.append_assoc]; exact blank_term hb (term_cons (by decide))

theorem jmembers_term {io : FloatIO} {ft : Features} {u : List Nat} {vs : List (List Nat × Value)}
    (h : JMembers io ft.lang u vs) {r : List Nat} (hr : Term r) : Term (u ++ r) := by
  cases h with
  | nil hb => exact blank_term hb hr
  | trailing hb _ _ =>
    rw [List.append_assoc]; exact blank_term hb (term_cons (by decide))
  | cons hb _ _ _ =>
    rw [List.append_assoc]; exact blank_term hb (term_cons (by decide))

/-! ## Completeness -/

/-- The completeness statements at one amount of fuel. -/
structure CompleteAt (io : FloatIO) (ft : Features) (n : Nat) : Prop where
  json : ∀ a t v r, Blank ft.comments a → JValue io ft.lang t v → Term r →
    2 * (a ++ t ++ r).length + 1 ≤ n → parseJson io ft n (a ++ t ++ r) = .ok v r
  obj : ∀ u ms ms' m m' r, JMembers io ft.lang u ms' → m ≠ [] → MapOf ms m → MapOf (ms ++ ms') m' →
    2 * (u ++ 0x7d :: r).length + 2 ≤ n → objLoop io ft n m (u ++ 0x7d :: r) = .ok (.obj m') r
  obj0 : ∀ b t k v u ms m r, Blank ft.comments b → JMember io ft.lang t k v → JMembers io ft.lang u ms →
    MapOf ((k, v) :: ms) m → 2 * (b ++ t ++ (u ++ 0x7d :: r)).length + 2 ≤ n →
    objLoop io ft n [] (b ++ t ++ (u ++ 0x7d :: r)) = .ok (.obj m) r
  arr : ∀ u l vs r, JElems io ft.lang u vs → l ≠ [] →
    2 * (u ++ 0x5d :: r).length + 2 ≤ n → arrLoop io ft n l (u ++ 0x5d :: r) = .ok (.arr (l ++ vs)) r
  arr0 : ∀ b t v u vs r, Blank ft.comments b → JValue io ft.lang t v → JElems io ft.lang u vs →
    2 * (b ++ t ++ (u ++ 0x5d :: r)).length + 2 ≤ n →
    arrLoop io ft n [] (b ++ t ++ (u ++ 0x5d :: r)) = .ok (.arr (v :: vs)) r

/-- One entry of an object, from the key on. -/
theorem member_complete {io : FloatIO} {ft : Features} {n : Nat} (ih : CompleteAt io ft n)
    {a t k v r} (ha : LibWs a) (ht : JMember io ft.lang t k v) (hr : Term r)
    (hn : 2 * (t ++ r).length ≤ n) :
    ∃ raw r3, parseKey (a ++ t ++ r) = some (raw, r3) ∧ parseJson io ft n r3 = .ok v r ∧
      convertToString raw = some k := by
  cases ht with
  | mk h1 h2 h3 h4 =>
    rename_i t e c u
    refine ⟨t, c ++ u ++ r, ?_, ih.json c u v r h3 h4 hr ?_, stringBody_convert h1⟩
    · have := parseKey_run ha h1.2 h2 (c ++ u ++ r)
      simp only [List.append_assoc, List.cons_append] at this ⊢
      exact this
    · simp only [List.length_append, List.length_cons] at hn ⊢; omega

theorem complete (io : FloatIO) (ft : Features) : ∀ n, CompleteAt io ft n := by
  intro n
  induction n with
  | zero =>
    refine ⟨?_, ?_, ?_, ?_, ?_⟩
    · intro a t v r _ _ _ h; omega
    · intro u ms ms' m m' r _ _ _ _ h; omega
    · intro b t k v u ms m r _ _ _ _ h; omega
    · intro u l vs r _ _ h; omega
    · intro b t v u vs r _ _ _ h; omega
  | succ n ih =>
    refine ⟨?_, ?_, ?_, ?_, ?_⟩
    · intro a t v r ha ht hr hn
      have hrun : ∀ c u, t ++ r = c :: u → ValueHead c →
          wsComments ft.comments (a ++ t ++ r) = (true, c :: u) := by
        intro c u e hc
        rw [List.append_assoc, e]; exact wsComments_blank ha (stop_head hc)
      have hscal : Scalar1 io t v → (∃ c u, t ++ r = c :: u ∧ ValueHead c ∧ c ≠ 0x7b ∧ c ≠ 0x5b ∧ c ≠ 0x22) →
          parseJson io ft (n + 1) (a ++ t ++ r) = .ok v r := by
        rintro h1 ⟨c, u, e, hc, n1, n2, n3⟩
        rw [parseJson, hrun c u e hc]
        simp only [n1, n2, n3, if_false]
        rw [← e]; exact parseValue_run h1 hr
      have hhead := jvalue_head ht
      cases ht with
      | null => exact hscal .null ⟨_, _, rfl, by unfold ValueHead; decide, by decide, by decide, by decide⟩
      | tru => exact hscal .tru ⟨_, _, rfl, by unfold ValueHead; decide, by decide, by decide, by decide⟩
      | fals => exact hscal .fals ⟨_, _, rfl, by unfold ValueHead; decide, by decide, by decide, by decide⟩
      | num h =>
        obtain ⟨c, u, h1, h2⟩ := number_head h
        obtain ⟨c', u', h3, h4⟩ := hhead
        rw [h1] at h3
        simp only [List.cons.injEq] at h3
        refine hscal (.num h) ⟨c, u ++ r, by rw [h1]; rfl, by rw [h3.1]; exact h4, ?_⟩
        unfold Verif.Str.AsciiDigit at h2
        omega
      | str h =>
        rename_i t m
        rw [parseJson, hrun 0x22 (t ++ 0x22 :: r) (by simp) (by unfold ValueHead; decide)]
        simp only [show (0x22 : Nat) ≠ 0x7b by decide, show (0x22 : Nat) ≠ 0x5b by decide, if_false, if_true]
        have hq := parseQuoted_run (a := []) (by intro c hc; simp at hc) h.2 r
        rw [List.nil_append] at hq
        unfold parseString
        rw [hq]
        simp only [stringBody_convert h]
      | obj0 h =>
        rename_i b
        rw [parseJson, hrun 0x7b (b ++ 0x7d :: r) (by simp) (by unfold ValueHead; decide)]
        simp only [if_true]
        have hlen : 2 * (b ++ 0x7d :: r).length + 2 ≤ n := by
          simp only [List.length_append, List.length_cons, List.length_nil] at hn ⊢; omega
        cases n with
        | zero => omega
        | succ n =>
          rw [objLoop, stateFor_stop_run (by decide) (by decide) h]
      | obj h1 h2 h3 h4 =>
        rename_i b t k v u ms m
        rw [parseJson, hrun 0x7b (b ++ t ++ (u ++ 0x7d :: r)) (by simp) (by unfold ValueHead; decide)]
        simp only [if_true]
        have hlen : 2 * (b ++ t ++ (u ++ 0x7d :: r)).length + 2 ≤ n := by
          simp only [List.length_append, List.length_cons, List.length_nil] at hn ⊢; omega
        exact ih.obj0 b t k v u ms m r h1 h2 h3 h4 hlen
      | arr0 h =>
        rename_i b
        rw [parseJson, hrun 0x5b (b ++ 0x5d :: r) (by simp) (by unfold ValueHead; decide)]
        simp only [if_true]
        have hlen : 2 * (b ++ 0x5d :: r).length + 2 ≤ n := by
          simp only [List.length_append, List.length_cons, List.length_nil] at hn ⊢; omega
        cases n with
        | zero => omega
        | succ n =>
          simp only [show (0x5b : Nat) ≠ 0x7b by decide, if_false]
          rw [arrLoop, stateFor_stop_run (by decide) (by decide) h]
      | arr h1 h2 h3 =>
        rename_i b t v u vs
        rw [parseJson, hrun 0x5b (b ++ t ++ (u ++ 0x5d :: r)) (by simp) (by unfold ValueHead; decide)]
        simp only [show (0x5b : Nat) ≠ 0x7b by decide, if_false, if_true]
        have hlen : 2 * (b ++ t ++ (u ++ 0x5d :: r)).length + 2 ≤ n := by
          simp only [List.length_append, List.length_cons, List.length_nil] at hn ⊢; omega
        exact ih.arr0 b t v u vs r h1 h2 h3 hlen
    · intro u ms ms' m m' r hu hm hms hmap hn
      have he : m.isEmpty = false := by cases m with | nil => exact absurd rfl hm | cons => rfl
      cases hu with
      | nil hb =>
        rw [objLoop, stateFor_stop_run (by decide) (by decide) hb]
        rw [List.append_nil] at hmap
        simp only [mapOf_unique hms hmap]
      | trailing hb ht hc =>
        rename_i b c
        rw [List.append_assoc, List.cons_append, objLoop,
          stateFor_keep_run hb (stop_cons (by decide) (by decide)) (by decide)]
        simp only [he, separator, Bool.false_eq_true, if_false, consumeComma_run]
        rw [afterComma_stop_run (by decide) (by decide) ht hc]
        rw [List.append_nil] at hmap
        simp only [mapOf_unique hms hmap]
      | cons hb hc ht hr =>
        rename_i b c t k v u ms'
        have hterm : Term (u ++ 0x7d :: r) := jmembers_term hr (term_cons (by decide))
        have hsep : ∃ a, LibWs a ∧ afterComma ft 0x7d (c ++ t ++ (u ++ 0x7d :: r)) =
            (.keep, a ++ t ++ (u ++ 0x7d :: r)) := by
          rcases hc with hc | ⟨_, a, x, b', q1, q2, q3, q4, q5, q6⟩
          · refine ⟨[], by intro c hc; simp at hc, ?_⟩
            cases ht with
            | mk _ _ _ _ =>
              rw [List.append_assoc]
              exact afterComma_keep_run hc (stop_cons (by decide) (by decide)) (by decide)
          · refine ⟨b', q5, ?_⟩
            rw [q6]
            simp only [List.append_assoc, List.cons_append]
            exact afterComma_bad_run q1 q2 q3 q4
        obtain ⟨a, ha, hsep⟩ := hsep
        have e1 : b ++ 0x2c :: (c ++ t ++ u) ++ 0x7d :: r =
            b ++ 0x2c :: (c ++ t ++ (u ++ 0x7d :: r)) := by simp
        rw [e1, objLoop, stateFor_keep_run hb (stop_cons (by decide) (by decide)) (by decide)]
        simp only [he, separator, Bool.false_eq_true, if_false, consumeComma_run]
        rw [hsep]
        rw [e1] at hn
        simp only [List.length_append, List.length_cons] at hn
        have hlt : 1 ≤ t.length := by cases ht; simp
        obtain ⟨raw, r3, p1, p2, p3⟩ := member_complete ih ha ht hterm (by
          simp only [List.length_append, List.length_cons]; omega)
        simp only [p1, p2, p3]
        refine ih.obj u (ms ++ [(k, v)]) ms' _ m' r hr (insert_ne_nil k v m) (mapOf_insert hms k v) ?_ ?_
        · rw [List.append_assoc, List.singleton_append]; exact hmap
        · simp only [List.length_append, List.length_cons]; omega
    · intro b t k v u ms m r hb ht hu hmap hn
      have hterm : Term (u ++ 0x7d :: r) := jmembers_term hu (term_cons (by decide))
      have hst : stateFor ft.comments 0x7d (b ++ t ++ (u ++ 0x7d :: r)) =
          (.keep, [] ++ t ++ (u ++ 0x7d :: r)) := by
        cases ht with
        | mk _ _ _ _ =>
          rw [List.append_assoc]
          exact stateFor_keep_run hb (stop_cons (by decide) (by decide)) (by decide)
      rw [objLoop, hst]
      simp only [List.isEmpty_nil, separator, if_true]
      simp only [List.length_append, List.length_cons] at hn
      have hlt : 1 ≤ t.length := by cases ht; simp
      obtain ⟨raw, r3, p1, p2, p3⟩ := member_complete (a := []) ih (by intro c hc; simp at hc) ht hterm
        (by simp only [List.length_append, List.length_cons]; omega)
      simp only [p1, p2, p3]
      refine ih.obj u [(k, v)] ms _ m r hu (insert_ne_nil k v []) (mapOf_insert mapOf_nil k v) hmap ?_
      simp only [List.length_append, List.length_cons]; omega
    · intro u l vs r hu hl hn
      have he : l.isEmpty = false := by cases l with | nil => exact absurd rfl hl | cons => rfl
      cases hu with
      | nil hb =>
        rw [arrLoop, stateFor_stop_run (by decide) (by decide) hb]
        simp only [List.append_nil]
      | trailing hb ht hc =>
        rename_i b c
        rw [List.append_assoc, List.cons_append, arrLoop,
          stateFor_keep_run hb (stop_cons (by decide) (by decide)) (by decide)]
        simp only [he, separator, Bool.false_eq_true, if_false, consumeComma_run]
        rw [afterComma_stop_run (by decide) (by decide) ht hc]
        simp only [List.append_nil]
      | cons hb hc ht hr =>
        rename_i b c t v u vs
        have hterm : Term (u ++ 0x5d :: r) := jelems_term hr (term_cons (by decide))
        have hsep : ∃ a, Blank ft.comments a ∧ a.length ≤ c.length ∧
            afterComma ft 0x5d (c ++ t ++ (u ++ 0x5d :: r)) =
            (.keep, a ++ t ++ (u ++ 0x5d :: r)) := by
          rcases hc with hc | ⟨_, a, x, b', q1, q2, q3, q4, q5, q6⟩
          · refine ⟨[], .nil, by simp, ?_⟩
            obtain ⟨y, z, rfl, hy⟩ := jvalue_head ht
            rw [List.append_assoc]
            exact afterComma_keep_run hc (stop_head hy) hy.2.2.2.1
          · refine ⟨b', q5, ?_, ?_⟩
            · rw [q6]; simp only [List.length_append, List.length_cons]; omega
            · rw [q6]
              simp only [List.append_assoc, List.cons_append]
              exact afterComma_bad_run q1 q2 q3 q4
        obtain ⟨a, ha, hal, hsep⟩ := hsep
        have e1 : b ++ 0x2c :: (c ++ t ++ u) ++ 0x5d :: r =
            b ++ 0x2c :: (c ++ t ++ (u ++ 0x5d :: r)) := by simp
        rw [e1, arrLoop, stateFor_keep_run hb (stop_cons (by decide) (by decide)) (by decide)]
        simp only [he, separator, Bool.false_eq_true, if_false, consumeComma_run]
        rw [hsep]
        rw [e1] at hn
        simp only [List.length_append, List.length_cons] at hn
        have := ih.json a t v (u ++ 0x5d :: r) ha ht hterm (by
          simp only [List.length_append, List.length_cons]; omega)
        simp only [this]
        rw [ih.arr u (l ++ [v]) vs r hr (by simp) (by
          simp only [List.length_append, List.length_cons]; omega)]
        simp
    · intro b t v u vs r hb ht hu hn
      have hterm : Term (u ++ 0x5d :: r) := jelems_term hu (term_cons (by decide))
      have hst : stateFor ft.comments 0x5d (b ++ t ++ (u ++ 0x5d :: r)) =
          (.keep, [] ++ t ++ (u ++ 0x5d :: r)) := by
        obtain ⟨y, z, rfl, hy⟩ := jvalue_head ht
        rw [List.append_assoc]
        exact stateFor_keep_run hb (stop_head hy) hy.2.2.2.1
      rw [arrLoop, hst]
      simp only [List.isEmpty_nil, separator, if_true]
      simp only [List.length_append, List.length_cons] at hn
      have hlt : 1 ≤ t.length := by obtain ⟨y, z, rfl, hy⟩ := jvalue_head ht; simp
      have := ih.json [] t v (u ++ 0x5d :: r) .nil ht hterm (by
          simp only [List.length_append, List.length_cons, List.length_nil]; omega)
      simp only [this]
      rw [ih.arr u ([] ++ [v]) vs r hu (by simp) (by
          simp only [List.length_append, List.length_cons]; omega)]
      simp

/-! ## Fuel -/

/-- No function runs out of fuel. -/
structure FuelAt (io : FloatIO) (ft : Features) (n : Nat) : Prop where
  json : ∀ s, Bytes s → 2 * s.length + 1 ≤ n → parseJson io ft n s ≠ .oom
  obj : ∀ m s, Bytes s → 2 * s.length + 2 ≤ n → objLoop io ft n m s ≠ .oom
  arr : ∀ l s, Bytes s → 2 * s.length + 2 ≤ n → arrLoop io ft n l s ≠ .oom

/-- The input that is left is a suffix of the input. -/
theorem json_rest {io : FloatIO} {ft : Features} {n : Nat} {s : List Nat} {v : Value} {r : List Nat}
    (hb : Bytes s) (h : parseJson io ft n s = .ok v r) : Bytes r ∧ r.length < s.length := by
  obtain ⟨a, t, rfl, _, h2⟩ := (sound io ft n).json s v r hb h
  obtain ⟨c, u, rfl, _⟩ := jvalue_head h2
  exact ⟨hb.right, by simp only [List.length_append, List.length_cons]; omega⟩

theorem stateFor_keep_rest {al : Bool} {e : Nat} {s r : List Nat} (hb : Bytes s)
    (h : stateFor al e s = (.keep, r)) : Bytes r ∧ r.length ≤ s.length := by
  obtain ⟨a, _, rfl, _⟩ := stateFor_keep_inv h
  exact ⟨hb.right, by simp⟩

theorem separator_rest {ft : Features} {e : Nat} {f : Bool} {s r : List Nat} (hb : Bytes s) (hs : Stop s)
    (h : separator ft e f s = (.keep, r)) : Bytes r ∧ r.length ≤ s.length := by
  unfold separator at h
  split at h
  · simp only [Prod.mk.injEq, true_and] at h; subst h; exact ⟨hb, Nat.le_refl _⟩
  · obtain ⟨u, rfl, h2⟩ := consumeComma_inv hs (by simp) h
    have hu := hb.tail
    unfold afterComma at h2
    have hs2 : (stateFor ft.comments e u).2 = r := by
      split at h2
      · split at h2 <;> simp at h2
      · rename_i h3; simp only [Prod.mk.injEq, true_and] at h2; rw [h3]; exact h2
    rcases afterComma_keep_inv (ft := ft) (e := e) (s := u) (r := r) (by unfold afterComma; exact h2) with
      ⟨a, _, rfl, _⟩ | rfl | ⟨t, _, rfl⟩ | ⟨a, x, _, _, _, _, rfl⟩
    · exact ⟨hu.right, by simp only [List.length_append, List.length_cons]; omega⟩
    · exact ⟨by intro b hb; simp at hb, by simp⟩
    · rw [← hs2]
      unfold stateFor
      have hl := wsComments_length (allow := ft.comments) u
      cases hw : wsComments ft.comments u with
      | mk b w =>
        rw [hw] at hl
        have hbw : Bytes w := by
          cases wsComments_outcome' hw with
          | skipped h1 _ _ => rw [h1] at hu; exact hu.right
          | final _ => intro b hb; simp at hb
          | forbidden _ h1 _ => rw [h1] at hu; exact hu.right
          | bad _ h1 _ _ _ => rw [h1] at hu; exact hu.right.tail.tail
          | eof => intro b hb; simp at hb
        simp only [List.length_cons] at hl ⊢
        cases b with
        | false => exact ⟨hbw, Nat.le_succ_of_le hl⟩
        | true =>
          cases w with
          | nil => exact ⟨hbw, by simp⟩
          | cons c w =>
            by_cases hc : c = e
            · simp only [hc, if_true]; exact ⟨hbw.tail, by simp only [List.length_cons] at hl; omega⟩
            · simp only [hc, if_false]; exact ⟨hbw, by omega⟩
    · exact ⟨hu.right.tail.tail, by simp only [List.length_append, List.length_cons]; omega⟩

theorem fuel (io : FloatIO) (ft : Features) : ∀ n, FuelAt io ft n := by
  intro n
  induction n with
  | zero =>
    refine ⟨?_, ?_, ?_⟩
    · intro s _ h; omega
    · intro m s _ h; omega
    · intro l s _ h; omega
  | succ n ih =>
    refine ⟨?_, ?_, ?_⟩
    · intro s hb hn
      rw [parseJson]
      split
      · simp
      · exact parseValue_not_oom _
      · rename_i c t hw
        have h1 : Bytes (c :: t) ∧ (c :: t).length ≤ s.length := by
          cases wsComments_outcome' hw with
          | skipped h1 _ _ => rw [h1] at hb ⊢; exact ⟨hb.right, by simp⟩
        obtain ⟨h1, h2⟩ := h1
        simp only [List.length_cons] at h2
        split
        · exact ih.obj _ _ h1.tail (by omega)
        · split
          · exact ih.arr _ _ h1.tail (by omega)
          · split
            · unfold parseString; split
              · simp
              · split <;> simp
            · exact parseValue_not_oom _
    · intro m s hb hn
      rw [objLoop]
      split
      · simp
      · simp
      · rename_i r1 h1
        obtain ⟨b1, l1⟩ := stateFor_keep_rest hb h1
        obtain ⟨_, _, _, hs1, _⟩ := stateFor_keep_inv h1
        split
        · simp
        · simp
        · rename_i r2 h2
          obtain ⟨b2, l2⟩ := separator_rest b1 hs1 h2
          split
          · simp
          · rename_i raw r3 h3
            obtain ⟨a, e, _, _, g⟩ := parseKey_inv h3
            have b3 : Bytes r3 := by rw [g] at b2; exact b2.right.tail.right.tail.right.tail
            have l3 : r3.length + 3 ≤ r2.length := by
              rw [g]; simp only [List.length_append, List.length_cons]; omega
            split
            · simp
            · rename_i h4; exact absurd h4 (ih.json r3 b3 (by omega))
            · rename_i w r4 h4
              obtain ⟨b4, l4⟩ := json_rest b3 h4
              split
              · simp
              · exact ih.obj _ r4 b4 (by omega)
    · intro l s hb hn
      rw [arrLoop]
      split
      · simp
      · simp
      · rename_i r1 h1
        obtain ⟨b1, l1⟩ := stateFor_keep_rest hb h1
        obtain ⟨_, _, _, hs1, _⟩ := stateFor_keep_inv h1
        split
        · simp
        · simp
        · rename_i r2 h2
          obtain ⟨b2, l2⟩ := separator_rest b1 hs1 h2
          split
          · simp
          · rename_i h4; exact absurd h4 (ih.json r2 b2 (by omega))
          · rename_i w r4 h4
            obtain ⟨b4, l4⟩ := json_rest b2 h4
            exact ih.arr _ r4 b4 (by omega)

/-- `parse` never stops for lack of fuel. -/
theorem parse_no_fuel (io : FloatIO) (ft : Features) (s : List Nat) (hb : Bytes s) :
    parseFuel io ft (2 * s.length + 2) s ≠ .oom := by
  unfold parseFuel
  have := (fuel io ft (2 * s.length + 2)).json s hb (by omega)
  split
  · simp
  · rename_i h; exact absurd h this
  · split <;> simp

/-! ## The parser accepts exactly its language -/

theorem finalBlank_term {al : Bool} {b : List Nat} (h : FinalBlank al b) : Term b := by
  rcases h with h | ⟨a, c, _, h, _, rfl⟩
  · have := blank_term h term_nil; rwa [List.append_nil] at this
  · exact blank_term h (term_cons (by decide))

theorem wsComments_end {al : Bool} {s : List Nat} (h : wsComments al s = (true, [])) : FinalBlank al s := by
  cases wsComments_outcome' h with
  | skipped h1 h2 _ => rw [h1, List.append_nil]; exact Or.inl h2
  | final h => exact h

theorem finish_iff (ft : Features) (v w : Value) (s : List Nat) :
    finish ft v s = some w ↔ w = v ∧ FinalBlank ft.comments s ∧ (isContainer v || ft.anyType) = true := by
  unfold finish
  constructor
  · intro h
    split at h
    · rename_i hw
      split at h
      · rename_i hc
        simp only [Option.some.injEq] at h
        exact ⟨h.symm, wsComments_end hw, hc⟩
      · simp at h
    · simp at h
  · rintro ⟨rfl, h1, h2⟩
    rw [wsComments_final h1]
    simp only [h2, if_true]

theorem isContainer_iff (v : Value) : isContainer v = true ↔ Container v := by
  constructor
  · intro h
    cases v with
    | obj m => exact .obj m
    | arr l => exact .arr l
    | _ => simp [isContainer] at h
  · rintro (m | l) <;> rfl

theorem parse_iff (io : FloatIO) (ft : Features) (s : List Nat) (v : Value) (hb : Bytes s) :
    parse io ft s = some v ↔ JText io ft.lang s v ∧ (isContainer v || ft.anyType) = true := by
  unfold parse
  constructor
  · intro h
    split at h
    · rename_i w r hf
      simp only [Option.some.injEq] at h
      subst h
      unfold parseFuel at hf
      split at hf
      · simp at hf
      · simp at hf
      · rename_i v' r' hj
        split at hf
        · rename_i v'' hfin
          simp only [Res.ok.injEq] at hf
          rw [finish_iff] at hfin
          obtain ⟨h1, h2, h3⟩ := hfin
          obtain ⟨a, t, g1, g2, g3⟩ := (sound io ft _).json s v' r' hb hj
          rw [← hf.1, h1]
          exact ⟨⟨a, t, r', g1, g2, g3, h2⟩, h3⟩
        · simp at hf
    · simp at h
  · rintro ⟨⟨a, t, b, rfl, h2, h3, h4⟩, h5⟩
    have h6 := (complete io ft (2 * (a ++ t ++ b).length + 2)).json a t v b h2 h3 (finalBlank_term h4)
      (by omega)
    have h7 : finish ft v b = some v := (finish_iff ft v v b).2 ⟨rfl, h4, h5⟩
    unfold parseFuel
    rw [h6]
    simp only [h7]

end Verif.Json
