import Verif.Json.Grammar

/-! # Soundness: what the parser accepts is in the grammar -/

namespace Verif.Json

open Verif.Unicode (WellFormed8)

/-- The language the parser implements with the given features. -/
def Features.lang (ft : Features) : Dialect := dialect true ft.comments ft.trailingComma

/-! ## Inversion of the small steps -/

theorem stateFor_stop_inv {al : Bool} {e : Nat} {s r : List Nat} (h : stateFor al e s = (.stop, r)) :
    ∃ a, Blank al a ∧ s = a ++ e :: r := by
  unfold stateFor at h
  split at h
  · simp at h
  · simp at h
  · rename_i c t hw
    split at h
    · rename_i hc
      simp only [Prod.mk.injEq, true_and] at h
      subst hc; subst h
      cases wsComments_outcome' hw with
      | skipped h1 h2 _ => exact ⟨_, h2, h1⟩
    · simp at h

theorem stateFor_keep_inv {al : Bool} {e : Nat} {s r : List Nat} (h : stateFor al e s = (.keep, r)) :
    ∃ a, Blank al a ∧ s = a ++ r ∧ Stop r ∧ ∃ c t, r = c :: t ∧ c ≠ e := by
  unfold stateFor at h
  split at h
  · simp at h
  · simp at h
  · rename_i c t hw
    split at h
    · simp at h
    · rename_i hc
      simp only [Prod.mk.injEq, true_and] at h
      subst h
      cases wsComments_outcome' hw with
      | skipped h1 h2 h3 => exact ⟨_, h2, h1, h3, c, t, rfl, hc⟩

theorem stateFor_invalid_inv {al : Bool} {e : Nat} {s r : List Nat}
    (h : stateFor al e s = (.invalid, r)) :
    r = [] ∨ (∃ t, al = false ∧ r = 0x2f :: t) ∨
      ∃ a x, al = true ∧ Blank al a ∧ x ≠ 0x2f ∧ x ≠ 0x2a ∧ s = a ++ 0x2f :: x :: r := by
  unfold stateFor at h
  split at h
  · rename_i r' hw
    simp only [Prod.mk.injEq, true_and] at h
    subst h
    cases wsComments_outcome' hw with
    | forbidden h1 h2 h3 => exact Or.inr (Or.inl ⟨_, h1, rfl⟩)
    | bad h1 h2 h3 h4 h5 => exact Or.inr (Or.inr ⟨_, _, h1, h3, h4, h5, h2⟩)
    | eof => exact Or.inl rfl
  · simp only [Prod.mk.injEq, true_and] at h; exact Or.inl h.symm
  · split at h <;> simp at h

theorem afterComma_stop_inv {ft : Features} {e : Nat} {s r : List Nat}
    (h : afterComma ft e s = (.stop, r)) :
    ft.trailingComma = true ∧ ∃ a, Blank ft.comments a ∧ s = a ++ e :: r := by
  unfold afterComma at h
  split at h
  · rename_i hs
    split at h
    · rename_i ht
      simp only [Prod.mk.injEq, true_and] at h
      subst h
      exact ⟨ht, stateFor_stop_inv hs⟩
    · simp at h
  · simp at h

theorem afterComma_keep_inv {ft : Features} {e : Nat} {s r : List Nat}
    (h : afterComma ft e s = (.keep, r)) :
    (∃ a, Blank ft.comments a ∧ s = a ++ r ∧ Stop r ∧ ∃ c t, r = c :: t ∧ c ≠ e) ∨
    r = [] ∨ (∃ t, ft.comments = false ∧ r = 0x2f :: t) ∨
      ∃ a x, ft.comments = true ∧ Blank ft.comments a ∧ x ≠ 0x2f ∧ x ≠ 0x2a ∧
        s = a ++ 0x2f :: x :: r := by
  unfold afterComma at h
  split at h
  · split at h <;> simp at h
  · rename_i st r' hn hs
    simp only [Prod.mk.injEq, true_and] at h
    subst h
    cases st with
    | stop => exact (hn rfl).elim
    | keep => exact Or.inl (stateFor_keep_inv hs)
    | invalid => exact Or.inr (stateFor_invalid_inv hs)

theorem consumeComma_inv {ft : Features} {e : Nat} {s r : List Nat} {st : PState} (hs : Stop s)
    (hst : st ≠ .invalid) (h : consumeComma ft e s = (st, r)) :
    ∃ u, s = 0x2c :: u ∧ afterComma ft e u = (st, r) := by
  unfold consumeComma at h
  split at h
  · rename_i r' hc
    obtain ⟨a, h1, h2⟩ := consumeToken_inv hc
    cases a with
    | nil => exact ⟨r', h2, h⟩
    | cons c a =>
      have h3 := (hs c _ h2).1
      have h4 := (isWs_iff c).2 (h1 c List.mem_cons_self)
      rw [h4] at h3; simp at h3
  · simp only [Prod.mk.injEq] at h; exact absurd h.1.symm hst

theorem objLoop_ok {io : FloatIO} {ft : Features} {n : Nat} {m : List (List Nat × Value)} {s : List Nat}
    {v : Value} {r : List Nat} (h : objLoop io ft (n + 1) m s = .ok v r) :
    (stateFor ft.comments 0x7d s = (.stop, r) ∧ v = .obj m) ∨
    ∃ r1, stateFor ft.comments 0x7d s = (.keep, r1) ∧
      ((separator ft 0x7d m.isEmpty r1 = (.stop, r) ∧ v = .obj m) ∨
      ∃ r2 raw r3 w r4 k, separator ft 0x7d m.isEmpty r1 = (.keep, r2) ∧
        parseKey r2 = some (raw, r3) ∧ parseJson io ft n r3 = .ok w r4 ∧
        convertToString raw = some k ∧ objLoop io ft n (insertOrAssign k w m) r4 = .ok v r) := by
  rw [objLoop] at h
  split at h
  · simp at h
  · rename_i h1
    simp only [Res.ok.injEq] at h
    left; rw [h1, h.2]; exact ⟨rfl, h.1.symm⟩
  · rename_i r1 h1
    right
    refine ⟨r1, h1, ?_⟩
    split at h
    · simp at h
    · rename_i h2
      simp only [Res.ok.injEq] at h
      left; rw [h2, h.2]; exact ⟨rfl, h.1.symm⟩
    · rename_i r2 h2
      right
      split at h
      · simp at h
      · rename_i raw r3 h3
        split at h
        · simp at h
        · simp at h
        · rename_i w r4 h4
          split at h
          · simp at h
          · rename_i k h5
            exact ⟨r2, raw, r3, w, r4, k, h2, h3, h4, h5, h⟩

theorem arrLoop_ok {io : FloatIO} {ft : Features} {n : Nat} {l : List Value} {s : List Nat}
    {v : Value} {r : List Nat} (h : arrLoop io ft (n + 1) l s = .ok v r) :
    (stateFor ft.comments 0x5d s = (.stop, r) ∧ v = .arr l) ∨
    ∃ r1, stateFor ft.comments 0x5d s = (.keep, r1) ∧
      ((separator ft 0x5d l.isEmpty r1 = (.stop, r) ∧ v = .arr l) ∨
      ∃ r2 w r4, separator ft 0x5d l.isEmpty r1 = (.keep, r2) ∧
        parseJson io ft n r2 = .ok w r4 ∧ arrLoop io ft n (l ++ [w]) r4 = .ok v r) := by
  rw [arrLoop] at h
  split at h
  · simp at h
  · rename_i h1
    simp only [Res.ok.injEq] at h
    left; rw [h1, h.2]; exact ⟨rfl, h.1.symm⟩
  · rename_i r1 h1
    right
    refine ⟨r1, h1, ?_⟩
    split at h
    · simp at h
    · rename_i h2
      simp only [Res.ok.injEq] at h
      left; rw [h2, h.2]; exact ⟨rfl, h.1.symm⟩
    · rename_i r2 h2
      right
      split at h
      · simp at h
      · simp at h
      · rename_i w r4 h4
        exact ⟨r2, w, r4, h2, h4, h⟩

/-! ## Soundness -/

/-- Every element is a byte. -/
def Bytes (s : List Nat) : Prop := ∀ b ∈ s, b < 256

theorem Bytes.left {a b : List Nat} (h : Bytes (a ++ b)) : Bytes a :=
  fun x hx => h x (List.mem_append_left _ hx)

theorem Bytes.right {a b : List Nat} (h : Bytes (a ++ b)) : Bytes b :=
  fun x hx => h x (List.mem_append_right _ hx)

theorem Bytes.tail {a : Nat} {b : List Nat} (h : Bytes (a :: b)) : Bytes b :=
  fun x hx => h x (List.mem_cons_of_mem _ hx)

/-- The three soundness statements at one amount of fuel. -/
structure SoundAt (io : FloatIO) (ft : Features) (n : Nat) : Prop where
  json : ∀ s v r, Bytes s → parseJson io ft n s = .ok v r →
    ∃ a t, s = a ++ t ++ r ∧ Blank ft.comments a ∧ JValue io ft.lang t v
  obj : ∀ s ms m v r, Bytes s → m ≠ [] → MapOf ms m → objLoop io ft n m s = .ok v r →
    ∃ u ms' m', s = u ++ 0x7d :: r ∧ JMembers io ft.lang u ms' ∧ MapOf (ms ++ ms') m' ∧ v = .obj m'
  obj0 : ∀ s v r, Bytes s → objLoop io ft n [] s = .ok v r →
    ∃ u, s = u ++ 0x7d :: r ∧ JValue io ft.lang (0x7b :: (u ++ [0x7d])) v
  arr : ∀ s l v r, Bytes s → l ≠ [] → arrLoop io ft n l s = .ok v r →
    ∃ u vs, s = u ++ 0x5d :: r ∧ JElems io ft.lang u vs ∧ v = .arr (l ++ vs)
  arr0 : ∀ s v r, Bytes s → arrLoop io ft n [] s = .ok v r →
    ∃ u, s = u ++ 0x5d :: r ∧ JValue io ft.lang (0x5b :: (u ++ [0x5d])) v

theorem member_sound {io : FloatIO} {ft : Features} {n : Nat} (ih : SoundAt io ft n)
    {r2 raw r3 w r4 k} (hb : Bytes r2) (h1 : parseKey r2 = some (raw, r3))
    (h2 : parseJson io ft n r3 = .ok w r4) (h3 : convertToString raw = some k) :
    ∃ a t, LibWs a ∧ r2 = a ++ t ++ r4 ∧ JMember io ft.lang t k w ∧ ∃ u, t = 0x22 :: u := by
  obtain ⟨a, e, g1, g2, g3⟩ := parseKey_inv h1
  have hb3 : Bytes r3 := by
    rw [g3] at hb; exact hb.right.tail.right.tail.right.tail
  have hraw : Bytes raw := by rw [g3] at hb; exact hb.right.tail.left
  obtain ⟨c, t, g4, g5, g6⟩ := ih.json r3 w r4 hb3 h2
  refine ⟨a, _, g1, ?_, .mk ((convertToString_iff raw k hraw).1 h3) g2 g5 g6, _, rfl⟩
  rw [g3, g4]
  simp only [List.append_assoc, List.cons_append]

theorem libWs_nonslash {a t u : List Nat} {x : Nat} (ha : Blank false a) (h : 0x2f :: u = a ++ x :: t)
    (hx : x ≠ 0x2f) : False := by
  cases ha with
  | nil => simp only [List.nil_append, List.cons.injEq] at h; exact hx h.1.symm
  | ws hc _ => simp only [List.cons_append, List.cons.injEq] at h; omega
  | line h1 _ _ => simp at h1
  | block h1 _ _ => simp at h1

theorem sound (io : FloatIO) (ft : Features) : ∀ n, SoundAt io ft n := by
  intro n
  induction n with
  | zero =>
    refine ⟨?_, ?_, ?_, ?_, ?_⟩
    · intro s v r _ h; simp [parseJson] at h
    · intro s ms m v r _ _ _ h; simp [objLoop] at h
    · intro s v r _ h; simp [objLoop] at h
    · intro s l v r _ _ h; simp [arrLoop] at h
    · intro s v r _ h; simp [arrLoop] at h
  | succ n ih =>
    refine ⟨?_, ?_, ?_, ?_, ?_⟩
    · intro s v r hb h
      rw [parseJson] at h
      split at h
      · simp at h
      · obtain ⟨t, h1, h2⟩ := parseValue_inv h
        have : t = [] := by
          cases t with
          | nil => rfl
          | cons c t => simp at h2
        subst this
        cases h1 with
        | num h1 => obtain ⟨c, u, h3, _⟩ := number_head h1; simp at h3
      · rename_i c t hw
        obtain ⟨a, hs, ha, hst⟩ : ∃ a, s = a ++ c :: t ∧ Blank ft.comments a ∧ Stop (c :: t) := by
          cases wsComments_outcome' hw with
          | skipped h1 h2 h3 => exact ⟨_, h1, h2, h3⟩
        have hbt : Bytes t := by rw [hs] at hb; exact hb.right.tail
        split at h
        · rename_i hc; subst hc
          obtain ⟨u, h1, h2⟩ := ih.obj0 t v r hbt h
          exact ⟨a, _, by rw [hs, h1]; simp, ha, h2⟩
        · split at h
          · rename_i hc; subst hc
            obtain ⟨u, h1, h2⟩ := ih.arr0 t v r hbt h
            exact ⟨a, _, by rw [hs, h1]; simp, ha, h2⟩
          · split at h
            · rename_i hc; subst hc
              unfold parseString at h
              split at h
              · simp at h
              · rename_i raw r' hq
                split at h
                · simp at h
                · rename_i m hm
                  simp only [Res.ok.injEq] at h
                  obtain ⟨h1, h2⟩ := h
                  subst h1; subst h2
                  obtain ⟨b, g1, g2⟩ := parseQuoted_inv hq
                  have : b = [] := by
                    cases b with
                    | nil => rfl
                    | cons d b =>
                      have h3 := g1 d List.mem_cons_self
                      simp only [List.cons_append, List.cons.injEq] at g2; omega
                  subst this
                  simp only [List.nil_append, List.cons.injEq, true_and] at g2
                  have hraw : Bytes raw := by rw [g2] at hbt; exact hbt.left
                  refine ⟨a, _, ?_, ha, .str ((convertToString_iff raw m hraw).1 hm)⟩
                  rw [hs, g2]; simp
            · obtain ⟨u, h1, h2⟩ := parseValue_inv h
              refine ⟨a, u, by rw [hs, h2, List.append_assoc], ha, ?_⟩
              cases h1 with
              | null => exact .null
              | tru => exact .tru
              | fals => exact .fals
              | num h1 => exact .num h1
    · intro s ms m v r hb hm hms h
      have he : m.isEmpty = false := by cases m with | nil => exact absurd rfl hm | cons => rfl
      rcases objLoop_ok h with ⟨h1, rfl⟩ | ⟨r1, h1, hh⟩
      · obtain ⟨a, g1, g2⟩ := stateFor_stop_inv h1
        exact ⟨a, [], m, g2, .nil g1, by rw [List.append_nil]; exact hms, rfl⟩
      · obtain ⟨b, g1, g2, g3, _⟩ := stateFor_keep_inv h1
        rw [he] at hh
        simp only [separator, Bool.false_eq_true, if_false] at hh
        rcases hh with ⟨h2, rfl⟩ | ⟨r2, raw, r3, w, r4, k, h2, h3, h4, h5, h6⟩
        · obtain ⟨u, g4, g5⟩ := consumeComma_inv g3 (by simp) h2
          obtain ⟨g6, c, g7, g8⟩ := afterComma_stop_inv g5
          refine ⟨b ++ 0x2c :: c, [], m, ?_, .trailing g1 g6 g7, by rw [List.append_nil]; exact hms, rfl⟩
          rw [g2, g4, g8]; simp
        · obtain ⟨u, g4, g5⟩ := consumeComma_inv g3 (by simp) h2
          have hbu : Bytes u := by rw [g2, g4] at hb; exact hb.right.tail
          obtain ⟨c, t, k1, k2, k3⟩ : ∃ c t, ft.lang.beforeKey c ∧ u = c ++ t ++ r4 ∧
              JMember io ft.lang t k w := by
            rcases afterComma_keep_inv g5 with ⟨c, q1, q2, q3, _⟩ | rfl | ⟨t, q1, rfl⟩ |
              ⟨c, x, q1, q2, q3, q4, q5⟩
            · have hb2 : Bytes r2 := by rw [q2] at hbu; exact hbu.right
              obtain ⟨a', t, p1, p2, p3, p4⟩ := member_sound ih hb2 h3 h4 h5
              exact ⟨c ++ a', t, Or.inl (blank_append q1 (blank_of_libWs p1)),
                by rw [q2, p2]; simp, p3⟩
            · simp [parseKey, parseQuoted, consumeToken, skipWs] at h3
            · have hsk : skipWs (0x2f :: t) = 0x2f :: t := skipWs_stop (by decide) t
              simp [parseKey, parseQuoted, consumeToken, hsk] at h3
            · have hb2 : Bytes r2 := by rw [q5] at hbu; exact hbu.right.tail.tail
              obtain ⟨a', t, p1, p2, p3, p4⟩ := member_sound ih hb2 h3 h4 h5
              exact ⟨c ++ 0x2f :: x :: a', t, Or.inr ⟨rfl, c, x, a', q1, q2, q3, q4, p1, rfl⟩,
                by rw [q5, p2]; simp, p3⟩
          have hb4 : Bytes r4 := by rw [k2] at hbu; exact hbu.right
          obtain ⟨u', ms', m', p1, p2, p3, p4⟩ := ih.obj r4 _ _ v r hb4 (insert_ne_nil k w m)
            (mapOf_insert hms k w) h6
          refine ⟨b ++ 0x2c :: (c ++ t ++ u'), (k, w) :: ms', m', ?_, .cons g1 k1 k3 p2, ?_, p4⟩
          · rw [g2, g4, k2, p1]; simp
          · rw [List.append_assoc, List.singleton_append] at p3; exact p3
    · intro s v r hb h
      rcases objLoop_ok h with ⟨h1, rfl⟩ | ⟨r1, h1, hh⟩
      · obtain ⟨a, g1, g2⟩ := stateFor_stop_inv h1
        exact ⟨a, g2, .obj0 g1⟩
      · obtain ⟨b, g1, g2, g3, _⟩ := stateFor_keep_inv h1
        simp only [separator, List.isEmpty_nil, if_true] at hh
        rcases hh with ⟨h2, _⟩ | ⟨r2, raw, r3, w, r4, k, h2, h3, h4, h5, h6⟩
        · simp at h2
        · simp only [Prod.mk.injEq, true_and] at h2
          subst h2
          have hb1 : Bytes r1 := by rw [g2] at hb; exact hb.right
          obtain ⟨a', t, p1, p2, p3, p4⟩ := member_sound ih hb1 h3 h4 h5
          have hb4 : Bytes r4 := by rw [p2] at hb1; exact hb1.right
          obtain ⟨u', ms', m', q1, q2, q3, rfl⟩ := ih.obj r4 _ _ v r hb4 (insert_ne_nil k w [])
            (mapOf_insert mapOf_nil k w) h6
          refine ⟨(b ++ a') ++ t ++ u', ?_, .obj (blank_append g1 (blank_of_libWs p1)) p3 q2 q3⟩
          rw [g2, p2, q1]; simp
    · intro s l v r hb hl h
      have he : l.isEmpty = false := by cases l with | nil => exact absurd rfl hl | cons => rfl
      rcases arrLoop_ok h with ⟨h1, rfl⟩ | ⟨r1, h1, hh⟩
      · obtain ⟨a, g1, g2⟩ := stateFor_stop_inv h1
        exact ⟨a, [], g2, .nil g1, by rw [List.append_nil]⟩
      · obtain ⟨b, g1, g2, g3, _⟩ := stateFor_keep_inv h1
        rw [he] at hh
        simp only [separator, Bool.false_eq_true, if_false] at hh
        rcases hh with ⟨h2, rfl⟩ | ⟨r2, w, r4, h2, h4, h6⟩
        · obtain ⟨u, g4, g5⟩ := consumeComma_inv g3 (by simp) h2
          obtain ⟨g6, c, g7, g8⟩ := afterComma_stop_inv g5
          refine ⟨b ++ 0x2c :: c, [], ?_, .trailing g1 g6 g7, by rw [List.append_nil]⟩
          rw [g2, g4, g8]; simp
        · obtain ⟨u, g4, g5⟩ := consumeComma_inv g3 (by simp) h2
          have hbu : Bytes u := by rw [g2, g4] at hb; exact hb.right.tail
          obtain ⟨c, t, k1, k2, k3⟩ : ∃ c t, ft.lang.beforeElem c ∧ u = c ++ t ++ r4 ∧
              JValue io ft.lang t w := by
            rcases afterComma_keep_inv g5 with ⟨c, q1, q2, q3, _⟩ | rfl | ⟨t, q1, rfl⟩ |
              ⟨c, x, q1, q2, q3, q4, q5⟩
            · have hb2 : Bytes r2 := by rw [q2] at hbu; exact hbu.right
              obtain ⟨a', t, p1, p2, p3⟩ := ih.json _ _ _ hb2 h4
              exact ⟨c ++ a', t, Or.inl (blank_append q1 p2), by rw [q2, p1]; simp, p3⟩
            · obtain ⟨a', t, p1, p2, p3⟩ := ih.json _ _ _ (by intro b hb; simp at hb) h4
              obtain ⟨x, y, rfl, _⟩ := jvalue_head p3
              simp at p1
            · exfalso
              cases n with
              | zero => simp [parseJson] at h4
              | succ n =>
                have hw : wsComments ft.comments (0x2f :: t) = (false, 0x2f :: t) := by
                  rw [wsComments_slash, q1]; simp [skipComment]
                rw [parseJson, hw] at h4
                simp at h4
            · have hb2 : Bytes r2 := by rw [q5] at hbu; exact hbu.right.tail.tail
              obtain ⟨a', t, p1, p2, p3⟩ := ih.json _ _ _ hb2 h4
              exact ⟨c ++ 0x2f :: x :: a', t, Or.inr ⟨rfl, c, x, a', q1, q2, q3, q4, p2, rfl⟩,
                by rw [q5, p1]; simp, p3⟩
          have hb4 : Bytes r4 := by rw [k2] at hbu; exact hbu.right
          obtain ⟨u', vs, p1, p2, p4⟩ := ih.arr r4 _ v r hb4 (by simp) h6
          refine ⟨b ++ 0x2c :: (c ++ t ++ u'), w :: vs, ?_, .cons g1 k1 k3 p2, ?_⟩
          · rw [g2, g4, k2, p1]; simp
          · rw [p4]; simp
    · intro s v r hb h
      rcases arrLoop_ok h with ⟨h1, rfl⟩ | ⟨r1, h1, hh⟩
      · obtain ⟨a, g1, g2⟩ := stateFor_stop_inv h1
        exact ⟨a, g2, .arr0 g1⟩
      · obtain ⟨b, g1, g2, g3, _⟩ := stateFor_keep_inv h1
        simp only [separator, List.isEmpty_nil, if_true] at hh
        rcases hh with ⟨h2, _⟩ | ⟨r2, w, r4, h2, h4, h6⟩
        · simp at h2
        · simp only [Prod.mk.injEq, true_and] at h2
          subst h2
          have hb1 : Bytes r1 := by rw [g2] at hb; exact hb.right
          obtain ⟨a', t, p1, p2, p3⟩ := ih.json _ _ _ hb1 h4
          have hb4 : Bytes r4 := by rw [p1] at hb1; exact hb1.right
          obtain ⟨u', vs, q1, q2, rfl⟩ := ih.arr r4 _ v r hb4 (by simp) h6
          refine ⟨(b ++ a') ++ t ++ u', ?_, .arr (blank_append g1 p2) p3 q2⟩
          rw [g2, p1, q1]; simp

end Verif.Json
