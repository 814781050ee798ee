import Verif.Json.WorldProps

/-!
# C104, C105: loops over a JSON object with iterators, and the calls the library does not guard
-/

namespace Verif.Json

/-! ## One step of a loop -/

theorem begin_ans {cap : Nat} {w : World} {x : Nat} {es : List (Option (List Nat) × Value)}
    (he : Entries (w.value x) es) : ∃ b, Answers cap w (.beginOf x) (.it b) ∧ Stands w b x 0 ∧ Good w b := by
  have : ∃ b, beginOf w x = .ok b ∧ Stands w b x 0 := by
    generalize hu : w.value x = u at he
    cases he with
    | obj m => exact ⟨_, by rw [beginOf, hu], rfl, rfl, rfl⟩
    | arr l => exact ⟨_, by rw [beginOf, hu], rfl, rfl, rfl⟩
  obtain ⟨b, h1, h2⟩ := this
  exact ⟨b, by simp [Answers, call, pureCall, h1, Out.bind], h2, begin_good h1⟩

theorem end_ans {cap : Nat} {w : World} {x : Nat} {es : List (Option (List Nat) × Value)}
    (he : Entries (w.value x) es) :
    ∃ b, Answers cap w (.endOf x) (.it b) ∧ Stands w b x es.length ∧ Good w b := by
  have : ∃ b, endOf w x = .ok b ∧ Stands w b x es.length := by
    generalize hu : w.value x = u at he
    cases he with
    | obj m => exact ⟨_, by rw [endOf, hu], rfl, rfl, by simp⟩
    | arr l => exact ⟨_, by rw [endOf, hu], rfl, rfl, by simp⟩
  obtain ⟨b, h1, h2⟩ := this
  exact ⟨b, by simp [Answers, call, pureCall, h1, Out.bind], h2, end_good h1⟩

theorem ans_unique {cap : Nat} {w : World} {c : Call} {r r' : Got} (h : Answers cap w c r)
    (h' : Answers cap w c r') : r = r' := by
  unfold Answers at h h'
  rw [h] at h'
  cases h'
  rfl

theorem ne_ans {cap : Nat} {w : World} {i j : It} {x a b : Nat} (gi : Good w i) (gj : Good w j)
    (si : Stands w i x a) (sj : Stands w j x b) : Answers cap w (.ne i j) (.flag (decide (a ≠ b))) := by
  simp [Answers, call, pureCall, Out.bind, itNe, eq_at gi gj si sj]

theorem get_ans {cap : Nat} {w : World} {x : Nat} {es : List (Option (List Nat) × Value)}
    (he : Entries (w.value x) es) {i : It} {n : Nat} (si : Stands w i x n) {k : Option (List Nat)} {v : Value}
    (hv : es[n]? = some (k, v)) : Answers cap w (.get i) (.val v) := by
  have hel : elements (w.value x) = some (es.map (·.2)) := by
    generalize w.value x = u at he
    cases he with
    | obj m => simp [elements, List.map_map, Function.comp_def]
    | arr l => simp [elements, List.map_map, Function.comp_def]
  obtain ⟨g1, g2, g3⟩ := si
  have hlt : n < es.length := by
    rcases List.getElem?_eq_some_iff.1 hv with ⟨q, _⟩; exact q
  have hn : ¬ n = es.length := by omega
  simp [Answers, call, pureCall, itGet, validate, g1, Out.bind, live_of g2, hel, deref, hn, g3, hv]

theorem move_ans {w : World} {x : Nat} {es : List (Option (List Nat) × Value)}
    (he : Entries (w.value x) es) {i : It} {n k : Nat} (si : Stands w i x n) (gi : Good w i) {off : Int}
    (hn : n ≤ es.length) (hk : (n : Int) + off = k) (hle : k ≤ es.length) (ho : off ≠ -(2 ^ 63)) :
    ∃ j, itMove w i off = .ok j ∧ Stands w j x k ∧ Good w j := by
  have hel : elements (w.value x) = some (es.map (·.2)) := by
    generalize w.value x = u at he
    cases he with
    | obj m => simp [elements, List.map_map, Function.comp_def]
    | arr l => simp [elements, List.map_map, Function.comp_def]
  obtain ⟨g1, g2, g3⟩ := si
  have hm : moveBy (es.map (·.2)).length i.pos off = .ok k := by
    rcases move_spec (l := es.map (·.2)) (pos := i.pos) (off := off) (by simp; omega) ho with
      ⟨q, q1, q2, q3⟩ | ⟨q1, q3⟩
    · rw [q3]
      have : q = k := by omega
      rw [this]
    · simp at q1; omega
  have e : itMove w i off = .ok { i with pos := k } := by
    unfold itMove validate
    rw [g1]
    simp only [Out.bind, live_of g2, if_true, hel, hm]
  exact ⟨_, e, ⟨g1, g2, rfl⟩, move_good gi e⟩

/-! ## Seeing every entry -/

theorem sees_from {cap : Nat} {w : World} {x : Nat} {es : List (Option (List Nat) × Value)}
    (he : Entries (w.value x) es) : ∀ (n : Nat) (i : It), Stands w i x n → Good w i → n ≤ es.length →
    Sees cap w x i ((es.drop n).map (·.2)) := by
  intro n
  induction hd : es.length - n generalizing n with
  | zero =>
    intro i si gi hn
    have hn : n = es.length := by omega
    subst hn
    obtain ⟨e, h1, h2, h3⟩ := end_ans (cap := cap) he
    simp only [List.drop_length, List.map_nil]
    refine .done h1 ?_
    simpa using ne_ans (cap := cap) gi h3 si h2
  | succ d ih =>
    intro i si gi hn
    obtain ⟨e, h1, h2, h3⟩ := end_ans (cap := cap) he
    have hlt : n < es.length := by omega
    obtain ⟨j, m1, m2, m3⟩ := move_ans he si gi (off := 1) (k := n + 1) hn (by omega) (by omega) (by decide)
    rw [List.drop_eq_getElem_cons hlt, List.map_cons]
    have hne : decide (n ≠ es.length) = true := by simp; omega
    refine .next h1 (hne ▸ ne_ans (cap := cap) gi h3 si h2)
      (get_ans he si (k := es[n].1) (List.getElem?_eq_getElem hlt))
      (by simp [Answers, call, pureCall, m1, Out.bind]) (ih (n + 1) (by omega) j m2 m3 (by omega))

theorem sees_unique {cap : Nat} {w : World} {x : Nat} {i : It} {vs vs' : List Value}
    (h : Sees cap w x i vs) (h' : Sees cap w x i vs') : vs = vs' := by
  induction h generalizing vs' with
  | done h1 h2 =>
    cases h' with
    | done => rfl
    | next g1 g2 =>
      cases ans_unique h1 g1
      cases ans_unique h2 g2
  | next h1 h2 h3 h4 _ ih =>
    cases h' with
    | done g1 g2 =>
      cases ans_unique h1 g1
      cases ans_unique h2 g2
    | next g1 g2 g3 g4 g5 =>
      cases ans_unique h3 g3
      cases ans_unique h4 g4
      rw [ih g5]

theorem sees_back_from {cap : Nat} {w : World} {x : Nat} {es : List (Option (List Nat) × Value)}
    (he : Entries (w.value x) es) : ∀ (n : Nat) (i : It), Stands w i x n → Good w i → n ≤ es.length →
    SeesBack cap w x i ((es.take n).map (·.2)).reverse := by
  intro n
  induction n with
  | zero =>
    intro i si gi hn
    obtain ⟨e, h1, h2, h3⟩ := begin_ans (cap := cap) he
    simp only [List.take_zero, List.map_nil, List.reverse_nil]
    refine .done h1 ?_
    simpa using ne_ans (cap := cap) gi h3 si h2
  | succ n ih =>
    intro i si gi hn
    obtain ⟨e, h1, h2, h3⟩ := begin_ans (cap := cap) he
    have hlt : n < es.length := by omega
    obtain ⟨j, m1, m2, m3⟩ := move_ans he si gi (off := -1) (k := n) hn (by omega) (by omega) (by decide)
    rw [List.take_succ_eq_append_getElem hlt, List.map_append, List.reverse_append]
    have hne : decide (n + 1 ≠ 0) = true := by simp
    have hg := get_ans (cap := cap) he m2 (k := es[n].1) (v := es[n].2) (List.getElem?_eq_getElem hlt)
    refine .next h1 (hne ▸ ne_ans (cap := cap) gi h3 si h2) (v := es[n].2) ?_
      (by simp [Answers, call, pureCall, m1, Out.bind]) (ih j m2 m3 (by omega))
    simp only [Answers, call, pureCall, revGet, m1, Out.bind] at hg ⊢
    exact hg

theorem sees_back_unique {cap : Nat} {w : World} {x : Nat} {i : It} {vs vs' : List Value}
    (h : SeesBack cap w x i vs) (h' : SeesBack cap w x i vs') : vs = vs' := by
  induction h generalizing vs' with
  | done h1 h2 =>
    cases h' with
    | done => rfl
    | next g1 g2 =>
      cases ans_unique h1 g1
      cases ans_unique h2 g2
  | next h1 h2 h3 h4 _ ih =>
    cases h' with
    | done g1 g2 =>
      cases ans_unique h1 g1
      cases ans_unique h2 g2
    | next g1 g2 g3 g4 g5 =>
      cases ans_unique h3 g3
      cases ans_unique h4 g4
      rw [ih g5]

/-- C104: a loop from `begin()` to `end()` runs through the entries in order and stops; so does a reverse
loop in the opposite order. Nothing else can be iterated. -/
theorem json_traversal {cap : Nat} (w : World) (x : Nat) :
    (∀ es, Entries (w.value x) es →
      (∃ b, Answers cap w (.beginOf x) (.it b) ∧ ∀ vs, Sees cap w x b vs ↔ vs = es.map (·.2)) ∧
      (∃ e, Answers cap w (.endOf x) (.it e) ∧ ∀ vs, SeesBack cap w x e vs ↔ vs = (es.map (·.2)).reverse)) ∧
    ((∀ es, ¬ Entries (w.value x) es) →
      call cap w (.beginOf x) = .threw ∧ call cap w (.endOf x) = .threw) := by
  constructor
  · intro es he
    obtain ⟨b, h1, h2, h3⟩ := begin_ans (cap := cap) he
    obtain ⟨e, g1, g2, g3⟩ := end_ans (cap := cap) he
    refine ⟨⟨b, h1, fun vs => ?_⟩, ⟨e, g1, fun vs => ?_⟩⟩
    · have := sees_from (cap := cap) he 0 b h2 h3 (by omega)
      rw [List.drop_zero] at this
      exact ⟨fun q => sees_unique q this, fun q => q ▸ this⟩
    · have := sees_back_from (cap := cap) he es.length e g2 g3 (by omega)
      rw [List.take_length] at this
      exact ⟨fun q => sees_back_unique q this, fun q => q ▸ this⟩
  · intro hn
    cases hv : w.value x with
    | obj m => exact absurd (hv ▸ Entries.obj m) (hn _)
    | arr l => exact absurd (hv ▸ Entries.arr l) (hn _)
    | _ => simp [call, pureCall, beginOf, endOf, hv, Out.bind]

/-! ## Assigning through an iterator, `front` and `back` -/

/-- C104: `*it = v` changes that entry only, keeps its key and all iterators; `front()` and `back()` are
the first and the last entry and throw if there is none. -/
theorem json_assign_front_back {cap : Nat} (hc : cap < 2 ^ 63) {w : World} {its : List It}
    (h : Prog cap w its) {x : Nat} {es : List (Option (List Nat) × Value)} (he : Entries (w.value x) es) :
    (∀ i ∈ its, ∀ p k u r v, es = p ++ (k, u) :: r → Stands w i x p.length →
      ∃ w', call cap w (.set i v) = .ok (w', .unit) ∧ Entries (w'.value x) (p ++ (k, v) :: r) ∧
        (∀ y, y ≠ x → w'.value y = w.value y) ∧ w'.ver = w.ver) ∧
    (∀ k u r, es = (k, u) :: r → Answers cap w (.front x) (.val u)) ∧
    (∀ k u p, es = p ++ [(k, u)] → Answers cap w (.back x) (.val u)) ∧
    (es = [] → call cap w (.front x) = .threw ∧ call cap w (.back x) = .threw) := by
  have inv := prog_inv hc h
  obtain ⟨b, b1, b2, b3⟩ := begin_ans (cap := cap) he
  obtain ⟨e, e1, e2, e3⟩ := end_ans (cap := cap) he
  have hb : beginOf w x = .ok b := by
    simp only [Answers, call, pureCall] at b1
    cases q : beginOf w x <;> rw [q] at b1 <;> simp [Out.bind] at b1
    rw [b1]
  have hend : endOf w x = .ok e := by
    simp only [Answers, call, pureCall] at e1
    cases q : endOf w x <;> rw [q] at e1 <;> simp [Out.bind] at e1
    rw [e1]
  refine ⟨?_, ?_, ?_, ?_⟩
  · intro i hi p k u r v hes si
    have hg : itGet w i = .ok u := by
      have := get_ans (cap := cap) he si (k := k) (v := u) (by rw [hes]; simp)
      simp only [Answers, call, pureCall] at this
      cases q : itGet w i <;> rw [q] at this <;> simp [Out.bind] at this
      rw [this]
    obtain ⟨g1, g2, g3⟩ := si
    generalize hu : w.value x = V at he
    cases he with
    | obj m =>
      refine ⟨w.poke x (.obj (m.mapIdx fun n e => if n = i.pos then (e.1, v) else e)), ?_, ?_, ?_, rfl⟩
      · simp [call, itSet, hg, Out.bind, g1, hu]
      · have : p ++ (k, v) :: r = (m.mapIdx fun n e => if n = i.pos then (e.1, v) else e).map
            fun e => (some e.1, e.2) := by
          obtain ⟨m1, m2, rfl, hp, h2⟩ := List.map_eq_append_iff.1 hes
          cases m2 with
          | nil => simp at h2
          | cons f m2 =>
            simp only [List.map_cons, List.cons.injEq, Prod.mk.injEq] at h2
            have hlen : p.length = m1.length := by rw [← hp]; simp
            rw [List.mapIdx_append, List.mapIdx_cons, List.map_append, List.map_cons, ← hp, ← h2.2, ← h2.1.1]
            congr 1
            · apply List.ext_getElem
              · simp
              · intro n q1 q2
                simp only [List.length_map] at q1
                have : n ≠ i.pos := by omega
                simp [this]
            · congr 1
              · rw [if_pos (by omega)]
              · apply List.ext_getElem
                · simp
                · intro n q1 q2
                  simp only [List.length_map] at q1
                  have : ¬ (n + 1 + m1.length = i.pos) := by omega
                  simp [this]
        rw [this]
        have hv : (w.poke x (.obj (m.mapIdx fun n e => if n = i.pos then (e.1, v) else e))).value x =
          .obj (m.mapIdx fun n e => if n = i.pos then (e.1, v) else e) := by simp [World.poke]
        rw [hv]
        exact .obj _
      · intro y hy; simp [World.poke, hy]
    | arr l =>
      refine ⟨w.poke x (.arr (l.set i.pos v)), ?_, ?_, ?_, rfl⟩
      · simp [call, itSet, hg, Out.bind, g1, hu]
      · have : p ++ (k, v) :: r = (l.set i.pos v).map fun v => (none, v) := by
          obtain ⟨m1, m2, rfl, hp, h2⟩ := List.map_eq_append_iff.1 hes
          cases m2 with
          | nil => simp at h2
          | cons f m2 =>
            simp only [List.map_cons, List.cons.injEq, Prod.mk.injEq] at h2
            have hlen : p.length = m1.length := by rw [← hp]; simp
            rw [g3, hlen, List.set_append_right _ _ (Nat.le_refl _), Nat.sub_self, List.set_cons_zero,
              List.map_append, List.map_cons, ← hp, ← h2.2, ← h2.1.1]
        rw [this]
        have hv : (w.poke x (.arr (l.set i.pos v))).value x = .arr (l.set i.pos v) := by simp [World.poke]
        rw [hv]
        exact .arr _
      · intro y hy; simp [World.poke, hy]
  · intro k u r hes
    have := get_ans (cap := cap) he b2 (k := k) (v := u) (by rw [hes]; rfl)
    simp only [Answers, call, pureCall, frontOf, hb, Out.bind] at this ⊢
    exact this
  · intro k u p hes
    have hl : es.length = p.length + 1 := by rw [hes]; simp
    obtain ⟨j, m1, m2, m3⟩ := move_ans he e2 e3 (off := -1) (k := p.length) (by omega) (by omega) (by omega)
      (by decide)
    have := get_ans (cap := cap) he m2 (k := k) (v := u) (by rw [hes]; simp)
    have hne : itNe w e b = .ok true := by
      have := eq_at e3 b3 e2 b2
      rw [itNe, this]
      simp [Out.bind, hl]
    simp only [Answers, call, pureCall, backOf, hb, hend, hne, m1, Out.bind, if_true] at this ⊢
    exact this
  · intro hes
    have hel : elements (w.value x) = some [] := by
      generalize w.value x = u at he
      subst hes
      generalize hq : ([] : List (Option (List Nat) × Value)) = q at he
      cases he with
      | obj m => cases m <;> simp at hq; simp [elements]
      | arr l => cases l <;> simp at hq; simp [elements]
    have gb : itGet w b = .threw := by
      simp [itGet, validate, b2.1, Out.bind, live_of b2.2.1, hel, deref, b2.2.2]
    have ge : itGet w e = .threw := by
      simp [itGet, validate, e2.1, Out.bind, live_of e2.2.1, hel, deref, e2.2.2, hes]
    have hne : itNe w e b = .ok false := by
      have := eq_at e3 b3 e2 b2
      rw [itNe, this]
      simp [Out.bind, hes]
    simp [call, pureCall, frontOf, backOf, hb, hend, hne, gb, ge, Out.bind]

/-! ## Erasing in a loop -/

theorem erase_entries {cap : Nat} {w : World} {x : Nat} {es : List (Option (List Nat) × Value)}
    (he : Entries (w.value x) es) {i : It} {n : Nat} (si : Stands w i x n) (gi : Good w i)
    (hn : n < es.length) :
    ∃ w' j, call cap w (.erase x i) = .ok (w', .it j) ∧ Entries (w'.value x) (es.take n ++ es.drop (n + 1)) ∧
      (∀ y, y ≠ x → w'.value y = w.value y ∧ w'.ver y = w.ver y) ∧ Stands w' j x n ∧ Good w' j := by
  obtain ⟨e1, e2⟩ := erase_at gi si
  generalize hu : w.value x = u at he
  cases he with
  | obj m =>
    simp only [List.length_map] at hn
    have hs : m = m.take n ++ m[n] :: m.drop (n + 1) := by
      rw [← List.drop_eq_getElem_cons hn, List.take_append_drop]
    have hl : (m.take n).length = n := by rw [List.length_take]; omega
    have e := e2 (m.take n) m[n] (m.drop (n + 1)) (by rw [← hs]; exact hu) hl
    refine ⟨_, _, by rw [call, e]; rfl, ?_, (only_put w x _).2, stands_put _ _ _ _ _, ?_⟩
    · rw [put_value, ← List.map_take, ← List.map_drop, ← List.map_append]
      exact .obj _
    · exact good_put_new (n := (m.take n ++ m.drop (n + 1)).length) rfl (by rw [List.length_append, hl]; omega)
  | arr m =>
    simp only [List.length_map] at hn
    have hs : m = m.take n ++ m[n] :: m.drop (n + 1) := by
      rw [← List.drop_eq_getElem_cons hn, List.take_append_drop]
    have hl : (m.take n).length = n := by rw [List.length_take]; omega
    have e := e1 (m.take n) m[n] (m.drop (n + 1)) (by rw [← hs]; exact hu) hl
    refine ⟨_, _, by rw [call, e]; rfl, ?_, (only_put w x _).2, stands_put _ _ _ _ _, ?_⟩
    · rw [put_value, ← List.map_take, ← List.map_drop, ← List.map_append]
      exact .arr _
    · exact good_put_new (n := (m.take n ++ m.drop (n + 1)).length) rfl (by rw [List.length_append, hl]; omega)

theorem erase_loop_from {cap : Nat} (p : Value → Bool) (x : Nat) : ∀ (d : Nat) (w : World)
    (es : List (Option (List Nat) × Value)) (n : Nat) (i : It), Entries (w.value x) es →
    Stands w i x n → Good w i → n + d = es.length →
    ∃ w', EraseLoop cap p x w i w' ∧
      Entries (w'.value x) (es.take n ++ (es.drop n).filter fun e => !p e.2) ∧
      ∀ y, y ≠ x → w'.value y = w.value y ∧ w'.ver y = w.ver y := by
  intro d
  induction d with
  | zero =>
    intro w es n i he si gi hn
    have hn : n = es.length := by omega
    subst hn
    obtain ⟨e, h1, h2, h3⟩ := end_ans (cap := cap) he
    refine ⟨w, .done h1 ?_, ?_, fun y _ => ⟨rfl, rfl⟩⟩
    · simpa using ne_ans (cap := cap) gi h3 si h2
    · simpa using he
  | succ d ih =>
    intro w es n i he si gi hn
    have hlt : n < es.length := by omega
    obtain ⟨e, h1, h2, h3⟩ := end_ans (cap := cap) he
    have hne : decide (n ≠ es.length) = true := by simp; omega
    have hne' := hne ▸ ne_ans (cap := cap) gi h3 si h2
    have hg := get_ans (cap := cap) he si (k := es[n].1) (v := es[n].2) (List.getElem?_eq_getElem hlt)
    rw [List.drop_eq_getElem_cons hlt, List.filter_cons]
    cases hp : p es[n].2 with
    | true =>
      obtain ⟨w', j, c1, c2, c3, c4, c5⟩ := erase_entries (cap := cap) he si gi hlt
      have hl : (es.take n).length = n := by rw [List.length_take]; omega
      obtain ⟨w'', l1, l2, l3⟩ := ih w' _ n j c2 c4 c5 (by simp; omega)
      rw [take_append_len hl, drop_append_len hl] at l2
      refine ⟨w'', .drop h1 hne' hg hp c1 l1, by simpa using l2, fun y hy => ?_⟩
      exact ⟨(l3 y hy).1.trans (c3 y hy).1, (l3 y hy).2.trans (c3 y hy).2⟩
    | false =>
      obtain ⟨j, m1, m2, m3⟩ := move_ans he si gi (off := 1) (k := n + 1) (by omega) (by omega) (by omega)
        (by decide)
      obtain ⟨w'', l1, l2, l3⟩ := ih w es (n + 1) j he m2 m3 (by omega)
      refine ⟨w'', .keep h1 hne' hg hp (by simp [Answers, call, pureCall, m1, Out.bind]) l1, ?_, l3⟩
      rw [List.take_succ_eq_append_getElem hlt, List.append_assoc] at l2
      exact l2

theorem erase_loop_unique {cap : Nat} {p : Value → Bool} {x : Nat} {w w1 w2 : World} {i : It}
    (h : EraseLoop cap p x w i w1) (h' : EraseLoop cap p x w i w2) : w1 = w2 := by
  induction h generalizing w2 with
  | done h1 h2 =>
    cases h' with
    | done => rfl
    | drop g1 g2 => cases ans_unique h1 g1; cases ans_unique h2 g2
    | keep g1 g2 => cases ans_unique h1 g1; cases ans_unique h2 g2
  | drop h1 h2 h3 h4 h5 _ ih =>
    cases h' with
    | done g1 g2 => cases ans_unique h1 g1; cases ans_unique h2 g2
    | drop g1 g2 g3 g4 g5 g6 =>
      rw [h5] at g5
      cases g5
      exact ih g6
    | keep g1 g2 g3 g4 =>
      cases ans_unique h3 g3
      rw [h4] at g4
      cases g4
  | keep h1 h2 h3 h4 h5 _ ih =>
    cases h' with
    | done g1 g2 => cases ans_unique h1 g1; cases ans_unique h2 g2
    | drop g1 g2 g3 g4 =>
      cases ans_unique h3 g3
      rw [h4] at g4
      cases g4
    | keep g1 g2 g3 g4 g5 g6 =>
      cases ans_unique h5 g5
      exact ih g6

/-- C105: the usual loop that erases while it iterates ends, whatever the predicate, leaves exactly the
entries the predicate rejects, in their order, and no other object (or iterator into one) is affected. -/
theorem json_erase_loop {cap : Nat} (p : Value → Bool) {w : World} {x : Nat}
    {es : List (Option (List Nat) × Value)} (he : Entries (w.value x) es) :
    ∃ b, Answers cap w (.beginOf x) (.it b) ∧
      (∃ w', EraseLoop cap p x w b w') ∧
      ∀ w', EraseLoop cap p x w b w' →
        Entries (w'.value x) (es.filter fun e => !p e.2) ∧
        ∀ y, y ≠ x → w'.value y = w.value y ∧ w'.ver y = w.ver y := by
  obtain ⟨b, h1, h2, h3⟩ := begin_ans (cap := cap) he
  obtain ⟨w', l1, l2, l3⟩ := erase_loop_from (cap := cap) p x es.length w es 0 b he h2 h3 (by omega)
  refine ⟨b, h1, ⟨w', l1⟩, fun w2 h => ?_⟩
  cases erase_loop_unique l1 h
  exact ⟨by simpa using l2, l3⟩

/-! ## Concrete programs, and what the library does not check -/

/-- The hypotheses of `json_iterators_safe_partial` are met by a call that uses three iterators. -/
example : Prog 100 exWorld exIts ∧ (∀ i ∈ (Call.eraseRange 0 ⟨some 0, 1, true, 0⟩ ⟨some 0, 1, true, 3⟩).uses,
    i ∈ exIts ∧ Usable exWorld i) ∧ (Call.eraseRange 0 ⟨some 0, 1, true, 0⟩ ⟨some 0, 1, true, 3⟩).Sane := by
  refine ⟨exProg (by omega), ?_, by simp [Call.Sane]⟩
  intro i hi
  have : i ∈ exIts := by
    simp only [Call.uses, List.mem_cons, List.not_mem_nil, or_false] at hi
    rcases hi with rfl | rfl <;> simp [exIts]
  exact ⟨this, exUsable i this⟩

/-- The hypotheses of the theorems on positions, reading and splicing: places 0 and 3 of an array. -/
example : Stands exWorld ⟨some 0, 1, true, 0⟩ 0 0 ∧ Stands exWorld ⟨some 0, 1, true, 3⟩ 0 3 ∧
    Stands exWorld ⟨some 2, 1, false, 0⟩ 2 0 ∧ exWorld.value 0 = exArr ∧ exWorld.value 1 = exObj ∧
    Entries (exWorld.value 2) [(some [0x61], .uint 1), (some [0x62], .bool true)] :=
  ⟨⟨rfl, rfl, rfl⟩, ⟨rfl, rfl, rfl⟩, ⟨rfl, rfl, rfl⟩, rfl, rfl, .obj [([0x61], .uint 1), ([0x62], .bool true)]⟩

/-- C103 violated: with iterators that are all usable, and calls that only use them on their own objects,
the program is undefined when a range is given the wrong way round, when the entries of an object are
inserted into itself, or with the offset -2^63. Nothing in the library rejects these calls. -/
theorem json_iterators_unchecked_violated : ∃ (w : World) (its : List It), Prog 100 w its ∧
    (∀ i ∈ its, Usable w i) ∧
    (∃ i ∈ its, ∃ j ∈ its, call 100 w (.eraseRange 0 i j) = .ub) ∧
    (∃ i ∈ its, ∃ j ∈ its, call 100 w (.eraseRange 2 i j) = .ub) ∧
    (∃ i ∈ its, ∃ j ∈ its, call 100 w (.insertEntries 1 i j) = .ub) ∧
    (∃ i ∈ its, ∃ j ∈ its, call 100 w (.insertEntries 2 i j) = .ub ∧ i.pos ≤ j.pos) ∧
    (∃ i ∈ its, call 100 w (.add i (-(2 ^ 63))) = .ub) := by
  refine ⟨exWorld, exIts, exProg (by omega), exUsable,
    ⟨⟨some 0, 1, true, 3⟩, by simp [exIts], ⟨some 0, 1, true, 0⟩, by simp [exIts], rfl⟩,
    ⟨⟨some 2, 1, false, 2⟩, by simp [exIts], ⟨some 2, 1, false, 0⟩, by simp [exIts], rfl⟩,
    ⟨⟨some 2, 1, false, 2⟩, by simp [exIts], ⟨some 2, 1, false, 0⟩, by simp [exIts], rfl⟩,
    ⟨⟨some 2, 1, false, 0⟩, by simp [exIts], ⟨some 2, 1, false, 2⟩, by simp [exIts], rfl, by simp⟩,
    ⟨⟨some 0, 1, true, 3⟩, by simp [exIts], rfl⟩⟩

end Verif.Json
