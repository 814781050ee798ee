import Verif.Json.WorldProof

/-!
# C103-C105: programs with several JSON objects and iterators
-/

namespace Verif.Json

/-! ## A concrete program, which meets the hypotheses of the theorems -/

/-- The bytes of "a", "b". -/
def exObj : Value := .obj [([0x61], .uint 1), ([0x62], .bool true)]
def exArr : Value := .arr [.uint 1, .uint 2, .uint 3]

/-- Two objects, an array and iterators at both ends of two of them. -/
def exWorld : World :=
  (((⟨fun _ => .null, fun _ => 0⟩ : World).put 0 exArr).put 1 exObj).put 2 exObj
def exIts : List It :=
  [⟨some 2, 1, false, 2⟩, ⟨some 2, 1, false, 0⟩, ⟨some 0, 1, true, 3⟩, ⟨some 0, 1, true, 0⟩]

theorem exProg {cap : Nat} (h : 3 ≤ cap) : Prog cap exWorld exIts := by
  have s0 : Prog cap ⟨fun _ => .null, fun _ => 0⟩ [] := .start
  have so : SortedKeys [([0x61], Value.uint 1), ([0x62], .bool true)] := by
    unfold SortedKeys
    decide
  have s1 := Prog.call (c := .make 0 exArr) s0 (by exact h) (by simp [Call.uses]) rfl
  have s2 := Prog.call (c := .make 1 exObj) s1 so (by simp [Call.uses]) rfl
  have s3 := Prog.call (c := .make 2 exObj) s2 so (by simp [Call.uses]) rfl
  have s4 := Prog.call (c := .beginOf 0) s3 trivial (by simp [Call.uses]) rfl
  have s5 := Prog.call (c := .endOf 0) s4 trivial (by simp [Call.uses]) rfl
  have s6 := Prog.call (c := .beginOf 2) s5 trivial (by simp [Call.uses]) rfl
  have s7 := Prog.call (c := .endOf 2) s6 trivial (by simp [Call.uses]) rfl
  exact s7

theorem exUsable : ∀ i ∈ exIts, Usable exWorld i := by
  intro i hi x hx
  simp only [exIts, List.mem_cons, List.not_mem_nil, or_false] at hi
  rcases hi with rfl | rfl | rfl | rfl <;> simp at hx <;> subst hx <;> rfl

/-! ## Usable iterators -/

theorem usable_cases {w : World} {i : It} (hg : Good w i) (hu : Usable w i) :
    i.owner = none ∨ ∃ x, i.owner = some x ∧ i.ver = w.ver x ∧
      ((∃ m, w.value x = .obj m ∧ i.isArr = false ∧ i.pos ≤ m.length) ∨
       (∃ l, w.value x = .arr l ∧ i.isArr = true ∧ i.pos ≤ l.length)) := by
  cases ho : i.owner with
  | none => exact Or.inl rfl
  | some x => exact Or.inr ⟨x, rfl, hu x ho, good_elim hg ⟨ho, hu x ho, rfl⟩⟩

theorem live_of {w : World} {i : It} {x : Nat} (h : i.ver = w.ver x) : live w i x = true := by
  simp [live, h]

theorem pair_cases (i j : It) : validatePair i j = .threw ∨
    ∃ x, i.owner = some x ∧ j.owner = some x ∧ validatePair i j = .ok x := by
  unfold validatePair
  split
  · rename_i x y hx hy
    by_cases h : x = y
    · subst h; rw [if_pos rfl]; exact Or.inr ⟨x, hx, hy, rfl⟩
    · rw [if_neg h]; exact Or.inl rfl
  · exact Or.inl rfl

theorem eq_safe {w : World} {i j : It} (hi : Usable w i) (hj : Usable w j) : itEq w i j ≠ .ub := by
  unfold itEq
  rcases pair_cases i j with h | ⟨x, h1, h2, h⟩
  · rw [h]; simp [Out.bind]
  · rw [h]
    simp only [Out.bind, live_of (hi x h1), live_of (hj x h2), Bool.and_self, if_true]
    simp

theorem lt_safe {w : World} {i j : It} (hi : Usable w i) (hj : Usable w j) : itLt w i j ≠ .ub := by
  unfold itLt
  rcases pair_cases i j with h | ⟨x, h1, h2, h⟩
  · rw [h]; simp [Out.bind]
  · rw [h]
    simp only [Out.bind, live_of (hi x h1), live_of (hj x h2), Bool.and_self, if_true]
    split <;> simp

theorem diff_safe {w : World} {i j : It} (hi : Usable w i) (hj : Usable w j) : itDiff w i j ≠ .ub := by
  unfold itDiff
  rcases pair_cases i j with h | ⟨x, h1, h2, h⟩
  · rw [h]; simp [Out.bind]
  · rw [h]
    simp only [Out.bind, live_of (hi x h1), live_of (hj x h2), Bool.and_self, if_true]
    split <;> simp

theorem moveBy_safe {n p : Nat} {off : Int} (h : off ≠ -(2 ^ 63)) : moveBy n p off ≠ .ub := by
  unfold moveBy validateOffset
  rw [if_neg h]
  by_cases h0 : 0 ≤ off
  · rw [if_pos h0]
    by_cases h1 : off > (n : Int) - p
    · rw [if_pos h1]; simp
    · rw [if_neg h1]; simp
  · rw [if_neg h0]
    by_cases h1 : -off > (p : Int)
    · rw [if_pos h1]; simp
    · rw [if_neg h1]; simp

theorem move_safe {w : World} {i : It} {off : Int} (hi : Usable w i) (h : off ≠ -(2 ^ 63)) :
    itMove w i off ≠ .ub := by
  unfold itMove validate
  cases ho : i.owner with
  | none => simp [Out.bind]
  | some x =>
    simp only [Out.bind, live_of (hi x ho), if_true]
    cases elements (w.value x) with
    | none => simp
    | some l =>
      simp only
      cases hm : moveBy l.length i.pos off with
      | ok p => simp
      | threw => simp
      | ub => exact absurd hm (moveBy_safe h)

theorem move_usable {w : World} {i j : It} {off : Int} (hi : Usable w i) (h : itMove w i off = .ok j) :
    Usable w j := by
  unfold itMove at h
  rw [bind_ok] at h
  obtain ⟨x, -, h⟩ := h
  split at h
  · split at h
    · rw [bind_ok] at h
      obtain ⟨p, -, h⟩ := h
      simp only [Out.ok.injEq] at h
      subst h
      exact hi
    · simp at h
  · simp at h

theorem add_safe {w : World} {i : It} {off : Int} (hi : Usable w i) (h : off ≠ -(2 ^ 63)) :
    itAdd w i off ≠ .ub := by
  unfold itAdd validate
  cases ho : i.owner with
  | none => simp [Out.bind]
  | some x =>
    simp only [Out.bind]
    split
    · exact move_safe hi h
    · simp

theorem add_usable {w : World} {i j : It} {off : Int} (hi : Usable w i) (h : itAdd w i off = .ok j) :
    Usable w j := by
  unfold itAdd at h
  rw [bind_ok] at h
  obtain ⟨x, -, h⟩ := h
  split at h
  · exact move_usable hi h
  · simp at h

theorem elements_obj {m : List (List Nat × Value)} : elements (.obj m) = some (m.map (·.2)) := rfl
theorem elements_arr {l : List Value} : elements (.arr l) = some l := rfl

theorem get_safe {w : World} {i : It} (hg : Good w i) (hi : Usable w i) : itGet w i ≠ .ub := by
  unfold itGet validate
  rcases usable_cases hg hi with ho | ⟨x, ho, hv, ⟨m, hm, -, hp⟩ | ⟨l, hm, -, hp⟩⟩
  · rw [ho]; simp [Out.bind]
  · rw [ho]
    simp only [Out.bind, live_of hv, if_true, hm, elements_obj]
    rcases deref_spec (l := m.map (·.2)) (q := i.pos) (by simpa using hp) with ⟨y, -, h⟩ | ⟨-, h⟩ <;>
      rw [h] <;> simp
  · rw [ho]
    simp only [Out.bind, live_of hv, if_true, hm, elements_arr]
    rcases deref_spec (l := l) (q := i.pos) hp with ⟨y, -, h⟩ | ⟨-, h⟩ <;> rw [h] <;> simp

theorem key_safe {w : World} {i : It} (hg : Good w i) (hi : Usable w i) : itKey w i ≠ .ub := by
  unfold itKey validate
  rcases usable_cases hg hi with ho | ⟨x, ho, hv, ⟨m, hm, ha, hp⟩ | ⟨l, hm, ha, hp⟩⟩
  · rw [ho]; simp [Out.bind]
  · rw [ho]
    simp only [Out.bind, live_of hv, if_true, hm, ha, Bool.false_eq_true, if_false]
    split
    · simp
    · rename_i hne
      have : i.pos < m.length := by omega
      rw [List.getElem?_eq_getElem this]
      simp
  · rw [ho]
    simp [Out.bind, ha]

theorem array_insert_safe {cap : Nat} {w : World} {x : Nat} {pos : It} {vs : List Value} (hg : Good w pos)
    (hu : Usable w pos) : arrayInsert cap w x pos vs ≠ .ub := by
  intro h
  unfold arrayInsert at h
  split at h
  · rename_i l hl
    split at h
    · rename_i ho
      split at h
      · rw [live_of (hu x ho), if_pos rfl] at h
        rcases good_elim hg ⟨ho, hu x ho, rfl⟩ with ⟨m, hm, _⟩ | ⟨l', hl', -, hp⟩
        · rw [hl] at hm; cases hm
        · rw [hl] at hl'; cases hl'
          rw [if_pos hp] at h
          split at h <;> simp at h
      · simp at h
    · simp at h
  · simp at h

/-- C103: a program that uses no dangling iterator never reaches undefined behaviour in the calls
modelled, whatever their order and however many objects and iterators there are, except by what the
library does not check (`Call.Sane`): every other misuse — end iterators, empty iterators, iterators of
other objects, wrong kinds — throws. -/
theorem json_iterators_safe_partial {cap : Nat} (hc : cap < 2 ^ 63) {w : World} {its : List It}
    (h : Prog cap w its) {c : Call} (hok : c.Ok cap) (hu : ∀ i ∈ c.uses, i ∈ its) (hl : ∀ i ∈ c.uses, Usable w i)
    (hs : c.Sane) : call cap w c ≠ .ub := by
  have inv := prog_inv hc h
  have good : ∀ i ∈ c.uses, Good w i := fun i hi => inv.2 i (hu i hi)
  have pc : ∀ {α : Type} {f : α → Got} {o : Out α}, o ≠ .ub → pureCall w f o ≠ .ub := by
    intro α f o ho hb
    unfold pureCall at hb
    rw [bind_ub] at hb
    rcases hb with hb | ⟨a, -, hb⟩
    · exact ho hb
    · simp at hb
  have neg : ∀ {o : Out Bool}, o ≠ .ub → (o.bind fun b => Out.ok (!b)) ≠ .ub := by
    intro o ho hb
    rw [bind_ub] at hb
    rcases hb with hb | ⟨a, -, hb⟩
    · exact ho hb
    · simp at hb
  have okb : ∀ {α β : Type} {o : Out α} {f : α → β}, o ≠ .ub → (o.bind fun b => Out.ok (f b)) ≠ .ub := by
    intro α β o f ho hb
    rw [bind_ub] at hb
    rcases hb with hb | ⟨a, -, hb⟩
    · exact ho hb
    · simp at hb
  cases c with
  | make x v => simp [call]
  | beginOf x => exact pc (by unfold Verif.Json.beginOf; split <;> simp)
  | endOf x => exact pc (by unfold Verif.Json.endOf; split <;> simp)
  | front x =>
    refine pc ?_
    unfold frontOf
    intro hb
    rw [bind_ub] at hb
    rcases hb with hb | ⟨i, hi, hb⟩
    · unfold Verif.Json.beginOf at hb; split at hb <;> simp at hb
    · refine get_safe (begin_good hi) ?_ hb
      obtain ⟨n, -, e⟩ := beginOf_ok hi
      intro y hy
      rw [e] at hy ⊢
      simp only [Option.some.injEq] at hy
      subst hy; rfl
  | back x =>
    refine pc ?_
    unfold backOf
    intro hb
    rw [bind_ub] at hb
    rcases hb with hb | ⟨i, hi, hb⟩
    · unfold Verif.Json.endOf at hb; split at hb <;> simp at hb
    obtain ⟨n, -, e⟩ := endOf_ok hi
    have ui : Usable w i := by
      intro y hy
      rw [e] at hy ⊢
      simp only [Option.some.injEq] at hy
      subst hy; rfl
    rw [bind_ub] at hb
    rcases hb with hb | ⟨b, hb', hb⟩
    · unfold Verif.Json.beginOf at hb; split at hb <;> simp at hb
    obtain ⟨n, -, e'⟩ := beginOf_ok hb'
    have ub : Usable w b := by
      intro y hy
      rw [e'] at hy ⊢
      simp only [Option.some.injEq] at hy
      subst hy; rfl
    rw [bind_ub] at hb
    rcases hb with hb | ⟨t, -, hb⟩
    · exact neg (eq_safe ui ub) hb
    split at hb
    · rw [bind_ub] at hb
      rcases hb with hb | ⟨j, hj, hb⟩
      · exact move_safe ui (by decide) hb
      · exact get_safe (move_good (end_good hi) hj) (move_usable ui hj) hb
    · exact get_safe (end_good hi) ui hb
  | find x raw => exact pc (by unfold findKey; split; (· split <;> simp); simp)
  | insertKey x raw v => exact okb (by unfold Verif.Json.insertKey; split; (· split <;> simp); simp)
  | eq i j => exact pc (eq_safe (hl i (by simp [Call.uses])) (hl j (by simp [Call.uses])))
  | ne i j => exact pc (neg (eq_safe (hl i (by simp [Call.uses])) (hl j (by simp [Call.uses]))))
  | lt i j => exact pc (lt_safe (hl i (by simp [Call.uses])) (hl j (by simp [Call.uses])))
  | le i j => exact pc (neg (lt_safe (hl j (by simp [Call.uses])) (hl i (by simp [Call.uses]))))
  | gt i j => exact pc (neg (neg (lt_safe (hl j (by simp [Call.uses])) (hl i (by simp [Call.uses])))))
  | ge i j => exact pc (neg (lt_safe (hl i (by simp [Call.uses])) (hl j (by simp [Call.uses]))))
  | diff i j => exact pc (diff_safe (hl i (by simp [Call.uses])) (hl j (by simp [Call.uses])))
  | inc i => exact pc (move_safe (hl i (by simp [Call.uses])) (by decide))
  | dec i => exact pc (move_safe (hl i (by simp [Call.uses])) (by decide))
  | add i off => exact pc (add_safe (hl i (by simp [Call.uses])) hs)
  | sub i off =>
    refine pc ?_
    unfold itSub negate
    have hs' : off ≠ -(2 ^ 63) := hs
    rw [if_neg hs']
    by_cases ho : -off = -(2 ^ 63)
    · have : off < 2 ^ 63 := hok.2
      omega
    · exact add_safe (hl i (by simp [Call.uses])) ho
  | get i => exact pc (get_safe (good i (by simp [Call.uses])) (hl i (by simp [Call.uses])))
  | index i off =>
    refine pc ?_
    unfold itIndex
    intro hb
    rw [bind_ub] at hb
    rcases hb with hb | ⟨j, hj, hb⟩
    · exact add_safe (hl i (by simp [Call.uses])) hs hb
    · exact get_safe (add_good (good i (by simp [Call.uses])) hj) (add_usable (hl i (by simp [Call.uses])) hj) hb
  | key i => exact pc (key_safe (good i (by simp [Call.uses])) (hl i (by simp [Call.uses])))
  | set i v =>
    refine okb ?_
    intro hb
    unfold itSet at hb
    rw [bind_ub] at hb
    rcases hb with hb | ⟨a, -, hb⟩
    · exact get_safe (good i (by simp [Call.uses])) (hl i (by simp [Call.uses])) hb
    · split at hb
      · simp at hb
      · split at hb <;> simp at hb
  | revGet i =>
    refine pc ?_
    unfold Verif.Json.revGet
    intro hb
    rw [bind_ub] at hb
    rcases hb with hb | ⟨j, hj, hb⟩
    · exact move_safe (hl i (by simp [Call.uses])) (by decide) hb
    · exact get_safe (move_good (good i (by simp [Call.uses])) hj) (move_usable (hl i (by simp [Call.uses])) hj) hb
  | revKey i =>
    refine pc ?_
    unfold Verif.Json.revKey
    intro hb
    rw [bind_ub] at hb
    rcases hb with hb | ⟨j, hj, hb⟩
    · exact move_safe (hl i (by simp [Call.uses])) (by decide) hb
    · exact key_safe (move_good (good i (by simp [Call.uses])) hj) (move_usable (hl i (by simp [Call.uses])) hj) hb
  | revDiff i j => exact pc (diff_safe (hl j (by simp [Call.uses])) (hl i (by simp [Call.uses])))
  | insert x pos v =>
    exact okb (array_insert_safe (good pos (by simp [Call.uses])) (hl pos (by simp [Call.uses])))
  | insertMany x pos n v =>
    exact okb (array_insert_safe (good pos (by simp [Call.uses])) (hl pos (by simp [Call.uses])))
  | insertRange x pos a b =>
    refine okb ?_
    intro hb
    unfold Verif.Json.insertRange at hb
    split at hb
    · simp at hb
    rename_i hab
    have hab : a.owner = b.owner := by simpa using hab
    split at hb
    · simp at hb
    rename_i y hy
    split at hb
    · rename_i l hy'
      split at hb
      · simp at hb
      split at hb
      · split at hb
        · split at hb
          · split at hb
            · exact array_insert_safe (good pos (by simp [Call.uses])) (hl pos (by simp [Call.uses])) hb
            · rename_i hn
              apply hn
              have hyb : b.owner = some y := by rw [← hab]; exact hy
              have va := hl a (by simp [Call.uses]) y hy
              have vb := hl b (by simp [Call.uses]) y hyb
              have hp : b.pos ≤ l.length := by
                rcases good_elim (good b (by simp [Call.uses])) ⟨hyb, vb, rfl⟩ with ⟨m, hm, _⟩ | ⟨l', hl', -, hp⟩
                · rw [hy'] at hm; cases hm
                · rw [hy'] at hl'; cases hl'; exact hp
              simp [live_of va, live_of vb, hs hab, hp]
          · simp at hb
        · simp at hb
      · simp at hb
    · simp at hb
  | insertEntries x a b =>
    refine okb ?_
    intro hb
    unfold Verif.Json.insertEntries at hb
    split at hb
    · simp at hb
    rename_i hab
    have hab : a.owner = b.owner := by simpa using hab
    split at hb
    · simp at hb
    rename_i y hy
    split at hb
    · rename_i m hy'
      split at hb
      · simp at hb
      split at hb
      · split at hb
        · simp at hb
        · rename_i hn
          apply hn
          have hyb : b.owner = some y := by rw [← hab]; exact hy
          have va := hl a (by simp [Call.uses]) y hy
          have vb := hl b (by simp [Call.uses]) y hyb
          have hp : b.pos ≤ m.length := by
            rcases good_elim (good b (by simp [Call.uses])) ⟨hyb, vb, rfl⟩ with ⟨m', hm, -, hp⟩ | ⟨l', hl', _⟩
            · rw [hy'] at hm; cases hm; exact hp
            · rw [hy'] at hl'; cases hl'
          have hxy : x ≠ y := fun e => (hs hab).2 (by rw [e]; exact hy)
          simp [live_of va, live_of vb, (hs hab).1, hp, hxy]
      · simp at hb
    · simp at hb
  | erase x pos =>
    refine okb ?_
    intro hb
    unfold eraseIt at hb
    rw [bind_ub] at hb
    rcases hb with hb | ⟨e, he, hb⟩
    · unfold Verif.Json.endOf at hb; split at hb <;> simp at hb
    obtain ⟨n, hn, e'⟩ := endOf_ok he
    split at hb
    · rename_i ho
      have vp := hl pos (by simp [Call.uses]) x ho
      have ue : Usable w e := by
        intro y hy
        rw [e'] at hy ⊢
        simp only [Option.some.injEq] at hy
        subst hy; rfl
      rw [bind_ub] at hb
      rcases hb with hb | ⟨b, hq, hb⟩
      · exact eq_safe (hl pos (by simp [Call.uses])) ue hb
      · split at hb
        · simp at hb
        · rename_i hnb
          split at hb
          · rename_i ha
            split at hb
            · simp at hb
            · rename_i hnl
              obtain ⟨n', hn', hp⟩ := ((good pos (by simp [Call.uses])) x ho).2 vp
              rw [hn] at hn'
              simp only [Option.some.injEq, Prod.mk.injEq] at hn'
              have hep : e.pos = n := by rw [e']
              have heq : pos.pos = e.pos := by omega
              apply hnb
              unfold itEq validatePair at hq
              rw [ho, show e.owner = some x by rw [e']] at hq
              have hev : e.ver = w.ver x := by rw [e']
              simp only [if_true, Out.bind, live_of vp, live_of hev, Bool.and_self, Out.ok.injEq] at hq
              rw [← hq]
              simp [ha, heq]
          · simp at hb
    · simp at hb
  | eraseRange x a b =>
    refine okb ?_
    intro hb
    unfold Verif.Json.eraseRange at hb
    rw [bind_ub] at hb
    rcases hb with hb | ⟨e, he, hb⟩
    · unfold Verif.Json.endOf at hb; split at hb <;> simp at hb
    obtain ⟨n, hn, e'⟩ := endOf_ok he
    split at hb
    · rename_i ho
      split at hb
      · split at hb
        · simp at hb
        · rename_i hn'
          apply hn'
          have hob : b.owner = some x := by rw [← ho.2]; exact ho.1
          have va := hl a (by simp [Call.uses]) x ho.1
          have vb := hl b (by simp [Call.uses]) x hob
          obtain ⟨n', hs', hp⟩ := ((good b (by simp [Call.uses])) x hob).2 vb
          rw [hn] at hs'
          simp only [Option.some.injEq, Prod.mk.injEq] at hs'
          have hep : e.pos = n := by rw [e']
          have : b.pos ≤ e.pos := by omega
          simp [live_of va, live_of vb, hs ho.2, this]
      · simp at hb
    · simp at hb
  | swap x y => simp [call]
  | other x o => simp [call]

/-- An array erased from its first to its last element. -/
example : call 100 exWorld (.eraseRange 0 ⟨some 0, 1, true, 0⟩ ⟨some 0, 1, true, 3⟩) ≠ .ub :=
  json_iterators_safe_partial (by omega) (exProg (by omega)) trivial (by simp [Call.uses, exIts])
    (fun i hi => exUsable i (by simp only [Call.uses, List.mem_cons, List.not_mem_nil, or_false] at hi; rcases hi with rfl | rfl <;> simp [exIts]))
    (by simp [Call.Sane])

/-! ## Positions -/

theorem eq_at {w : World} {i j : It} {x a b : Nat} (hi : Good w i) (hj : Good w j) (si : Stands w i x a)
    (sj : Stands w j x b) : itEq w i j = .ok (decide (a = b)) := by
  have hk : i.isArr = j.isArr := by
    obtain ⟨n, hn, -⟩ := (hi x si.1).2 si.2.1
    obtain ⟨n', hn', -⟩ := (hj x sj.1).2 sj.2.1
    rw [hn] at hn'
    simp only [Option.some.injEq, Prod.mk.injEq] at hn'
    exact hn'.1
  obtain ⟨h1, h2, rfl⟩ := si
  obtain ⟨g1, g2, rfl⟩ := sj
  unfold itEq validatePair
  rw [h1, g1]
  simp only [if_true, Out.bind, live_of h2, live_of g2, Bool.and_self, hk, beq_self_eq_true, Bool.true_and]
  simp only [Out.ok.injEq]
  by_cases e : i.pos = j.pos <;> simp [e]

theorem lt_at {w : World} {i j : It} {x a b : Nat} {l : List Value} (hi : Good w i) (hj : Good w j)
    (hl : w.value x = .arr l) (si : Stands w i x a) (sj : Stands w j x b) :
    itLt w i j = .ok (decide (a < b)) ∧ itDiff w i j = .ok ((a : Int) - b) := by
  have ki : i.isArr = true := by
    rcases good_elim hi si with ⟨m, hm, _⟩ | ⟨l', _, h, _⟩
    · rw [hl] at hm; cases hm
    · exact h
  have kj : j.isArr = true := by
    rcases good_elim hj sj with ⟨m, hm, _⟩ | ⟨l', _, h, _⟩
    · rw [hl] at hm; cases hm
    · exact h
  obtain ⟨h1, h2, rfl⟩ := si
  obtain ⟨g1, g2, rfl⟩ := sj
  unfold itLt itDiff validatePair
  rw [h1, g1]
  simp [Out.bind, live_of h2, live_of g2, ki, kj]

theorem lt_at_obj {w : World} {i j : It} {x a b : Nat} {m : List (List Nat × Value)} (hi : Good w i)
    (hm : w.value x = .obj m) (si : Stands w i x a) (sj : Stands w j x b) :
    itLt w i j = .threw ∧ itLt w j i = .threw ∧ itDiff w i j = .threw := by
  have ki : i.isArr = false := by
    rcases good_elim hi si with ⟨m, _, h, _⟩ | ⟨l', hm', _⟩
    · exact h
    · rw [hm] at hm'; cases hm'
  unfold itLt itDiff validatePair
  rw [si.1, sj.1]
  simp [Out.bind, ki]

/-- C104: iterators of one array compare like their positions, and their difference is the distance;
adding the difference leads from one to the other. -/
theorem json_iterator_positions {cap : Nat} (hc : cap < 2 ^ 63) {w : World} {its : List It}
    (h : Prog cap w its) {i j : It} (hi : i ∈ its) (hj : j ∈ its) {x a b : Nat} {l : List Value}
    (hl : w.value x = .arr l) (si : Stands w i x a) (sj : Stands w j x b) :
    a ≤ l.length ∧ b ≤ l.length ∧
    Answers cap w (.eq i j) (.flag (decide (a = b))) ∧ Answers cap w (.ne i j) (.flag (decide (a ≠ b))) ∧
    Answers cap w (.lt i j) (.flag (decide (a < b))) ∧ Answers cap w (.le i j) (.flag (decide (a ≤ b))) ∧
    Answers cap w (.gt i j) (.flag (decide (a > b))) ∧ Answers cap w (.ge i j) (.flag (decide (a ≥ b))) ∧
    Answers cap w (.diff i j) (.num ((a : Int) - b)) ∧
    Answers cap w (.revDiff i j) (.num ((b : Int) - a)) ∧
    ∃ k, Answers cap w (.add j ((a : Int) - b)) (.it k) ∧ Stands w k x a := by
  have inv := prog_inv hc h
  have gi := inv.2 i hi
  have gj := inv.2 j hj
  have hcap : l.length ≤ cap := by have := inv.1 x; rw [hl] at this; exact this
  have ha : a ≤ l.length := by
    rcases good_elim gi si with ⟨m, hm, _⟩ | ⟨l', hl', _, hp⟩
    · rw [hl] at hm; cases hm
    · rw [hl] at hl'; cases hl'; exact hp
  have hb : b ≤ l.length ∧ j.isArr = true := by
    rcases good_elim gj sj with ⟨m, hm, _⟩ | ⟨l', hl', ht, hp⟩
    · rw [hl] at hm; cases hm
    · rw [hl] at hl'; cases hl'; exact ⟨hp, ht⟩
  have e1 := eq_at gi gj si sj
  have e2 := (lt_at gi gj hl si sj).1
  have e3 := (lt_at gj gi hl sj si).1
  have e4 := (lt_at gi gj hl si sj).2
  have e5 := (lt_at gj gi hl sj si).2
  refine ⟨ha, hb.1, ?_, ?_, ?_, ?_, ?_, ?_, ?_, ?_, ?_⟩
  · simp [Answers, call, pureCall, Out.bind, e1]
  · simp [Answers, call, pureCall, Out.bind, itNe, e1]
  · simp [Answers, call, pureCall, Out.bind, e2]
  · simp only [Answers, call, pureCall, itLe, e3, Out.bind, Out.ok.injEq, Prod.mk.injEq, Got.flag.injEq,
      true_and]
    by_cases q : b < a
    · simp [q]
    · simp [q, Nat.not_lt.1 q]
  · simp only [Answers, call, pureCall, itGt, itLe, e3, Out.bind, Bool.not_not]
  · simp only [Answers, call, pureCall, itGe, e2, Out.bind, Out.ok.injEq, Prod.mk.injEq, Got.flag.injEq,
      true_and]
    by_cases q : a < b
    · simp [q]
    · simp [q, Nat.not_lt.1 q]
  · simp [Answers, call, pureCall, Out.bind, e4]
  · simp [Answers, call, pureCall, Out.bind, revDiff, e5]
  · refine ⟨{ j with pos := a }, ?_, sj.1, sj.2.1, rfl⟩
    have hne : (a : Int) - b ≠ -(2 ^ 63) := by omega
    have hp := sj.2.2
    have hm : moveBy l.length j.pos ((a : Int) - b) = .ok a := by
      rcases move_spec (l := l) (pos := j.pos) (by omega) hne with ⟨q, h1, h2, h3⟩ | ⟨h1, h3⟩
      · rw [h3]
        have : q = a := by omega
        rw [this]
      · omega
    simp only [Answers, call, pureCall, itAdd, itMove, validate, sj.1, Out.bind, hb.2, if_true, live_of sj.2.1,
      hl, elements_arr, hm]

/-- The two ends of an array of three elements. -/
example : Answers 100 exWorld (.diff ⟨some 0, 1, true, 3⟩ ⟨some 0, 1, true, 0⟩) (.num 3) :=
  (json_iterator_positions (cap := 100) (by omega) (exProg (by omega)) (i := ⟨some 0, 1, true, 3⟩) (j := ⟨some 0, 1, true, 0⟩) (by simp [exIts]) (by simp [exIts]) (x := 0)
    (l := [.uint 1, .uint 2, .uint 3]) rfl ⟨rfl, rfl, rfl⟩ ⟨rfl, rfl, rfl⟩).2.2.2.2.2.2.2.2.1

/-- C104: iterators of one object can be told apart, but neither ordered nor subtracted. -/
theorem json_object_iterator_positions {cap : Nat} (hc : cap < 2 ^ 63) {w : World} {its : List It}
    (h : Prog cap w its) {i j : It} (hi : i ∈ its) (hj : j ∈ its) {x a b : Nat}
    {m : List (List Nat × Value)} (hm : w.value x = .obj m) (si : Stands w i x a) (sj : Stands w j x b) :
    Answers cap w (.eq i j) (.flag (decide (a = b))) ∧ Answers cap w (.ne i j) (.flag (decide (a ≠ b))) ∧
    call cap w (.lt i j) = .threw ∧ call cap w (.le i j) = .threw ∧ call cap w (.gt i j) = .threw ∧
    call cap w (.ge i j) = .threw ∧ call cap w (.diff i j) = .threw := by
  have inv := prog_inv hc h
  have e1 := eq_at (inv.2 i hi) (inv.2 j hj) si sj
  obtain ⟨h1, h2, h3⟩ := lt_at_obj (inv.2 i hi) hm si sj
  refine ⟨?_, ?_, ?_, ?_, ?_, ?_, ?_⟩ <;>
    simp [Answers, call, pureCall, Out.bind, itNe, itLe, itGt, itGe, e1, h1, h2, h3]

/-- The two ends of an object. -/
example : Answers 100 exWorld (.eq ⟨some 2, 1, false, 0⟩ ⟨some 2, 1, false, 2⟩) (.flag false) ∧ call 100 exWorld (.lt ⟨some 2, 1, false, 0⟩ ⟨some 2, 1, false, 2⟩) = .threw :=
  have h := json_object_iterator_positions (cap := 100) (by omega) (exProg (by omega)) (i := ⟨some 2, 1, false, 0⟩) (j := ⟨some 2, 1, false, 2⟩) (by simp [exIts]) (by simp [exIts]) (x := 2)
    (m := [([0x61], .uint 1), ([0x62], .bool true)]) rfl ⟨rfl, rfl, rfl⟩ ⟨rfl, rfl, rfl⟩
  ⟨h.1, h.2.2.1⟩

/-- C104: what an iterator shows is the entry at its position; at the end, reading throws. -/
theorem json_iterator_reads {cap : Nat} (hc : cap < 2 ^ 63) {w : World} {its : List It}
    (h : Prog cap w its) {i : It} (hi : i ∈ its) {x a : Nat} (si : Stands w i x a)
    {es : List (Option (List Nat) × Value)} (he : Entries (w.value x) es) :
    a ≤ es.length ∧
    (a = es.length → call cap w (.get i) = .threw ∧ call cap w (.key i) = .threw) ∧
    (∀ k v, es[a]? = some (k, v) → Answers cap w (.get i) (.val v) ∧
      (∀ t, k = some t → Answers cap w (.key i) (.key t)) ∧ (k = none → call cap w (.key i) = .threw)) ∧
    (a = 0 → call cap w (.revGet i) = .threw ∧ call cap w (.revKey i) = .threw) ∧
    (∀ n k v, a = n + 1 → es[n]? = some (k, v) → Answers cap w (.revGet i) (.val v) ∧
      (∀ t, k = some t → Answers cap w (.revKey i) (.key t)) ∧ (k = none → call cap w (.revKey i) = .threw)) := by
  have inv := prog_inv hc h
  have gi := inv.2 i hi
  obtain ⟨h1, h2, h3⟩ := si
  have hel : elements (w.value x) = some (es.map (·.2)) := by
    generalize w.value x = u at he
    cases he with
    | obj m => simp [elements, List.map_map, Function.comp_def]
    | arr l => simp [elements, List.map_map, Function.comp_def]
  have hle : a ≤ es.length := by
    rcases good_elim gi ⟨h1, h2, h3⟩ with ⟨m, hm, _, hp⟩ | ⟨l, hm, _, hp⟩
    · rw [hm] at he; cases he; simpa using hp
    · rw [hm] at he; cases he; simpa using hp
  have getAt : ∀ (j : It) (n : Nat), j.owner = some x → j.ver = w.ver x → j.pos = n → n ≤ es.length →
      (n = es.length → itGet w j = .threw) ∧
      (∀ k v, es[n]? = some (k, v) → itGet w j = .ok v) := by
    intro j n g1 g2 g3 hn
    subst g3
    unfold itGet validate
    rw [g1]
    simp only [Out.bind, live_of g2, if_true, hel]
    unfold deref
    constructor
    · intro e; rw [if_pos (by simpa using e)]
    · intro k v e
      have hlt : j.pos < es.length := by
        rcases List.getElem?_eq_some_iff.1 e with ⟨q, _⟩; exact q
      rw [if_neg (by simp; omega)]
      simp [e]
  have keyAt : ∀ (j : It) (n : Nat), j.owner = some x → j.ver = w.ver x → j.pos = n → j.isArr = i.isArr →
      ∀ k v, es[n]? = some (k, v) → (∀ t, k = some t → itKey w j = .ok t) ∧ (k = none → itKey w j = .threw) := by
    intro j n g1 g2 g3 g4 k v e
    subst g3
    unfold itKey validate
    rw [g1]
    rcases good_elim gi ⟨h1, h2, h3⟩ with ⟨m, hm, ha, _⟩ | ⟨l, hm, ha, _⟩
    · rw [hm] at he
      cases he
      rw [List.getElem?_map, Option.map_eq_some_iff] at e
      obtain ⟨e0, e1, e2⟩ := e
      simp only [Prod.mk.injEq] at e2
      have hlt : j.pos < m.length := by
        rcases List.getElem?_eq_some_iff.1 e1 with ⟨q, _⟩; exact q
      have hne : j.pos ≠ m.length := by omega
      refine ⟨fun t ht => ?_, fun hk => ?_⟩
      · rw [ht, Option.some.injEq] at e2
        simp [Out.bind, g4, ha, live_of g2, hm, hne, e1, e2.1]
      · rw [hk] at e2; simp at e2
    · rw [hm] at he
      cases he
      rw [List.getElem?_map, Option.map_eq_some_iff] at e
      obtain ⟨e0, e1, e2⟩ := e
      simp only [Prod.mk.injEq] at e2
      refine ⟨fun t ht => ?_, fun _ => by simp [Out.bind, g4, ha]⟩
      rw [ht] at e2; simp at e2
  refine ⟨hle, ?_, ?_, ?_, ?_⟩
  · intro e
    refine ⟨by simp [call, pureCall, (getAt i a h1 h2 h3 hle).1 e, Out.bind], ?_⟩
    subst h3
    simp only [call, pureCall, itKey, validate, h1]
    rcases good_elim gi ⟨h1, h2, rfl⟩ with ⟨m, hm, ha, hp⟩ | ⟨l, hm, ha, hp⟩
    · rw [hm] at he
      cases he
      simp only [List.length_map] at e
      simp [Out.bind, ha, live_of h2, hm, e]
    · simp [Out.bind, ha]
  · intro k v e
    refine ⟨by simp [Answers, call, pureCall, (getAt i a h1 h2 h3 hle).2 k v e, Out.bind], ?_, ?_⟩
    · intro t ht
      simp [Answers, call, pureCall, (keyAt i a h1 h2 h3 rfl k v e).1 t ht, Out.bind]
    · intro hk
      simp [call, pureCall, (keyAt i a h1 h2 h3 rfl k v e).2 hk, Out.bind]
  · intro e
    have : itMove w i (-1) = .threw := by
      unfold itMove validate
      rw [h1]
      simp only [Out.bind, live_of h2, if_true, hel]
      have : moveBy (es.map (·.2)).length i.pos (-1) = .threw := by
        rw [h3, e]
        simp [moveBy, validateOffset]
      rw [this]
    simp [call, pureCall, revGet, revKey, this, Out.bind]
  · intro n k v e e'
    have : itMove w i (-1) = .ok { i with pos := n } := by
      unfold itMove validate
      rw [h1]
      simp only [Out.bind, live_of h2, if_true, hel]
      have hp : i.pos = n + 1 := by omega
      have : moveBy (es.map (·.2)).length i.pos (-1) = .ok n := by
        rcases move_spec (l := es.map (·.2)) (pos := i.pos) (off := -1) (by simp; omega) (by decide) with
          ⟨q, g1, g2, g3⟩ | ⟨g1, g3⟩
        · rw [g3]
          have : q = n := by omega
          rw [this]
        · simp at g1; omega
      rw [this]
    refine ⟨?_, fun t ht => ?_, fun hk => ?_⟩
    · simp [Answers, call, pureCall, revGet, this, Out.bind,
        (getAt { i with pos := n } n h1 h2 rfl (by omega)).2 k v e']
    · simp [Answers, call, pureCall, revKey, this, Out.bind, (keyAt { i with pos := n } n h1 h2 rfl rfl k v e').1 t ht]
    · simp [call, pureCall, revKey, this, Out.bind, (keyAt { i with pos := n } n h1 h2 rfl rfl k v e').2 hk]

/-- The first entry of an object. -/
example : Answers 100 exWorld (.get ⟨some 2, 1, false, 0⟩) (.val (.uint 1)) :=
  ((json_iterator_reads (cap := 100) (by omega) (exProg (by omega)) (i := ⟨some 2, 1, false, 0⟩) (by simp [exIts]) (x := 2) ⟨rfl, rfl, rfl⟩
    (.obj [([0x61], .uint 1), ([0x62], .bool true)])).2.2.1 (some [0x61]) (.uint 1) rfl).1

/-- C103: two iterators that do not belong to one object are never compared, subtracted or used as a
range, and a position of another object (or of none) is never used to insert or erase: the call throws,
dangling or not. (A call that throws changes nothing, by the type of `call`.) -/
theorem json_foreign_iterators_rejected (cap : Nat) (w : World) (i j k : It) (x : Nat) (v : Value) (n : Nat) :
    (i.owner ≠ j.owner ∨ i.owner = none →
      call cap w (.eq i j) = .threw ∧ call cap w (.ne i j) = .threw ∧ call cap w (.lt i j) = .threw ∧
      call cap w (.le i j) = .threw ∧ call cap w (.gt i j) = .threw ∧ call cap w (.ge i j) = .threw ∧
      call cap w (.diff i j) = .threw ∧ call cap w (.revDiff i j) = .threw ∧
      call cap w (.insertRange x k i j) = .threw ∧ call cap w (.insertEntries x i j) = .threw ∧
      call cap w (.eraseRange x i j) = .threw) ∧
    (i.owner ≠ some x →
      call cap w (.insert x i v) = .threw ∧ call cap w (.insertMany x i n v) = .threw ∧
      call cap w (.insertRange x i j k) = .threw ∧ call cap w (.erase x i) = .threw ∧
      call cap w (.eraseRange x i j) = .threw ∧ call cap w (.eraseRange x j i) = .threw) ∧
    (i.owner = none → call cap w (.get i) = .threw ∧ call cap w (.key i) = .threw ∧
      call cap w (.inc i) = .threw ∧ call cap w (.dec i) = .threw ∧ call cap w (.set i v) = .threw ∧
      call cap w (.revGet i) = .threw) := by
  refine ⟨?_, ?_, ?_⟩
  · intro h
    have hv : validatePair i j = .threw := by
      rcases pair_cases i j with e | ⟨y, h1, h2, e⟩
      · exact e
      · rcases h with h | h
        · exact absurd (h1.trans h2.symm) h
        · rw [h] at h1; cases h1
    have hv' : validatePair j i = .threw := by
      rcases pair_cases j i with e | ⟨y, h1, h2, e⟩
      · exact e
      · rcases h with h | h
        · exact absurd (h2.trans h1.symm) h
        · rw [h] at h2; cases h2
    have hr : insertRange cap w x k i j = .threw := by
      unfold insertRange
      split
      · rfl
      · rename_i hab
        have hab : i.owner = j.owner := by simpa using hab
        rcases h with h | h
        · exact absurd hab h
        · rw [h]
    have he : insertEntries w x i j = .threw := by
      unfold insertEntries
      split
      · rfl
      · rename_i hab
        have hab : i.owner = j.owner := by simpa using hab
        rcases h with h | h
        · exact absurd hab h
        · rw [h]
    have hx : eraseRange w x i j = .threw := by
      unfold eraseRange
      cases hq : endOf w x with
      | threw => rfl
      | ub => unfold endOf at hq; split at hq <;> simp at hq
      | ok e =>
        simp only [Out.bind]
        rw [if_neg]
        rintro ⟨a, b⟩
        rcases h with h | h
        · exact h b
        · rw [h] at a; cases a
    refine ⟨?_, ?_, ?_, ?_, ?_, ?_, ?_, ?_, ?_, ?_, ?_⟩ <;>
      simp [call, pureCall, itEq, itNe, itLt, itLe, itGt, itGe, itDiff, revDiff, hv, hv', hr, he, hx, Out.bind]
  · intro h
    have ha : ∀ vs, arrayInsert cap w x i vs = .threw := by
      intro vs
      unfold arrayInsert
      split
      · rw [if_neg h]
      · rfl
    have hr : insertRange cap w x i j k = .threw := by
      unfold insertRange
      split
      · rfl
      · split
        · rfl
        · split
          · split
            · rfl
            · split
              · split
                · first | rfl | rw [if_neg h]
                · rfl
              · rfl
          · rfl
    have hn : ∀ e, endOf w x = e → e ≠ .ub := by
      intro e he hq; rw [hq] at he; unfold endOf at he; split at he <;> simp at he
    have h1 : eraseIt w x i = .threw := by
      unfold eraseIt
      cases hq : endOf w x with
      | threw => rfl
      | ub => exact absurd hq (hn _ rfl)
      | ok e => simp only [Out.bind]; rw [if_neg h]
    have h2 : eraseRange w x i j = .threw := by
      unfold eraseRange
      cases hq : endOf w x with
      | threw => rfl
      | ub => exact absurd hq (hn _ rfl)
      | ok e => simp only [Out.bind]; rw [if_neg (fun q => h q.1)]
    have h3 : eraseRange w x j i = .threw := by
      unfold eraseRange
      cases hq : endOf w x with
      | threw => rfl
      | ub => exact absurd hq (hn _ rfl)
      | ok e => simp only [Out.bind]; rw [if_neg (fun q : j.owner = some x ∧ j.owner = i.owner => h (q.2 ▸ q.1))]
    refine ⟨?_, ?_, ?_, ?_, ?_, ?_⟩ <;> simp [call, ha, hr, h1, h2, h3, Out.bind]
  · intro h
    refine ⟨?_, ?_, ?_, ?_, ?_, ?_⟩ <;>
      simp [call, pureCall, itGet, itKey, itMove, itSet, revGet, validate, h, Out.bind]

/-! ## Splicing -/

theorem only_put (w : World) (x : Nat) (v : Value) : Only w (w.put x v) x v :=
  ⟨put_value w x v, fun y hy => ⟨put_other w x y v hy, put_other_ver w x y v hy⟩⟩

theorem stands_put (w : World) (x : Nat) (v : Value) (a : Bool) (n : Nat) :
    Stands (w.put x v) ⟨some x, w.ver x + 1, a, n⟩ x n := ⟨rfl, (put_ver w x v).symm, rfl⟩

theorem take_append_len {α : Type} {p t : List α} {a : Nat} (h : p.length = a) : (p ++ t).take a = p := by
  subst h; simp
theorem drop_append_len {α : Type} {p t : List α} {a : Nat} (h : p.length = a) : (p ++ t).drop a = t := by
  subst h; simp

/-- C105: erasing a range removes exactly its entries, leaves all other objects (and their iterators)
alone, and returns an iterator to the entry that followed. -/
theorem json_erase_range {cap : Nat} (hc : cap < 2 ^ 63) {w : World} {its : List It} (h : Prog cap w its)
    {i j : It} (hi : i ∈ its) (hj : j ∈ its) {x a b : Nat} (si : Stands w i x a) (sj : Stands w j x b)
    (hab : a ≤ b) :
    (∀ p q r, w.value x = .arr (p ++ q ++ r) → p.length = a → q.length = b - a →
      ∃ w' k, call cap w (.eraseRange x i j) = .ok (w', .it k) ∧ Only w w' x (.arr (p ++ r)) ∧
        Stands w' k x a) ∧
    (∀ p q r, w.value x = .obj (p ++ q ++ r) → p.length = a → q.length = b - a →
      ∃ w' k, call cap w (.eraseRange x i j) = .ok (w', .it k) ∧ Only w w' x (.obj (p ++ r)) ∧
        Stands w' k x a) := by
  have inv := prog_inv hc h
  have gi := inv.2 i hi
  have gj := inv.2 j hj
  obtain ⟨h1, h2, h3⟩ := si
  obtain ⟨g1, g2, g3⟩ := sj
  constructor
  · intro p q r hv hp hq
    have ki : i.isArr = true := by
      rcases good_elim gi ⟨h1, h2, h3⟩ with ⟨m, hm, _⟩ | ⟨l', _, e, _⟩
      · rw [hv] at hm; cases hm
      · exact e
    have kj : j.isArr = true := by
      rcases good_elim gj ⟨g1, g2, g3⟩ with ⟨m, hm, _⟩ | ⟨l', _, e, _⟩
      · rw [hv] at hm; cases hm
      · exact e
    have hs : eraseSpan (p ++ q ++ r) a b = p ++ r := by
      unfold eraseSpan
      rw [drop_append_len (p := p ++ q) (by simp; omega), List.append_assoc, take_append_len hp]
    refine ⟨_, ⟨some x, w.ver x + 1, true, a⟩, ?_, only_put w x _, stands_put _ _ _ _ _⟩
    simp only [call, eraseRange, endOf, hv, Out.bind, h1, g1, ki, kj, and_self, if_true, live_of h2, live_of g2, h3, g3,
      withoutSpan, hs]
    have hble : b ≤ p.length + (q.length + r.length) := by omega
    simp [hab, hble]
  · intro p q r hv hp hq
    have ki : i.isArr = false := by
      rcases good_elim gi ⟨h1, h2, h3⟩ with ⟨m, _, e, _⟩ | ⟨l', hm, _⟩
      · exact e
      · rw [hv] at hm; cases hm
    have kj : j.isArr = false := by
      rcases good_elim gj ⟨g1, g2, g3⟩ with ⟨m, _, e, _⟩ | ⟨l', hm, _⟩
      · exact e
      · rw [hv] at hm; cases hm
    have hs : eraseSpan (p ++ q ++ r) a b = p ++ r := by
      unfold eraseSpan
      rw [drop_append_len (p := p ++ q) (by simp; omega), List.append_assoc, take_append_len hp]
    refine ⟨_, ⟨some x, w.ver x + 1, false, a⟩, ?_, only_put w x _, stands_put _ _ _ _ _⟩
    simp only [call, eraseRange, endOf, hv, Out.bind, h1, g1, ki, kj, and_self, if_true, live_of h2, live_of g2, h3, g3,
      withoutSpan, hs]
    have hble : b ≤ p.length + (q.length + r.length) := by omega
    simp [hab, hble]

/-- All elements of an array erased. -/
example : ∃ w' k, call 100 exWorld (.eraseRange 0 ⟨some 0, 1, true, 0⟩ ⟨some 0, 1, true, 3⟩) = .ok (w', .it k) ∧ Only exWorld w' 0 (.arr []) ∧ Stands w' k 0 0 :=
  (json_erase_range (cap := 100) (by omega) (exProg (by omega)) (i := ⟨some 0, 1, true, 0⟩) (j := ⟨some 0, 1, true, 3⟩) (by simp [exIts]) (by simp [exIts]) (x := 0) ⟨rfl, rfl, rfl⟩ ⟨rfl, rfl, rfl⟩ (by decide)).1
    [] [.uint 1, .uint 2, .uint 3] [] rfl rfl rfl

theorem erase_at {w : World} {i : It} {x a : Nat} (gi : Good w i) (si : Stands w i x a) :
    (∀ p e r, w.value x = .arr (p ++ e :: r) → p.length = a →
      eraseIt w x i = .ok (w.put x (.arr (p ++ r)), ⟨some x, w.ver x + 1, true, a⟩)) ∧
    (∀ p e r, w.value x = .obj (p ++ e :: r) → p.length = a →
      eraseIt w x i = .ok (w.put x (.obj (p ++ r)), ⟨some x, w.ver x + 1, false, a⟩)) := by
  obtain ⟨h1, h2, h3⟩ := si
  constructor
  · intro p e r hv hp
    have ki : i.isArr = true := by
      rcases good_elim gi ⟨h1, h2, h3⟩ with ⟨m, hm, _⟩ | ⟨l', _, e, _⟩
      · rw [hv] at hm; cases hm
      · exact e
    have hs : eraseSpan (p ++ e :: r) a (a + 1) = p ++ r := by
      unfold eraseSpan
      rw [take_append_len hp, show p ++ e :: r = (p ++ [e]) ++ r by simp,
        drop_append_len (by simp [hp])]
    have hne : ¬ (a = p.length + (r.length + 1)) := by omega
    have hlt : a < p.length + (r.length + 1) := by omega
    simp [eraseIt, endOf, hv, Out.bind, h1, ki, itEq, validatePair, live, h2, h3, withoutSpan, hs, hne, hlt]
  · intro p e r hv hp
    have ki : i.isArr = false := by
      rcases good_elim gi ⟨h1, h2, h3⟩ with ⟨m, _, e, _⟩ | ⟨l', hm, _⟩
      · exact e
      · rw [hv] at hm; cases hm
    have hs : eraseSpan (p ++ e :: r) a (a + 1) = p ++ r := by
      unfold eraseSpan
      rw [take_append_len hp, show p ++ e :: r = (p ++ [e]) ++ r by simp,
        drop_append_len (by simp [hp])]
    have hne : ¬ (a = p.length + (r.length + 1)) := by omega
    have hlt : a < p.length + (r.length + 1) := by omega
    simp [eraseIt, endOf, hv, Out.bind, h1, ki, itEq, validatePair, live, h2, h3, withoutSpan, hs, hne, hlt]

/-- C105: erasing one entry. -/
theorem json_erase_one {cap : Nat} (hc : cap < 2 ^ 63) {w : World} {its : List It} (h : Prog cap w its)
    {i : It} (hi : i ∈ its) {x a : Nat} (si : Stands w i x a) :
    (∀ p e r, w.value x = .arr (p ++ e :: r) → p.length = a →
      ∃ w' k, call cap w (.erase x i) = .ok (w', .it k) ∧ Only w w' x (.arr (p ++ r)) ∧ Stands w' k x a) ∧
    (∀ p e r, w.value x = .obj (p ++ e :: r) → p.length = a →
      ∃ w' k, call cap w (.erase x i) = .ok (w', .it k) ∧ Only w w' x (.obj (p ++ r)) ∧ Stands w' k x a) := by
  have gi := (prog_inv hc h).2 i hi
  obtain ⟨e1, e2⟩ := erase_at gi si
  refine ⟨fun p e r hv hp => ?_, fun p e r hv hp => ?_⟩
  · exact ⟨_, _, by rw [call, e1 p e r hv hp]; rfl, only_put w x _, stands_put _ _ _ _ _⟩
  · exact ⟨_, _, by rw [call, e2 p e r hv hp]; rfl, only_put w x _, stands_put _ _ _ _ _⟩

/-- The first entry of an object erased. -/
example : ∃ w' k, call 100 exWorld (.erase 2 ⟨some 2, 1, false, 0⟩) = .ok (w', .it k) ∧ Only exWorld w' 2 (.obj [([0x62], .bool true)]) ∧ Stands w' k 2 0 :=
  (json_erase_one (cap := 100) (by omega) (exProg (by omega)) (i := ⟨some 2, 1, false, 0⟩) (by simp [exIts]) (x := 2) ⟨rfl, rfl, rfl⟩).2 [] ([0x61], .uint 1) [([0x62], .bool true)] rfl rfl

/-- C105: inserting values, many copies of a value, or a range of another array, before a position; the
iterator returned stands at the first inserted value. -/
theorem json_insert_values {cap : Nat} (hc : cap < 2 ^ 63) {w : World} {its : List It} (h : Prog cap w its)
    {i : It} (hi : i ∈ its) {x : Nat} {p r : List Value} (si : Stands w i x p.length)
    (hv : w.value x = .arr (p ++ r)) :
    (∀ v, (p ++ r).length < cap → ∃ w' k, call cap w (.insert x i v) = .ok (w', .it k) ∧
      Only w w' x (.arr (p ++ v :: r)) ∧ Stands w' k x p.length) ∧
    (∀ n v, (p ++ r).length + n ≤ cap → ∃ w' k, call cap w (.insertMany x i n v) = .ok (w', .it k) ∧
      Only w w' x (.arr (p ++ List.replicate n v ++ r)) ∧ Stands w' k x p.length) ∧
    (∀ y s1 s2 s3 f l, f ∈ its → l ∈ its → y ≠ x → w.value y = .arr (s1 ++ s2 ++ s3) →
      Stands w f y s1.length → Stands w l y (s1.length + s2.length) → (p ++ r).length + s2.length ≤ cap →
      ∃ w' k, call cap w (.insertRange x i f l) = .ok (w', .it k) ∧
        Only w w' x (.arr (p ++ s2 ++ r)) ∧ Stands w' k x p.length) := by
  have inv := prog_inv hc h
  have gi := inv.2 i hi
  obtain ⟨h1, h2, h3⟩ := si
  have ki : i.isArr = true := by
    rcases good_elim gi ⟨h1, h2, h3⟩ with ⟨m, hm, _⟩ | ⟨l', _, e, _⟩
    · rw [hv] at hm; cases hm
    · exact e
  have key : ∀ vs, (p ++ r).length + vs.length ≤ cap → arrayInsert cap w x i vs =
      .ok (w.put x (.arr (p ++ vs ++ r)), ⟨some x, w.ver x + 1, true, p.length⟩) := by
    intro vs hl
    have hp : p.length ≤ (p ++ r).length := by simp
    simp only [arrayInsert, hv, h1, if_true, ki, live_of h2, h3, if_pos hp, if_pos hl,
      take_append_len, drop_append_len]
  refine ⟨?_, ?_, ?_⟩
  · intro v hl
    refine ⟨_, _, by rw [call, key [v] (by simp at hl ⊢; omega)]; rfl, ?_, stands_put _ _ _ _ _⟩
    have := only_put w x (.arr (p ++ [v] ++ r))
    simpa using this
  · intro n v hl
    exact ⟨_, _, by rw [call, key (List.replicate n v) (by simpa using hl)]; rfl, only_put w x _, stands_put _ _ _ _ _⟩
  · intro y s1 s2 s3 f l hf hl hyx hy sf sl hle
    have kf : f.isArr = true := by
      rcases good_elim (inv.2 f hf) sf with ⟨m, hm, _⟩ | ⟨l', _, e, _⟩
      · rw [hy] at hm; cases hm
      · exact e
    have kl : l.isArr = true := by
      rcases good_elim (inv.2 l hl) sl with ⟨m, hm, _⟩ | ⟨l', _, e, _⟩
      · rw [hy] at hm; cases hm
      · exact e
    have hspan : ((s1 ++ s2 ++ s3).take (s1.length + s2.length)).drop s1.length = s2 := by
      rw [take_append_len (p := s1 ++ s2) (by simp), drop_append_len rfl]
    refine ⟨_, _, ?_, only_put w x _, stands_put _ _ _ true _⟩
    have : insertRange cap w x i f l = arrayInsert cap w x i s2 := by
      unfold insertRange
      rw [sf.1, sl.1]
      simp only [ne_eq, not_true_eq_false, if_false, hy, if_neg hyx, kf, kl, Bool.and_self, if_true, hv, h1,
        live_of sf.2.1, live_of sl.2.1, sf.2.2, sl.2.2, hspan]
      simp
    rw [call, this, key s2 hle]
    rfl

/-- Two nulls inserted in front of an array. -/
example : ∃ w' k, call 100 exWorld (.insertMany 0 ⟨some 0, 1, true, 0⟩ 2 .null) = .ok (w', .it k) ∧
    Only exWorld w' 0 (.arr [.null, .null, .uint 1, .uint 2, .uint 3]) ∧ Stands w' k 0 0 :=
  (json_insert_values (cap := 100) (by omega) (exProg (by omega)) (i := ⟨some 0, 1, true, 0⟩) (by simp [exIts]) (x := 0) (p := []) (r := [.uint 1, .uint 2, .uint 3])
    ⟨rfl, rfl, rfl⟩ rfl).2.1 2 .null (by decide)

/-- C105: inserting the entries of a range of another object adds those whose keys are new and leaves the
entries there are. -/
theorem json_insert_entries {cap : Nat} (hc : cap < 2 ^ 63) {w : World} {its : List It} (h : Prog cap w its)
    {f l : It} (hf : f ∈ its) (hl : l ∈ its) {x y : Nat} (hxy : x ≠ y)
    {m1 m2 m3 mx : List (List Nat × Value)} (hy : w.value y = .obj (m1 ++ m2 ++ m3)) (hx : w.value x = .obj mx)
    (sf : Stands w f y m1.length) (sl : Stands w l y (m1.length + m2.length)) :
    ∃ w' m, call cap w (.insertEntries x f l) = .ok (w', .unit) ∧ Only w w' x (.obj m) ∧ SortedKeys m ∧
      ∀ k v, (k, v) ∈ m ↔ (k, v) ∈ mx ∨ ((k, v) ∈ m2 ∧ ∀ u, (k, u) ∉ mx) := by
  have inv := prog_inv hc h
  have kf : f.isArr = false := by
    rcases good_elim (inv.2 f hf) sf with ⟨m, _, e, _⟩ | ⟨l', hm, _⟩
    · exact e
    · rw [hy] at hm; cases hm
  have kl : l.isArr = false := by
    rcases good_elim (inv.2 l hl) sl with ⟨m, _, e, _⟩ | ⟨l', hm, _⟩
    · exact e
    · rw [hy] at hm; cases hm
  have sx : SortedKeys mx := by have := inv.1 x; rw [hx] at this; exact this
  have s2 : SortedKeys m2 := by
    have : SortedKeys (m1 ++ m2 ++ m3) := by have := inv.1 y; rw [hy] at this; exact this
    unfold SortedKeys at *
    exact (List.pairwise_append.1 (List.pairwise_append.1 this).1).2.1
  have hspan : ((m1 ++ m2 ++ m3).take (m1.length + m2.length)).drop m1.length = m2 := by
    rw [take_append_len (p := m1 ++ m2) (by simp), drop_append_len rfl]
  refine ⟨_, mergeInto mx m2, ?_, only_put w x _, sorted_merge sx, ?_⟩
  · simp only [call, insertEntries, sf.1, sl.1, ne_eq, not_true_eq_false, if_false, hy, kf, kl, Bool.or_self, hx,
      live_of sf.2.1, live_of sl.2.1, sf.2.2, sl.2.2, hspan]
    simp [hxy, Out.bind]
  · intro k v
    rw [← lookup_iff (sorted_merge sx), lookup_merge sx s2, ← lookup_iff sx]
    have hno : (∀ u, (k, u) ∉ mx) ↔ lookup k mx = none := by
      constructor
      · intro q
        cases e : lookup k mx with
        | none => rfl
        | some u => exact absurd ((lookup_iff sx k u).1 e) (q u)
      · intro q u hu
        rw [(lookup_iff sx k u).2 hu] at q
        cases q
    rw [hno, ← lookup_iff s2]
    cases e : lookup k mx with
    | none => simp
    | some u => simp

/-- The entries of one object inserted into another one. -/
example : ∃ w' m, call 100 exWorld (.insertEntries 1 ⟨some 2, 1, false, 0⟩ ⟨some 2, 1, false, 2⟩) = .ok (w', .unit) ∧ Only exWorld w' 1 (.obj m) :=
  have ⟨w', m, h1, h2, _⟩ := json_insert_entries (cap := 100) (by omega) (exProg (by omega)) (f := ⟨some 2, 1, false, 0⟩) (l := ⟨some 2, 1, false, 2⟩) (by simp [exIts]) (by simp [exIts])
    (x := 1) (y := 2) (by omega) (m1 := []) (m2 := [([0x61], .uint 1), ([0x62], .bool true)]) (m3 := [])
    (mx := [([0x61], .uint 1), ([0x62], .bool true)]) rfl rfl ⟨rfl, rfl, rfl⟩ ⟨rfl, rfl, rfl⟩
  ⟨w', m, h1, h2⟩

/-! ## Looking up -/

theorem keyPos_spec (k : List Nat) : ∀ m : List (List Nat × Value),
    (∃ v, lookup k m = some v ∧ m[keyPos k m]? = some (k, v)) ∨ (lookup k m = none ∧ keyPos k m = m.length) := by
  intro m
  induction m with
  | nil => exact Or.inr ⟨rfl, rfl⟩
  | cons e m ih =>
    obtain ⟨k', v'⟩ := e
    by_cases hk : k = k'
    · subst hk
      exact Or.inl ⟨v', by simp [lookup], by simp [keyPos]⟩
    · have hb : (k == k') = false := by simp [hk]
      rcases ih with ⟨v, h1, h2⟩ | ⟨h1, h2⟩
      · exact Or.inl ⟨v, by simp [lookup, hb, h1], by simp [keyPos, hb, h2]⟩
      · exact Or.inr ⟨by simp [lookup, hb, h1], by simp [keyPos, hb, h2]⟩

/-- C105: `find` gives an iterator to the entry of the key, or the end. `insert` gives one to the entry of
the key, which holds the old value if there was one. -/
theorem json_find_insert {cap : Nat} (hc : cap < 2 ^ 63) {w : World} {its : List It} (h : Prog cap w its)
    {x : Nat} {m : List (List Nat × Value)} (hm : w.value x = .obj m) {raw k : List Nat}
    (hraw : ∀ b ∈ raw, b < 256) (hk : StringBody raw k) :
    (∃ i n, Answers cap w (.find x raw) (.it i) ∧ Stands w i x n ∧
      ((∃ v, m[n]? = some (k, v)) ∨ (n = m.length ∧ ∀ v, (k, v) ∉ m))) ∧
    (∀ v, ∃ w' i n m' b, call cap w (.insertKey x raw v) = .ok (w', .itFlag i b) ∧
      (b = true ↔ ∀ u, (k, u) ∉ m) ∧ Only w w' x (.obj m') ∧ SortedKeys m' ∧ Stands w' i x n ∧
      (∀ u, (k, u) ∈ m → m' = m ∧ m'[n]? = some (k, u)) ∧
      ((∀ u, (k, u) ∉ m) → m'[n]? = some (k, v) ∧
        ∀ k' u, (k', u) ∈ m' ↔ (k', u) ∈ m ∨ (k' = k ∧ u = v))) := by
  have inv := prog_inv hc h
  have sx : SortedKeys m := by have := inv.1 x; rw [hm] at this; exact this
  have hcv : convertToString raw = some k := (convertToString_iff raw k hraw).2 hk
  have hno : (∀ u, (k, u) ∉ m) ↔ lookup k m = none := by
    constructor
    · intro q
      cases e : lookup k m with
      | none => rfl
      | some u => exact absurd ((lookup_iff sx k u).1 e) (q u)
    · intro q u hu
      rw [(lookup_iff sx k u).2 hu] at q
      cases q
  constructor
  · refine ⟨⟨some x, w.ver x, false, keyPos k m⟩, keyPos k m, ?_, ⟨rfl, rfl, rfl⟩, ?_⟩
    · simp [Answers, call, pureCall, findKey, hm, hcv, Out.bind]
    · rcases keyPos_spec k m with ⟨v, -, h2⟩ | ⟨h1, h2⟩
      · exact Or.inl ⟨v, h2⟩
      · exact Or.inr ⟨h2, hno.2 h1⟩
  · intro v
    have s' := sorted_insertNew sx k v
    refine ⟨w.put x (.obj (insertNew k v m)), ⟨some x, w.ver x + 1, false, keyPos k (insertNew k v m)⟩,
      keyPos k (insertNew k v m), insertNew k v m, (lookup k m).isNone, ?_, ?_, only_put w x _, s', stands_put _ _ _ _ _, ?_, ?_⟩
    · simp only [call, insertKey, hm, hcv, Out.bind]
    · rw [hno]; cases lookup k m <;> simp
    · intro u hu
      have hl := (lookup_iff sx k u).2 hu
      have e := insertNew_eq sx k v
      have hm' : insertNew k v m = m := by
        refine sorted_ext s' sx ?_
        rintro ⟨k', u'⟩
        rw [← lookup_iff s', ← lookup_iff sx, lookup_insertNew sx]
        by_cases hkk : k' = k
        · subst hkk; simp [hl]
        · simp [hkk]
      rw [hm']
      refine ⟨rfl, ?_⟩
      rcases keyPos_spec k m with ⟨v', h1, h2⟩ | ⟨h1, h2⟩
      · rw [hl] at h1
        cases h1
        exact h2
      · rw [hl] at h1; cases h1
    · intro hn
      have hl := hno.1 hn
      have hli : lookup k (insertNew k v m) = some v := by
        rw [lookup_insertNew sx]; simp [hl]
      constructor
      · rcases keyPos_spec k (insertNew k v m) with ⟨v', h1, h2⟩ | ⟨h1, h2⟩
        · rw [hli] at h1
          cases h1
          exact h2
        · rw [hli] at h1; cases h1
      · intro k' u
        rw [← lookup_iff s', ← lookup_iff sx, lookup_insertNew sx]
        by_cases hkk : k' = k
        · subst hkk; simp [hl, eq_comm]
        · simp [hkk]

/-- The key "b" is found in an object that has it. -/
example : ∃ i n, Answers 100 exWorld (.find 1 [0x62]) (.it i) ∧ Stands exWorld i 1 n :=
  have ⟨i, n, h1, h2, _⟩ := (json_find_insert (cap := 100) (by omega) (exProg (by omega)) (x := 1)
    (m := [([0x61], .uint 1), ([0x62], .bool true)]) rfl (raw := [0x62]) (k := [0x62]) (by decide)
    ⟨.one (by decide) .nil, .plain (by decide) (by decide) (by decide) .nil⟩).1
  ⟨i, n, h1, h2⟩

end Verif.Json
