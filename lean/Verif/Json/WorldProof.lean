import Verif.Json.WorldSpec
import Verif.Json.OpsProof
import Verif.Json.IterProof

namespace Verif.Json

/-! ## Reachable states -/

/-- The kind and number of entries of a container. -/
def shape : Value → Option (Bool × Nat)
  | .obj m => some (false, m.length)
  | .arr l => some (true, l.length)
  | _ => none

theorem shape_elements (v : Value) : (shape v).map (·.2) = (elements v).map List.length := by
  cases v <;> simp [shape, elements]

/-- An iterator that is usable fits its container. -/
def Good (w : World) (i : It) : Prop :=
  ∀ x, i.owner = some x → i.ver ≤ w.ver x ∧
    (i.ver = w.ver x → ∃ n, shape (w.value x) = some (i.isArr, n) ∧ i.pos ≤ n)

def Inv (cap : Nat) (w : World) (its : List It) : Prop :=
  (∀ x, Fits cap (w.value x)) ∧ ∀ i ∈ its, Good w i

theorem growTo_fits {cap i : Nat} {l : List Value} (h : l.length ≤ cap) : (growTo cap i l).1.length ≤ cap := by
  unfold growTo
  split
  · exact h
  · split
    · exact h
    · rename_i l' hl
      unfold resizeTo at hl
      split at hl
      · simp only [Option.some.injEq] at hl
        subst hl
        simp only [List.length_take]
        omega
      · split at hl
        · simp only [Option.some.injEq] at hl
          subst hl
          simp only [List.length_append, List.length_replicate]
          omega
        · simp at hl

theorem fits_index {cap i : Nat} {v : Value} (hv : Fits cap v) (f : List Value → Value × Ret)
    (hf : ∀ l, l.length ≤ cap → Fits cap (f l).1) : Fits cap (withIndex cap v i f).1 := by
  unfold withIndex
  split
  · exact hv
  · rename_i l hl
    have hle : l.length ≤ cap := by
      cases v <;> simp only [asArray, Option.some.injEq, reduceCtorEq] at hl
      · subst hl; exact Nat.zero_le _
      · subst hl; exact hv
    split
    · exact hf _ (growTo_fits hle)
    · exact growTo_fits hle

theorem fits_step {cap : Nat} (hc : cap < 2 ^ 63) {v : Value} (hv : Fits cap v) {op : Op} (ho : op.Ok) :
    Fits cap (step cap v op).1 := by
  by_cases hd : Deviates cap v op
  · cases op <;> simp only [Deviates] at hd <;> try exact hd.elim
    case subKey raw =>
      obtain ⟨rfl, h⟩ := hd
      simp only [step, withSubscript, asObject]
      split
      · rename_i k hk
        exact absurd (convert_some ho hk) (h k)
      · simp [Fits, SortedKeys]
    case setKey raw x =>
      obtain ⟨rfl, h⟩ := hd
      simp only [step, withSubscript, asObject]
      split
      · rename_i k hk
        exact absurd (convert_some ho hk) (h k)
      · simp [Fits, SortedKeys]
    case subIdx i => exact fits_index hv _ (fun l hl => hl)
    case setIdx i x => exact fits_index hv _ (fun l hl => by simpa [Fits] using hl)
    case merge o =>
      obtain ⟨rfl, h⟩ := hd
      simp only [step, asObject]
      cases o <;> first | exact absurd rfl (h _) | simp [Fits, SortedKeys]
  · exact (step_expected hc hv ho hd).2

theorem good_put {w : World} {i : It} {x : Nat} {v : Value} (h : Good w i) : Good (w.put x v) i := by
  intro y hy
  obtain ⟨h1, h2⟩ := h y hy
  by_cases e : y = x
  · subst e
    simp only [World.put, if_true]
    exact ⟨by omega, fun h => by omega⟩
  · simp only [World.put, if_neg e]
    exact ⟨h1, h2⟩

theorem good_poke {w : World} {i : It} {x : Nat} {v : Value} (hs : shape v = shape (w.value x))
    (h : Good w i) : Good (w.poke x v) i := by
  intro y hy
  obtain ⟨h1, h2⟩ := h y hy
  by_cases e : y = x
  · subst e
    simp only [World.poke, if_true]
    rw [hs]
    exact ⟨h1, h2⟩
  · simp only [World.poke, if_neg e]
    exact ⟨h1, h2⟩

theorem inv_put {cap : Nat} {w : World} {its : List It} {x : Nat} {v : Value} (h : Inv cap w its)
    (hv : Fits cap v) : Inv cap (w.put x v) its := by
  refine ⟨?_, fun i hi => good_put (h.2 i hi)⟩
  intro y
  simp only [World.put]
  split
  · exact hv
  · exact h.1 y

theorem inv_cons {cap : Nat} {w : World} {its : List It} {i : It} (h : Inv cap w its) (hi : Good w i) :
    Inv cap w (i :: its) :=
  ⟨h.1, fun j hj => by
    rcases List.mem_cons.1 hj with rfl | hj
    · exact hi
    · exact h.2 j hj⟩

theorem good_new {w : World} {x n p : Nat} {a : Bool} (h : shape (w.value x) = some (a, n)) (hp : p ≤ n) :
    Good w ⟨some x, w.ver x, a, p⟩ := by
  intro y hy
  simp only [Option.some.injEq] at hy
  subst hy
  exact ⟨Nat.le_refl _, fun _ => ⟨n, h, hp⟩⟩

theorem put_value (w : World) (x : Nat) (v : Value) : (w.put x v).value x = v := by simp [World.put]
theorem put_ver (w : World) (x : Nat) (v : Value) : (w.put x v).ver x = w.ver x + 1 := by simp [World.put]
theorem put_other (w : World) (x y : Nat) (v : Value) (h : y ≠ x) : (w.put x v).value y = w.value y := by
  simp [World.put, h]
theorem put_other_ver (w : World) (x y : Nat) (v : Value) (h : y ≠ x) : (w.put x v).ver y = w.ver y := by
  simp [World.put, h]

theorem good_put_new {w : World} {x n p : Nat} {a : Bool} {v : Value} (h : shape v = some (a, n))
    (hp : p ≤ n) : Good (w.put x v) ⟨some x, w.ver x + 1, a, p⟩ := by
  rw [← put_ver w x v]
  exact good_new (by rw [put_value]; exact h) hp

/-- What a usable iterator of a reachable state looks like. -/
theorem good_elim {w : World} {i : It} {x n : Nat} (h : Good w i) (hs : Stands w i x n) :
    (∃ m, w.value x = .obj m ∧ i.isArr = false ∧ n ≤ m.length) ∨
    (∃ l, w.value x = .arr l ∧ i.isArr = true ∧ n ≤ l.length) := by
  obtain ⟨h1, h2, h3⟩ := hs
  obtain ⟨k, hk, hp⟩ := (h x h1).2 h2
  subst h3
  cases hv : w.value x with
  | obj m =>
    rw [hv] at hk
    simp only [shape, Option.some.injEq, Prod.mk.injEq] at hk
    exact Or.inl ⟨m, rfl, hk.1.symm, hk.2 ▸ hp⟩
  | arr l =>
    rw [hv] at hk
    simp only [shape, Option.some.injEq, Prod.mk.injEq] at hk
    exact Or.inr ⟨l, rfl, hk.1.symm, hk.2 ▸ hp⟩
  | _ => rw [hv] at hk; simp [shape] at hk

theorem bind_ok {α β : Type} {o : Out α} {f : α → Out β} {b : β} :
    o.bind f = .ok b ↔ ∃ a, o = .ok a ∧ f a = .ok b := by
  cases o <;> simp [Out.bind]

theorem bind_ub {α β : Type} {o : Out α} {f : α → Out β} :
    o.bind f = .ub ↔ o = .ub ∨ ∃ a, o = .ok a ∧ f a = .ub := by
  cases o <;> simp [Out.bind]

theorem moveBy_ok {n p q : Nat} {off : Int} (hp : p ≤ n) (h : moveBy n p off = .ok q) : q ≤ n := by
  unfold moveBy validateOffset at h
  by_cases h0 : off = -(2 ^ 63)
  · rw [if_pos h0] at h; simp at h
  · rw [if_neg h0] at h
    by_cases h1 : 0 ≤ off
    · rw [if_pos h1] at h
      by_cases h2 : off > (n : Int) - p
      · rw [if_pos h2] at h; simp at h
      · rw [if_neg h2] at h
        simp only [advance, Out.ok.injEq] at h
        omega
    · rw [if_neg h1] at h
      by_cases h2 : -off > (p : Int)
      · rw [if_pos h2] at h; simp at h
      · rw [if_neg h2] at h
        simp only [advance, Out.ok.injEq] at h
        omega

theorem move_good {w : World} {i j : It} {off : Int} (h : Good w i) (hm : itMove w i off = .ok j) :
    Good w j := by
  unfold itMove at hm
  rw [bind_ok] at hm
  obtain ⟨x, hx, hm⟩ := hm
  have ho : i.owner = some x := by
    unfold validate at hx
    split at hx
    · simp at hx
    · rename_i y hy; simp only [Out.ok.injEq] at hx; rw [hy, hx]
  by_cases hl : live w i x = true
  · rw [if_pos hl] at hm
    have hv : i.ver = w.ver x := by simpa [live] using hl
    obtain ⟨n, hn, hp⟩ := (h x ho).2 hv
    split at hm
    · rename_i l hl'
      have e := shape_elements (w.value x)
      rw [hn, hl'] at e
      simp only [Option.map_some, Option.some.injEq] at e
      rw [bind_ok] at hm
      obtain ⟨p, hp1, hp2⟩ := hm
      simp only [Out.ok.injEq] at hp2
      subst hp2
      intro y hy
      have : y = x := by
        have : some y = some x := by rw [← ho]; exact hy.symm
        simpa using this
      subst this
      exact ⟨(h y ho).1, fun _ => ⟨n, hn, e ▸ moveBy_ok (e ▸ hp) hp1⟩⟩
    · simp at hm
  · rw [if_neg hl] at hm; simp at hm

theorem add_good {w : World} {i j : It} {off : Int} (h : Good w i) (hm : itAdd w i off = .ok j) :
    Good w j := by
  unfold itAdd at hm
  rw [bind_ok] at hm
  obtain ⟨x, -, hm⟩ := hm
  split at hm
  · exact move_good h hm
  · simp at hm

theorem sub_good {w : World} {i j : It} {off : Int} (h : Good w i) (hm : itSub w i off = .ok j) :
    Good w j := by
  unfold itSub at hm
  rw [bind_ok] at hm
  obtain ⟨o, -, hm⟩ := hm
  exact add_good h hm

theorem begin_good {w : World} {x : Nat} {i : It} (h : beginOf w x = .ok i) : Good w i := by
  unfold beginOf at h
  split at h <;> simp only [Out.ok.injEq, reduceCtorEq] at h
  · rename_i m hv; subst h; exact good_new (n := m.length) (by rw [hv]; rfl) (Nat.zero_le _)
  · rename_i m hv; subst h; exact good_new (n := m.length) (by rw [hv]; rfl) (Nat.zero_le _)

theorem end_good {w : World} {x : Nat} {i : It} (h : endOf w x = .ok i) : Good w i := by
  unfold endOf at h
  split at h <;> simp only [Out.ok.injEq, reduceCtorEq] at h
  · rename_i m hv; subst h; exact good_new (n := m.length) (by rw [hv]; rfl) (Nat.le_refl _)
  · rename_i m hv; subst h; exact good_new (n := m.length) (by rw [hv]; rfl) (Nat.le_refl _)

theorem keyPos_le (k : List Nat) : ∀ m : List (List Nat × Value), keyPos k m ≤ m.length := by
  intro m
  induction m with
  | nil => exact Nat.le_refl _
  | cons e m ih =>
    unfold keyPos
    split
    · exact Nat.zero_le _
    · simpa using ih

theorem eraseSpan_length {α : Type} (l : List α) {a b : Nat} (h : a ≤ b) (hb : b ≤ l.length) :
    (eraseSpan l a b).length = l.length - (b - a) := by
  simp [eraseSpan]
  omega

theorem sorted_span {m : List (List Nat × Value)} (h : SortedKeys m) (a b : Nat) (hab : a ≤ b) :
    SortedKeys (eraseSpan m a b) := by
  unfold SortedKeys eraseSpan at *
  refine List.Pairwise.sublist ?_ h
  have : (m.take a ++ m.drop b).Sublist (m.take a ++ m.drop a) :=
    List.Sublist.append (List.Sublist.refl _) (List.drop_sublist_drop_left _ hab)
  rwa [List.take_append_drop] at this

theorem fits_span {cap : Nat} {v : Value} (h : Fits cap v) (a b : Nat) (hab : a ≤ b) :
    Fits cap (withoutSpan v a b) := by
  cases v with
  | obj m => exact sorted_span h a b hab
  | arr l =>
    simp only [withoutSpan, Fits, eraseSpan, List.length_append, List.length_take, List.length_drop] at *
    omega
  | _ => exact h

/-! ## The invariant -/

theorem array_insert_ok {cap : Nat} {w w' : World} {x : Nat} {pos it : It} {vs : List Value}
    (h : arrayInsert cap w x pos vs = .ok (w', it)) :
    ∃ l, w.value x = .arr l ∧ pos.owner = some x ∧ pos.isArr = true ∧ pos.ver = w.ver x ∧
      pos.pos ≤ l.length ∧ l.length + vs.length ≤ cap ∧
      w' = w.put x (.arr (l.take pos.pos ++ vs ++ l.drop pos.pos)) ∧
      it = ⟨some x, w.ver x + 1, true, pos.pos⟩ := by
  unfold arrayInsert at h
  split at h
  · rename_i l hl
    split at h
    · rename_i h1
      split at h
      · rename_i h2
        split at h
        · rename_i h3
          split at h
          · rename_i h4
            split at h
            · rename_i h5
              simp only [Out.ok.injEq, Prod.mk.injEq] at h
              exact ⟨l, hl, h1, h2, by simpa [live] using h3, h4, h5, h.1.symm, h.2.symm⟩
            · simp at h
          · simp at h
        · simp at h
      · simp at h
    · simp at h
  · simp at h

theorem array_insert_inv {cap : Nat} {w w' : World} {its : List It} {x : Nat} {pos it : It} {vs : List Value}
    (h : Inv cap w its) (hi : arrayInsert cap w x pos vs = .ok (w', it)) : Inv cap w' (it :: its) := by
  obtain ⟨l, h1, h2, h3, h4, h5, h6, h7, h8⟩ := array_insert_ok hi
  subst h7 h8
  refine inv_cons (inv_put h ?_) (good_put_new (n := (l.take pos.pos ++ vs ++ l.drop pos.pos).length) rfl ?_)
  · simp only [Fits, List.length_append, List.length_take, List.length_drop]
    omega
  · simp only [List.length_append, List.length_take, List.length_drop]
    omega

theorem insert_range_ok {cap : Nat} {w w' : World} {x : Nat} {pos a b it : It}
    (h : insertRange cap w x pos a b = .ok (w', it)) :
    ∃ y l, a.owner = some y ∧ b.owner = some y ∧ w.value y = .arr l ∧ y ≠ x ∧ a.ver = w.ver y ∧
      b.ver = w.ver y ∧ a.pos ≤ b.pos ∧ b.pos ≤ l.length ∧
      arrayInsert cap w x pos ((l.take b.pos).drop a.pos) = .ok (w', it) := by
  unfold insertRange at h
  split at h
  · simp at h
  · rename_i hab
    split at h
    · simp at h
    · rename_i y hy
      split at h
      · rename_i l hl
        split at h
        · simp at h
        · rename_i hyx
          split at h
          · split at h
            · split at h
              · split at h
                · rename_i hc
                  simp only [Bool.and_eq_true, live, beq_iff_eq, decide_eq_true_eq] at hc
                  refine ⟨y, l, hy, ?_, hl, hyx, hc.1.1.1, hc.1.1.2, hc.1.2, hc.2, h⟩
                  have : a.owner = b.owner := by simpa using hab
                  rw [← this, hy]
                · simp at h
              · simp at h
            · simp at h
          · simp at h
      · simp at h

theorem insert_entries_ok {w w' : World} {x : Nat} {a b : It} (h : insertEntries w x a b = .ok w') :
    ∃ y m mx, a.owner = some y ∧ b.owner = some y ∧ w.value y = .obj m ∧ w.value x = .obj mx ∧ x ≠ y ∧
      a.ver = w.ver y ∧ b.ver = w.ver y ∧ a.pos ≤ b.pos ∧ b.pos ≤ m.length ∧
      w' = w.put x (.obj (mergeInto mx ((m.take b.pos).drop a.pos))) := by
  unfold insertEntries at h
  split at h
  · simp at h
  · rename_i hab
    split at h
    · simp at h
    · rename_i y hy
      split at h
      · rename_i m hm
        split at h
        · simp at h
        · split at h
          · rename_i mx hx
            split at h
            · rename_i hc
              simp only [Bool.and_eq_true, live, beq_iff_eq, decide_eq_true_eq] at hc
              have : a.owner = b.owner := by simpa using hab
              simp only [Out.ok.injEq] at h
              exact ⟨y, m, mx, hy, by rw [← this, hy], hm, hx, hc.2, hc.1.1.1.1, hc.1.1.1.2, hc.1.1.2, hc.1.2,
                h.symm⟩
            · simp at h
          · simp at h
      · simp at h

theorem endOf_ok {w : World} {x : Nat} {e : It} (h : endOf w x = .ok e) :
    ∃ n, shape (w.value x) = some (e.isArr, n) ∧ e = ⟨some x, w.ver x, e.isArr, n⟩ := by
  unfold endOf at h
  split at h <;> simp only [Out.ok.injEq, reduceCtorEq] at h
  · rename_i m hv; subst h; exact ⟨m.length, by rw [hv]; rfl, rfl⟩
  · rename_i m hv; subst h; exact ⟨m.length, by rw [hv]; rfl, rfl⟩

theorem beginOf_ok {w : World} {x : Nat} {e : It} (h : beginOf w x = .ok e) :
    ∃ n, shape (w.value x) = some (e.isArr, n) ∧ e = ⟨some x, w.ver x, e.isArr, 0⟩ := by
  unfold beginOf at h
  split at h <;> simp only [Out.ok.injEq, reduceCtorEq] at h
  · rename_i m hv; subst h; exact ⟨m.length, by rw [hv]; rfl, rfl⟩
  · rename_i m hv; subst h; exact ⟨m.length, by rw [hv]; rfl, rfl⟩

theorem shape_span {v : Value} {a : Bool} {n p q : Nat} (h : shape v = some (a, n)) (hpq : p ≤ q)
    (hq : q ≤ n) : shape (withoutSpan v p q) = some (a, n - (q - p)) := by
  cases v with
  | obj m =>
    simp only [shape, Option.some.injEq, Prod.mk.injEq] at h
    simp only [withoutSpan, shape, eraseSpan_length m hpq (by omega), h.1, h.2]
  | arr m =>
    simp only [shape, Option.some.injEq, Prod.mk.injEq] at h
    simp only [withoutSpan, shape, eraseSpan_length m hpq (by omega), h.1, h.2]
  | _ => simp [shape] at h

theorem erase_ok {w w' : World} {x : Nat} {pos it : It} (h : eraseIt w x pos = .ok (w', it)) :
    ∃ n, pos.owner = some x ∧ pos.ver = w.ver x ∧ shape (w.value x) = some (pos.isArr, n) ∧ pos.pos < n ∧
      w' = w.put x (withoutSpan (w.value x) pos.pos (pos.pos + 1)) ∧
      it = ⟨some x, w.ver x + 1, pos.isArr, pos.pos⟩ := by
  unfold eraseIt at h
  rw [bind_ok] at h
  obtain ⟨e, he, h⟩ := h
  obtain ⟨n, hn, he'⟩ := endOf_ok he
  split at h
  · rename_i ho
    rw [bind_ok] at h
    obtain ⟨b, hb, h⟩ := h
    have hver : pos.ver = w.ver x := by
      unfold itEq at hb
      rw [bind_ok] at hb
      obtain ⟨y, hy, hb⟩ := hb
      split at hb
      · rename_i hl
        simp only [Bool.and_eq_true, live, beq_iff_eq] at hl
        unfold validatePair at hy
        rw [ho, he'] at hy
        simp only [if_true, Out.ok.injEq] at hy
        rw [hy]; exact hl.1
      · simp at hb
    split at h
    · simp at h
    · split at h
      · rename_i ha
        split at h
        · rename_i hlt
          simp only [Out.ok.injEq, Prod.mk.injEq] at h
          have : e.pos = n := by rw [he']
          exact ⟨n, ho, hver, by rw [ha]; exact hn, this ▸ hlt, h.1.symm, by rw [ha]; exact h.2.symm⟩
        · simp at h
      · simp at h
  · simp at h

theorem erase_range_ok {w w' : World} {x : Nat} {a b it : It} (h : eraseRange w x a b = .ok (w', it)) :
    ∃ n, a.owner = some x ∧ b.owner = some x ∧ a.ver = w.ver x ∧ b.ver = w.ver x ∧
      shape (w.value x) = some (a.isArr, n) ∧ a.pos ≤ b.pos ∧ b.pos ≤ n ∧
      w' = w.put x (withoutSpan (w.value x) a.pos b.pos) ∧ it = ⟨some x, w.ver x + 1, a.isArr, a.pos⟩ := by
  unfold eraseRange at h
  rw [bind_ok] at h
  obtain ⟨e, he, h⟩ := h
  obtain ⟨n, hn, he'⟩ := endOf_ok he
  split at h
  · rename_i ho
    split at h
    · rename_i ha
      split at h
      · rename_i hc
        simp only [Bool.and_eq_true, live, beq_iff_eq, decide_eq_true_eq] at hc
        simp only [Out.ok.injEq, Prod.mk.injEq] at h
        have : e.pos = n := by rw [he']
        exact ⟨n, ho.1, by rw [← ho.2]; exact ho.1, hc.1.1.1, hc.1.1.2, by rw [ha.1]; exact hn, hc.1.2,
          this ▸ hc.2, h.1.symm, by rw [ha.1]; exact h.2.symm⟩
      · simp at h
    · simp at h
  · simp at h

theorem set_ok {w w' : World} {i : It} {v : Value} (h : itSet w i v = .ok w') :
    ∃ x, i.owner = some x ∧
      ((∃ m, w.value x = .obj m ∧
        w' = w.poke x (.obj (m.mapIdx fun n e => if n = i.pos then (e.1, v) else e))) ∨
      (∃ l, w.value x = .arr l ∧ w' = w.poke x (.arr (l.set i.pos v)))) := by
  unfold itSet at h
  rw [bind_ok] at h
  obtain ⟨u, -, h⟩ := h
  split at h
  · simp at h
  · rename_i x hx
    refine ⟨x, hx, ?_⟩
    split at h <;> simp only [Out.ok.injEq, reduceCtorEq] at h
    · rename_i m hm; exact Or.inl ⟨m, hm, h.symm⟩
    · rename_i m hm; exact Or.inr ⟨m, hm, h.symm⟩

theorem sorted_mapIdx {m : List (List Nat × Value)} (h : SortedKeys m) (p : Nat) (v : Value) :
    SortedKeys (m.mapIdx fun n e => if n = p then (e.1, v) else e) := by
  unfold SortedKeys at *
  rw [List.pairwise_iff_getElem] at *
  intro i j hi hj hij
  simp only [List.length_mapIdx] at hi hj
  simp only [List.getElem_mapIdx]
  have := h i j hi hj hij
  split <;> split <;> exact this

theorem inv_call {cap : Nat} (hc : cap < 2 ^ 63) {w w' : World} {its : List It} {c : Call} {r : Got}
    (h : Inv cap w its) (ho : c.Ok cap) (hu : ∀ i ∈ c.uses, i ∈ its) (hr : call cap w c = .ok (w', r)) :
    Inv cap w' (r.iters ++ its) := by
  have pure0 : ∀ {α : Type} {f : α → Got} {o : Out α}, (∀ a, (f a).iters = []) →
      pureCall w f o = .ok (w', r) → Inv cap w' (r.iters ++ its) := by
    intro α f o hf he
    unfold pureCall at he
    rw [bind_ok] at he
    obtain ⟨a, -, he⟩ := he
    simp only [Out.ok.injEq, Prod.mk.injEq] at he
    rw [← he.1, ← he.2, hf a]
    exact h
  have pureIt : ∀ {o : Out It}, (∀ i, o = .ok i → Good w i) →
      pureCall w .it o = .ok (w', r) → Inv cap w' (r.iters ++ its) := by
    intro o hg he
    unfold pureCall at he
    rw [bind_ok] at he
    obtain ⟨a, ha, he⟩ := he
    simp only [Out.ok.injEq, Prod.mk.injEq] at he
    rw [← he.1, ← he.2]
    exact inv_cons h (hg a ha)
  cases c with
  | make x v =>
    simp only [call, Out.ok.injEq, Prod.mk.injEq] at hr
    rw [← hr.1, ← hr.2]
    exact inv_put h ho
  | beginOf x => exact pureIt (fun i hi => begin_good hi) hr
  | endOf x => exact pureIt (fun i hi => end_good hi) hr
  | front x => exact pure0 (fun _ => rfl) hr
  | back x => exact pure0 (fun _ => rfl) hr
  | find x raw =>
    refine pureIt (fun i hi => ?_) hr
    unfold findKey at hi
    split at hi
    · rename_i m hm
      split at hi
      · simp only [Out.ok.injEq] at hi
        subst hi
        exact good_new (n := m.length) (by rw [hm]; rfl) (keyPos_le _ _)
      · simp at hi
    · simp at hi
  | insertKey x raw v =>
    simp only [call] at hr
    rw [bind_ok] at hr
    obtain ⟨⟨w1, i1, b1⟩, h1, h2⟩ := hr
    simp only [Out.ok.injEq, Prod.mk.injEq] at h2
    rw [← h2.1, ← h2.2]
    unfold Verif.Json.insertKey at h1
    split at h1
    · rename_i m hm
      have hs : SortedKeys m := by have := h.1 x; rw [hm] at this; exact this
      split at h1
      · rename_i k _
        simp only [Out.ok.injEq, Prod.mk.injEq] at h1
        obtain ⟨rfl, rfl, rfl⟩ := h1
        exact inv_cons (inv_put h (sorted_insertNew hs k v))
          (good_put_new (n := (insertNew k v m).length) rfl (keyPos_le _ _))
      · simp at h1
    · simp at h1
  | eq i j => exact pure0 (fun _ => rfl) hr
  | ne i j => exact pure0 (fun _ => rfl) hr
  | lt i j => exact pure0 (fun _ => rfl) hr
  | le i j => exact pure0 (fun _ => rfl) hr
  | gt i j => exact pure0 (fun _ => rfl) hr
  | ge i j => exact pure0 (fun _ => rfl) hr
  | diff i j => exact pure0 (fun _ => rfl) hr
  | inc i => exact pureIt (fun j hj => move_good (h.2 i (hu i (by simp [Call.uses]))) hj) hr
  | dec i => exact pureIt (fun j hj => move_good (h.2 i (hu i (by simp [Call.uses]))) hj) hr
  | add i off => exact pureIt (fun j hj => add_good (h.2 i (hu i (by simp [Call.uses]))) hj) hr
  | sub i off => exact pureIt (fun j hj => sub_good (h.2 i (hu i (by simp [Call.uses]))) hj) hr
  | get i => exact pure0 (fun _ => rfl) hr
  | index i off => exact pure0 (fun _ => rfl) hr
  | key i => exact pure0 (fun _ => rfl) hr
  | set i v =>
    simp only [call] at hr
    rw [bind_ok] at hr
    obtain ⟨w1, h1, h2⟩ := hr
    simp only [Out.ok.injEq, Prod.mk.injEq] at h2
    rw [← h2.1, ← h2.2]
    obtain ⟨x, hx, h3⟩ := set_ok h1
    have key : ∀ v', shape v' = shape (w.value x) → Fits cap v' → Inv cap (w.poke x v') its := by
      intro v' hs hf
      refine ⟨?_, fun j hj => good_poke hs (h.2 j hj)⟩
      intro y
      simp only [World.poke]
      split
      · exact hf
      · exact h.1 y
    rcases h3 with ⟨m, hm, rfl⟩ | ⟨l, hl, rfl⟩
    · have hs : SortedKeys m := by have := h.1 x; rw [hm] at this; exact this
      exact key _ (by rw [hm]; simp [shape]) (sorted_mapIdx hs _ _)
    · have hs : l.length ≤ cap := by have := h.1 x; rw [hl] at this; exact this
      exact key _ (by rw [hl]; simp [shape]) (by simpa [Fits] using hs)
  | revGet i => exact pure0 (fun _ => rfl) hr
  | revKey i => exact pure0 (fun _ => rfl) hr
  | revDiff i j => exact pure0 (fun _ => rfl) hr
  | insert x pos v =>
    simp only [call] at hr
    rw [bind_ok] at hr
    obtain ⟨⟨w1, i1⟩, h1, h2⟩ := hr
    simp only [Out.ok.injEq, Prod.mk.injEq] at h2
    rw [← h2.1, ← h2.2]
    exact array_insert_inv h h1
  | insertMany x pos n v =>
    simp only [call] at hr
    rw [bind_ok] at hr
    obtain ⟨⟨w1, i1⟩, h1, h2⟩ := hr
    simp only [Out.ok.injEq, Prod.mk.injEq] at h2
    rw [← h2.1, ← h2.2]
    exact array_insert_inv h h1
  | insertRange x pos a b =>
    simp only [call] at hr
    rw [bind_ok] at hr
    obtain ⟨⟨w1, i1⟩, h1, h2⟩ := hr
    simp only [Out.ok.injEq, Prod.mk.injEq] at h2
    rw [← h2.1, ← h2.2]
    obtain ⟨y, l, -, -, -, -, -, -, -, -, h3⟩ := insert_range_ok h1
    exact array_insert_inv h h3
  | insertEntries x a b =>
    simp only [call] at hr
    rw [bind_ok] at hr
    obtain ⟨w1, h1, h2⟩ := hr
    simp only [Out.ok.injEq, Prod.mk.injEq] at h2
    rw [← h2.1, ← h2.2]
    obtain ⟨y, m, mx, -, -, -, hx, -, -, -, -, -, rfl⟩ := insert_entries_ok h1
    have hs : SortedKeys mx := by have := h.1 x; rw [hx] at this; exact this
    exact inv_put h (sorted_merge hs)
  | erase x pos =>
    simp only [call] at hr
    rw [bind_ok] at hr
    obtain ⟨⟨w1, i1⟩, h1, h2⟩ := hr
    simp only [Out.ok.injEq, Prod.mk.injEq] at h2
    rw [← h2.1, ← h2.2]
    obtain ⟨n, g1, g2, g3, g4, rfl, rfl⟩ := erase_ok h1
    exact inv_cons (inv_put h (fits_span (h.1 x) _ _ (by omega)))
      (good_put_new (shape_span g3 (by omega) g4) (by omega))
  | eraseRange x a b =>
    simp only [call] at hr
    rw [bind_ok] at hr
    obtain ⟨⟨w1, i1⟩, h1, h2⟩ := hr
    simp only [Out.ok.injEq, Prod.mk.injEq] at h2
    rw [← h2.1, ← h2.2]
    obtain ⟨n, g1, g2, g3, g4, g5, g6, g7, rfl, rfl⟩ := erase_range_ok h1
    exact inv_cons (inv_put h (fits_span (h.1 x) _ _ g6))
      (good_put_new (shape_span g5 g6 g7) (by omega))
  | swap x y =>
    simp only [call, Out.ok.injEq, Prod.mk.injEq] at hr
    rw [← hr.1, ← hr.2]
    exact inv_put (inv_put h (h.1 y)) (h.1 x)
  | other x o =>
    simp only [call, Out.ok.injEq, Prod.mk.injEq] at hr
    rw [← hr.1, ← hr.2]
    exact inv_put h (fits_step hc (h.1 x) ho)

theorem prog_inv {cap : Nat} (hc : cap < 2 ^ 63) {w : World} {its : List It} (h : Prog cap w its) :
    Inv cap w its := by
  induction h with
  | start => exact ⟨fun _ => trivial, fun i hi => by simp at hi⟩
  | null _ ih => exact inv_cons ih (fun x hx => by simp at hx)
  | call _ ho hu hr ih => exact inv_call hc ih ho hu hr

end Verif.Json
