import Verif.Json.WorldProps

/-!
# Reverse iterators of JSON values

Source: `/repo/fly/types/json/detail/json_reverse_iterator.hpp`, on top of `std::reverse_iterator`, whose members are those of the
standard: a reverse iterator keeps a base iterator; it shows what the base shows one step back, and moves the other way.
-/

namespace Verif.Json

/-! ## Model -/

/-- A reverse iterator, json_reverse_iterator.hpp 20-23: its base. -/
structure RevIt where
  base : It

/-- `rbegin()`, json.cpp 356-371, json_reverse_iterator.hpp 243-248. -/
def rbeginOf (w : World) (x : Nat) : Out RevIt := (endOf w x).bind fun i => .ok ⟨i⟩

/-- `rend()`, json.cpp 374-389, json_reverse_iterator.hpp 243-248. -/
def rendOf (w : World) (x : Nat) : Out RevIt := (beginOf w x).bind fun i => .ok ⟨i⟩

/-- `operator*`, `operator->`, `value()`, json_reverse_iterator.hpp 256-281 and 374-386: standard, `*--tmp`. -/
def RevIt.get (w : World) (r : RevIt) : Out Value := revGet w r.base

/-- `key()`, json_reverse_iterator.hpp 360-372. -/
def RevIt.key (w : World) (r : RevIt) : Out (List Nat) := revKey w r.base

/-- `operator++`, json_reverse_iterator.hpp 291-302: standard, `--current`; `JsonIterator::operator--`, json_iterator.hpp 703-717. -/
def RevIt.inc (w : World) (r : RevIt) : Out RevIt := (itMove w r.base (-1)).bind fun i => .ok ⟨i⟩

/-- `operator--`, json_reverse_iterator.hpp 305-316: standard, `++current`; `JsonIterator::operator++`, json_iterator.hpp 669-699. -/
def RevIt.dec (w : World) (r : RevIt) : Out RevIt := (itMove w r.base 1).bind fun i => .ok ⟨i⟩

/-- `operator+=`, `operator+`, json_reverse_iterator.hpp 319-323 and 333-338: standard, `current -= n`. -/
def RevIt.add (w : World) (r : RevIt) (off : Int) : Out RevIt := (itSub w r.base off).bind fun i => .ok ⟨i⟩

/-- `operator-=`, `operator-` of an offset, json_reverse_iterator.hpp 326-330 and 341-346: standard, `current += n`. -/
def RevIt.sub (w : World) (r : RevIt) (off : Int) : Out RevIt := (itAdd w r.base off).bind fun i => .ok ⟨i⟩

/-- `operator[]`, json_reverse_iterator.hpp 284-288. -/
def RevIt.index (w : World) (r : RevIt) (off : Int) : Out Value := (r.add w off).bind fun s => s.get w

/-- `operator-` of two, json_reverse_iterator.hpp 349-354: standard, `other.base() - base()`. -/
def RevIt.diff (w : World) (r s : RevIt) : Out Int := revDiff w r.base s.base

/-- The comparisons of `std::reverse_iterator`: those of the bases, the other way round. -/
def RevIt.eq (w : World) (r s : RevIt) : Out Bool := itEq w r.base s.base
/-- `!=` of `std::reverse_iterator`. -/
def RevIt.ne (w : World) (r s : RevIt) : Out Bool := itNe w r.base s.base
/-- `<` of `std::reverse_iterator`: `x.base() > y.base()`. -/
def RevIt.lt (w : World) (r s : RevIt) : Out Bool := itGt w r.base s.base
/-- `<=` of `std::reverse_iterator`: `x.base() >= y.base()`. -/
def RevIt.le (w : World) (r s : RevIt) : Out Bool := itGe w r.base s.base
/-- `>` of `std::reverse_iterator`: `x.base() < y.base()`. -/
def RevIt.gt (w : World) (r s : RevIt) : Out Bool := itLt w r.base s.base
/-- `>=` of `std::reverse_iterator`: `x.base() <= y.base()`. -/
def RevIt.ge (w : World) (r s : RevIt) : Out Bool := itLe w r.base s.base

/-! ## Specification -/

/-- The reverse iterator stands at index `k` of the reversed sequence of the `n` entries of variable `x`. -/
def RevStands (w : World) (r : RevIt) (x n k : Nat) : Prop := r.base.owner = some x ∧ r.base.ver = w.ver x ∧ r.base.pos + k = n

/-! ## Proofs -/

theorem entries_elements {v : Value} {es : List (Option (List Nat) × Value)} (he : Entries v es) :
    elements v = some (es.map (·.2)) := by
  cases he with
  | obj m => simp [elements, List.map_map, Function.comp_def]
  | arr l => simp [elements, List.map_map, Function.comp_def]

theorem move_at {w : World} {i : It} {x n : Nat} (h1 : i.owner = some x) (h2 : i.ver = w.ver x) {es : List (Option (List Nat) × Value)}
    (he : Entries (w.value x) es) (hn : es.length = n) (hp : i.pos ≤ n) {off : Int} (ho : off ≠ -(2 ^ 63)) :
    (∃ q : Nat, (q : Int) = i.pos + off ∧ q ≤ n ∧ itMove w i off = .ok { i with pos := q }) ∨
    (((i.pos : Int) + off < 0 ∨ (n : Int) < i.pos + off) ∧ itMove w i off = .threw) := by
  have hl : (es.map (·.2)).length = n := by simpa using hn
  unfold itMove validate
  rw [h1]
  simp only [Out.bind, live_of h2, if_true, entries_elements he]
  rcases move_spec (l := es.map (·.2)) (pos := i.pos) (by omega) ho with ⟨q, g1, g2, g3⟩ | ⟨g1, g3⟩
  · exact .inl ⟨q, g1, by omega, by rw [g3]⟩
  · exact .inr ⟨by rw [hl] at g1; exact g1, by rw [g3]⟩

/-- What a reverse iterator shows is the entry of the reversed sequence; past its end, reading throws. -/
theorem reverse_iterator_reads {cap : Nat} (hc : cap < 2 ^ 63) {w : World} {its : List It} (h : Prog cap w its) {r : RevIt}
    (hr : r.base ∈ its) {x k : Nat} {es : List (Option (List Nat) × Value)} (he : Entries (w.value x) es)
    (sr : RevStands w r x es.length k) :
    (k = es.length → r.get w = .threw ∧ r.key w = .threw) ∧
    (∀ t v, es.reverse[k]? = some (t, v) → r.get w = .ok v ∧ (∀ s, t = some s → r.key w = .ok s) ∧ (t = none → r.key w = .threw)) := by
  obtain ⟨h1, h2, h3⟩ := sr
  obtain ⟨_, _, _, g0, g1⟩ := json_iterator_reads hc h hr ⟨h1, h2, rfl⟩ he
  have un : ∀ {α : Type} (mk : α → Got) (o : Out α) (a : α), (∀ x y, mk x = mk y → x = y) → pureCall w mk o = .ok (w, mk a) → o = .ok a := by
    intro α mk o a inj ho
    cases o with
    | ok b => simp only [pureCall, Out.bind, Out.ok.injEq, Prod.mk.injEq, true_and] at ho; rw [inj _ _ ho]
    | threw => simp [pureCall, Out.bind] at ho
    | ub => simp [pureCall, Out.bind] at ho
  have un' : ∀ {α : Type} (mk : α → Got) (o : Out α), pureCall w mk o = .threw → o = .threw := by
    intro α mk o ho
    cases o with
    | ok b => simp [pureCall, Out.bind] at ho
    | threw => rfl
    | ub => simp [pureCall, Out.bind] at ho
  constructor
  · intro hk
    obtain ⟨a, b⟩ := g0 (by omega)
    exact ⟨un' _ _ a, un' _ _ b⟩
  · intro t v ht
    have hlt : k < es.length := by
      rcases List.getElem?_eq_some_iff.1 ht with ⟨q, _⟩
      simpa using q
    rw [List.getElem?_reverse hlt] at ht
    obtain ⟨a, b, c⟩ := g1 (es.length - 1 - k) t v (by omega) ht
    refine ⟨un .val _ _ (fun _ _ e => by injection e) a, fun s hs => un .key _ _ (fun _ _ e => by injection e) (b s hs), fun hs => un' _ _ (c hs)⟩

/-- Steps move by one in the reversed sequence; past its ends they throw. -/
theorem reverse_iterator_steps {w : World} {r : RevIt} {x k : Nat} {es : List (Option (List Nat) × Value)} (he : Entries (w.value x) es)
    (sr : RevStands w r x es.length k) :
    (k < es.length → ∃ s, r.inc w = .ok s ∧ RevStands w s x es.length (k + 1)) ∧ (k = es.length → r.inc w = .threw) ∧
    (∀ j, k = j + 1 → ∃ s, r.dec w = .ok s ∧ RevStands w s x es.length j) ∧ (k = 0 → r.dec w = .threw) := by
  obtain ⟨h1, h2, h3⟩ := sr
  unfold RevIt.inc RevIt.dec
  refine ⟨fun hk => ?_, fun hk => ?_, fun j hj => ?_, fun hk => ?_⟩
  · rcases move_at h1 h2 he rfl (by omega) (off := -1) (by decide) with ⟨q, g1, g2, g3⟩ | ⟨g1, g3⟩
    · exact ⟨⟨{ r.base with pos := q }⟩, by rw [g3]; rfl, h1, h2, by show q + (k + 1) = _; omega⟩
    · omega
  · rcases move_at h1 h2 he rfl (by omega) (off := -1) (by decide) with ⟨q, g1, g2, g3⟩ | ⟨g1, g3⟩
    · omega
    · rw [g3]; rfl
  · rcases move_at h1 h2 he rfl (by omega) (off := 1) (by decide) with ⟨q, g1, g2, g3⟩ | ⟨g1, g3⟩
    · exact ⟨⟨{ r.base with pos := q }⟩, by rw [g3]; rfl, h1, h2, by show q + j = _; omega⟩
    · omega
  · rcases move_at h1 h2 he rfl (by omega) (off := 1) (by decide) with ⟨q, g1, g2, g3⟩ | ⟨g1, g3⟩
    · omega
    · rw [g3]; rfl

/-- Offsets of array iterators move in the reversed sequence, and throw when they lead out of it. (The offset -2^63 cannot be
negated.) -/
theorem reverse_iterator_offsets_partial {cap : Nat} (hc : cap < 2 ^ 63) {w : World} {its : List It} (h : Prog cap w its) {r : RevIt}
    (hr : r.base ∈ its) {x k : Nat} {l : List Value} (hl : w.value x = .arr l) (sr : RevStands w r x l.length k) {off : Int}
    (ho : off ≠ -(2 ^ 63)) (ho' : off < 2 ^ 63) :
    (0 ≤ k + off ∧ k + off ≤ l.length → ∃ s, r.add w off = .ok s ∧ RevStands w s x l.length (k + off).toNat) ∧
    (k + off < 0 ∨ (l.length : Int) < k + off → r.add w off = .threw ∧ r.index w off = .threw) ∧
    (0 ≤ k - off ∧ k - off ≤ l.length → ∃ s, r.sub w off = .ok s ∧ RevStands w s x l.length (k - off).toNat) ∧
    (k - off < 0 ∨ (l.length : Int) < k - off → r.sub w off = .threw) ∧
    (∀ v, 0 ≤ k + off → l.reverse[(k + off).toNat]? = some v → r.index w off = .ok v) ∧
    (k + off = l.length → r.index w off = .threw) := by
  have he : Entries (w.value x) (l.map fun v => (none, v)) := by rw [hl]; exact .arr l
  have hlen : (l.map fun v => ((none : Option (List Nat)), v)).length = l.length := by simp
  obtain ⟨h1, h2, h3⟩ := sr
  have gi := (prog_inv hc h).2 r.base hr
  have ka : r.base.isArr = true := by
    rcases good_elim gi ⟨h1, h2, rfl⟩ with ⟨m, hm, _⟩ | ⟨l', hl', hk, _⟩
    · rw [hl] at hm; cases hm
    · exact hk
  have getAt : ∀ (j : It) (n : Nat), j.owner = some x → j.ver = w.ver x → j.pos + n = l.length →
      (n = l.length → RevIt.get w ⟨j⟩ = .threw) ∧ (∀ v, l.reverse[n]? = some v → RevIt.get w ⟨j⟩ = .ok v) := by
    intro j n g1 g2 g3
    unfold RevIt.get revGet
    constructor
    · intro hn
      rcases move_at g1 g2 he hlen (by omega) (off := -1) (by decide) with ⟨q, e1, e2, e3⟩ | ⟨e1, e3⟩
      · have : j.pos = 0 := by omega
        omega
      · rw [e3]; rfl
    · intro v hv
      have hlt : n < l.length := by
        rcases List.getElem?_eq_some_iff.1 hv with ⟨q, _⟩
        simpa using q
      rw [List.getElem?_reverse hlt] at hv
      rcases move_at g1 g2 he hlen (by omega) (off := -1) (by decide) with ⟨q, e1, e2, e3⟩ | ⟨e1, e3⟩
      · rw [e3]
        have hq : q = l.length - 1 - n := by omega
        subst hq
        have hne : l.length - 1 - n ≠ l.length := by omega
        simp [Out.bind, itGet, validate, g1, live, g2, hl, elements, deref, hv, hne]
      · omega
  have hadd : r.add w off = (itMove w r.base (-off)).bind fun i => .ok ⟨i⟩ := by
    unfold RevIt.add itSub itAdd negate validate
    rw [if_neg ho, h1]
    simp [Out.bind, ka]
  have hsub : r.sub w off = (itMove w r.base off).bind fun i => .ok ⟨i⟩ := by
    unfold RevIt.sub itAdd validate
    rw [h1]
    simp [Out.bind, ka]
  have hneg : -off ≠ -(2 ^ 63) := by omega
  rcases move_at h1 h2 he hlen (by omega) hneg with ⟨q, e1, e2, e3⟩ | ⟨e1, e3⟩
  · have hok : r.add w off = .ok ⟨{ r.base with pos := q }⟩ := by rw [hadd, e3]; rfl
    have hst : q + (k + off).toNat = l.length := by omega
    refine ⟨fun _ => ⟨_, hok, h1, h2, hst⟩, fun hx => by omega, ?_, ?_, fun v hv hg => ?_, fun hx => ?_⟩
    · intro hx
      rcases move_at h1 h2 he hlen (by omega) ho with ⟨q', f1, f2, f3⟩ | ⟨f1, f3⟩
      · exact ⟨⟨{ r.base with pos := q' }⟩, by rw [hsub, f3]; rfl, h1, h2, by show q' + _ = _; omega⟩
      · omega
    · intro hx
      rcases move_at h1 h2 he hlen (by omega) ho with ⟨q', f1, f2, f3⟩ | ⟨f1, f3⟩
      · omega
      · rw [hsub, f3]; rfl
    · unfold RevIt.index
      rw [hok]
      exact (getAt { r.base with pos := q } _ h1 h2 hst).2 v hg
    · unfold RevIt.index
      rw [hok]
      exact (getAt { r.base with pos := q } _ h1 h2 hst).1 (by omega)
  · have hth : r.add w off = .threw := by rw [hadd, e3]; rfl
    have hti : r.index w off = .threw := by unfold RevIt.index; rw [hth]; rfl
    refine ⟨fun hx => by omega, fun _ => ⟨hth, hti⟩, ?_, ?_, fun v hv hg => ?_, fun hx => by omega⟩
    · intro hx
      rcases move_at h1 h2 he hlen (by omega) ho with ⟨q', f1, f2, f3⟩ | ⟨f1, f3⟩
      · exact ⟨⟨{ r.base with pos := q' }⟩, by rw [hsub, f3]; rfl, h1, h2, by show q' + _ = _; omega⟩
      · omega
    · intro hx
      rcases move_at h1 h2 he hlen (by omega) ho with ⟨q', f1, f2, f3⟩ | ⟨f1, f3⟩
      · omega
      · rw [hsub, f3]; rfl
    · have hlt : (k + off).toNat < l.length := by
        rcases List.getElem?_eq_some_iff.1 hg with ⟨q', _⟩
        simpa using q'
      omega

/-- Reverse iterators of one array compare like their indices in the reversed sequence, and their difference is the distance. -/
theorem reverse_iterator_order {cap : Nat} (hc : cap < 2 ^ 63) {w : World} {its : List It} (h : Prog cap w its) {r s : RevIt}
    (hr : r.base ∈ its) (hs : s.base ∈ its) {x a b : Nat} {l : List Value} (hl : w.value x = .arr l) (sr : RevStands w r x l.length a)
    (ss : RevStands w s x l.length b) :
    r.eq w s = .ok (decide (a = b)) ∧ r.ne w s = .ok (decide (a ≠ b)) ∧ r.lt w s = .ok (decide (a < b)) ∧
    r.le w s = .ok (decide (a ≤ b)) ∧ r.gt w s = .ok (decide (a > b)) ∧ r.ge w s = .ok (decide (a ≥ b)) ∧
    r.diff w s = .ok ((a : Int) - b) := by
  have gr := (prog_inv hc h).2 r.base hr
  have gs := (prog_inv hc h).2 s.base hs
  have e1 := eq_at gr gs ⟨sr.1, sr.2.1, rfl⟩ ⟨ss.1, ss.2.1, rfl⟩
  obtain ⟨e2, e4⟩ := lt_at gr gs hl ⟨sr.1, sr.2.1, rfl⟩ ⟨ss.1, ss.2.1, rfl⟩
  obtain ⟨e3, e5⟩ := lt_at gs gr hl ⟨ss.1, ss.2.1, rfl⟩ ⟨sr.1, sr.2.1, rfl⟩
  have p1 := sr.2.2
  have p2 := ss.2.2
  refine ⟨?_, ?_, ?_, ?_, ?_, ?_, ?_⟩
  · unfold RevIt.eq; rw [e1]; congr 1; exact decide_eq_decide.2 ⟨fun _ => by omega, fun _ => by omega⟩
  · unfold RevIt.ne itNe; rw [e1]; simp only [Out.bind]; congr 1; rw [← decide_not]
    exact decide_eq_decide.2 ⟨fun _ => by omega, fun _ => by omega⟩
  · unfold RevIt.lt itGt itLe; rw [e3]; simp only [Out.bind, Bool.not_not]; congr 1
    exact decide_eq_decide.2 ⟨fun _ => by omega, fun _ => by omega⟩
  · unfold RevIt.le itGe; rw [e2]; simp only [Out.bind]; congr 1; rw [← decide_not]
    exact decide_eq_decide.2 ⟨fun _ => by omega, fun _ => by omega⟩
  · unfold RevIt.gt; rw [e2]; congr 1; exact decide_eq_decide.2 ⟨fun _ => by omega, fun _ => by omega⟩
  · unfold RevIt.ge itLe; rw [e3]; simp only [Out.bind]; congr 1; rw [← decide_not]
    exact decide_eq_decide.2 ⟨fun _ => by omega, fun _ => by omega⟩
  · unfold RevIt.diff revDiff; rw [e5]; congr 1; omega

/-- Those of one object can be told apart, but neither ordered, subtracted nor moved by an offset. -/
theorem reverse_object_iterators {cap : Nat} (hc : cap < 2 ^ 63) {w : World} {its : List It} (h : Prog cap w its) {r s : RevIt}
    (hr : r.base ∈ its) (hs : s.base ∈ its) {x a b : Nat} {m : List (List Nat × Value)} (hm : w.value x = .obj m)
    (sr : RevStands w r x m.length a) (ss : RevStands w s x m.length b) {off : Int} (ho : off ≠ -(2 ^ 63)) :
    r.eq w s = .ok (decide (a = b)) ∧ r.ne w s = .ok (decide (a ≠ b)) ∧ r.lt w s = .threw ∧ r.le w s = .threw ∧ r.gt w s = .threw ∧
    r.ge w s = .threw ∧ r.diff w s = .threw ∧ r.add w off = .threw ∧ r.sub w off = .threw ∧ r.index w off = .threw := by
  have gr := (prog_inv hc h).2 r.base hr
  have gs := (prog_inv hc h).2 s.base hs
  have e1 := eq_at gr gs ⟨sr.1, sr.2.1, rfl⟩ ⟨ss.1, ss.2.1, rfl⟩
  obtain ⟨e2, e3, _⟩ := lt_at_obj gr hm ⟨sr.1, sr.2.1, rfl⟩ ⟨ss.1, ss.2.1, rfl⟩
  obtain ⟨_, _, e4⟩ := lt_at_obj gs hm ⟨ss.1, ss.2.1, rfl⟩ ⟨sr.1, sr.2.1, rfl⟩
  have p1 := sr.2.2
  have p2 := ss.2.2
  have ka : r.base.isArr = false := by
    rcases good_elim gr ⟨sr.1, sr.2.1, rfl⟩ with ⟨_, _, hk, _⟩ | ⟨l', hl', _, _⟩
    · exact hk
    · rw [hm] at hl'; cases hl'
  have hadd : r.add w off = .threw := by
    unfold RevIt.add itSub itAdd negate validate
    rw [if_neg ho, sr.1]
    simp [Out.bind, ka]
  refine ⟨?_, ?_, ?_, ?_, ?_, ?_, ?_, hadd, ?_, ?_⟩
  · unfold RevIt.eq; rw [e1]; congr 1; exact decide_eq_decide.2 ⟨fun _ => by omega, fun _ => by omega⟩
  · unfold RevIt.ne itNe; rw [e1]; simp only [Out.bind]; congr 1; rw [← decide_not]
    exact decide_eq_decide.2 ⟨fun _ => by omega, fun _ => by omega⟩
  · unfold RevIt.lt itGt itLe; rw [e3]; rfl
  · unfold RevIt.le itGe; rw [e2]; rfl
  · unfold RevIt.gt; exact e2
  · unfold RevIt.ge itLe; rw [e3]; rfl
  · unfold RevIt.diff revDiff; exact e4
  · unfold RevIt.sub itAdd validate; rw [sr.1]; simp [Out.bind, ka]
  · unfold RevIt.index; rw [hadd]; rfl

/-- `rbegin()` and `rend()` are the two ends of the reversed sequence; other values have none. -/
theorem reverse_iterator_ends (w : World) (x : Nat) :
    (∀ es, Entries (w.value x) es → (∃ r, rbeginOf w x = .ok r ∧ RevStands w r x es.length 0) ∧
      ∃ r, rendOf w x = .ok r ∧ RevStands w r x es.length es.length) ∧
    ((∀ es, ¬ Entries (w.value x) es) → rbeginOf w x = .threw ∧ rendOf w x = .threw) := by
  unfold rbeginOf rendOf endOf beginOf
  constructor
  · intro es he
    generalize hv : w.value x = v at he
    cases he with
    | obj m => exact ⟨⟨_, rfl, rfl, rfl, by simp⟩, ⟨_, rfl, rfl, rfl, by simp⟩⟩
    | arr l => exact ⟨⟨_, rfl, rfl, rfl, by simp⟩, ⟨_, rfl, rfl, rfl, by simp⟩⟩
  · intro hn
    cases hv : w.value x with
    | obj m => exact absurd (hv ▸ Entries.obj m) (hn _)
    | arr l => exact absurd (hv ▸ Entries.arr l) (hn _)
    | _ => exact ⟨rfl, rfl⟩

/-- The reverse iterator without a value, `Json::reverse_iterator it;`, json_reverse_iterator.hpp 236-240: everything throws. -/
theorem reverse_iterator_null (w : World) (r s : RevIt) (h : r.base.owner = none) {off : Int} (ho : off ≠ -(2 ^ 63)) :
    r.get w = .threw ∧ r.key w = .threw ∧ r.inc w = .threw ∧ r.dec w = .threw ∧ r.add w off = .threw ∧ r.sub w off = .threw ∧
    r.index w off = .threw ∧ r.eq w s = .threw ∧ r.ne w s = .threw ∧ r.diff w s = .threw ∧ s.diff w r = .threw ∧ r.lt w s = .threw ∧
    s.lt w r = .threw := by
  have hadd : r.add w off = .threw := by
    unfold RevIt.add itSub itAdd negate validate
    rw [if_neg ho, h]
    rfl
  refine ⟨?_, ?_, ?_, ?_, hadd, ?_, ?_, ?_, ?_, ?_, ?_, ?_, ?_⟩
  · simp [RevIt.get, revGet, itMove, validate, h, Out.bind]
  · simp [RevIt.key, revKey, itMove, validate, h, Out.bind]
  · simp [RevIt.inc, itMove, validate, h, Out.bind]
  · simp [RevIt.dec, itMove, validate, h, Out.bind]
  · simp [RevIt.sub, itAdd, validate, h, Out.bind]
  · unfold RevIt.index; rw [hadd]; rfl
  · simp [RevIt.eq, itEq, validatePair, h, Out.bind]
  · simp [RevIt.ne, itNe, itEq, validatePair, h, Out.bind]
  · simp [RevIt.diff, revDiff, itDiff, validatePair, h, Out.bind]
  · simp [RevIt.diff, revDiff, itDiff, validatePair, h, Out.bind]
  · simp [RevIt.lt, itGt, itLe, itLt, validatePair, h, Out.bind]
  · simp [RevIt.lt, itGt, itLe, itLt, validatePair, h, Out.bind]

/-- The offset -2^63 is undefined, of any reverse iterator. -/
theorem reverse_iterator_offset_violated (w : World) (r : RevIt) : r.add w (-(2 ^ 63)) = .ub := rfl

/-- Not vacuous: the last element of `[1, 2, 3]` by way of `rend()[-3]`. -/
example : ∃ w its r, Prog 10 w its ∧ r.base ∈ its ∧ w.value 0 = .arr [.uint 1, .uint 2, .uint 3] ∧ RevStands w r 0 3 3 ∧
    r.index w (-3) = .ok (.uint 3) := by
  refine ⟨_, _, ⟨⟨some 0, 1, true, 0⟩⟩, .call (c := .beginOf 0) (.call (c := .make 0 (.arr [.uint 1, .uint 2, .uint 3])) .start ?_ ?_ rfl) trivial ?_ rfl,
    ?_, rfl, ⟨rfl, rfl, rfl⟩, rfl⟩
  all_goals simp [Call.Ok, Call.uses, Fits, Got.iters, World.put]

end Verif.Json
