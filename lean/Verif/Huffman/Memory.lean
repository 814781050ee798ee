import Verif.Huffman.Optimal

/-!
# C148: the Huffman encoder's nodes and stacks

Source: `/repo/fly/coders/huffman/huffman_encoder.cpp` 68-180, `/repo/fly/coders/huffman/types.cpp` 15-50, `huffman_encoder.hpp` 169-174.

`Verif/Huffman/Model.lean` builds trees and lists their leaves recursively. Here is what the code does: nodes in an array of 512, linked by
pointers, which keeps the nodes of the chunk before; a traversal with two stacks, which tells by comparing pointers whether it comes back
to a node. The theorems say that both come to the same, and that the arrays are large enough.
-/

namespace Verif.Huffman.Memory

open Verif.Huffman

/-! ## Model -/

/-- A `HuffmanNode` (types.hpp 30-69); pointers are positions in `m_huffman_tree`. -/
structure Cell where
  symbol : Nat
  freq : Nat
  left : Option Nat
  right : Option Nat
deriving DecidableEq, Repr

/-- `m_huffman_tree` (huffman_encoder.hpp 174). -/
abbrev Mem := Nat → Cell

/-- One node changes. -/
def Mem.set (m : Mem) (a : Nat) (c : Cell) : Mem := fun b => if b = a then c else m b

/-- The loop over the symbols (huffman_encoder.cpp 84-92) with `become_symbol` (types.cpp 29-35): the nodes, `index` and the queue
afterwards; `none` beyond the end of the array. `counts` (71-78) has the number of times each symbol occurs. -/
def leavesLoop (chunk : List Nat) : List Nat → Mem → Nat → List Nat → Option (Mem × Nat × List Nat)
  | [], m, index, queue => some (m, index, queue)
  | s :: ss, m, index, queue =>
    if 0 < chunk.count s then
      if index + 1 < 512 then
        leavesLoop chunk ss (m.set (index + 1) ⟨s, chunk.count s, none, none⟩) (index + 1) (queue ++ [index + 1])
      else none
    else leavesLoop chunk ss m index queue

/-- The loop that combines nodes (huffman_encoder.cpp 97-110) with `become_intermediate` (types.cpp 38-44): it may end with the root on top of
the queue. Which of the nodes of least frequency `std::priority_queue` has on top is not said. `none`: `top()` of an empty queue, or beyond
the end of the array. -/
inductive Combines : Mem → Nat → List Nat → Option (Mem × Nat) → Prop
  | done {m : Mem} {index a : Nat} : Combines m index [a] (some (m, a))
  | empty {m : Mem} {index : Nat} : Combines m index [] none
  | full {m : Mem} {index : Nat} {queue : List Nat} : 2 ≤ queue.length → 512 ≤ index + 1 → Combines m index queue none
  | step {m : Mem} {index l r : Nat} {queue rest : List Nat} {o : Option (Mem × Nat)} : queue.Perm (l :: r :: rest) →
      (∀ x ∈ r :: rest, (m l).freq ≤ (m x).freq) → (∀ x ∈ rest, (m r).freq ≤ (m x).freq) → index + 1 < 512 →
      Combines (m.set (index + 1) ⟨0, ((m l).freq + (m r).freq) % 2 ^ 64, some l, some r⟩) (index + 1) ((index + 1) :: rest) o →
      Combines m index queue o

/-- `m_huffman_tree[0] = std::move(*node)` (huffman_encoder.cpp 111, types.cpp 15-26). -/
def moveRoot (m : Mem) (a : Nat) : Mem := (m.set 0 (m a)).set a { m a with left := none, right := none }

/-- `create_tree` (huffman_encoder.cpp 68-112), with whatever is in the array before; `none` is undefined behaviour. -/
def CreateTree (chunk : List Nat) (before : Mem) (o : Option Mem) : Prop :=
  match leavesLoop chunk (List.range 256) before 0 [] with
  | none => o = none
  | some (m, index, queue) => ∃ r, Combines m index queue r ∧ o = r.map fun p => moveRoot p.1 p.2

/-- The state of the traversal (huffman_encoder.cpp 117-131): the nodes, whose frequencies are overwritten by the codes; `pending` and `path`, tops
first; the codes given to `insert_code`, in order. -/
structure Walk where
  mem : Mem
  pending : List Nat
  path : List Nat
  out : List Code

/-- The test whether a node is a leaf, and what is done at a node met for the first time (huffman_encoder.cpp 140-157). Frequencies are 64-bit numbers,
codes 16-bit, lengths 8-bit. -/
def visit (w : Walk) (a : Nat) : Walk :=
  match (w.mem a).left, (w.mem a).right with
  | some x, some y =>
    let f := (w.mem a).freq
    let m := w.mem.set x { w.mem x with freq := f * 2 % 2 ^ 64 }
    let m' := m.set y { m y with freq := (f * 2 + 1) % 2 ^ 64 }
    { w with mem := m', pending := y :: x :: w.pending, path := a :: w.path }
  | _, _ =>
    { w with
      path := a :: w.path
      out := w.out ++ [⟨(w.mem a).symbol, (w.mem a).freq % 65536, w.path.length % 256⟩] }

/-- One turn of the loop (huffman_encoder.cpp 129-159); `none` when it ends. -/
def Walk.turn (w : Walk) : Option Walk :=
  match w.pending with
  | [] => none
  | a :: rest =>
    match w.path with
    | p :: ps => if a = p then some { w with pending := rest, path := ps } else some (visit w a)
    | [] => some (visit w a)

/-- Turns of the loop. -/
inductive Turns : Walk → Walk → Prop
  | refl {w : Walk} : Turns w w
  | more {w w' w'' : Walk} : w.turn = some w' → Turns w' w'' → Turns w w''

/-- The beginning of `create_codes` (huffman_encoder.cpp 117-127). -/
def Walk.start (m : Mem) : Walk := ⟨m.set 0 { m 0 with freq := 0 }, [0], [], []⟩

/-- The rest of `create_codes` (huffman_encoder.cpp 146, 161-166): the codes in the array, limited and made canonical. -/
def finishCodes (M : Nat) (out : List Code) : Option (List Code) :=
  let cs := out.foldl insertCode []
  (if maxLength out > M then limit M cs else some cs).map canonical

/-! ## Lemmas: building -/

/-- The nodes at and below `a` are the tree; children come before their parents, and position 0 is not used. -/
def Held (m : Mem) : Nat → Tree → Prop
  | a, .leaf s _ => 1 ≤ a ∧ (m a).symbol = s ∧ (m a).left = none ∧ (m a).right = none
  | a, .node l r => 1 ≤ a ∧ ∃ x y, (m a).left = some x ∧ (m a).right = some y ∧ x < a ∧ y < a ∧ Held m x l ∧ Held m y r

theorem Held.pos {m : Mem} {a : Nat} {t : Tree} (h : Held m a t) : 1 ≤ a := by
  cases t <;> exact h.1

theorem Held.frame {m m' : Mem} : ∀ {t : Tree} {a : Nat}, Held m a t → (∀ b, 1 ≤ b → b ≤ a → m' b = m b) → Held m' a t
  | .leaf s f, a, h, e => by
    have := e a h.1 (Nat.le_refl a)
    exact ⟨h.1, by rw [this]; exact h.2.1, by rw [this]; exact h.2.2.1, by rw [this]; exact h.2.2.2⟩
  | .node l r, a, h, e => by
    obtain ⟨h0, x, y, hx, hy, lx, ly, hl, hr⟩ := h
    have := e a h0 (Nat.le_refl a)
    exact ⟨h0, x, y, by rw [this]; exact hx, by rw [this]; exact hy, lx, ly, hl.frame fun b h1 h2 => e b h1 (by omega),
      hr.frame fun b h1 h2 => e b h1 (by omega)⟩

/-- What holds of the queue: `T` says which tree a node is the root of. -/
structure Queued (m : Mem) (index : Nat) (queue : List Nat) (T : Nat → Tree) : Prop where
  held : ∀ a ∈ queue, a ≤ index ∧ Held m a (T a) ∧ (m a).freq = (T a).freq

theorem set_ne {m : Mem} {a b : Nat} (c : Cell) (h : b ≠ a) : m.set a c b = m b := by simp [Mem.set, h]

theorem set_same {m : Mem} {a : Nat} (c : Cell) : m.set a c a = c := by simp [Mem.set]

/-- A node is added after the others. -/
theorem Queued.push {m : Mem} {index : Nat} {queue : List Nat} {T : Nat → Tree} (h : Queued m index queue T) (c : Cell) (t : Tree)
    (hc : Held (m.set (index + 1) c) (index + 1) t) (hf : c.freq = t.freq) (queue' : List Nat)
    (hq : ∀ a ∈ queue', a = index + 1 ∨ a ∈ queue) :
    Queued (m.set (index + 1) c) (index + 1) queue' (fun a => if a = index + 1 then t else T a) := by
  refine ⟨fun a ha => ?_⟩
  rcases hq a ha with rfl | ha
  · refine ⟨Nat.le_refl _, by rw [if_pos rfl]; exact hc, ?_⟩
    rw [set_same, if_pos rfl]
    exact hf
  · obtain ⟨h1, h2, h3⟩ := h.held a ha
    have hne : a ≠ index + 1 := by omega
    refine ⟨by omega, ?_, by rw [set_ne _ hne, if_neg hne]; exact h3⟩
    rw [if_neg hne]
    exact h2.frame fun b _ hb => set_ne _ (by omega)

/-- The leaves of the symbols in a list. -/
def leavesIn (chunk : List Nat) (ss : List Nat) : List Tree :=
  (ss.filter fun s => decide (0 < chunk.count s)).map fun s => .leaf s (chunk.count s)

theorem leavesLoop_spec (chunk : List Nat) : ∀ (ss : List Nat) (m : Mem) (index : Nat) (queue : List Nat) (T : Nat → Tree),
    Queued m index queue T → queue.length = index → index + ss.length < 512 →
    ∃ m' index' queue' T', leavesLoop chunk ss m index queue = some (m', index', queue') ∧ Queued m' index' queue' T' ∧
      queue'.length = index' ∧ index' ≤ index + ss.length ∧ queue'.map T' = queue.map T ++ leavesIn chunk ss
  | [], m, index, queue, T, h, hl, _ => ⟨m, index, queue, T, rfl, h, hl, Nat.le_refl _, by simp [leavesIn]⟩
  | s :: ss, m, index, queue, T, h, hl, hb => by
    simp only [List.length_cons] at hb
    by_cases hc : 0 < chunk.count s
    · have hq := h.push ⟨s, chunk.count s, none, none⟩ (.leaf s (chunk.count s))
        ⟨by omega, by rw [set_same], by rw [set_same], by rw [set_same]⟩ rfl (queue ++ [index + 1]) (fun a ha => by
          rcases List.mem_append.mp ha with ha | ha
          · exact .inr ha
          · exact .inl (List.mem_singleton.mp ha))
      obtain ⟨m', i', q', T', h1, h2, h3, h4, h5⟩ := leavesLoop_spec chunk ss _ _ _ _ hq (by simp [hl]) (by omega)
      refine ⟨m', i', q', T', ?_, h2, h3, by simp only [List.length_cons]; omega, ?_⟩
      · rw [leavesLoop, if_pos hc, if_pos (by omega)]; exact h1
      · rw [h5, List.map_append, List.map_singleton, if_pos rfl]
        have : queue.map (fun a => if a = index + 1 then Tree.leaf s (chunk.count s) else T a) = queue.map T := by
          apply List.map_congr_left
          intro a ha
          rw [if_neg]
          have := (h.held a ha).1
          omega
        rw [this]
        simp only [leavesIn, List.filter_cons, decide_eq_true hc, if_true, List.map_cons, List.append_assoc, List.singleton_append]
    · obtain ⟨m', i', q', T', h1, h2, h3, h4, h5⟩ := leavesLoop_spec chunk ss m index queue T h hl (by omega)
      refine ⟨m', i', q', T', ?_, h2, h3, by simp only [List.length_cons]; omega, ?_⟩
      · rw [leavesLoop, if_neg hc]; exact h1
      · rw [h5]
        simp only [leavesIn, List.filter_cons, decide_eq_false hc, Bool.false_eq_true, if_false]

/-- The sum of the frequencies in the queue. -/
def total (ts : List Tree) : Nat := (ts.map Tree.freq).sum

theorem combines_spec {m : Mem} {index : Nat} {queue : List Nat} {o : Option (Mem × Nat)} (hc : Combines m index queue o) :
    ∀ (T : Nat → Tree), Queued m index queue T → index + queue.length ≤ 512 → 1 ≤ queue.length → total (queue.map T) < 2 ^ 64 →
    ∃ m' a t, o = some (m', a) ∧ Build (queue.map T) t ∧ Held m' a t := by
  induction hc with
  | done => intro T h _ _ _; exact ⟨_, _, _, rfl, .done, (h.held _ List.mem_cons_self).2.1⟩
  | empty => intro T _ _ h _; simp at h
  | full h1 h2 => intro T _ h _ _; omega
  | @step m index l r queue rest o hp hl hr hi _ ih =>
    intro T h hlen _ htot
    have hmem : ∀ x ∈ l :: r :: rest, x ∈ queue := fun x hx => hp.mem_iff.mpr hx
    obtain ⟨l1, l2, l3⟩ := h.held l (hmem l (by simp))
    obtain ⟨r1, r2, r3⟩ := h.held r (hmem r (by simp))
    have hql : queue.length = rest.length + 2 := by rw [hp.length_eq]; rfl
    have hsum : total (queue.map T) = (T l).freq + (T r).freq + total (rest.map T) := by
      have := (hp.map T).map Tree.freq
      have := this.sum_nat
      simp only [total]
      rw [this]
      simp [total, Nat.add_assoc]
    have hmod : ((m l).freq + (m r).freq) % 2 ^ 64 = (T l).freq + (T r).freq := by
      rw [l3, r3]; exact Nat.mod_eq_of_lt (by omega)
    have hq := h.push ⟨0, ((m l).freq + (m r).freq) % 2 ^ 64, some l, some r⟩ (.node (T l) (T r))
      ⟨by omega, l, r, by rw [set_same], by rw [set_same], by omega, by omega,
        l2.frame fun b _ hb => set_ne _ (by omega), r2.frame fun b _ hb => set_ne _ (by omega)⟩ hmod ((index + 1) :: rest) (fun a ha => by
          rcases List.mem_cons.mp ha with ha | ha
          · exact .inl ha
          · exact .inr (hmem a (by simp [ha])))
    have hrest : rest.map (fun a => if a = index + 1 then Tree.node (T l) (T r) else T a) = rest.map T := by
      apply List.map_congr_left
      intro a ha
      rw [if_neg]
      have := (h.held a (hmem a (by simp [ha]))).1
      omega
    obtain ⟨m', a, t, e, hb, hh⟩ := ih _ hq (by simp only [List.length_cons]; omega) (by simp) (by
      rw [List.map_cons, if_pos rfl, hrest]
      simp only [total, List.map_cons, List.sum_cons, Tree.freq] at hsum htot ⊢
      omega)
    refine ⟨m', a, t, e, ?_, hh⟩
    rw [List.map_cons, if_pos rfl, hrest] at hb
    refine .step (hp.map T) ?_ ?_ hb
    · intro x hx
      rw [← List.map_cons] at hx
      obtain ⟨b, hb, rfl⟩ := List.mem_map.mp hx
      have := hl b hb
      rw [l3, (h.held b (hmem b (by simp only [List.mem_cons] at hb ⊢; exact .inr hb))).2.2] at this
      exact this
    · intro x hx
      obtain ⟨b, hb, rfl⟩ := List.mem_map.mp hx
      have := hr b hb
      rw [r3, (h.held b (hmem b (by simp [hb]))).2.2] at this
      exact this

/-- There is a least element. -/
theorem least (f : Nat → Nat) : ∀ (q : List Nat), 1 ≤ q.length → ∃ a rest, q.Perm (a :: rest) ∧ ∀ x ∈ rest, f a ≤ f x
  | [], h => by simp at h
  | [a], _ => ⟨a, [], .refl _, fun x hx => by cases hx⟩
  | a :: b :: q, _ => by
    obtain ⟨c, rest, hp, hc⟩ := least f (b :: q) (by simp)
    by_cases h : f a ≤ f c
    · refine ⟨a, b :: q, .refl _, fun x hx => ?_⟩
      rcases List.mem_cons.mp (hp.mem_iff.mp hx) with rfl | hx
      · exact h
      · exact Nat.le_trans h (hc x hx)
    · refine ⟨c, a :: rest, (hp.cons a).trans (.swap c a rest), fun x hx => ?_⟩
      rcases List.mem_cons.mp hx with rfl | hx
      · omega
      · exact hc x hx

theorem combines_exists : ∀ (n : Nat) (m : Mem) (index : Nat) (queue : List Nat), queue.length = n → ∃ o, Combines m index queue o
  | 0, m, index, queue, h => ⟨none, by rw [List.length_eq_zero_iff.mp h]; exact .empty⟩
  | 1, m, index, queue, h => by
    obtain ⟨a, rfl⟩ := List.length_eq_one_iff.mp h
    exact ⟨_, .done⟩
  | n + 2, m, index, queue, h => by
    by_cases hf : 512 ≤ index + 1
    · exact ⟨none, .full (by omega) hf⟩
    · obtain ⟨l, rest, hp, hl⟩ := least (fun a => (m a).freq) queue (by omega)
      have hlen := hp.length_eq
      simp only [List.length_cons] at hlen
      obtain ⟨r, rest', hp', hr⟩ := least (fun a => (m a).freq) rest (by omega)
      have hlen' := hp'.length_eq
      simp only [List.length_cons] at hlen'
      obtain ⟨o, ho⟩ := combines_exists (n + 1) (m.set (index + 1) ⟨0, ((m l).freq + (m r).freq) % 2 ^ 64, some l, some r⟩) (index + 1)
        ((index + 1) :: rest') (by simp only [List.length_cons]; omega)
      exact ⟨o, .step (hp.trans (hp'.cons l)) (fun x hx => hl x (hp'.mem_iff.mpr hx)) hr (by omega) ho⟩

/-! ## Lemmas: walking -/

/-- The nodes reached from `a` are the tree, whatever their frequencies. -/
def Shape (m : Mem) : Nat → Tree → Prop
  | a, .leaf s _ => (m a).symbol = s ∧ (m a).left = none ∧ (m a).right = none
  | a, .node l r => ∃ x y, (m a).left = some x ∧ (m a).right = some y ∧ x ≠ a ∧ y ≠ a ∧ Shape m x l ∧ Shape m y r

/-- Only frequencies differ. -/
def SameShape (m m' : Mem) : Prop := ∀ a, (m' a).symbol = (m a).symbol ∧ (m' a).left = (m a).left ∧ (m' a).right = (m a).right

theorem SameShape.trans {m m' m'' : Mem} (h : SameShape m m') (h' : SameShape m' m'') : SameShape m m'' := fun a =>
  ⟨(h' a).1.trans (h a).1, (h' a).2.1.trans (h a).2.1, (h' a).2.2.trans (h a).2.2⟩

theorem sameShape_set (m : Mem) (a f : Nat) : SameShape m (m.set a { m a with freq := f }) := by
  intro b
  by_cases e : b = a
  · subst e; rw [set_same]; exact ⟨rfl, rfl, rfl⟩
  · rw [set_ne _ e]; exact ⟨rfl, rfl, rfl⟩

theorem Shape.mono {m m' : Mem} (e : SameShape m m') : ∀ {t : Tree} {a : Nat}, Shape m a t → Shape m' a t
  | .leaf s f, a, h => ⟨(e a).1.trans h.1, (e a).2.1.trans h.2.1, (e a).2.2.trans h.2.2⟩
  | .node l r, a, ⟨x, y, hx, hy, nx, ny, hl, hr⟩ => ⟨x, y, (e a).2.1.trans hx, (e a).2.2.trans hy, nx, ny, hl.mono e, hr.mono e⟩

theorem held_shape {m : Mem} : ∀ {t : Tree} {a : Nat}, Held m a t → Shape m a t
  | .leaf s f, a, h => ⟨h.2.1, h.2.2.1, h.2.2.2⟩
  | .node l r, a, ⟨h0, x, y, hx, hy, lx, ly, hl, hr⟩ => ⟨x, y, hx, hy, by omega, by omega, held_shape hl, held_shape hr⟩

theorem moveRoot_shape {m : Mem} {a : Nat} {t : Tree} (h : Held m a t) : Shape (moveRoot m a) 0 t := by
  have ha := h.pos
  have h0 : moveRoot m a 0 = m a := by
    unfold moveRoot
    rw [set_ne _ (by omega), set_same]
  have hb : ∀ b, 1 ≤ b → b ≠ a → moveRoot m a b = m b := by
    intro b h1 h2
    unfold moveRoot
    rw [set_ne _ h2, set_ne _ (by omega)]
  cases t with
  | leaf s f => exact ⟨by rw [h0]; exact h.2.1, by rw [h0]; exact h.2.2.1, by rw [h0]; exact h.2.2.2⟩
  | node l r =>
    obtain ⟨_, x, y, hx, hy, lx, ly, hl, hr⟩ := h
    have px := hl.pos
    have py := hr.pos
    exact ⟨x, y, by rw [h0]; exact hx, by rw [h0]; exact hy, by omega, by omega,
      held_shape (hl.frame fun b h1 h2 => hb b h1 (by omega)), held_shape (hr.frame fun b h1 h2 => hb b h1 (by omega))⟩

theorem Turns.trans {w w' w'' : Walk} (h : Turns w w') (h' : Turns w' w'') : Turns w w'' := by
  induction h with
  | refl => exact h'
  | more e _ ih => exact .more e (ih h')

/-- A code without its bits, which are replaced later. -/
def bare (c : Code) : Code := { c with code := 0 }

theorem turn_visit {w : Walk} {a : Nat} {rest : List Nat} (hp : w.pending = a :: rest) (hn : ∀ p ps, w.path = p :: ps → a ≠ p) :
    w.turn = some (visit w a) := by
  unfold Walk.turn
  rw [hp]
  cases h : w.path with
  | nil => rfl
  | cons p ps => simp only; rw [if_neg (hn p ps h)]

theorem turn_back {w : Walk} {a : Nat} {rest ps : List Nat} (hp : w.pending = a :: rest) (hq : w.path = a :: ps) :
    w.turn = some { w with pending := rest, path := ps } := by
  unfold Walk.turn
  rw [hp, hq]
  simp

theorem walk_spec : ∀ (t : Tree) (a : Nat) (rest : List Nat) (w : Walk), Shape w.mem a t → w.pending = a :: rest →
    (∀ p ps, w.path = p :: ps → a ≠ p) →
    ∃ w', Turns w w' ∧ SameShape w.mem w'.mem ∧ w'.pending = rest ∧ w'.path = w.path ∧
      w'.out.map bare = w.out.map bare ++ t.codes w.path.length
  | .leaf s f, a, rest, w, h, hp, hn => by
    have hv : visit w a = { w with path := a :: w.path, out := w.out ++ [⟨s, (w.mem a).freq % 65536, w.path.length % 256⟩] } := by
      unfold visit
      rw [h.2.1, h.2.2, h.1]
    refine ⟨{ w with pending := rest, path := w.path, out := w.out ++ [⟨s, (w.mem a).freq % 65536, w.path.length % 256⟩] }, ?_,
      fun b => ⟨rfl, rfl, rfl⟩, rfl, rfl, ?_⟩
    · refine .more (turn_visit hp hn) (.more ?_ .refl)
      rw [hv]
      exact turn_back (w := { w with path := a :: w.path, out := w.out ++ [⟨s, (w.mem a).freq % 65536, w.path.length % 256⟩] }) hp rfl
    · simp [bare, Tree.codes]
  | .node l r, a, rest, w, ⟨x, y, hx, hy, nx, ny, hl, hr⟩, hp, hn => by
    have hsame : SameShape w.mem (visit w a).mem := by
      unfold visit
      rw [hx, hy]
      exact (sameShape_set _ _ _).trans (sameShape_set _ _ _)
    have hpend : (visit w a).pending = y :: x :: a :: rest := by unfold visit; rw [hx, hy, ← hp]
    have hpath : (visit w a).path = a :: w.path := by unfold visit; rw [hx, hy]
    have hout : (visit w a).out = w.out := by unfold visit; rw [hx, hy]
    obtain ⟨w1, t1, s1, p1, q1, o1⟩ := walk_spec r y (x :: a :: rest) (visit w a) (hr.mono hsame) hpend (fun p ps e => by
      rw [hpath] at e; injection e with e _; rw [← e]; exact ny)
    obtain ⟨w2, t2, s2, p2, q2, o2⟩ := walk_spec l x (a :: rest) w1 ((hl.mono hsame).mono s1) p1 (fun p ps e => by
      rw [q1, hpath] at e; injection e with e _; rw [← e]; exact nx)
    refine ⟨{ w2 with pending := rest, path := w.path }, ?_, (hsame.trans s1).trans s2, rfl, rfl, ?_⟩
    · refine .more (turn_visit hp hn) (t1.trans (t2.trans (.more (turn_back p2 ?_) .refl)))
      rw [q2, q1, hpath]
    · show w2.out.map bare = _
      rw [o2, o1, q1, hpath, hout, Tree.codes, List.length_cons, List.append_assoc]

/-! ## Lemmas: the bits of the codes do not matter -/

theorem less_bare (a b : Code) : (bare a).less (bare b) = a.less b := rfl

theorem insertRev_bare (c : Code) (l : List Code) : (insertRev c l).map bare = insertRev (bare c) (l.map bare) := by
  induction l with
  | nil => rfl
  | cons x xs ih =>
    by_cases h : c.less x = true <;> simp [insertRev, less_bare, h, ih]

theorem insertCode_bare (l : List Code) (c : Code) : (insertCode l c).map bare = insertCode (l.map bare) (bare c) := by
  simp only [insertCode, List.map_reverse, insertRev_bare]

theorem foldl_bare (cs : List Code) : ∀ l : List Code, (cs.foldl insertCode l).map bare = (cs.map bare).foldl insertCode (l.map bare) := by
  induction cs with
  | nil => intro l; rfl
  | cons c cs ih => intro l; simp only [List.foldl_cons, List.map_cons, ih, insertCode_bare]

theorem maxLength_bare (cs : List Code) : maxLength (cs.map bare) = maxLength cs := by
  unfold maxLength
  rw [List.foldl_map]
  rfl

theorem maxLength_perm {a b : List Code} (h : a.Perm b) : maxLength a = maxLength b :=
  Nat.le_antisymm (maxLength_le fun c hc => le_maxLength (h.mem_iff.mp hc)) (maxLength_le fun c hc => le_maxLength (h.mem_iff.mpr hc))

theorem raiseRev_bare (M : Nat) (cs : List Code) : ∀ k, raiseRev M (cs.map bare) k = ((raiseRev M cs k).1.map bare, (raiseRev M cs k).2) := by
  induction cs with
  | nil => intro k; rfl
  | cons c cs ih =>
    intro k
    simp only [List.map_cons, raiseRev]
    split
    · simp only [bare, List.map_cons, ih]
    · rfl

theorem lowerAll_bare (M : Nat) (cs : List Code) : ∀ k, lowerAll M (cs.map bare) k = (lowerAll M cs k).map (·.map bare) := by
  induction cs with
  | nil => intro k; rfl
  | cons c cs ih =>
    intro k
    simp only [List.map_cons, lowerAll]
    show (match lowerOne M c.length k with | none => none | some (l, k') => _) = _
    cases lowerOne M c.length k with
    | none => rfl
    | some p =>
      obtain ⟨l, k'⟩ := p
      simp only [ih, Option.map_map]
      rfl

theorem limit_bare (M : Nat) (cs : List Code) : limit M (cs.map bare) = (limit M cs).map (·.map bare) := by
  unfold limit
  have h1 : (cs.map bare).map (fun c => { c with length := min c.length M }) = (cs.map fun c => { c with length := min c.length M }).map bare := by
    simp only [List.map_map]; rfl
  rw [h1]
  simp only [← List.map_reverse, raiseRev_bare, lowerAll_bare, List.foldl_map]
  rfl

theorem canonicalFrom_bare (cs : List Code) : ∀ prev, canonicalFrom prev (cs.map bare) = canonicalFrom prev cs := by
  induction cs with
  | nil => intro prev; rfl
  | cons c cs ih => intro prev; simp only [List.map_cons, canonicalFrom]; rw [ih]; rfl

theorem canonical_bare (cs : List Code) : canonical (cs.map bare) = canonical cs := by
  match cs with
  | [] => rfl
  | [c] => rfl
  | c :: d :: cs =>
    simp only [List.map_cons, canonical]
    have := canonicalFrom_bare (d :: cs) { c with code := 0 }
    rw [List.map_cons] at this
    show _ :: canonicalFrom { c with code := 0 } _ = _
    rw [this]
    rfl

theorem finish_of_bare {M : Nat} {out : List Code} {t : Tree} (h : out.map bare = t.codes 0) : finishCodes M out = createCodes M t := by
  have hb := foldl_bare out []
  rw [h] at hb
  have hm : maxLength out = maxLength (collect t) := by
    rw [← maxLength_bare out, h]
    exact (maxLength_perm (collect_perm t)).symm
  unfold finishCodes createCodes
  simp only [hm]
  have hcs : (out.foldl insertCode []).map bare = collect t := hb
  split
  · rw [← hcs, limit_bare, Option.map_map]
    congr 1
    funext l
    exact (canonical_bare l).symm
  · rw [Option.map_some, Option.map_some, ← hcs, canonical_bare]

/-! ## Theorems -/

theorem sum_ones (l : List Nat) : (l.map fun _ => 1).sum = l.length := by
  induction l with
  | nil => rfl
  | cons a l ih => simp only [List.map_cons, List.sum_cons, ih, List.length_cons]; omega

theorem total_leaves (chunk : List Nat) (hb : ∀ b ∈ chunk, b < 256) : total (leavesOf chunk) = chunk.length := by
  have h := sum_count (alphabet_nodup chunk) (fun _ => 1) chunk (fun b hm => (mem_alphabet (hb b hm)).mpr hm)
  rw [sum_ones] at h
  rw [h, total, leavesOf, List.map_map]
  simp only [alphabet, Nat.mul_one]
  congr 2
  congr 1
  funext s
  simp [List.count_pos_iff]

/-- For every chunk the encoder can read (at least one byte, fewer than 2^32), whatever the chunk before left in the array and whichever of
several nodes of equal frequency the queue gives: building the tree is defined and never goes beyond the array; the nodes then form a
tree that combining the least frequent ones gives, rooted at the first position. The walk with two stacks ends, has found at most 256
codes, and what comes out after sorting, limiting and making them canonical are the codes of that tree. -/
theorem encoder_memory (M : Nat) (chunk : List Nat) (before : Mem) (hne : chunk ≠ []) (hb : ∀ b ∈ chunk, b < 256) (hlen : chunk.length < 2 ^ 32) :
    (∃ o, CreateTree chunk before o) ∧
    ∀ o, CreateTree chunk before o → ∃ m t, o = some m ∧ Build (leavesOf chunk) t ∧
      ∃ w, Turns (Walk.start m) w ∧ w.turn = none ∧ w.out.length ≤ 256 ∧ finishCodes M w.out = createCodes M t := by
  have hq0 : Queued before 0 [] fun _ => .leaf 0 0 := ⟨fun a ha => by cases ha⟩
  obtain ⟨m, index, queue, T, hrun, hq, hl, hi, hT⟩ := leavesLoop_spec chunk (List.range 256) before 0 [] _ hq0 rfl (by rw [List.length_range]; omega)
  have hT' : queue.map T = leavesOf chunk := by rw [hT]; rfl
  simp only [List.length_range] at hi
  have hpos : 1 ≤ queue.length := by
    obtain ⟨b, hbm⟩ := List.exists_mem_of_ne_nil chunk hne
    have : (.leaf b (chunk.count b) : Tree) ∈ leavesOf chunk := by
      unfold leavesOf
      refine List.mem_map.mpr ⟨b, List.mem_filter.mpr ⟨List.mem_range.mpr (hb b hbm), ?_⟩, rfl⟩
      simp [List.count_pos_iff, hbm]
    rw [← hT'] at this
    obtain ⟨a, ha, _⟩ := List.mem_map.mp this
    exact List.length_pos_of_mem ha
  refine ⟨?_, fun o ho => ?_⟩
  · obtain ⟨r, hr⟩ := combines_exists _ m index queue rfl
    exact ⟨_, by unfold CreateTree; rw [hrun]; exact ⟨r, hr, rfl⟩⟩
  · unfold CreateTree at ho
    rw [hrun] at ho
    obtain ⟨r, hr, rfl⟩ := ho
    obtain ⟨m', a, t, rfl, hbuild, hheld⟩ := combines_spec hr T hq (by omega) hpos (by rw [hT', total_leaves chunk hb]; omega)
    rw [hT'] at hbuild
    refine ⟨moveRoot m' a, t, rfl, hbuild, ?_⟩
    have hs : Shape (Walk.start (moveRoot m' a)).mem 0 t := (moveRoot_shape hheld).mono (sameShape_set _ _ _)
    obtain ⟨w, h1, -, h3, h4, h5⟩ := walk_spec t 0 [] (Walk.start (moveRoot m' a)) hs rfl (fun p ps e => by cases e)
    have hout : w.out.map bare = t.codes 0 := h5
    refine ⟨w, h1, by unfold Walk.turn; rw [h3], ?_, finish_of_bare hout⟩
    have e1 : w.out.length = (t.codes 0).length := by rw [← hout, List.length_map]
    have e2 : (t.codes 0).length = t.symbols.length := by
      have := congrArg List.length (codes_symbols t 0)
      rwa [List.length_map] at this
    have e3 := (build_symbols hbuild).length_eq
    rw [leavesOf_symbols] at e3
    have := alphabet_length chunk
    omega

example : ∃ o, CreateTree [7, 7, 9] (fun _ => ⟨1, 1, some 3, some 3⟩) o :=
  (encoder_memory 11 [7, 7, 9] (fun _ => ⟨1, 1, some 3, some 3⟩) (by decide) (by decide) (by decide)).1

set_option maxRecDepth 100000 in
/-- A chunk that meets the hypotheses, after another one left links in the array; the root is an inner node. -/
example : ∃ m, CreateTree [7, 7, 9] (fun _ => ⟨1, 1, some 3, some 3⟩) (some m) ∧ m 0 = ⟨0, 3, some 2, some 1⟩ ∧ m 1 = ⟨7, 2, none, none⟩ ∧
    m 2 = ⟨9, 1, none, none⟩ := by
  have hl : leavesLoop [7, 7, 9] (List.range 256) (fun _ => ⟨1, 1, some 3, some 3⟩) 0 [] =
      some (Mem.set (Mem.set (fun _ => ⟨1, 1, some 3, some 3⟩) 1 ⟨7, 2, none, none⟩) 2 ⟨9, 1, none, none⟩, 2, [1, 2]) := rfl
  refine ⟨moveRoot (Mem.set (Mem.set (Mem.set (fun _ => ⟨1, 1, some 3, some 3⟩) 1 ⟨7, 2, none, none⟩) 2 ⟨9, 1, none, none⟩) 3
      ⟨0, (1 + 2) % 2 ^ 64, some 2, some 1⟩) 3, ?_, ?_⟩
  · unfold CreateTree
    rw [hl]
    refine ⟨some (_, 3), .step (l := 2) (r := 1) (rest := []) (List.Perm.swap _ _ _) (by decide) (by decide) (by decide) .done, rfl⟩
  · decide

/-- The walk over it. -/
example (n : Cell) :
    let m : Mem := Mem.set (Mem.set (Mem.set (fun _ => n) 0 ⟨0, 3, some 2, some 1⟩) 1 ⟨7, 2, none, none⟩) 2 ⟨9, 1, none, none⟩
    ((Walk.start m).turn >>= Walk.turn >>= Walk.turn >>= Walk.turn >>= Walk.turn >>= Walk.turn).map (·.out) =
      some [⟨7, 1, 1⟩, ⟨9, 0, 1⟩] := by
  intro m
  rfl

end Verif.Huffman.Memory
