import Verif.Huffman.Decode

/-!
# The codes are the shortest possible
-/

namespace Verif.Huffman
open Verif.Bits Verif.BitStream

/-- Height of a tree. -/
def Tree.depth : Tree → Nat
  | .leaf _ _ => 0
  | .node l r => max l.depth r.depth + 1

/-- Sum of the frequencies of the inner nodes. -/
def Tree.internal : Tree → Nat
  | .leaf _ _ => 0
  | .node l r => (l.freq + r.freq) + l.internal + r.internal

/-! ### Trees with lengths -/

/-- Cost and Kraft sum of trees to be put at given depths. -/
def cost (p : List (Tree × Nat)) : Nat := (p.map fun x => x.1.freq * x.2).sum
def kr (D : Nat) (p : List (Tree × Nat)) : Nat := (p.map fun x => 2 ^ (D - x.2)).sum

@[simp] theorem cost_cons (x : Tree × Nat) (p) : cost (x :: p) = x.1.freq * x.2 + cost p := by simp [cost]
@[simp] theorem kr_cons (D : Nat) (x : Tree × Nat) (p) : kr D (x :: p) = 2 ^ (D - x.2) + kr D p := by simp [kr]

theorem exchange {x y m b : Nat} (h1 : x ≤ y) (h2 : m ≤ b) : x * b + y * m ≤ x * m + y * b := by
  obtain ⟨k, rfl⟩ := Nat.exists_eq_add_of_le h1
  obtain ⟨j, rfl⟩ := Nat.exists_eq_add_of_le h2
  simp only [Nat.add_mul, Nat.mul_add]
  omega

/-- The greatest length can be moved to a tree of least frequency without raising the cost. -/
theorem pull_max (D : Nat) (x : Tree) (a : Nat) : ∀ (p : List (Tree × Nat)), (∀ y ∈ p, x.freq ≤ y.1.freq) →
    ∃ m p', p'.map (·.1) = p.map (·.1) ∧ a ≤ m ∧ (∀ y ∈ p', y.2 ≤ m) ∧
      2 ^ (D - m) + kr D p' = 2 ^ (D - a) + kr D p ∧ x.freq * m + cost p' ≤ x.freq * a + cost p ∧
      ∀ B, a ≤ B → (∀ y ∈ p, y.2 ≤ B) → m ≤ B ∧ ∀ y ∈ p', y.2 ≤ B := by
  intro p
  induction p with
  | nil => intro _; exact ⟨a, [], rfl, Nat.le_refl _, by simp, rfl, Nat.le_refl _, fun B h _ => ⟨h, by simp⟩⟩
  | cons y p ih =>
    intro h
    obtain ⟨m, p', h1, h2, h3, h4, h5, h6⟩ := ih fun z hz => h z (by simp [hz])
    obtain ⟨y, b⟩ := y
    by_cases hb : b ≤ m
    · refine ⟨m, (y, b) :: p', by simp [h1], h2, ?_, ?_, ?_, ?_⟩
      · intro z hz
        rcases List.mem_cons.mp hz with rfl | hz
        · exact hb
        · exact h3 z hz
      · simp only [kr_cons]; omega
      · simp only [cost_cons]; omega
      · intro B hB hp
        obtain ⟨g1, g2⟩ := h6 B hB fun z hz => hp z (by simp [hz])
        refine ⟨g1, fun z hz => ?_⟩
        rcases List.mem_cons.mp hz with rfl | hz
        · exact hp _ (by simp)
        · exact g2 z hz
    · have hxy := exchange (x := x.freq) (y := y.freq) (h (y, b) (by simp)) (show m ≤ b by omega)
      refine ⟨b, (y, m) :: p', by simp [h1], by omega, ?_, ?_, ?_, ?_⟩
      · intro z hz
        rcases List.mem_cons.mp hz with rfl | hz
        · show m ≤ b; omega
        · have := h3 z hz; omega
      · simp only [kr_cons]; omega
      · simp only [cost_cons]; omega
      · intro B hB hp
        obtain ⟨g1, g2⟩ := h6 B hB fun z hz => hp z (by simp [hz])
        have hbB : b ≤ B := hp (y, b) (by simp)
        refine ⟨hbB, fun z hz => ?_⟩
        rcases List.mem_cons.mp hz with rfl | hz
        · exact g1
        · exact g2 z hz

theorem perm_lift {x : Tree} : ∀ {p : List (Tree × Nat)} {l : List Tree}, (p.map (·.1)).Perm (x :: l) →
    ∃ a p', p.Perm ((x, a) :: p') ∧ (p'.map (·.1)).Perm l := by
  intro p l h
  have hx : x ∈ p.map (·.1) := h.mem_iff.mpr (by simp)
  obtain ⟨⟨x', a⟩, hm, e⟩ := List.mem_map.mp hx
  simp only at e
  subst e
  obtain ⟨s, t, rfl⟩ := List.append_of_mem hm
  refine ⟨a, s ++ t, List.perm_middle, ?_⟩
  have h1 : ((s ++ (x', a) :: t).map (·.1)).Perm (x' :: (s ++ t).map (·.1)) := by
    simp only [List.map_append, List.map_cons]; exact List.perm_middle
  exact (h1.symm.trans h).cons_inv

theorem kr_dvd {D m : Nat} (hm : m ≤ D) : ∀ (p : List (Tree × Nat)), (∀ y ∈ p, y.2 ≤ m) → 2 ^ (D - m) ∣ kr D p := by
  intro p
  induction p with
  | nil => intro _; simp [kr]
  | cons y p ih =>
    intro h
    rw [kr_cons]
    refine Nat.dvd_add ?_ (ih fun z hz => h z (by simp [hz]))
    exact Nat.pow_dvd_pow 2 (by have := h y (by simp); omega)

/-- Two trees of least frequency can be put side by side at the deepest level. -/
theorem siblings {D a b : Nat} {x y : Tree} {p : List (Tree × Nat)} (hx : ∀ z ∈ (y, b) :: p, x.freq ≤ z.1.freq)
    (hy : ∀ z ∈ p, y.freq ≤ z.1.freq) (hD : ∀ z ∈ (x, a) :: (y, b) :: p, z.2 ≤ D)
    (hk : kr D ((x, a) :: (y, b) :: p) ≤ 2 ^ D) :
    ∃ m p', p'.map (·.1) = p.map (·.1) ∧ 1 ≤ m ∧ m ≤ D ∧ (∀ z ∈ p', z.2 ≤ D) ∧
      2 * 2 ^ (D - m) + kr D p' ≤ 2 ^ D ∧
      (x.freq + y.freq) * m + cost p' ≤ cost ((x, a) :: (y, b) :: p) := by
  obtain ⟨m1, q, a1, a2, a3, a4, a5, a6⟩ := pull_max D x a ((y, b) :: p) hx
  obtain ⟨a7, a8⟩ := a6 D (hD (x, a) (by simp)) fun z hz => hD z (List.mem_cons_of_mem _ hz)
  match q, a1 with
  | (y', b') :: q, a1x =>
    simp only [List.map_cons, List.cons.injEq] at a1x
    obtain ⟨e, a1y⟩ := a1x
    subst e
    have hy' : ∀ z ∈ q, y'.freq ≤ z.1.freq := by
      intro z hz
      have : z.1 ∈ p.map (·.1) := by rw [← a1y]; exact List.mem_map_of_mem hz
      obtain ⟨w, hw, e⟩ := List.mem_map.mp this
      rw [← e]; exact hy w hw
    obtain ⟨m2, q2, b1, b2, b3, b4, b5, b6⟩ := pull_max D y' b' q hy'
    obtain ⟨b7, b8⟩ := b6 m1 (a3 (y', b') (by simp)) fun z hz => a3 z (by simp [hz])
    simp only [kr_cons, cost_cons] at a4 a5 hk ⊢
    have hm2 : m2 ≤ D := by omega
    -- the others' sum is a multiple of `2 ^ (D - m2)` and less than `2 ^ D`
    have hdv := kr_dvd hm2 q2 b3
    obtain ⟨k, hkk⟩ := hdv
    have hpow : 2 ^ D = 2 ^ m2 * 2 ^ (D - m2) := by rw [← Nat.pow_add]; congr 1; omega
    have hp1 := Nat.two_pow_pos (D - m1)
    have hlt : 2 ^ (D - m2) + kr D q2 < 2 ^ D := by omega
    have hstep : k + 1 < 2 ^ m2 := by
      rw [hkk, hpow] at hlt
      have : (k + 1) * 2 ^ (D - m2) < 2 ^ m2 * 2 ^ (D - m2) := by
        rw [Nat.add_mul, Nat.one_mul, Nat.mul_comm k]; omega
      exact Nat.lt_of_mul_lt_mul_right this
    have hge : 2 * 2 ^ (D - m2) + kr D q2 ≤ 2 ^ D := by
      rw [hkk, hpow]
      have : (k + 2) * 2 ^ (D - m2) ≤ 2 ^ m2 * 2 ^ (D - m2) := Nat.mul_le_mul_right _ (by omega)
      rw [Nat.add_mul, Nat.mul_comm k] at this
      omega
    refine ⟨m2, q2, by rw [b1, a1y], ?_, hm2, fun z hz => Nat.le_trans (b8 z hz) a7, hge, ?_⟩
    · rcases Nat.eq_zero_or_pos m2 with e | e
      · rw [e] at hstep; simp at hstep
      · exact e
    · have : x.freq * m2 ≤ x.freq * m1 := Nat.mul_le_mul_left _ b7
      rw [Nat.add_mul]
      omega

theorem cost_perm {p q : List (Tree × Nat)} (h : p.Perm q) : cost p = cost q := (h.map _).sum_nat
theorem kr_perm {D : Nat} {p q : List (Tree × Nat)} (h : p.Perm q) : kr D p = kr D q := (h.map _).sum_nat

/-- Whatever depths satisfying Kraft's inequality are chosen, the tree that is built does not cost more. -/
theorem build_optimal {q : List Tree} {t : Tree} (h : Build q t) : ∀ (p : List (Tree × Nat)) (D : Nat),
    (p.map (·.1)).Perm q → (∀ z ∈ p, z.2 ≤ D) → kr D p ≤ 2 ^ D →
    t.internal ≤ cost p + (q.map Tree.internal).sum := by
  induction h with
  | done => intro p D _ _ _; simp
  | @step q rest left right t hq hl hr _ ih =>
    intro p D hp hD hk
    obtain ⟨a, p1, e1, f1⟩ := perm_lift (hp.trans hq)
    obtain ⟨b, p2, e2, f2⟩ := perm_lift f1
    have hpp : p.Perm ((left, a) :: (right, b) :: p2) := e1.trans (e2.cons _)
    rw [cost_perm hpp, (hq.map Tree.internal).sum_nat]
    rw [kr_perm hpp] at hk
    obtain ⟨m, p', c1, c2, c3, c4, c5, c6⟩ := siblings (D := D) (a := a) (b := b) (x := left) (y := right) (p := p2)
      (by
        intro z hz
        refine hl z.1 ?_
        rcases List.mem_cons.mp hz with rfl | hz
        · simp
        · exact List.mem_cons_of_mem _ (f2.mem_iff.mp (List.mem_map_of_mem hz)))
      (fun z hz => hr z.1 (f2.mem_iff.mp (List.mem_map_of_mem hz)))
      (fun z hz => hD z (hpp.mem_iff.mpr hz)) hk
    have hi := ih ((.node left right, m - 1) :: p') D (by simp only [List.map_cons]; rw [c1]; exact f2.cons _)
      (by
        intro z hz
        rcases List.mem_cons.mp hz with rfl | hz
        · show m - 1 ≤ D; omega
        · exact c4 z hz)
      (by
        simp only [kr_cons]
        rw [show D - (m - 1) = (D - m) + 1 by omega, Nat.pow_succ]
        omega)
    simp only [List.map_cons, List.sum_cons, cost_cons, Tree.freq, Tree.internal] at hi ⊢
    simp only [cost_cons] at c6
    have hmul : (left.freq + right.freq) * (m - 1) + (left.freq + right.freq) = (left.freq + right.freq) * m := by
      obtain ⟨k, rfl⟩ := Nat.exists_eq_add_of_le c2
      rw [show 1 + k - 1 = k by omega, Nat.mul_add]; omega
    omega

/-! ### Kraft's inequality -/

/-- The words that begin with a bit, without it. -/
def tailsOf (b : Bool) (ws : List (List Bool)) : List (List Bool) :=
  ws.filterMap fun w => match w with
    | [] => none
    | c :: t => if c = b then some t else none

theorem tails_sum (D : Nat) : ∀ (ws : List (List Bool)), (∀ w ∈ ws, w ≠ []) →
    (ws.map fun w => 2 ^ (D + 1 - w.length)).sum =
      ((tailsOf false ws).map fun w => 2 ^ (D - w.length)).sum + ((tailsOf true ws).map fun w => 2 ^ (D - w.length)).sum := by
  intro ws
  induction ws with
  | nil => intro _; rfl
  | cons w ws ih =>
    intro h
    have hi := ih fun x hx => h x (by simp [hx])
    match w, h w (by simp) with
    | false :: w, _ =>
      have e1 : tailsOf false ((false :: w) :: ws) = w :: tailsOf false ws := rfl
      have e2 : tailsOf true ((false :: w) :: ws) = tailsOf true ws := rfl
      simp only [e1, e2, List.map_cons, List.sum_cons, hi, List.length_cons]
      rw [show D + 1 - (w.length + 1) = D - w.length by omega]; omega
    | true :: w, _ =>
      have e1 : tailsOf true ((true :: w) :: ws) = w :: tailsOf true ws := rfl
      have e2 : tailsOf false ((true :: w) :: ws) = tailsOf false ws := rfl
      simp only [e1, e2, List.map_cons, List.sum_cons, hi, List.length_cons]
      rw [show D + 1 - (w.length + 1) = D - w.length by omega]; omega

theorem mem_tailsOf {b : Bool} {ws : List (List Bool)} {t : List Bool} : t ∈ tailsOf b ws ↔ (b :: t) ∈ ws := by
  unfold tailsOf
  rw [List.mem_filterMap]
  constructor
  · rintro ⟨w, hw, e⟩
    match w with
    | [] => simp at e
    | c :: w =>
      simp only at e
      split at e
      · rename_i hc
        cases e
        rw [← hc]; exact hw
      · cases e
  · intro h
    exact ⟨_, h, by simp⟩

/-- No word is a prefix of another. -/
def PrefixFree (ws : List (List Bool)) : Prop := ws.Pairwise fun v w => ¬ v <+: w ∧ ¬ w <+: v

theorem prefixFree_tails {b : Bool} {ws : List (List Bool)} (h : PrefixFree ws) : PrefixFree (tailsOf b ws) := by
  unfold tailsOf
  refine List.Pairwise.filterMap _ ?_ h
  intro v w hvw v' hv w' hw
  match v, w with
  | [], _ => simp at hv
  | _ :: _, [] => simp at hw
  | c :: v, d :: w =>
    simp only at hv hw
    split at hv <;> simp at hv
    split at hw <;> simp at hw
    rename_i hc hd
    subst hv
    subst hw
    rw [hc, hd] at hvw
    simpa [List.cons_prefix_cons] using hvw

theorem kraft_inequality : ∀ (D : Nat) (ws : List (List Bool)), PrefixFree ws → (∀ w ∈ ws, w.length ≤ D) →
    (ws.map fun w => 2 ^ (D - w.length)).sum ≤ 2 ^ D := by
  have hnil : ∀ (D : Nat) (ws : List (List Bool)), PrefixFree ws → [] ∈ ws →
      (ws.map fun w => 2 ^ (D - w.length)).sum ≤ 2 ^ D := by
    intro D ws hp hm
    match ws, hp, hm with
    | [w], _, hm =>
      simp at hm
      simp [hm]
    | v :: w :: ws, hp, hm =>
      exfalso
      have h1 := List.pairwise_cons.mp hp
      rcases List.mem_cons.mp hm with e | e
      · have := (h1.1 w (by simp)).1
        rw [← e] at this
        exact this (List.nil_prefix)
      · exact (h1.1 [] e).2 (List.nil_prefix)
  intro D
  induction D with
  | zero =>
    intro ws hp hl
    match ws with
    | [] => simp
    | w :: ws =>
      refine hnil 0 _ hp ?_
      have := hl w (by simp)
      rw [List.length_eq_zero_iff.mp (Nat.le_zero.mp this)]
      simp
  | succ D ih =>
    intro ws hp hl
    by_cases h0 : [] ∈ ws
    · exact hnil _ ws hp h0
    · rw [tails_sum D ws fun w hw e => h0 (e ▸ hw)]
      have hlt : ∀ b, ∀ w ∈ tailsOf b ws, w.length ≤ D := by
        intro b w hw
        have := hl _ (mem_tailsOf.mp hw)
        simpa using this
      have h1 := ih (tailsOf false ws) (prefixFree_tails hp) (hlt false)
      have h2 := ih (tailsOf true ws) (prefixFree_tails hp) (hlt true)
      rw [Nat.pow_succ]; omega

/-! ### From trees to codes -/

/-- The frequencies at the leaves are given by a function. -/
def Tree.Weighs (w : Nat → Nat) : Tree → Prop
  | .leaf s f => f = w s
  | .node l r => l.Weighs w ∧ r.Weighs w

theorem build_weighs {w : Nat → Nat} {q : List Tree} {t : Tree} (h : Build q t) :
    (∀ x ∈ q, x.Weighs w) → t.Weighs w := by
  induction h with
  | done => intro h; exact h _ (by simp)
  | @step q rest left right t hq _ _ _ ih =>
    intro h
    refine ih fun x hx => ?_
    rcases List.mem_cons.mp hx with rfl | hx
    · exact ⟨h _ (hq.mem_iff.mpr (by simp)), h _ (hq.mem_iff.mpr (by simp))⟩
    · exact h _ (hq.mem_iff.mpr (by simp [hx]))

theorem codes_cost {w : Nat → Nat} (t : Tree) : ∀ d, t.Weighs w → d + t.size ≤ 256 →
    ((t.codes d).map fun c => w c.symbol * c.length).sum = t.internal + t.freq * d := by
  induction t with
  | leaf s f =>
    intro d h hd
    simp only [Tree.Weighs] at h
    simp only [Tree.size] at hd
    simp [Tree.codes, Tree.internal, Tree.freq, h, Nat.mod_eq_of_lt (show d < 256 by omega)]
  | node l r h1 h2 =>
    intro d h hd
    simp only [Tree.size] at hd
    have := size_pos l
    have := size_pos r
    simp only [Tree.codes, List.map_append, List.sum_append, h1 (d + 1) h.1 (by omega), h2 (d + 1) h.2 (by omega),
      Tree.internal, Tree.freq, Nat.mul_add, Nat.add_mul]
    omega

theorem codes_depth (t : Tree) : ∀ d, ∀ c ∈ t.codes d, c.length ≤ d + t.depth := by
  induction t with
  | leaf s f =>
    intro d c hc
    simp [Tree.codes] at hc
    subst hc
    simp only [Tree.depth]
    exact Nat.le_trans (Nat.mod_le _ _) (by omega)
  | node l r h1 h2 =>
    intro d c hc
    simp only [Tree.codes, List.mem_append] at hc
    simp only [Tree.depth]
    rcases hc with hc | hc
    · have := h2 (d + 1) c hc; omega
    · have := h1 (d + 1) c hc; omega

/-- Summing over the occurrences is summing over the symbols, each as often as it occurs. -/
theorem sum_count {A : List Nat} (hA : A.Nodup) (g : Nat → Nat) : ∀ (chunk : List Nat), (∀ b ∈ chunk, b ∈ A) →
    (chunk.map g).sum = (A.map fun s => chunk.count s * g s).sum := by
  intro chunk
  induction chunk with
  | nil =>
    intro _
    have : ∀ B : List Nat, (B.map fun s => ([] : List Nat).count s * g s).sum = 0 := by
      intro B; induction B with
      | nil => rfl
      | cons b B ih => simpa using ih
    simpa using (this A).symm
  | cons b chunk ih =>
    intro h
    have hb := h b (by simp)
    rw [List.map_cons, List.sum_cons, ih fun x hx => h x (by simp [hx])]
    have key : ∀ B : List Nat, B.Nodup → (B.map fun s => (b :: chunk).count s * g s).sum =
        (if b ∈ B then g b else 0) + (B.map fun s => chunk.count s * g s).sum := by
      intro B
      induction B with
      | nil => intro _; rfl
      | cons c B ihB =>
        intro hn
        have hn' := List.nodup_cons.mp hn
        simp only [List.map_cons, List.sum_cons, ihB hn'.2]
        by_cases e : b = c
        · subst e
          simp [hn'.1, Nat.add_mul]; omega
        · have : ¬ c = b := fun h => e h.symm
          simp [e]; omega
    rw [key A hA, if_pos hb]

theorem lookup_nodup : ∀ (cs : List Code), (cs.map (·.symbol)).Nodup → ∀ c ∈ cs, lookup cs c.symbol = c := by
  intro cs
  induction cs with
  | nil => intro _ c hc; simp at hc
  | cons d cs ih =>
    intro hn c hc
    have hn' := List.nodup_cons.mp hn
    rcases List.mem_cons.mp hc with rfl | hc
    · simp [lookup]
    · have hne : ¬ d.symbol = c.symbol := fun e => hn'.1 (by show d.symbol ∈ _; rw [e]; exact List.mem_map_of_mem (f := Code.symbol) hc)
      have := ih hn'.2 c hc
      unfold lookup at this ⊢
      rw [List.find?_cons_of_neg (by simpa using hne)]
      exact this

/-- Number of bits written for the symbols of a chunk. -/
theorem written_length (ws : List (Nat × Nat)) : (written ws).length = (ws.map (·.1)).sum := by
  induction ws with
  | nil => rfl
  | cons p ws ih => simp [written, ih]

/-- C85. If the tree is not deeper than the maximum code length allows, then the code words written for a chunk take
no more bits than with any other prefix-free code whose words are not empty: whatever code `f` is chosen. -/
theorem huffman_optimal (M : Nat) (chunk : List Nat) (hb : ∀ b ∈ chunk, b < 256) (t : Tree)
    (ht : Build (leavesOf chunk) t) (hdepth : t.depth ≤ M) (f : Nat → List Bool)
    (hne : ∀ b ∈ chunk, f b ≠ []) (hpf : ∀ a ∈ chunk, ∀ b ∈ chunk, a ≠ b → ¬ f a <+: f b) :
    ∃ cs, createCodes M t = some cs ∧
      (written (symbolsWrites cs chunk)).length ≤ (chunk.map fun b => (f b).length).sum := by
  have hft := fromTree ht
  have hA := alphabet_nodup chunk
  have hmem : ∀ b ∈ chunk, b ∈ alphabet chunk := fun b h => (mem_alphabet (hb b h)).mpr h
  have hsym := build_symbols ht
  rw [leavesOf_symbols] at hsym
  have hsz : t.size ≤ 256 := by
    rw [← symbols_length, hsym.length_eq]; exact alphabet_length chunk
  have hml : maxLength (collect t) ≤ M := maxLength_le fun c hc => by
    have := codes_depth t 0 c ((collect_perm t).mem_iff.mp hc); omega
  have hcc : createCodes M t = some (canonical (collect t)) := by
    simp [createCodes, Nat.not_lt.mpr hml]
  refine ⟨_, hcc, ?_⟩
  rw [written_length]
  simp only [symbolsWrites, List.map_map, Function.comp_def]
  by_cases h2 : 2 ≤ (collect t).length
  · -- what is written
    generalize hcs : canonical (collect t) = cs
    have hpairs : (cs.map fun c => (c.symbol, c.length)) = (collect t).map fun c => (c.symbol, c.length) := by
      rw [← hcs]; exact canonical_map (fun c => (c.symbol, c.length)) (fun _ _ => rfl) h2
    have hsy : (cs.map (·.symbol)).Perm (alphabet chunk) := by
      have := congrArg (List.map Prod.fst) hpairs
      simp only [List.map_map, Function.comp_def] at this
      rw [this]; exact hft.symbols
    have hnod : (cs.map (·.symbol)).Nodup := hsy.nodup_iff.mpr hA
    have e1 := sum_count hA (fun b => (lookup cs b).length) chunk hmem
    rw [e1]
    have e2 : ((alphabet chunk).map fun s => chunk.count s * (lookup cs s).length).sum =
        ((cs.map (·.symbol)).map fun s => chunk.count s * (lookup cs s).length).sum :=
      ((hsy.symm).map _).sum_nat
    rw [e2, List.map_map]
    have e3 : cs.map ((fun s => chunk.count s * (lookup cs s).length) ∘ fun c => c.symbol) =
        cs.map fun c => chunk.count c.symbol * c.length := by
      refine List.map_congr_left fun c hc => ?_
      simp only [Function.comp_def]
      rw [lookup_nodup cs hnod c hc]
    rw [e3]
    have e4 : (cs.map fun c => chunk.count c.symbol * c.length) = (collect t).map fun c => chunk.count c.symbol * c.length := by
      have := congrArg (List.map fun x : Nat × Nat => chunk.count x.1 * x.2) hpairs
      simpa only [List.map_map, Function.comp_def] using this
    rw [e4, ((collect_perm t).map _).sum_nat,
      codes_cost (w := fun s => chunk.count s) t 0 (build_weighs ht fun x hx => by
        obtain ⟨s, _, rfl⟩ := List.mem_map.mp hx; exact rfl) (by omega)]
    simp only [Nat.mul_zero, Nat.add_zero]
    rw [sum_count hA (fun b => (f b).length) chunk hmem]
    -- the rival's lengths on the queue
    have hal : (alphabet chunk) = (List.range 256).filter fun s => decide (0 < chunk.count s) := by
      unfold alphabet
      refine List.filter_congr fun s _ => ?_
      simp [List.count_pos_iff]
    have hbound : ∃ D, ∀ s ∈ alphabet chunk, (f s).length ≤ D := by
      generalize alphabet chunk = A
      induction A with
      | nil => exact ⟨0, by simp⟩
      | cons s A ih =>
        obtain ⟨D, h⟩ := ih
        refine ⟨max D (f s).length, fun x hx => ?_⟩
        rcases List.mem_cons.mp hx with rfl | hx
        · omega
        · have := h x hx; omega
    obtain ⟨D, hD⟩ := hbound
    have hpfl : PrefixFree ((alphabet chunk).map f) := by
      unfold PrefixFree
      rw [List.pairwise_map]
      refine List.Pairwise.imp_of_mem ?_ hA
      intro a b ha hb' hab
      have ha := (mem_alphabet (alphabet_lt ha)).mp ha
      have hb' := (mem_alphabet (alphabet_lt hb')).mp hb'
      exact ⟨hpf a ha b hb' hab, hpf b hb' a ha (Ne.symm hab)⟩
    have hk := kraft_inequality D _ hpfl (by
      intro w hw
      obtain ⟨s, hs, rfl⟩ := List.mem_map.mp hw
      exact hD s hs)
    have ho := build_optimal ht ((alphabet chunk).map fun s => (Tree.leaf s (chunk.count s), (f s).length)) D
      (by rw [List.map_map, hal]; exact .refl _)
      (by
        intro z hz
        obtain ⟨s, hs, rfl⟩ := List.mem_map.mp hz
        exact hD s hs)
      (by simpa only [kr, List.map_map, Function.comp_def] using hk)
    have hz : ((leavesOf chunk).map Tree.internal).sum = 0 := by
      unfold leavesOf
      generalize (List.range 256).filter (fun s => decide (0 < chunk.count s)) = A
      induction A with
      | nil => rfl
      | cons s A ih => simpa [Tree.internal] using ih
    rw [hz, Nat.add_zero] at ho
    simpa only [cost, List.map_map, Function.comp_def, Tree.freq] using ho
  · have h1 : (collect t).length = 1 := by
      have := List.length_pos_iff.mpr hft.ne; omega
    obtain ⟨c, hc⟩ := List.length_eq_one_iff.mp h1
    rw [hc]
    simp only [canonical]
    have hle : ∀ b ∈ chunk, (lookup [{ c with code := 0, length := 1 }] b).length ≤ (f b).length := by
      intro b hbb
      have := List.length_pos_iff.mpr (hne b hbb)
      have h3 : (lookup [{ c with code := 0, length := 1 }] b).length ≤ 1 := by
        unfold lookup
        rw [List.find?_cons]
        split <;> simp
      omega
    generalize [({ c with code := 0, length := 1 } : Code)] = cs at hle
    clear hmem hb hpf hne hft hsym hcc ht hA
    induction chunk with
    | nil => simp
    | cons b chunk ih =>
      have h3 := hle b (by simp)
      have h4 := ih fun x hx => hle x (by simp [hx])
      simp only [List.map_cons, List.sum_cons]
      omega

theorem depth_lt_size (t : Tree) : t.depth < t.size := by
  induction t with
  | leaf => simp [Tree.depth, Tree.size]
  | node l r h1 h2 =>
    have := size_pos l
    have := size_pos r
    simp only [Tree.depth, Tree.size]; omega

/-- In particular: a chunk with few enough distinct symbols (always, up to twelve, with the default configuration)
is never larger than with the fixed-width code, and the encoding is optimal. -/
theorem huffman_optimal_small (M : Nat) (chunk : List Nat) (hb : ∀ b ∈ chunk, b < 256) (t : Tree)
    (ht : Build (leavesOf chunk) t) (hsmall : (alphabet chunk).length ≤ M + 1)
    (f : Nat → List Bool) (hne : ∀ b ∈ chunk, f b ≠ []) (hpf : ∀ a ∈ chunk, ∀ b ∈ chunk, a ≠ b → ¬ f a <+: f b) :
    ∃ cs, createCodes M t = some cs ∧
      (written (symbolsWrites cs chunk)).length ≤ (chunk.map fun b => (f b).length).sum := by
  refine huffman_optimal M chunk hb t ht ?_ f hne hpf
  have h1 := depth_lt_size t
  have h2 := (build_symbols ht).length_eq
  rw [leavesOf_symbols, symbols_length] at h2
  omega

/-- The chunk "aaaabbc" takes 10 bits; the rival is the two-bit code. -/
example : ∃ t, Build (leavesOf [97, 97, 97, 97, 98, 98, 99]) t ∧ t.depth ≤ 11 ∧
    ∃ cs, createCodes 11 t = some cs ∧ (written (symbolsWrites cs [97, 97, 97, 97, 98, 98, 99])).length = 10 := by
  have hl : leavesOf [97, 97, 97, 97, 98, 98, 99] = [.leaf 97 4, .leaf 98 2, .leaf 99 1] := by
    unfold leavesOf; decide +kernel
  refine ⟨.node (.node (.leaf 99 1) (.leaf 98 2)) (.leaf 97 4), ?_, by decide, _, rfl, by decide +kernel⟩
  rw [hl]
  refine .step (left := .leaf 99 1) (right := .leaf 98 2) (rest := [.leaf 97 4]) ?_ ?_ ?_
    (.step (.refl _) ?_ ?_ .done)
  · exact (List.reverse_perm [Tree.leaf 99 1, .leaf 98 2, .leaf 97 4])
  all_goals simp [Tree.freq]

end Verif.Huffman
