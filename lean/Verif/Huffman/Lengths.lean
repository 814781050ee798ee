import Verif.Huffman.Spec

/-!
# Code lengths: the tree, its limiting
-/

namespace Verif.Huffman

/-- Kraft sum scaled by `2 ^ m`. -/
def kraft (m : Nat) (cs : List Code) : Nat := (cs.map fun c => 2 ^ (m - c.length)).sum

@[simp] theorem kraft_nil (m : Nat) : kraft m [] = 0 := rfl
@[simp] theorem kraft_cons (m : Nat) (c : Code) (cs : List Code) :
    kraft m (c :: cs) = 2 ^ (m - c.length) + kraft m cs := by simp [kraft]
theorem kraft_append (m : Nat) (a b : List Code) : kraft m (a ++ b) = kraft m a + kraft m b := by simp [kraft]
theorem kraft_perm {m : Nat} {a b : List Code} (h : a.Perm b) : kraft m a = kraft m b := (h.map _).sum_nat
theorem kraft_reverse (m : Nat) (a : List Code) : kraft m a.reverse = kraft m a := kraft_perm (List.reverse_perm a)

/-- Lengths never decrease. -/
def Asc (cs : List Code) : Prop := cs.Pairwise fun a b => a.length ≤ b.length
/-- Lengths never increase. -/
def Desc (cs : List Code) : Prop := cs.Pairwise fun a b => b.length ≤ a.length

theorem asc_reverse {cs : List Code} : Asc cs.reverse ↔ Desc cs := List.pairwise_reverse
theorem desc_reverse {cs : List Code} : Desc cs.reverse ↔ Asc cs := List.pairwise_reverse

/-! ### Insertion -/

theorem insertRev_perm (c : Code) (l : List Code) : (insertRev c l).Perm (c :: l) := by
  induction l with
  | nil => exact .refl _
  | cons x xs ih =>
    simp only [insertRev]
    split
    · exact (ih.cons x).trans (.swap c x xs)
    · exact .refl _

theorem less_le {a b : Code} (h : a.less b = true) : a.length ≤ b.length := by
  unfold Code.less at h
  split at h
  · rename_i e; simp at e; omega
  · simp at h; omega

theorem not_less_le {a b : Code} (h : ¬ a.less b = true) : b.length ≤ a.length := by
  unfold Code.less at h
  split at h
  · rename_i e; simp at e; omega
  · simp at h; omega

theorem insertRev_desc {c : Code} {l : List Code} (h : Desc l) : Desc (insertRev c l) := by
  induction l with
  | nil => simp [insertRev, Desc]
  | cons x xs ih =>
    have h1 := List.pairwise_cons.mp h
    simp only [insertRev]
    split
    · rename_i hl
      refine List.pairwise_cons.mpr ⟨fun y hy => ?_, ih h1.2⟩
      have := (insertRev_perm c xs).mem_iff.mp hy
      rcases List.mem_cons.mp this with e | e
      · rw [e]; exact less_le hl
      · exact h1.1 y e
    · rename_i hl
      have h2 := not_less_le hl
      refine List.pairwise_cons.mpr ⟨fun y hy => ?_, h⟩
      rcases List.mem_cons.mp hy with e | e
      · rw [e]; exact h2
      · exact Nat.le_trans (h1.1 y e) h2

theorem insertCode_perm (l : List Code) (c : Code) : (insertCode l c).Perm (c :: l) :=
  (List.reverse_perm _).trans ((insertRev_perm c _).trans ((List.reverse_perm l).cons c))

theorem insertCode_asc {l : List Code} {c : Code} (h : Asc l) : Asc (insertCode l c) :=
  asc_reverse.mpr (insertRev_desc (desc_reverse.mpr h))

theorem foldl_insert (cs : List Code) : ∀ (l : List Code), Asc l →
    (cs.foldl insertCode l).Perm (cs ++ l) ∧ Asc (cs.foldl insertCode l) := by
  induction cs with
  | nil => intro l h; exact ⟨.refl _, h⟩
  | cons c cs ih =>
    intro l h
    obtain ⟨h1, h2⟩ := ih _ (insertCode_asc (c := c) h)
    refine ⟨?_, h2⟩
    simp only [List.foldl_cons]
    exact h1.trans (((insertCode_perm l c).append_left cs).trans List.perm_middle)

theorem collect_perm (t : Tree) : (collect t).Perm (t.codes 0) := by
  have := (foldl_insert (t.codes 0) [] (by simp [Asc])).1
  simpa [collect] using this

theorem collect_asc (t : Tree) : Asc (collect t) := (foldl_insert (t.codes 0) [] (by simp [Asc])).2

/-! ### Trees -/

/-- Number of leaves. -/
def Tree.size : Tree → Nat
  | .leaf _ _ => 1
  | .node l r => l.size + r.size

/-- Symbols at the leaves. -/
def Tree.symbols : Tree → List Nat
  | .leaf s _ => [s]
  | .node l r => r.symbols ++ l.symbols

theorem size_pos (t : Tree) : 0 < t.size := by
  induction t with
  | leaf => simp [Tree.size]
  | node l r h1 h2 => simp [Tree.size]; omega

theorem symbols_length (t : Tree) : t.symbols.length = t.size := by
  induction t with
  | leaf => rfl
  | node l r h1 h2 => simp [Tree.symbols, Tree.size, h1, h2]; omega

theorem codes_symbols (t : Tree) : ∀ d, (t.codes d).map (·.symbol) = t.symbols := by
  induction t with
  | leaf => intro d; rfl
  | node l r h1 h2 => intro d; simp [Tree.codes, Tree.symbols, h1, h2]

/-- Every leaf lies between its subtree's depth and the number of leaves. -/
theorem codes_length (t : Tree) : ∀ d, d + t.size ≤ 256 → ∀ c ∈ t.codes d, d ≤ c.length ∧ c.length < d + t.size := by
  induction t with
  | leaf s f =>
    intro d h c hc
    simp [Tree.codes, Tree.size] at hc h
    subst hc
    simp only [Tree.size]; omega
  | node l r h1 h2 =>
    intro d h c hc
    simp only [Tree.size] at h ⊢
    have := size_pos l
    have := size_pos r
    simp only [Tree.codes, List.mem_append] at hc
    rcases hc with hc | hc
    · have := h2 (d + 1) (by omega) c hc; omega
    · have := h1 (d + 1) (by omega) c hc; omega

/-- The Kraft sum of a whole tree is exactly one. -/
theorem codes_kraft (t : Tree) (D : Nat) : ∀ d, d + t.size ≤ 256 → (∀ c ∈ t.codes d, c.length ≤ D) →
    kraft D (t.codes d) = 2 ^ (D - d) := by
  induction t with
  | leaf s f =>
    intro d h _
    simp [Tree.size] at h
    simp [Tree.codes, kraft, Nat.mod_eq_of_lt (show d < 256 by omega)]
  | node l r h1 h2 =>
    intro d h hD
    have sl := size_pos l
    have sr := size_pos r
    simp only [Tree.size] at h
    simp only [Tree.codes, List.mem_append] at hD ⊢
    have a := h2 (d + 1) (by omega) (fun c hc => hD c (.inl hc))
    have b := h1 (d + 1) (by omega) (fun c hc => hD c (.inr hc))
    rw [kraft_append, a, b]
    have hlt : d + 1 ≤ D := by
      cases hc : r.codes (d + 1) with
      | nil =>
        have := congrArg List.length (codes_symbols r (d + 1))
        rw [hc, symbols_length] at this; simp at this; omega
      | cons c cs =>
        have h3 := hD c (.inl (by rw [hc]; simp))
        have h4 := codes_length r (d + 1) (by omega) c (by rw [hc]; simp)
        omega
    rw [← Nat.two_mul, ← Nat.pow_succ']
    congr 1; omega

/-- Leaves of a whole queue. -/
def queueSymbols (q : List Tree) : List Nat := (q.map Tree.symbols).flatten

theorem build_symbols {q : List Tree} {t : Tree} (h : Build q t) : t.symbols.Perm (queueSymbols q) := by
  induction h with
  | done => simp [queueSymbols]
  | @step q rest left right t hq _ _ _ ih =>
    refine ih.trans ?_
    have h1 : (queueSymbols q).Perm (queueSymbols (left :: right :: rest)) := (hq.map _).flatten
    refine .trans ?_ h1.symm
    simp only [queueSymbols, List.map_cons, List.flatten_cons, Tree.symbols, ← List.append_assoc]
    exact List.perm_append_comm.append_right _

theorem leavesOf_symbols (chunk : List Nat) : queueSymbols (leavesOf chunk) = alphabet chunk := by
  have h : ∀ l : List Nat, queueSymbols (l.map fun s => Tree.leaf s (chunk.count s)) = l := by
    intro l
    induction l with
    | nil => rfl
    | cons a l ih =>
      simp only [queueSymbols, List.map_cons, List.flatten_cons, Tree.symbols] at ih ⊢
      rw [ih]; rfl
  unfold leavesOf alphabet
  rw [h]
  congr 1
  funext s
  simp [List.count_pos_iff]

theorem alphabet_nodup (chunk : List Nat) : (alphabet chunk).Nodup :=
  List.Nodup.sublist List.filter_sublist List.nodup_range

theorem mem_alphabet {chunk : List Nat} {b : Nat} (hb : b < 256) : b ∈ alphabet chunk ↔ b ∈ chunk := by
  simp [alphabet, hb]

theorem alphabet_lt {chunk : List Nat} {b : Nat} (h : b ∈ alphabet chunk) : b < 256 := by
  simp [alphabet] at h; exact h.1

theorem alphabet_length (chunk : List Nat) : (alphabet chunk).length ≤ 256 := by
  have := List.length_filter_le (fun s => decide (s ∈ chunk)) (List.range 256)
  unfold alphabet; simpa using this

/-- What `create_codes` knows before limiting. -/
structure FromTree (chunk : List Nat) (cs : List Code) : Prop where
  symbols : (cs.map (·.symbol)).Perm (alphabet chunk)
  asc : Asc cs
  bound : ∀ c ∈ cs, c.length ≤ maxLength cs
  whole : kraft (maxLength cs) cs = 2 ^ maxLength cs
  pos : 2 ≤ cs.length → ∀ c ∈ cs, 1 ≤ c.length
  ne : cs ≠ []
  single : cs.length = 1 → maxLength cs = 0

theorem foldl_max (cs : List Code) : ∀ m, m ≤ cs.foldl (fun m c => max m c.length) m ∧
    ∀ c ∈ cs, c.length ≤ cs.foldl (fun m c => max m c.length) m := by
  induction cs with
  | nil => intro m; simp
  | cons c cs ih =>
    intro m
    obtain ⟨h1, h2⟩ := ih (max m c.length)
    simp only [List.foldl_cons]
    refine ⟨by omega, fun x hx => ?_⟩
    rcases List.mem_cons.mp hx with e | e
    · subst e; omega
    · exact h2 x e

theorem le_maxLength {cs : List Code} {c : Code} (h : c ∈ cs) : c.length ≤ maxLength cs := (foldl_max cs 0).2 c h

theorem foldl_max_le (cs : List Code) (B : Nat) : ∀ m, m ≤ B → (∀ c ∈ cs, c.length ≤ B) →
    cs.foldl (fun m c => max m c.length) m ≤ B := by
  induction cs with
  | nil => intro m h _; exact h
  | cons c cs ih =>
    intro m h hc
    simp only [List.foldl_cons]
    exact ih _ (Nat.max_le.mpr ⟨h, hc c (by simp)⟩) (fun x hx => hc x (by simp [hx]))

theorem maxLength_le {cs : List Code} {B : Nat} (h : ∀ c ∈ cs, c.length ≤ B) : maxLength cs ≤ B :=
  foldl_max_le cs B 0 (by omega) h

theorem fromTree {chunk : List Nat} {t : Tree} (h : Build (leavesOf chunk) t) : FromTree chunk (collect t) := by
  have hp := collect_perm t
  have hs := build_symbols h
  rw [leavesOf_symbols] at hs
  have hsz : t.size ≤ 256 := by
    rw [← symbols_length, hs.length_eq]; exact alphabet_length chunk
  have hsym : ((collect t).map (·.symbol)).Perm (alphabet chunk) := by
    refine (hp.map _).trans ?_
    rw [codes_symbols]; exact hs
  refine ⟨hsym, collect_asc t, fun c hc => le_maxLength hc, ?_, ?_, ?_, ?_⟩
  · rw [kraft_perm hp]
    have := codes_kraft t (maxLength (collect t)) 0 (by omega) (fun c hc => le_maxLength (hp.mem_iff.mpr hc))
    simpa using this
  · intro hl c hc
    have h1 := hp.mem_iff.mp hc
    cases t with
    | leaf s f =>
      have := hp.length_eq; simp [Tree.codes] at this; omega
    | node l r =>
      simp only [Tree.size] at hsz
      have := size_pos l
      have := size_pos r
      simp only [Tree.codes, List.mem_append] at h1
      rcases h1 with h1 | h1
      · have := codes_length r 1 (by omega) c h1; omega
      · have := codes_length l 1 (by omega) c h1; omega
  · intro e
    have h1 := congrArg List.length (codes_symbols t 0)
    have h2 := hp.length_eq
    rw [e] at h2
    rw [symbols_length] at h1
    have h3 := size_pos t
    simp only [List.length_nil, List.length_map] at h1 h2
    omega
  · intro e
    have h1 := congrArg List.length (codes_symbols t 0)
    have h2 := hp.length_eq
    rw [symbols_length] at h1
    simp only [List.length_map] at h1
    cases t with
    | leaf s f =>
      refine Nat.le_zero.mp (maxLength_le fun c hc => ?_)
      have := hp.mem_iff.mp hc
      simp [Tree.codes] at this
      simp [this]
    | node l r =>
      have := size_pos l
      have := size_pos r
      simp only [Tree.size] at h1
      omega

/-! ### Limiting -/

/-- Usable lengths: sorted, between one and the maximum, and satisfying the Kraft inequality. -/
structure Usable (M : Nat) (cs : List Code) : Prop where
  asc : Asc cs
  pos : ∀ c ∈ cs, 1 ≤ c.length
  le : ∀ c ∈ cs, c.length ≤ M
  kraft : kraft M cs ≤ 2 ^ M

theorem pow_M {M : Nat} (hM : M ≤ 15) (l : Nat) : 2 ^ (M - l) ≤ 32768 := by
  have : 2 ^ (M - l) ≤ 2 ^ 15 := Nat.pow_le_pow_right (by omega) (by omega)
  omega

theorem kraftOf_eq {M : Nat} (hM : M ≤ 15) (l : Nat) : kraftOf M l = 2 ^ (M - l) := by
  have := pow_M hM l
  unfold kraftOf; exact Nat.mod_eq_of_lt (by omega)

theorem raiseOne_spec {M : Nat} (hM : M ≤ 15) : ∀ (n l e : Nat), n = M - l → l ≤ M → 2 ^ (M - l) + e < 65536 →
    raiseOne M n l (2 ^ (M - l) + e) = (M, 1 + e) := by
  intro n
  induction n with
  | zero =>
    intro l e hn hl h
    have : l = M := by omega
    subst this
    simp [raiseOne]
  | succ n ih =>
    intro l e hn hl h
    simp only [raiseOne, kraftOf_eq hM]
    have h2 : 2 ^ (M - l) = 2 * 2 ^ (M - (l + 1)) := by
      rw [show M - l = (M - (l + 1)) + 1 by omega, Nat.pow_succ]; omega
    have h3 : (2 ^ (M - l) + e + 65536 - 2 ^ (M - (l + 1))) % 65536 = 2 ^ (M - (l + 1)) + e := by omega
    rw [h3]
    exact ih (l + 1) e (by omega) (by omega) (by omega)

theorem raiseRev_spec {M : Nat} (hM : M ≤ 15) : ∀ (cs : List Code) (e : Nat), (∀ c ∈ cs, c.length ≤ M) →
    Desc cs → kraft M cs + e < 65536 →
    let q := raiseRev M cs (kraft M cs + e)
    q.2 = kraft M q.1 + e ∧ (∀ c ∈ q.1, c.length ≤ M) ∧ Desc q.1 ∧ q.1.map (·.symbol) = cs.map (·.symbol) ∧
    q.2 ≤ kraft M cs + e ∧ (q.2 ≤ 2 ^ M - 1 ∨ ∀ c ∈ q.1, c.length = M) ∧
    (∀ B, (∀ c ∈ cs, B ≤ c.length) → ∀ c ∈ q.1, B ≤ c.length) := by
  intro cs
  induction cs with
  | nil =>
    intro e _ _ _
    simp [raiseRev, Desc]
  | cons c cs ih =>
    intro e hle hd hk
    have hc := hle c (by simp)
    have hd' := List.pairwise_cons.mp hd
    simp only [raiseRev]
    by_cases hgt : kraft M (c :: cs) + e > 2 ^ M - 1
    · simp only [hgt, if_true]
      have h1 : kraft M (c :: cs) + e = 2 ^ (M - c.length) + (kraft M cs + e) := by simp; omega
      have h2 := raiseOne_spec hM (M - c.length) c.length (kraft M cs + e) rfl hc (by omega)
      rw [h1, h2]
      simp only
      have h3 : 1 + (kraft M cs + e) = kraft M cs + (e + 1) := by omega
      have hp : 0 < 2 ^ (M - c.length) := Nat.two_pow_pos _
      rw [h3]
      obtain ⟨a1, a2, a3, a4, a5, a6, a7⟩ := ih (e + 1) (fun x hx => hle x (by simp [hx])) hd'.2 (by simp at hk; omega)
      refine ⟨?_, ?_, ?_, ?_, ?_, ?_, ?_⟩
      · rw [a1]; simp; omega
      · intro x hx
        rcases List.mem_cons.mp hx with hx | hx
        · subst hx; simp
        · exact a2 x hx
      · refine List.pairwise_cons.mpr ⟨fun x hx => ?_, a3⟩
        simp only; exact a2 x hx
      · simp [a4]
      · omega
      · rcases a6 with a6 | a6
        · exact .inl a6
        · right
          intro x hx
          rcases List.mem_cons.mp hx with hx | hx
          · subst hx; rfl
          · exact a6 x hx
      · intro B hB x hx
        rcases List.mem_cons.mp hx with hx | hx
        · subst hx; simp only
          exact Nat.le_trans (hB c (by simp)) hc
        · exact a7 B (fun y hy => hB y (by simp [hy])) x hx
    · rw [if_neg hgt]
      exact ⟨rfl, hle, hd, rfl, by omega, .inl (by omega), fun B hB => hB⟩

theorem lowerOne_spec {M : Nat} (hM : M ≤ 15) (hM1 : 1 ≤ M) : ∀ (l e : Nat), 1 ≤ l → l ≤ M →
    2 ^ (M - l) + e ≤ 2 ^ M →
    ∃ l', lowerOne M l (2 ^ (M - l) + e) = some (l', 2 ^ (M - l') + e) ∧ 1 ≤ l' ∧ l' ≤ l ∧
      2 ^ (M - l') + e ≤ 2 ^ M ∧ 2 ^ M ≤ 2 ^ (M - l') + e + 2 ^ (M - l') ∧
      (l' < l → ∀ b, 2 ^ M ≤ 2 ^ (M - l) + e + 2 ^ (M - b) → b ≤ l') := by
  intro l
  induction l with
  | zero => intro e h; omega
  | succ l ih =>
    intro e _ hl hk
    have hpM : 2 ^ M ≤ 32768 := by have := pow_M hM 0; simpa using this
    have hp := Nat.two_pow_pos (M - (l + 1))
    simp only [lowerOne, kraftOf_eq hM]
    have hmod : (2 ^ (M - (l + 1)) + e + 2 ^ (M - (l + 1))) % 65536 =
        2 ^ (M - (l + 1)) + e + 2 ^ (M - (l + 1)) := by
      have h14 : 2 ^ (M - (l + 1)) ≤ 2 ^ 14 := Nat.pow_le_pow_right (by omega) (by omega)
      exact Nat.mod_eq_of_lt (by omega)
    rw [hmod]
    by_cases hc : 2 ^ (M - (l + 1)) + e + 2 ^ (M - (l + 1)) ≤ 2 ^ M - 1
    · simp only [hc, if_true]
      have h2 : 2 ^ (M - l) = 2 * 2 ^ (M - (l + 1)) := by
        rw [show M - l = (M - (l + 1)) + 1 by omega, Nat.pow_succ]; omega
      have hl1 : 1 ≤ l := by
        cases l with
        | zero => rw [Nat.sub_zero] at h2; omega
        | succ l => omega
      have h3 : 2 ^ (M - (l + 1)) + e + 2 ^ (M - (l + 1)) = 2 ^ (M - l) + e := by omega
      rw [h3]
      obtain ⟨l', a1, a2, a3, a4, a5, a6⟩ := ih e hl1 (by omega) (by omega)
      refine ⟨l', a1, a2, by omega, a4, a5, fun _ b hb => ?_⟩
      by_cases hlt : l' < l
      · exact a6 hlt b (by omega)
      · have : l' = l := by omega
        subst this
        have : 2 ^ (M - (l' + 1)) < 2 ^ (M - b) := by omega
        have := (Nat.pow_lt_pow_iff_right (a := 2) (by omega)).mp this
        omega
    · simp only [hc, if_false]
      exact ⟨l + 1, rfl, by omega, by omega, hk, by omega, fun h => by omega⟩

theorem lowerAll_spec {M : Nat} (hM : M ≤ 15) (hM1 : 1 ≤ M) : ∀ (cs : List Code) (e b : Nat), Asc cs →
    (∀ c ∈ cs, 1 ≤ c.length ∧ c.length ≤ M ∧ b ≤ c.length) → kraft M cs + e ≤ 2 ^ M →
    (2 ^ M ≤ kraft M cs + e + 2 ^ (M - b) ∨ b = 0) →
    ∃ cs', lowerAll M cs (kraft M cs + e) = some cs' ∧ Asc cs' ∧
      (∀ c ∈ cs', 1 ≤ c.length ∧ c.length ≤ M ∧ b ≤ c.length) ∧
      kraft M cs' + e ≤ 2 ^ M ∧ cs'.map (·.symbol) = cs.map (·.symbol) := by
  intro cs
  induction cs with
  | nil => intro e b _ _ hk _; exact ⟨[], rfl, by simp [Asc], by simp, by simpa using hk, rfl⟩
  | cons c cs ih =>
    intro e b hs hb hk hx
    have hs' := List.pairwise_cons.mp hs
    obtain ⟨hc1, hc2, hc3⟩ := hb c (by simp)
    simp only [kraft_cons] at hk hx
    obtain ⟨l', a1, a2, a3, a4, a5, a6⟩ :=
      lowerOne_spec hM hM1 c.length (kraft M cs + e) hc1 hc2 (by omega)
    simp only [lowerAll, kraft_cons]
    rw [Nat.add_assoc, a1]
    simp only
    have hbl : b ≤ l' := by
      by_cases hlt : l' < c.length
      · rcases hx with hx | hx
        · exact a6 hlt b (by omega)
        · omega
      · omega
    have h3 : 2 ^ (M - l') + (kraft M cs + e) = kraft M cs + (e + 2 ^ (M - l')) := by omega
    rw [h3]
    obtain ⟨cs', b1, b2, b3, b4, b5⟩ := ih (e + 2 ^ (M - l')) l' hs'.2
      (fun x hx => ⟨(hb x (by simp [hx])).1, (hb x (by simp [hx])).2.1, Nat.le_trans a3 (hs'.1 x hx)⟩)
      (by omega) (.inl (by omega))
    refine ⟨{ c with length := l' } :: cs', by rw [b1]; rfl, ?_, ?_, ?_, ?_⟩
    · exact List.pairwise_cons.mpr ⟨fun x hx => (b3 x hx).2.2, b2⟩
    · intro x hx
      rcases List.mem_cons.mp hx with hx | hx
      · subst hx; exact ⟨a2, Nat.le_trans a3 hc2, hbl⟩
      · have := b3 x hx; exact ⟨this.1, this.2.1, Nat.le_trans hbl this.2.2⟩
    · simp only [kraft_cons]; omega
    · simp [b5]

/-- Clamping adds at most one unit per code to the Kraft sum. -/
theorem clamp_kraft {M D : Nat} (hMD : M ≤ D) (cs : List Code) :
    2 ^ (D - M) * kraft M (cs.map fun c => { c with length := min c.length M }) ≤
      kraft D cs + cs.length * 2 ^ (D - M) := by
  induction cs with
  | nil => simp
  | cons c cs ih =>
    simp only [List.map_cons, kraft_cons, List.length_cons, Nat.mul_add, Nat.add_mul, Nat.one_mul]
    have : 2 ^ (D - M) * 2 ^ (M - min c.length M) ≤ 2 ^ (D - c.length) + 2 ^ (D - M) := by
      by_cases h : c.length ≤ M
      · rw [Nat.min_eq_left h, ← Nat.pow_add, show D - M + (M - c.length) = D - c.length by omega]; exact Nat.le_add_right _ _
      · rw [Nat.min_eq_right (by omega)]; simp
    omega

theorem foldl_kraft {M : Nat} (hM : M ≤ 15) (cs : List Code) : ∀ k, k + kraft M cs < 65536 →
    cs.foldl (fun k c => (k + kraftOf M c.length) % 65536) k = k + kraft M cs := by
  induction cs with
  | nil => intro k _; simp
  | cons c cs ih =>
    intro k h
    simp only [kraft_cons] at h
    simp only [List.foldl_cons, kraft_cons]
    rw [kraftOf_eq hM c.length, Nat.mod_eq_of_lt (by omega), ih _ (by omega)]; omega

theorem limit_spec {M : Nat} (hM : M ≤ 15) (hM1 : 1 ≤ M) {chunk : List Nat} {cs : List Code}
    (h : FromTree chunk cs) (hD : maxLength cs > M) (hn : cs.length ≤ 2 ^ M) :
    ∃ cs', limit M cs = some cs' ∧ Usable M cs' ∧ cs'.map (·.symbol) = cs.map (·.symbol) := by
  have hpM : 2 ^ M ≤ 32768 := by have := pow_M hM 0; simpa using this
  have hn256 : cs.length ≤ 256 := by
    have := h.symbols.length_eq
    simp at this
    rw [this]; exact alphabet_length chunk
  have h2 : 2 ≤ cs.length := by
    cases hcs : cs with
    | nil => exact absurd hcs h.ne
    | cons c cs' =>
      cases cs' with
      | nil =>
        have := h.single (by simp [hcs])
        omega
      | cons _ _ => simp
  generalize hcl : (cs.map fun c => ({ c with length := min c.length M } : Code)) = cl
  have hk0 : kraft M cl ≤ 2 ^ M + cs.length := by
    have h1 := clamp_kraft (M := M) (D := maxLength cs) (by omega) cs
    rw [h.whole, hcl] at h1
    have h3 : 2 ^ maxLength cs = 2 ^ (maxLength cs - M) * 2 ^ M := by
      rw [← Nat.pow_add]; congr 1; omega
    rw [h3, Nat.mul_comm cs.length, ← Nat.mul_add] at h1
    exact Nat.le_of_mul_le_mul_left h1 (Nat.two_pow_pos _)
  have hsym : cl.map (·.symbol) = cs.map (·.symbol) := by
    rw [← hcl, List.map_map]; rfl
  have hle : ∀ c ∈ cl, c.length ≤ M := by
    intro c hc; rw [← hcl] at hc; simp at hc
    obtain ⟨a, _, rfl⟩ := hc; simp; omega
  have hpos : ∀ c ∈ cl, 1 ≤ c.length := by
    intro c hc; rw [← hcl] at hc; simp at hc
    obtain ⟨a, ha, rfl⟩ := hc
    have := h.pos h2 a ha
    simp; omega
  have hasc : Asc cl := by
    rw [← hcl]
    refine List.pairwise_map.mpr (h.asc.imp ?_)
    intro a b hab; simp only; omega
  simp only [limit, hcl]
  rw [foldl_kraft hM cl 0 (by omega), Nat.zero_add]
  have hr := raiseRev_spec hM cl.reverse 0 (by simpa using hle) (desc_reverse.mpr hasc)
    (by rw [kraft_reverse]; omega)
  rw [kraft_reverse, Nat.add_zero] at hr
  obtain ⟨a1, a2, a3, a4, a5, a6, a7⟩ := hr
  generalize hq : raiseRev M cl.reverse (kraft M cl) = q at *
  have hqlen : q.1.length = cs.length := by
    have := congrArg List.length a4
    have h4 := congrArg List.length hsym
    simp at this h4; omega
  have hk1 : q.2 ≤ 2 ^ M := by
    rcases a6 with a6 | a6
    · omega
    · have : kraft M q.1 = q.1.length := by
        clear hq a1 a2 a3 a4 a5 a7 hqlen
        generalize q.1 = l at a6
        induction l with
        | nil => rfl
        | cons c l ih =>
          have := a6 c (by simp)
          simp [this, ih (fun x hx => a6 x (by simp [hx]))]; omega
      omega
  obtain ⟨cs', b1, b2, b3, b4, b5⟩ := lowerAll_spec hM hM1 q.1.reverse 0 0 (asc_reverse.mpr a3)
    (fun c hc => ⟨a7 1 (by simpa using hpos) c (by simpa using hc), a2 c (by simpa using hc), by omega⟩)
    (by rw [kraft_reverse]; omega) (.inr rfl)
  rw [kraft_reverse] at b1
  rw [a1]
  refine ⟨cs', b1, ⟨b2, fun c hc => (b3 c hc).1, fun c hc => (b3 c hc).2.1, by omega⟩, ?_⟩
  rw [b5, List.map_reverse, a4, List.map_reverse, List.reverse_reverse, hsym]

end Verif.Huffman
