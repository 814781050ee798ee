import Verif.Huffman.Lengths

/-!
# Canonical codes
-/

namespace Verif.Huffman
open Verif.Bits

/-- Codes, aligned to `m` bits, are consecutive intervals starting at `a`. -/
def Canon (m : Nat) : Nat → List Code → Prop
  | _, [] => True
  | a, c :: cs => c.code * 2 ^ (m - c.length) = a ∧ Canon m (a + 2 ^ (m - c.length)) cs

theorem pow_split {m a b : Nat} (h1 : a ≤ b) (h2 : b ≤ m) : 2 ^ (m - a) = 2 ^ (b - a) * 2 ^ (m - b) := by
  rw [← Nat.pow_add]; congr 1; omega

theorem canonicalFrom_spec {m : Nat} (hm : m ≤ 15) : ∀ (cs : List Code) (prev : Code),
    (∀ c ∈ cs, prev.length ≤ c.length ∧ c.length ≤ m) → prev.length ≤ m → Asc cs →
    (prev.code + 1) * 2 ^ (m - prev.length) + kraft m cs ≤ 2 ^ m →
    Canon m ((prev.code + 1) * 2 ^ (m - prev.length)) (canonicalFrom prev cs) := by
  intro cs
  induction cs with
  | nil => intro prev _ _ _ _; trivial
  | cons c cs ih =>
    intro prev hle hp hs hk
    obtain ⟨h1, h2⟩ := hle c (by simp)
    have hs' := List.pairwise_cons.mp hs
    simp only [kraft_cons] at hk
    have hsp := pow_split h1 h2
    have hpm : 2 ^ m ≤ 32768 := by have := pow_M hm 0; simpa using this
    have hq := Nat.two_pow_pos (m - c.length)
    have hq2 := Nat.two_pow_pos (c.length - prev.length)
    have hv : (prev.code + 1) * 2 ^ (m - prev.length) =
        (prev.code + 1) * 2 ^ (c.length - prev.length) * 2 ^ (m - c.length) := by
      rw [hsp, Nat.mul_assoc]
    have hlt : (prev.code + 1) * 2 ^ (c.length - prev.length) ≤ 32768 := by
      have := Nat.le_mul_of_pos_right ((prev.code + 1) * 2 ^ (c.length - prev.length)) hq
      omega
    have hlt2 : prev.code + 1 ≤ 32768 := by
      have := Nat.le_mul_of_pos_right (prev.code + 1) hq2
      omega
    have hcode : ((prev.code + 1) % 65536 * 2 ^ (c.length - prev.length)) % 65536 =
        (prev.code + 1) * 2 ^ (c.length - prev.length) := by
      rw [Nat.mod_eq_of_lt (show prev.code + 1 < 65536 by omega), Nat.mod_eq_of_lt (by omega)]
    simp only [canonicalFrom, hcode]
    refine ⟨hv.symm, ?_⟩
    have e : ((prev.code + 1) * 2 ^ (c.length - prev.length) + 1) * 2 ^ (m - c.length) =
        (prev.code + 1) * 2 ^ (m - prev.length) + 2 ^ (m - c.length) := by
      rw [Nat.add_mul _ 1, Nat.one_mul, hv]
    have := ih { c with code := (prev.code + 1) * 2 ^ (c.length - prev.length) }
      (fun x hx => ⟨hs'.1 x hx, (hle x (by simp [hx])).2⟩) h2 hs'.2 (by simp only [e]; omega)
    simp only [e] at this
    exact this

theorem canonicalFrom_map {β : Type} (f : Code → β) (hf : ∀ c k, f { c with code := k } = f c) :
    ∀ (cs : List Code) (prev : Code), (canonicalFrom prev cs).map f = cs.map f := by
  intro cs
  induction cs with
  | nil => intro _; rfl
  | cons c cs ih => intro prev; simp [canonicalFrom, ih, hf]

theorem canonical_map {β : Type} (f : Code → β) (hf : ∀ c k, f { c with code := k } = f c) {cs : List Code}
    (h : 2 ≤ cs.length) : (canonical cs).map f = cs.map f := by
  match cs, h with
  | c :: d :: cs, _ => simp [canonical, canonicalFrom_map f hf, hf]

/-- Codes fit to encode a chunk. -/
structure Coded (M : Nat) (chunk : List Nat) (cs : List Code) : Prop where
  symbols : (cs.map (·.symbol)).Perm (alphabet chunk)
  asc : Asc cs
  pos : ∀ c ∈ cs, 1 ≤ c.length
  le : ∀ c ∈ cs, c.length ≤ M
  kraft : kraft (maxLength cs) cs ≤ 2 ^ maxLength cs
  canon : Canon (maxLength cs) 0 cs
  ne : cs ≠ []

theorem kraft_lift {m M : Nat} (hm : m ≤ M) (cs : List Code) (h : ∀ c ∈ cs, c.length ≤ m) :
    kraft M cs = 2 ^ (M - m) * kraft m cs := by
  induction cs with
  | nil => simp
  | cons c cs ih =>
    simp only [kraft_cons, Nat.mul_add]
    rw [ih fun x hx => h x (by simp [hx]), ← Nat.pow_add,
      show M - m + (m - c.length) = M - c.length by have := h c (by simp); omega]

theorem kraft_map {m : Nat} {a b : List Code} (h : a.map (·.length) = b.map (·.length)) : kraft m a = kraft m b := by
  have h1 : ∀ l : List Code, kraft m l = ((l.map (·.length)).map fun n => 2 ^ (m - n)).sum := by
    intro l; simp [kraft, List.map_map, Function.comp_def]
  rw [h1, h1, h]

theorem maxLength_map {a b : List Code} (h : a.map (·.length) = b.map (·.length)) : maxLength a = maxLength b := by
  have h1 : ∀ l : List Code, maxLength l = (l.map (·.length)).foldl max 0 := by
    intro l; simp [maxLength, List.foldl_map]
  rw [h1, h1, h]

theorem asc_map {a b : List Code} (h : a.map (·.length) = b.map (·.length)) (ha : Asc a) : Asc b := by
  have h1 : ∀ l : List Code, Asc l ↔ (l.map (·.length)).Pairwise (· ≤ ·) := by
    intro l; simp [Asc, List.pairwise_map]
  rw [h1] at ha ⊢; rwa [← h]

theorem forall_map {p : Nat → Prop} {a b : List Code} (h : a.map (·.length) = b.map (·.length))
    (ha : ∀ c ∈ a, p c.length) : ∀ c ∈ b, p c.length := by
  intro c hc
  have h1 : c.length ∈ a.map (·.length) := by rw [h]; exact List.mem_map_of_mem hc
  obtain ⟨d, hd, e⟩ := List.mem_map.mp h1
  rw [← e]; exact ha d hd

theorem coded_of_usable {M : Nat} (hM : M ≤ 15) {chunk : List Nat} {cs : List Code} (h2 : 2 ≤ cs.length)
    (hsym : (cs.map (·.symbol)).Perm (alphabet chunk)) (hu : Usable M cs) : Coded M chunk (canonical cs) := by
  have hl := canonical_map (·.length) (fun _ _ => rfl) h2
  have hsy := canonical_map (·.symbol) (fun _ _ => rfl) h2
  have hml := maxLength_map hl
  have hmM : maxLength cs ≤ M := maxLength_le hu.le
  have hkr : kraft (maxLength cs) cs ≤ 2 ^ maxLength cs := by
    have := hu.kraft
    rw [kraft_lift hmM cs fun c hc => le_maxLength hc, show 2 ^ M = 2 ^ (M - maxLength cs) * 2 ^ maxLength cs by
      rw [← Nat.pow_add]; congr 1; omega] at this
    exact Nat.le_of_mul_le_mul_left this (Nat.two_pow_pos _)
  refine ⟨by rw [hsy]; exact hsym, asc_map hl.symm hu.asc, forall_map (p := (1 ≤ ·)) hl.symm hu.pos,
    forall_map (p := (· ≤ M)) hl.symm hu.le, ?_, ?_, ?_⟩
  · rw [kraft_map hl, hml]; exact hkr
  · rw [hml]
    have hbd : ∀ c ∈ cs, c.length ≤ maxLength cs := fun c hc => le_maxLength hc
    generalize maxLength cs = m at *
    match cs, h2 with
    | c :: d :: cs, _ =>
      have hs' := List.pairwise_cons.mp hu.asc
      simp only [canonical]
      refine ⟨by simp, ?_⟩
      have := canonicalFrom_spec (m := m) (by omega) (d :: cs) { c with code := 0 }
        (fun x hx => ⟨hs'.1 x hx, hbd x (by simp [hx])⟩) (hbd c (by simp)) hs'.2
        (by simp only [Nat.zero_add, Nat.one_mul]; simpa using hkr)
      simpa using this
  · intro e; rw [e] at hl; have := congrArg List.length hl; simp at this; omega

/-- `create_codes` succeeds and its codes are fit for the chunk. -/
theorem createCodes_spec {M : Nat} (hM1 : 1 ≤ M) (hM : M ≤ 15) {chunk : List Nat} {t : Tree}
    (ht : Build (leavesOf chunk) t) (hn : (alphabet chunk).length ≤ 2 ^ M) :
    ∃ cs, createCodes M t = some cs ∧ Coded M chunk cs := by
  have h := fromTree ht
  have hlen : (collect t).length = (alphabet chunk).length := by
    have := h.symbols.length_eq; simpa using this
  by_cases h2 : 2 ≤ (collect t).length
  · by_cases hD : maxLength (collect t) > M
    · obtain ⟨cs', a1, a2, a3⟩ := limit_spec hM hM1 h hD (by omega)
      refine ⟨canonical cs', by simp [createCodes, hD, a1], coded_of_usable hM ?_ ?_ a2⟩
      · have := congrArg List.length a3; simp at this; omega
      · rw [a3]; exact h.symbols
    · refine ⟨canonical (collect t), by simp [createCodes, hD], coded_of_usable hM h2 h.symbols ?_⟩
      have hD' : maxLength (collect t) ≤ M := by omega
      refine ⟨h.asc, h.pos h2, fun c hc => Nat.le_trans (h.bound c hc) hD', ?_⟩
      rw [kraft_lift hD' _ h.bound, h.whole, ← Nat.pow_add, show M - maxLength (collect t) + maxLength (collect t) = M by omega]
      exact Nat.le_refl _
  · have h1 : (collect t).length = 1 := by
      have := List.length_pos_iff.mpr h.ne; omega
    have hz := h.single h1
    obtain ⟨c, hc⟩ := List.length_eq_one_iff.mp h1
    have hD : ¬ maxLength (collect t) > M := by omega
    refine ⟨[{ c with code := 0, length := 1 }], by simp [createCodes, hD]; rw [hc]; rfl, ?_⟩
    have hs := h.symbols
    rw [hc] at hs
    refine ⟨by simpa using hs, by simp [Asc], by simp, by simpa using hM1, by simp [maxLength], ?_, by simp⟩
    simp [Canon]

/-! ### Prefix freedom -/

theorem canon_ge {m : Nat} : ∀ (cs : List Code) (a : Nat), Canon m a cs → ∀ c ∈ cs, a ≤ c.code * 2 ^ (m - c.length) := by
  intro cs
  induction cs with
  | nil => intro a _ c hc; simp at hc
  | cons d cs ih =>
    intro a h c hc
    obtain ⟨h1, h2⟩ := h
    rcases List.mem_cons.mp hc with e | e
    · subst e; omega
    · have := ih _ h2 c e; exact Nat.le_trans (Nat.le_add_right _ _) this

theorem canon_le {m : Nat} : ∀ (cs : List Code) (a : Nat), Canon m a cs →
    ∀ c ∈ cs, (c.code + 1) * 2 ^ (m - c.length) ≤ a + kraft m cs := by
  intro cs
  induction cs with
  | nil => intro a _ c hc; simp at hc
  | cons d cs ih =>
    intro a h c hc
    obtain ⟨h1, h2⟩ := h
    simp only [kraft_cons]
    rcases List.mem_cons.mp hc with e | e
    · subst e; rw [Nat.add_mul, h1]; omega
    · have := ih _ h2 c e; omega

theorem canon_sep {m : Nat} : ∀ (cs : List Code) (a : Nat), Canon m a cs →
    cs.Pairwise fun c d => (c.code + 1) * 2 ^ (m - c.length) ≤ d.code * 2 ^ (m - d.length) := by
  intro cs
  induction cs with
  | nil => intro a _; exact .nil
  | cons c cs ih =>
    intro a h
    obtain ⟨h1, h2⟩ := h
    refine List.pairwise_cons.mpr ⟨fun d hd => ?_, ih _ h2⟩
    have := canon_ge cs _ h2 d hd
    rw [Nat.add_mul, h1]; omega

theorem coded_lt {M : Nat} {chunk : List Nat} {cs : List Code} (h : Coded M chunk cs) {c : Code} (hc : c ∈ cs) :
    c.code < 2 ^ c.length := by
  have h1 := canon_le cs 0 h.canon c hc
  have h2 := h.kraft
  have h3 : 2 ^ maxLength cs = 2 ^ c.length * 2 ^ (maxLength cs - c.length) := by
    rw [← Nat.pow_add]; congr 1; have := le_maxLength hc; omega
  have h4 : (c.code + 1) * 2 ^ (maxLength cs - c.length) ≤ 2 ^ c.length * 2 ^ (maxLength cs - c.length) := by omega
  exact Nat.le_of_mul_le_mul_right h4 (Nat.two_pow_pos _)

theorem prefix_code {l1 l2 v1 v2 : Nat} (h1 : v1 < 2 ^ l1)
    (h : toBits l1 v1 <+: toBits l2 v2) (h2 : v2 < 2 ^ l2) : l1 ≤ l2 ∧ v2 / 2 ^ (l2 - l1) = v1 := by
  have hl := h.length_le
  simp at hl
  refine ⟨hl, ?_⟩
  have e := List.prefix_iff_eq_take.mp h
  rw [toBits_length, show l2 = l1 + (l2 - l1) by omega, toBits_take] at e
  have := congrArg ofBits e
  rw [ofBits_toBits_of_lt h1, ofBits_toBits_of_lt] at this
  · exact this.symm
  · refine Nat.div_lt_of_lt_mul ?_
    rw [← Nat.pow_add, show l2 - l1 + l1 = l2 by omega]; exact h2

theorem coded_prefix_free {M : Nat} {chunk : List Nat} {cs : List Code} (h : Coded M chunk cs) :
    cs.Pairwise fun c d => ¬ c.bits <+: d.bits ∧ ¬ d.bits <+: c.bits := by
  have h1 := (canon_sep cs 0 h.canon).and h.asc
  refine List.Pairwise.imp_of_mem ?_ h1
  intro c d hc hd ⟨hs, hl⟩
  have hcl := le_maxLength hc
  have hdl := le_maxLength hd
  have key : (c.code + 1) * 2 ^ (d.length - c.length) ≤ d.code := by
    rw [pow_split hl hdl, ← Nat.mul_assoc] at hs
    exact Nat.le_of_mul_le_mul_right hs (Nat.two_pow_pos _)
  constructor
  · intro hp
    obtain ⟨_, e⟩ := prefix_code (coded_lt h hc) hp (coded_lt h hd)
    have := (Nat.le_div_iff_mul_le (Nat.two_pow_pos (d.length - c.length))).mpr key
    omega
  · intro hp
    obtain ⟨e1, e⟩ := prefix_code (coded_lt h hd) hp (coded_lt h hc)
    have e2 : d.length = c.length := by omega
    rw [e2] at key e; simp at key e
    omega

end Verif.Huffman
