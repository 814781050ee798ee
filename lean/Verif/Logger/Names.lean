import Verif.Logger.Spec

/-!
# The registry: lemmas
-/

namespace Verif.Logger

@[simp] theorem upd_self {α β : Type} [DecidableEq α] (f : α → β) (a : α) (b : β) : upd f a b a = b := by simp [upd]

theorem upd_ne {α β : Type} [DecidableEq α] (f : α → β) {a x : α} (b : β) (h : x ≠ a) : upd f a b x = f x := by
  simp [upd, h]

/-- What holds of every reachable registry. -/
structure RegInv (r : Registry) : Prop where
  fresh : ∀ i, r.next ≤ i → r.phase i = .gone
  names : ∀ n i, r.entry n = some i → r.name i = n ∧ i < r.next

theorem RegInv.init : RegInv Registry.init := ⟨fun _ _ => rfl, fun _ _ h => by cases h⟩

theorem RegInv.register {r : Registry} (h : RegInv r) (n : List Nat) : RegInv (r.register n).1 := by
  unfold Registry.register
  cases hn : r.entry n with
  | some k =>
    refine ⟨fun i hi => ?_, fun m i hm => ?_⟩
    · have hi : r.next + 1 ≤ i := hi
      show upd r.phase r.next .dying i = .gone
      rw [upd_ne _ _ (by omega)]; exact h.fresh i (by omega)
    · have hm : r.entry m = some i := hm
      have := h.names m i hm
      show upd r.name r.next n i = m ∧ i < r.next + 1
      rw [upd_ne _ _ (by omega)]; exact ⟨this.1, by omega⟩
  | none =>
    refine ⟨fun i hi => ?_, fun m i hm => ?_⟩
    · have hi : r.next + 1 ≤ i := hi
      show upd r.phase r.next .starting i = .gone
      rw [upd_ne _ _ (by omega)]; exact h.fresh i (by omega)
    · have hm : upd r.entry n (some r.next) m = some i := hm
      show upd r.name r.next n i = m ∧ i < r.next + 1
      by_cases e : m = n
      · subst e
        rw [upd_self] at hm; cases hm
        exact ⟨upd_self .., by omega⟩
      · rw [upd_ne _ _ e] at hm
        have := h.names m i hm
        rw [upd_ne _ _ (by omega)]; exact ⟨this.1, by omega⟩

theorem RegInv.setPhase {r : Registry} (h : RegInv r) (i : Nat) (p : Phase) (hi : r.phase i ≠ .gone) :
    RegInv { r with phase := upd r.phase i p } := by
  refine ⟨fun j hj => ?_, h.names⟩
  show upd r.phase i p j = .gone
  have hj : r.next ≤ j := hj
  by_cases e : j = i
  · subst e; exact absurd (h.fresh j hj) hi
  · rw [upd_ne _ _ e]; exact h.fresh j hj

theorem RegInv.destroy {r : Registry} (h : RegInv r) (i : Nat) : RegInv (r.destroy i) := by
  refine ⟨fun j hj => ?_, fun m j hm => ?_⟩
  · show upd r.phase i .gone j = .gone
    by_cases e : j = i
    · subst e; exact upd_self ..
    · rw [upd_ne _ _ e]; exact h.fresh j hj
  · have hm : (if r.name i = defaultName then r.entry else upd r.entry (r.name i) none) m = some j := hm
    split at hm
    · exact h.names m j hm
    · by_cases e : m = r.name i
      · rw [e, upd_self] at hm; cases hm
      · rw [upd_ne _ _ e] at hm; exact h.names m j hm

theorem regInv {r : Registry} (h : RegReach r) : RegInv r := by
  induction h with
  | init => exact .init
  | step _ hs ih =>
    cases hs with
    | register n => exact ih.register n
    | initialized i ok h => exact ih.setPhase i _ (by simp [h])
    | release i h => exact ih.setPhase i _ (by simp [h])
    | destroy i h => exact ih.destroy i

/-- What holds if names are not reused too early. -/
structure RegInvD (r : Registry) : Prop where
  base : RegInv r
  held : ∀ i, r.phase i ≠ .gone → r.entry (r.name i) = some i ∧ r.name i ≠ defaultName
  owned : ∀ n i, r.entry n = some i → r.phase i ≠ .gone

theorem regInvD {r : Registry} (h : RegReachD r) : RegInvD r := by
  induction h with
  | init => exact ⟨.init, fun i h => absurd rfl h, fun _ _ h => by cases h⟩
  | @register r n _ hn hd ih =>
    have hnone : r.entry n = none := by
      cases e : r.entry n with
      | none => rfl
      | some k => exact absurd (hn k (ih.base.names n k e).1) (ih.owned n k e)
    have hreg : (r.register n).1 = ({
        entry := upd r.entry n (some r.next)
        phase := upd r.phase r.next .starting
        name := upd r.name r.next n
        next := r.next + 1 } : Registry) := by simp [Registry.register, hnone]
    refine ⟨ih.base.register n, ?_, ?_⟩
    · rw [hreg]
      intro i hi
      dsimp only at hi ⊢
      by_cases e : i = r.next
      · subst e; rw [upd_self, upd_self]; exact ⟨rfl, hd⟩
      · rw [upd_ne _ _ e] at hi ⊢
        have h1 := ih.held i hi
        have hne : r.name i ≠ n := fun e => hi (hn i e)
        rw [upd_ne _ _ hne]; exact h1
    · rw [hreg]
      intro m i hm
      dsimp only at hm ⊢
      by_cases e : m = n
      · subst e; rw [upd_self] at hm; cases hm; rw [upd_self]; exact nofun
      · rw [upd_ne _ _ e] at hm
        have := ih.base.names m i hm
        rw [upd_ne _ _ (by omega)]; exact ih.owned m i hm
  | @initialized r i ok _ hp ih =>
    have hg : r.phase i ≠ .gone := by simp [hp]
    refine ⟨ih.base.setPhase i _ hg, fun j hj => ?_, fun n j hn => ?_⟩
    · apply ih.held j
      by_cases e : j = i
      · subst e; exact hg
      · intro hh; apply hj; show upd r.phase i _ j = _; rw [upd_ne _ _ e]; exact hh
    · show upd r.phase i _ j ≠ _
      by_cases e : j = i
      · subst e; rw [upd_self]; cases ok <;> exact nofun
      · rw [upd_ne _ _ e]; exact ih.owned n j hn
  | @release r i _ hp ih =>
    have hg : r.phase i ≠ .gone := by simp [hp]
    refine ⟨ih.base.setPhase i _ hg, fun j hj => ?_, fun n j hn => ?_⟩
    · apply ih.held j
      by_cases e : j = i
      · subst e; exact hg
      · intro hh; apply hj; show upd r.phase i _ j = _; rw [upd_ne _ _ e]; exact hh
    · show upd r.phase i _ j ≠ _
      by_cases e : j = i
      · subst e; rw [upd_self]; exact nofun
      · rw [upd_ne _ _ e]; exact ih.owned n j hn
  | @destroy r i _ hp ih =>
    have hg : r.phase i ≠ .gone := by simp [hp]
    have hi := ih.held i hg
    refine ⟨ih.base.destroy i, fun j hj => ?_, fun n j hn => ?_⟩
    · have hj : upd r.phase i .gone j ≠ .gone := hj
      have e : j ≠ i := fun e => by subst e; rw [upd_self] at hj; exact hj rfl
      rw [upd_ne _ _ e] at hj
      have hjj := ih.held j hj
      refine ⟨?_, hjj.2⟩
      show (if r.name i = defaultName then r.entry else upd r.entry (r.name i) none) (r.name j) = some j
      rw [if_neg hi.2, upd_ne _ _ ?_]
      · exact hjj.1
      · intro en; rw [en, hi.1] at hjj; exact e (Option.some.inj hjj.1).symm
    · have hn : (if r.name i = defaultName then r.entry else upd r.entry (r.name i) none) n = some j := hn
      rw [if_neg hi.2] at hn
      by_cases e : n = r.name i
      · rw [e, upd_self] at hn; cases hn
      · rw [upd_ne _ _ e] at hn
        show upd r.phase i .gone j ≠ .gone
        have := ih.base.names n j hn
        rw [upd_ne _ _ (fun ej => e (by rw [← this.1, ej]))]; exact ih.owned n j hn

/-! ## Whole calls -/

theorem register_phase {r : Registry} (n : List Nat) :
    (r.register n).1.phase r.next = if (r.register n).2 then .starting else .dying := by
  unfold Registry.register
  cases r.entry n <;> simp [upd]

theorem create_reach {r : Registry} (h : RegReach r) (n : List Nat) (ok : Bool) : RegReach (r.create n ok).1 := by
  have h1 := h.step (.register r n)
  have hp := register_phase (r := r) n
  unfold Registry.create
  rcases hreg : r.register n with ⟨r1, b⟩
  rw [hreg] at h1 hp
  cases b with
  | true =>
    cases ok with
    | true => exact h1.step (.initialized r1 r.next true hp)
    | false =>
      exact (h1.step (.initialized r1 r.next false hp)).step (.destroy _ r.next (by simp [Registry.initialized, upd]))
  | false => exact h1.step (.destroy r1 r.next hp)

theorem drop_reach {r : Registry} (h : RegReach r) (i : Nat) (hi : r.phase i = .live) : RegReach (r.drop i) :=
  (h.step (.release r i hi)).step (.destroy _ i (by simp [Registry.release, upd]))

theorem createD_reach {r : Registry} (h : RegReachD r) (n : List Nat) (hn : r.unused n) (hd : n ≠ defaultName) (ok : Bool) :
    RegReachD (r.create n ok).1 ∧ (r.create n ok).2 = if ok then some r.next else none := by
  have h1 := h.register n hn hd
  have hp := register_phase (r := r) n
  have hinv := regInvD h
  have hnone : r.entry n = none := by
    cases e : r.entry n with
    | none => rfl
    | some k => exact absurd (hn k (hinv.base.names n k e).1) (hinv.owned n k e)
  have hb : (r.register n).2 = true := by simp [Registry.register, hnone]
  unfold Registry.create
  rcases hreg : r.register n with ⟨r1, b⟩
  rw [hreg] at h1 hp hb
  cases hb
  cases ok with
  | true => exact ⟨h1.initialized r.next true hp, rfl⟩
  | false =>
    exact ⟨(h1.initialized r.next false hp).destroy r.next (by simp [Registry.initialized, upd]), rfl⟩

end Verif.Logger
