import Verif.Socket.Spec

/-!
# Ownership of handles: lemmas
-/

namespace Verif.Socket

@[simp] theorem upd_self {β : Type} (f : Nat → β) (a : Nat) (b : β) : upd f a b a = b := by simp [upd]

theorem upd_ne {β : Type} (f : Nat → β) {a x : Nat} (b : β) (h : x ≠ a) : upd f a b x = f x := by simp [upd, h]

/-- What holds in every execution. -/
structure HInv (s : Handles) : Prop where
  owned : ∀ i h, s.objects i = some h → h = -1 ∨ (0 ≤ h ∧ h ∈ s.osOpen)
  unique : ∀ i j h, s.objects i = some h → s.objects j = some h → h ≠ -1 → i = j
  nodup : s.osOpen.Nodup
  valid : ∀ h ∈ s.osOpen, 0 ≤ h
  count : ∀ h, s.opened.count h = s.closed.count h + s.osOpen.count h

theorem HInv.init : HInv Handles.init :=
  ⟨fun _ _ h => (nomatch h), fun _ _ _ h => (nomatch h), List.nodup_nil, fun _ h => absurd h List.not_mem_nil, fun _ => rfl⟩

theorem count_erase_self' {l : List Int} {h : Int} (hm : h ∈ l) : (l.erase h).count h + 1 = l.count h := by
  rw [List.count_erase_self]
  have := List.count_pos_iff.mpr hm
  omega

/-- Letting go of the handle of object `i`, whatever the object becomes (`-1` or nothing). -/
theorem HInv.letGo {s : Handles} (h : HInv s) (i : Nat) (x : Int) (hx : s.objects i = some x) (o : Option Int)
    (ho : o = none ∨ o = some (-1)) : HInv { s.closeHandle x with objects := upd s.objects i o } := by
  have hobj : ∀ j y, upd s.objects i o j = some y → y = -1 ∨ (j ≠ i ∧ s.objects j = some y) := by
    intro j y hj
    by_cases e : j = i
    · subst e
      rw [upd_self] at hj
      rcases ho with rfl | rfl
      · cases hj
      · cases hj; exact .inl rfl
    · rw [upd_ne _ _ e] at hj; exact .inr ⟨e, hj⟩
  by_cases hm : x = -1
  · simp only [Handles.closeHandle, hm, if_true]
    refine ⟨fun j y hj => ?_, fun j k y hj hk hy => ?_, h.nodup, h.valid, h.count⟩
    · rcases hobj j y hj with e | ⟨_, e⟩
      · exact .inl e
      · exact h.owned j y e
    · rcases hobj j y hj with e | ⟨_, e⟩
      · exact absurd e hy
      · rcases hobj k y hk with e' | ⟨_, e'⟩
        · exact absurd e' hy
        · exact h.unique j k y e e' hy
  · simp only [Handles.closeHandle, hm, if_false]
    have hopen : x ∈ s.osOpen := by
      rcases h.owned i x hx with e | e
      · exact absurd e hm
      · exact e.2
    refine ⟨fun j y hj => ?_, fun j k y hj hk hy => ?_, h.nodup.erase x, fun y hy => h.valid y (List.mem_of_mem_erase hy), fun y => ?_⟩
    · rcases hobj j y hj with e | ⟨ne, e⟩
      · exact .inl e
      · rcases h.owned j y e with e' | e'
        · exact .inl e'
        · refine .inr ⟨e'.1, ?_⟩
          by_cases hyx : y = x
          · subst hyx; exact absurd (h.unique j i y e hx (by omega)) ne
          · exact (List.mem_erase_of_ne hyx).mpr e'.2
    · rcases hobj j y hj with e | ⟨_, e⟩
      · exact absurd e hy
      · rcases hobj k y hk with e' | ⟨_, e'⟩
        · exact absurd e' hy
        · exact h.unique j k y e e' hy
    · have := h.count y
      by_cases hyx : y = x
      · subst hyx
        rw [List.count_cons_self, this, ← count_erase_self' hopen]
        show _ = List.count y s.closed + 1 + (s.osOpen.erase y).count y
        omega
      · rw [List.count_cons_of_ne (Ne.symm hyx), List.count_erase_of_ne hyx]; exact this

/-- Moving a handle from `src` to `dst` (a new or existing object, whose old handle is forgotten). -/
theorem HInv.move {s : Handles} (h : HInv s) (dst src : Nat) (x : Int) (hx : s.objects src = some x) :
    HInv { s with objects := upd (upd s.objects dst (some x)) src (some (-1)) } := by
  have hobj : ∀ j y, upd (upd s.objects dst (some x)) src (some (-1)) j = some y → y = -1 ∨
      (j ≠ src ∧ ((j = dst ∧ y = x) ∨ (j ≠ dst ∧ s.objects j = some y))) := by
    intro j y hj
    by_cases e : j = src
    · subst e; rw [upd_self] at hj; cases hj; exact .inl rfl
    · rw [upd_ne _ _ e] at hj
      by_cases e' : j = dst
      · subst e'; rw [upd_self] at hj; cases hj; exact .inr ⟨e, .inl ⟨rfl, rfl⟩⟩
      · rw [upd_ne _ _ e'] at hj; exact .inr ⟨e, .inr ⟨e', hj⟩⟩
  refine ⟨fun j y hj => ?_, fun j k y hj hk hy => ?_, h.nodup, h.valid, h.count⟩
  · rcases hobj j y hj with e | ⟨_, ⟨_, e⟩ | ⟨_, e⟩⟩
    · exact .inl e
    · subst e; exact h.owned src y hx
    · exact h.owned j y e
  · rcases hobj j y hj with e | ⟨nj, ⟨ej, ey⟩ | ⟨ej, ey⟩⟩
    · exact absurd e hy
    · rcases hobj k y hk with e | ⟨nk, ⟨ek, ey'⟩ | ⟨ek, ey'⟩⟩
      · exact absurd e hy
      · rw [ej, ek]
      · subst ey; exact absurd (h.unique k src y ey' hx hy) nk
    · rcases hobj k y hk with e | ⟨nk, ⟨ek, ey'⟩ | ⟨ek, ey'⟩⟩
      · exact absurd e hy
      · subst ey'; exact absurd (h.unique j src y ey hx hy) nj
      · exact h.unique j k y ey ey' hy

theorem HInv.step {s : Handles} (h : HInv s) (op : HandleOp) (ha : s.allowed op) : HInv (s.step op) := by
  cases op with
  | construct i x ok =>
    obtain ⟨hnew, hx⟩ := ha
    have none_ne : ∀ j y, upd s.objects i (some (-1)) j = some y → y = -1 ∨ s.objects j = some y := by
      intro j y hj
      by_cases e : j = i
      · subst e; rw [upd_self] at hj; cases hj; exact .inl rfl
      · rw [upd_ne _ _ e] at hj; exact .inr hj
    simp only [Handles.step]
    by_cases hm : x = -1
    · rw [if_pos hm]
      refine ⟨fun j y hj => ?_, fun j k y hj hk hy => ?_, h.nodup, h.valid, h.count⟩
      · rcases none_ne j y hj with e | e
        · exact .inl e
        · exact h.owned j y e
      · rcases none_ne j y hj with e | e
        · exact absurd e hy
        · rcases none_ne k y hk with e' | e'
          · exact absurd e' hy
          · exact h.unique j k y e e' hy
    · rw [if_neg hm]
      have hx := hx.resolve_left hm
      cases ok with
      | true =>
        simp only [if_true]
        have hobj : ∀ j y, upd s.objects i (some x) j = some y → (j = i ∧ y = x) ∨ (j ≠ i ∧ s.objects j = some y) := by
          intro j y hj
          by_cases e : j = i
          · subst e; rw [upd_self] at hj; cases hj; exact .inl ⟨rfl, rfl⟩
          · rw [upd_ne _ _ e] at hj; exact .inr ⟨e, hj⟩
        have fresh : ∀ j, s.objects j ≠ some x := by
          intro j hj
          rcases h.owned j x hj with e | e
          · exact hm e
          · exact hx.2 e.2
        refine ⟨fun j y hj => ?_, fun j k y hj hk hy => ?_, List.nodup_cons.mpr ⟨hx.2, h.nodup⟩, ?_, fun y => ?_⟩
        · rcases hobj j y hj with ⟨_, e⟩ | ⟨_, e⟩
          · subst e; exact .inr ⟨hx.1, List.mem_cons_self⟩
          · rcases h.owned j y e with e' | e'
            · exact .inl e'
            · exact .inr ⟨e'.1, List.mem_cons_of_mem _ e'.2⟩
        · rcases hobj j y hj with ⟨ej, ey⟩ | ⟨_, ey⟩
          · rcases hobj k y hk with ⟨ek, _⟩ | ⟨_, ey'⟩
            · rw [ej, ek]
            · subst ey; exact absurd ey' (fresh k)
          · rcases hobj k y hk with ⟨_, ey'⟩ | ⟨_, ey'⟩
            · subst ey'; exact absurd ey (fresh j)
            · exact h.unique j k y ey ey' hy
        · intro y hy
          rcases List.mem_cons.mp hy with e | e
          · rw [e]; exact hx.1
          · exact h.valid y e
        · have := h.count y
          simp only [List.count_cons]
          omega
      | false =>
        simp only [Bool.false_eq_true, if_false]
        refine ⟨fun j y hj => ?_, fun j k y hj hk hy => ?_, h.nodup, h.valid, fun y => ?_⟩
        · rcases none_ne j y hj with e | e
          · exact .inl e
          · exact h.owned j y e
        · rcases none_ne j y hj with e | e
          · exact absurd e hy
          · rcases none_ne k y hk with e' | e'
            · exact absurd e' hy
            · exact h.unique j k y e e' hy
        · have := h.count y
          simp only [List.count_cons]
          omega
  | moveConstruct i src =>
    simp only [Handles.step]
    cases hx : s.objects src with
    | none => exact absurd hx ha.2
    | some x => exact h.move i src x hx
  | moveAssign dst src =>
    simp only [Handles.step]
    cases hx : s.objects src with
    | none => exact absurd hx ha.2
    | some x => exact h.move dst src x hx
  | close i =>
    simp only [Handles.step]
    cases hx : s.objects i with
    | none => exact absurd hx ha
    | some x => exact h.letGo i x hx _ (.inr rfl)
  | destroy i =>
    simp only [Handles.step]
    cases hx : s.objects i with
    | none => exact absurd hx ha
    | some x => exact h.letGo i x hx _ (.inl rfl)

theorem hInv {s : Handles} (h : HandleReach s) : HInv s := by
  induction h with
  | init => exact .init
  | step op _ ha ih => exact ih.step op ha

theorem HandleReachD.reach {s : Handles} (h : HandleReachD s) : HandleReach s := by
  induction h with
  | init => exact .init
  | step op _ ha _ ih => exact ih.step op ha

/-- No handle is lost. -/
theorem no_leak {s : Handles} (h : HandleReachD s) : ∀ x ∈ s.osOpen, ∃ i, s.objects i = some x := by
  induction h with
  | init => intro x hx; exact absurd hx List.not_mem_nil
  | @step s op hs ha hd ih =>
    have hinv := hInv hs.reach
    have hne : ∀ x ∈ s.osOpen, x ≠ -1 := fun x hx => by have := hinv.valid x hx; omega
    have move : ∀ dst src y, s.objects src = some y → (s.objects dst = none ∨ s.objects dst = some (-1)) → dst ≠ src →
        ∀ x ∈ s.osOpen, ∃ i, upd (upd s.objects dst (some y)) src (some (-1)) i = some x := by
      intro dst src y hy hdst hds x hx
      obtain ⟨i, hi⟩ := ih x hx
      have hid : i ≠ dst := by
        intro e; subst e
        rcases hdst with e | e <;> rw [e] at hi
        · cases hi
        · cases hi; exact hne _ hx rfl
      by_cases e : i = src
      · subst e
        rw [hy] at hi; cases hi
        exact ⟨dst, by rw [upd_ne _ _ hds, upd_self]⟩
      · exact ⟨i, by rw [upd_ne _ _ e, upd_ne _ _ hid]; exact hi⟩
    have letGo : ∀ i y o, s.objects i = some y → ∀ x ∈ (s.closeHandle y).osOpen, ∃ j, upd s.objects i o j = some x := by
      intro i y o hy x hx
      by_cases hm : y = -1
      · simp only [Handles.closeHandle, hm, if_true] at hx
        obtain ⟨j, hj⟩ := ih x hx
        refine ⟨j, ?_⟩
        rw [upd_ne _ _ ?_]
        · exact hj
        · intro e; subst e; rw [hy] at hj; cases hj; exact hne _ hx hm
      · simp only [Handles.closeHandle, hm, if_false] at hx
        obtain ⟨j, hj⟩ := ih x (List.mem_of_mem_erase hx)
        refine ⟨j, ?_⟩
        rw [upd_ne _ _ ?_]
        · exact hj
        · intro e; subst e; rw [hy] at hj; cases hj
          exact (List.Nodup.not_mem_erase hinv.nodup) hx
    cases op with
    | construct i y ok =>
      have keep : ∀ o, ∀ x ∈ s.osOpen, ∃ j, upd s.objects i o j = some x := by
        intro o x hx
        obtain ⟨j, hj⟩ := ih x hx
        exact ⟨j, by rw [upd_ne _ _ (fun e => by rw [e, ha.1] at hj; cases hj)]; exact hj⟩
      simp only [Handles.step]
      split
      · exact keep _
      · split
        · intro x hx
          rcases List.mem_cons.mp hx with e | e
          · exact ⟨i, by rw [e]; exact upd_self ..⟩
          · exact keep _ x e
        · exact keep _
    | moveConstruct i src =>
      simp only [Handles.step]
      cases hy : s.objects src with
      | none => exact ih
      | some y => exact move i src y hy (.inl ha.1) (fun e => by rw [← e, ha.1] at hy; cases hy)
    | moveAssign dst src =>
      obtain ⟨d1, d2⟩ := hd dst src rfl
      simp only [Handles.step]
      cases hy : s.objects src with
      | none => exact ih
      | some y => exact move dst src y hy (.inr d2) d1
    | close i =>
      simp only [Handles.step]
      cases hy : s.objects i with
      | none => exact ih
      | some y => exact letGo i y _ hy
    | destroy i =>
      simp only [Handles.step]
      cases hy : s.objects i with
      | none => exact ih
      | some y => exact letGo i y _ hy

end Verif.Socket
