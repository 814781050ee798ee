import Verif.Json.Complete

/-! # Comparing dialects -/

namespace Verif.Json

/-- On texts of characters satisfying `p`, the dialect `D` allows no more than `D'`. -/
structure Dialect.Le (p : Nat → Prop) (D D' : Dialect) : Prop where
  blank : ∀ a, (∀ c ∈ a, p c) → D.blank a → D'.blank a
  beforeColon : ∀ a, (∀ c ∈ a, p c) → D.beforeColon a → D'.beforeColon a
  beforeElem : ∀ a, (∀ c ∈ a, p c) → D.beforeElem a → D'.beforeElem a
  beforeKey : ∀ a, (∀ c ∈ a, p c) → D.beforeKey a → D'.beforeKey a
  final : ∀ a, (∀ c ∈ a, p c) → D.final a → D'.final a
  trailingComma : D.trailingComma → D'.trailingComma

theorem all_left {p : Nat → Prop} {a b : List Nat} (h : ∀ c ∈ a ++ b, p c) : ∀ c ∈ a, p c :=
  fun x hx => h x (List.mem_append_left _ hx)

theorem all_right {p : Nat → Prop} {a b : List Nat} (h : ∀ c ∈ a ++ b, p c) : ∀ c ∈ b, p c :=
  fun x hx => h x (List.mem_append_right _ hx)

theorem all_tail {p : Nat → Prop} {a : Nat} {b : List Nat} (h : ∀ c ∈ a :: b, p c) : ∀ c ∈ b, p c :=
  fun x hx => h x (List.mem_cons_of_mem _ hx)

mutual
theorem jvalue_mono {io : FloatIO} {p : Nat → Prop} {D D' : Dialect} (hd : D.Le p D') :
    ∀ {t : List Nat} {v : Value}, JValue io D t v → (∀ c ∈ t, p c) → JValue io D' t v
  | _, _, .null, _ => .null
  | _, _, .tru, _ => .tru
  | _, _, .fals, _ => .fals
  | _, _, .num h, _ => .num h
  | _, _, .str h, _ => .str h
  | _, _, .obj0 h, hp => .obj0 (hd.blank _ (all_left (all_tail hp)) h)
  | _, _, .obj h1 h2 h3 h4, hp =>
    .obj (hd.blank _ (all_left (all_left (all_left (all_tail hp)))) h1)
      (jmember_mono hd h2 (all_right (all_left (all_left (all_tail hp)))))
      (jmembers_mono hd h3 (all_right (all_left (all_tail hp)))) h4
  | _, _, .arr0 h, hp => .arr0 (hd.blank _ (all_left (all_tail hp)) h)
  | _, _, .arr h1 h2 h3, hp =>
    .arr (hd.blank _ (all_left (all_left (all_left (all_tail hp)))) h1)
      (jvalue_mono hd h2 (all_right (all_left (all_left (all_tail hp)))))
      (jelems_mono hd h3 (all_right (all_left (all_tail hp))))
theorem jelems_mono {io : FloatIO} {p : Nat → Prop} {D D' : Dialect} (hd : D.Le p D') :
    ∀ {t : List Nat} {vs : List Value}, JElems io D t vs → (∀ c ∈ t, p c) → JElems io D' t vs
  | _, _, .nil h, hp => .nil (hd.blank _ hp h)
  | _, _, .trailing h1 h2 h3, hp =>
    .trailing (hd.blank _ (all_left hp) h1) (hd.trailingComma h2)
      (hd.blank _ (all_tail (all_right hp)) h3)
  | _, _, .cons h1 h2 h3 h4, hp =>
    .cons (hd.blank _ (all_left hp) h1)
      (hd.beforeElem _ (all_left (all_left (all_tail (all_right hp)))) h2)
      (jvalue_mono hd h3 (all_right (all_left (all_tail (all_right hp)))))
      (jelems_mono hd h4 (all_right (all_tail (all_right hp))))
theorem jmember_mono {io : FloatIO} {p : Nat → Prop} {D D' : Dialect} (hd : D.Le p D') :
    ∀ {t k : List Nat} {v : Value}, JMember io D t k v → (∀ c ∈ t, p c) → JMember io D' t k v
  | _, _, _, .mk h1 h2 h3 h4, hp =>
    .mk h1 (hd.beforeColon _ (all_left (all_tail (all_right (all_tail hp)))) h2)
      (hd.blank _ (all_left (all_tail (all_right (all_tail (all_right (all_tail hp)))))) h3)
      (jvalue_mono hd h4 (all_right (all_tail (all_right (all_tail (all_right (all_tail hp)))))))
theorem jmembers_mono {io : FloatIO} {p : Nat → Prop} {D D' : Dialect} (hd : D.Le p D') :
    ∀ {t : List Nat} {ms : List (List Nat × Value)}, JMembers io D t ms → (∀ c ∈ t, p c) →
      JMembers io D' t ms
  | _, _, .nil h, hp => .nil (hd.blank _ hp h)
  | _, _, .trailing h1 h2 h3, hp =>
    .trailing (hd.blank _ (all_left hp) h1) (hd.trailingComma h2)
      (hd.blank _ (all_tail (all_right hp)) h3)
  | _, _, .cons h1 h2 h3 h4, hp =>
    .cons (hd.blank _ (all_left hp) h1)
      (hd.beforeKey _ (all_left (all_left (all_tail (all_right hp)))) h2)
      (jmember_mono hd h3 (all_right (all_left (all_tail (all_right hp)))))
      (jmembers_mono hd h4 (all_right (all_tail (all_right hp))))
end

theorem jtext_mono {io : FloatIO} {p : Nat → Prop} {D D' : Dialect} (hd : D.Le p D') {s : List Nat}
    {v : Value} (hp : ∀ c ∈ s, p c) (h : JText io D s v) : JText io D' s v := by
  obtain ⟨a, t, b, rfl, h1, h2, h3⟩ := h
  exact ⟨a, t, b, rfl, hd.blank _ (all_left (all_left hp)) h1,
    jvalue_mono hd h2 (all_right (all_left hp)), hd.final _ (all_right hp) h3⟩

theorem rfcWs_libWs {a : List Nat} (h : RfcWs a) : LibWs a := by
  intro c hc
  have := h c hc
  omega

/-- RFC 8259 within every dialect of the parser. -/
theorem rfc_le (l c t : Bool) : rfc8259.Le (fun _ => True) (dialect l c t) where
  blank := fun _ _ h => blank_of_libWs (rfcWs_libWs h)
  beforeColon := fun _ _ h => rfcWs_libWs h
  beforeElem := fun _ _ h => Or.inl (blank_of_libWs (rfcWs_libWs h))
  beforeKey := fun _ _ h => Or.inl (blank_of_libWs (rfcWs_libWs h))
  final := fun _ _ h => Or.inl (blank_of_libWs (rfcWs_libWs h))
  trailingComma := fun h => h.elim

theorem blank_false {a : List Nat} (h : Blank false a) : LibWs a := by
  induction h with
  | nil => intro c hc; simp at hc
  | ws h _ ih =>
    intro c hc
    rcases List.mem_cons.1 hc with rfl | hc
    · exact h
    · exact ih c hc
  | line h _ _ _ => simp at h
  | block h _ _ _ => simp at h

theorem libWs_rfcWs {a : List Nat} (hp : ∀ c ∈ a, c ≠ 0x0b) (h : LibWs a) : RfcWs a := by
  intro c hc
  have h1 := h c hc
  have h2 := hp c hc
  omega

/-- Without comments and trailing commas, and without vertical tabs, only RFC 8259 is left. -/
theorem le_rfc : (dialect true false false).Le (fun c => c ≠ 0x0b) rfc8259 where
  blank := fun _ hp h => libWs_rfcWs hp (blank_false h)
  beforeColon := fun _ hp h => libWs_rfcWs hp h
  beforeElem := by
    rintro a hp (h | ⟨_, _, _, _, h, _⟩)
    · exact libWs_rfcWs hp (blank_false h)
    · simp at h
  beforeKey := by
    rintro a hp (h | ⟨_, _, _, _, h, _⟩)
    · exact libWs_rfcWs hp (blank_false h)
    · simp at h
  final := by
    rintro a hp (h | ⟨_, _, h, _⟩)
    · exact libWs_rfcWs hp (blank_false h)
    · simp at h
  trailingComma := by intro h; exact absurd h (by simp [dialect])

/-- Without comments, the documented language and the implemented one are the same. -/
theorem lenient_le (t : Bool) : (dialect true false t).Le (fun _ => True) (dialect false false t) where
  blank := fun _ _ h => h
  beforeColon := fun _ _ h => h
  beforeElem := by
    rintro a _ (h | ⟨_, _, _, _, h, _⟩)
    · exact Or.inl h
    · simp at h
  beforeKey := by
    rintro a _ (h | ⟨_, _, _, _, h, _⟩)
    · exact Or.inl h
    · simp at h
  final := fun _ _ h => h
  trailingComma := fun h => h

/-- The documented language is within the implemented one. -/
theorem strict_le (c t : Bool) : (dialect false c t).Le (fun _ => True) (dialect true c t) where
  blank := fun _ _ h => h
  beforeColon := fun _ _ h => h
  beforeElem := by
    rintro a _ (h | ⟨h, _⟩)
    · exact Or.inl h
    · simp at h
  beforeKey := by
    rintro a _ (h | ⟨h, _⟩)
    · exact Or.inl h
    · simp at h
  final := fun _ _ h => h
  trailingComma := fun h => h

/-- In a text without a solidus, comments cannot occur. -/
theorem blank_noslash {al : Bool} {a : List Nat} (hp : ∀ c ∈ a, c ≠ 0x2f) (h : Blank al a) :
    Blank false a := by
  induction h with
  | nil => exact .nil
  | ws h _ ih => exact .ws h (ih (all_tail hp))
  | line _ _ _ _ => exact absurd rfl (hp 0x2f List.mem_cons_self)
  | block _ _ _ _ => exact absurd rfl (hp 0x2f List.mem_cons_self)

theorem comments_le (l c t : Bool) :
    (dialect l c t).Le (fun c => c ≠ 0x2f) (dialect false false t) where
  blank := fun _ hp h => blank_noslash hp h
  beforeColon := fun _ _ h => h
  beforeElem := by
    rintro a hp (h | ⟨_, b, x, d, _, _, _, _, _, rfl⟩)
    · exact Or.inl (blank_noslash hp h)
    · exact absurd rfl (hp 0x2f (by simp))
  beforeKey := by
    rintro a hp (h | ⟨_, b, x, d, _, _, _, _, _, rfl⟩)
    · exact Or.inl (blank_noslash hp h)
    · exact absurd rfl (hp 0x2f (by simp))
  final := by
    rintro a hp (h | ⟨b, x, _, _, _, rfl⟩)
    · exact Or.inl (blank_noslash hp h)
    · exact absurd rfl (hp 0x2f (by simp))
  trailingComma := fun h => h

end Verif.Json
