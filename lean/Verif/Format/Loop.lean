import Verif.Format.Fields

/-!
# Format strings: the parser accepts exactly the renderings of well-formed trees with a meaning
-/

namespace Verif.Format

open Verif.Str (CharKind IsCharKind)

theorem fieldSpec_means {k : CharKind} (hk : IsCharKind k) {ts : List PType} {n : Nat} {f : Field} {t : PType} (w : f.Wf k)
    (ht : ts[refPos k n f.pos]? = some t) (v : Valid ts t (fieldSpec k ts n f)) :
    FieldMeans k ts f (fieldSpec k ts n f) := by
  refine ⟨t, ht, ?_, v, rfl⟩
  have := optSpec_means hk (p := refPos k n f.pos) (t := t) (n := if f.pos = [] then n + 1 else n)
    (getD_wf w) (sz := f.body.length + 1)
  unfold fieldSpec
  simp only
  rw [inferKind_default ht]
  exact this

/-- The first character of a field is no brace. -/
theorem body_first {k : CharKind} (hk : IsCharKind k) {f : Field} (w : f.Wf k) (r : List Nat) :
    (f.body ++ r).head? ≠ some 0x7b := by
  obtain ⟨l, e, h0, h1⟩ := body_head (f := f) r
  rw [e]
  cases hp : f.pos with
  | nil =>
    cases ho : f.opts with
    | none => rw [h0 ho]; simp
    | some o => rw [h1 o ho]; simp
  | cons d ds =>
    have := w.pos d (by rw [hp]; simp)
    simp only [List.cons_append, List.head?_cons]
    intro h
    cases h
    rw [not_digit hk (by omega)] at this
    cases this

theorem assign_cons_field (k : CharKind) (n : Nat) (f : Field) (fs : List Field) :
    assign k n ((f :: fs).flatMap Field.refs) =
      assign k n f.refs ++ assign k (advance n f.refs) (fs.flatMap Field.refs) := by
  rw [List.flatMap_cons, assign_append]

theorem mean_split {k : CharKind} {ts : List PType} {n : Nat} {f : Field} {fs : List Field} {ss : List FSpec}
    (m : Mean k ts (f :: fs) ss)
    (hr : ss.flatMap FSpec.refs = assign k n ((f :: fs).flatMap Field.refs)) :
    ∃ s ss', ss = s :: ss' ∧ FieldMeans k ts f s ∧ Mean k ts fs ss' ∧ s.refs = assign k n f.refs ∧
      ss'.flatMap FSpec.refs = assign k (advance n f.refs) (fs.flatMap Field.refs) := by
  cases m with
  | cons a b =>
    rename_i s ss'
    refine ⟨s, ss', rfl, a, b, ?_⟩
    rw [assign_cons_field, List.flatMap_cons] at hr
    have hl : s.refs.length = (assign k n f.refs).length := by
      obtain ⟨t, _, m, _⟩ := a
      rw [assign_length, field_refs]
      have h1 := m.widthPos
      have h2 := m.precPos
      generalize f.opts.getD {} = o at *
      unfold FSpec.refs Opts.refs
      cases hw : s.widthPos <;> cases hp : s.precPos <;> rw [hw] at h1 <;> rw [hp] at h2 <;>
        (cases h3 : o.width with
        | none =>
          rw [h3] at h1
          cases h4 : o.prec with
          | none => rw [h4] at h2; simp [isNested, nestedRefs] at h1 h2 ⊢
          | some b => rw [h4] at h2; cases b <;> simp [isNested, nestedRefs] at h1 h2 ⊢
        | some a =>
          rw [h3] at h1
          cases h4 : o.prec with
          | none => rw [h4] at h2; cases a <;> simp [isNested, nestedRefs] at h1 h2 ⊢
          | some b => rw [h4] at h2; cases a <;> cases b <;> simp [isNested, nestedRefs] at h1 h2 ⊢)
    exact List.append_inj hr hl

theorem ctx_eta (c : Ctx) (r : List Nat) (h : c.rest = r) : { c with rest := r } = c := by
  subst h; rfl

theorem walk_with (c : Ctx) (ds : List (List Nat)) (r x : List Nat) :
    walk { c with rest := x } ds r = walk c ds r := by
  cases ds <;> rfl

theorem walk_err_any (c : Ctx) (ds : List (List Nat)) (a b : List Nat) : (walk c ds a).err = (walk c ds b).err := by
  induction ds generalizing c a b with
  | nil => rfl
  | cons d ds ih =>
    show (walk (afterRef c d a) ds a).err = (walk (afterRef c d b) ds b).err
    rw [ih _ a b]
    cases ds <;> rfl

theorem loop_complete {k : CharKind} (hk : IsCharKind k) {ts : List PType} (segs : List Seg) :
    ∀ (fuel : Nat) (c : Ctx) (acc ss : List FSpec), Wf k segs → c.rest = render segs →
      c.rest.length < fuel → (walk c ((fieldsOf segs).flatMap Field.refs) []).err = none →
      Mean k ts (fieldsOf segs) ss →
      ss.flatMap FSpec.refs = assign k c.next ((fieldsOf segs).flatMap Field.refs) →
      acc.length + (fieldsOf segs).length ≤ 64 →
      parseLoop k ts fuel acc c = (acc ++ ss, walk c ((fieldsOf segs).flatMap Field.refs) []) := by
  induction segs with
  | nil =>
    intro fuel c acc ss _ e hf herr m _ _
    cases fuel with
    | zero => omega
    | succ fuel =>
      cases m
      have e' : c.rest = [] := e
      have h0 : c.err = none := walk_err herr
      unfold parseLoop
      rw [if_neg (by rw [h0]; simp), e', List.append_nil]
      exact congrArg _ (ctx_eta c [] e').symm
  | cons sg segs ih =>
    intro fuel c acc ss w e hf herr m hr hn
    have h0 : c.err = none := walk_err herr
    cases fuel with
    | zero => omega
    | succ fuel =>
      unfold parseLoop
      rw [if_neg (by rw [h0]; simp)]
      cases sg with
      | chr ch =>
        obtain ⟨w1, w2, w⟩ := w
        have e' : c.rest = ch :: render segs := e
        rw [e']
        simp only
        rw [if_neg w1, if_neg w2]
        have := ih fuel { c with rest := render segs } acc ss w rfl (by
          rw [e'] at hf; simp only [List.length_cons] at hf; simp only; omega)
          (by rw [walk_with]; exact herr) m hr hn
        rw [this, walk_with]; rfl
      | lbrace =>
        have e' : c.rest = 0x7b :: 0x7b :: render segs := e
        rw [e']
        simp only
        rw [if_pos trivial, consumeIf_pos (r := render segs) rfl]
        simp only
        have := ih fuel { c with rest := render segs } acc ss w rfl (by
          rw [e'] at hf; simp only [List.length_cons] at hf; simp only; omega)
          (by rw [walk_with]; exact herr) m hr hn
        rw [this, walk_with]; rfl
      | rbrace =>
        have e' : c.rest = 0x7d :: 0x7d :: render segs := e
        rw [e']
        simp only
        rw [if_neg (by decide), if_pos trivial, consumeIf_pos (r := render segs) rfl]
        simp only
        have := ih fuel { c with rest := render segs } acc ss w rfl (by
          rw [e'] at hf; simp only [List.length_cons] at hf; simp only; omega)
          (by rw [walk_with]; exact herr) m hr hn
        rw [this, walk_with]; rfl
      | field f =>
        obtain ⟨wf, nc, w⟩ := w
        have e' : c.rest = 0x7b :: (f.body ++ render segs) := e
        rw [e']
        simp only
        rw [if_pos trivial, consumeIf_neg (body_first hk wf _)]
        simp only
        have hfs : fieldsOf (Seg.field f :: segs) = f :: fieldsOf segs := rfl
        rw [hfs] at herr m hr hn ⊢
        rw [if_neg (by simp only [List.length_cons] at hn; omega)]
        obtain ⟨s, ss', rfl, fm, m', r1, r2⟩ := mean_split m hr
        have hs := fieldSpec_unique hk wf fm r1
        obtain ⟨t, ht, _, v, _⟩ := fm
        rw [List.flatMap_cons] at herr
        have hw1 : (walk c f.refs (render segs)).err = none := by
          rw [← walk_append c f.refs _ [] (render segs)] at herr
          exact walk_err herr
        obtain ⟨g1, g2⟩ := specifier_eval (ts := ts) hk (c := { c with rest := f.body ++ render segs }) wf nc rfl
        have hp : s.position = refPos k c.next f.pos := by rw [hs]; rfl
        have hok := g1.2 ⟨by rw [walk_with]; exact hw1, t, by rw [← hp]; exact ht, by rw [← hs]; exact v⟩
        rw [g2 hok, walk_with]
        simp only
        rw [← hs]
        have hlen : (render segs).length < fuel := by
          rw [e'] at hf; simp only [List.length_cons, List.length_append] at hf; omega
        have := ih fuel (walk c f.refs (render segs)) (acc ++ [s]) ss' w (walk_rest _ _ _)
          (by rw [walk_rest]; exact hlen)
          (by rw [walk_append]; exact herr) m' (by rw [walk_next]; exact r2)
          (by simp only [List.length_append, List.length_cons, List.length_nil] at hn ⊢; omega)
        rw [this, walk_append, List.flatMap_cons, List.append_assoc]
        rfl

theorem loop_sound {k : CharKind} (hk : IsCharKind k) {ts : List PType} :
    ∀ (fuel : Nat) (c : Ctx) (acc ss : List FSpec) (c' : Ctx), parseLoop k ts fuel acc c = (ss, c') →
      c'.err = none → acc.length ≤ 64 →
      ∃ segs ss', Wf k segs ∧ c.rest = render segs ∧ ss = acc ++ ss' ∧ Mean k ts (fieldsOf segs) ss' ∧
        (walk c ((fieldsOf segs).flatMap Field.refs) []).err = none ∧
        ss'.flatMap FSpec.refs = assign k c.next ((fieldsOf segs).flatMap Field.refs) ∧
        acc.length + (fieldsOf segs).length ≤ 64 := by
  intro fuel
  induction fuel with
  | zero =>
    intro c acc ss c' h he
    unfold parseLoop at h
    cases h
    cases he
  | succ fuel ih =>
    intro c acc ss c' h he hacc
    unfold parseLoop at h
    split at h
    · rename_i h0
      cases h
      exact absurd he h0
    rename_i h0
    have h0 : c.err = none := by
      cases hc : c.err with
      | none => rfl
      | some x => rw [hc] at h0; simp at h0
    have bad : ∀ (c1 : Ctx) (m : String), parseLoop k ts fuel acc (c1.onError m) = (ss, c') → False := by
      intro c1 m hb
      cases fuel with
      | zero => unfold parseLoop at hb; cases hb; cases he
      | succ fuel =>
        unfold parseLoop at hb
        rw [if_pos (by simp [Ctx.onError])] at hb
        cases hb; cases he
    cases hr : c.rest with
    | nil =>
      rw [hr] at h
      cases h
      exact ⟨[], [], trivial, rfl, by simp, .nil, h0, rfl, hacc⟩
    | cons ch r =>
      rw [hr] at h
      simp only at h
      by_cases hb : ch = 0x7b
      · subst hb
        rw [if_pos rfl] at h
        by_cases hb2 : r.head? = some 0x7b
        · obtain ⟨r', rfl⟩ : ∃ r', r = 0x7b :: r' := by
            cases r with
            | nil => simp at hb2
            | cons x r => simp at hb2; subst hb2; exact ⟨r, rfl⟩
          rw [consumeIf_pos (r := r') rfl] at h
          simp only at h
          obtain ⟨segs, ss', a1, a2, a3, a4, a5, a6, a7⟩ := ih _ _ _ _ h he hacc
          simp only at a2
          subst a2
          exact ⟨.lbrace :: segs, ss', a1, rfl, a3, a4, by rw [walk_with] at a5; exact a5, a6, a7⟩
        · rw [consumeIf_neg hb2] at h
          simp only at h
          split at h
          · exact (bad _ _ h).elim
          · rename_i hlt
            have hse : (parseSpecifier k ts { c with rest := r }).2.err = none := by
              cases hx : (parseSpecifier k ts { c with rest := r }).2.err with
              | none => rfl
              | some x =>
                cases fuel with
                | zero => unfold parseLoop at h; cases h; cases he
                | succ fuel =>
                  unfold parseLoop at h
                  rw [if_pos (by rw [hx]; simp)] at h
                  cases h
                  rw [hx] at he; cases he
            obtain ⟨f, r', e1, wf, nc⟩ := specifier_exists hk hse
            obtain ⟨g1, g2⟩ := specifier_eval (ts := ts) hk (c := { c with rest := r }) wf nc e1
            obtain ⟨_, t, ht, v⟩ := g1.1 hse
            rw [g2 hse, walk_with] at h
            simp only at h
            obtain ⟨segs, ss', a1, a2, a3, a4, a5, a6, a7⟩ := ih _ _ _ _ h he (by simp; omega)
            rw [walk_rest] at a2
            subst a2
            simp only at e1
            subst e1
            rw [walk_next] at a6
            refine ⟨.field f :: segs, fieldSpec k ts c.next f :: ss', ⟨wf, nc, a1⟩, rfl, by rw [a3]; simp,
              .cons (fieldSpec_means hk wf ht v) a4, ?_, ?_, ?_⟩
            · rw [walk_append] at a5; exact a5
            · show (fieldSpec k ts c.next f :: ss').flatMap FSpec.refs =
                assign k c.next ((f :: fieldsOf segs).flatMap Field.refs)
              rw [assign_cons_field, ← a6, List.flatMap_cons, fieldSpec_refs]
            · show acc.length + (f :: fieldsOf segs).length ≤ 64
              simp only [List.length_append, List.length_cons, List.length_nil] at a7 ⊢
              omega
      · rw [if_neg hb] at h
        by_cases hc : ch = 0x7d
        · subst hc
          rw [if_pos rfl] at h
          by_cases hb2 : r.head? = some 0x7d
          · obtain ⟨r', rfl⟩ : ∃ r', r = 0x7d :: r' := by
              cases r with
              | nil => simp at hb2
              | cons x r => simp at hb2; subst hb2; exact ⟨r, rfl⟩
            rw [consumeIf_pos (r := r') rfl] at h
            simp only at h
            obtain ⟨segs, ss', a1, a2, a3, a4, a5, a6, a7⟩ := ih _ _ _ _ h he hacc
            simp only at a2
            subst a2
            exact ⟨.rbrace :: segs, ss', a1, rfl, a3, a4, by rw [walk_with] at a5; exact a5, a6, a7⟩
          · rw [consumeIf_neg hb2] at h
            exact (bad _ _ h).elim
        · rw [if_neg hc] at h
          obtain ⟨segs, ss', a1, a2, a3, a4, a5, a6, a7⟩ := ih _ _ _ _ h he hacc
          simp only at a2
          subst a2
          exact ⟨.chr ch :: segs, ss', ⟨hb, hc, a1⟩, rfl, a3, a4, by rw [walk_with] at a5; exact a5, a6, a7⟩

/-! ## The references -/

theorem walk_auto {c : Ctx} (h : c.err = none) (ha : c.auto = true) (hm : c.manual = false) (ds : List (List Nat))
    (r : List Nat) : (walk c ds r).err = none ↔ ∀ d ∈ ds, d = [] := by
  induction ds generalizing c with
  | nil => simp [walk, h]
  | cons d ds ih =>
    show (walk (afterRef c d r) ds r).err = none ↔ _
    by_cases hd : d = []
    · subst hd
      have e1 : (afterRef c [] r).err = none := afterRef_none.2 ⟨by simp [Unmixed, hm], h⟩
      rw [ih e1 (by simp [afterRef]) (by simp [afterRef, hm])]
      simp
    · constructor
      · intro h1
        have := (afterRef_none.1 (walk_err h1)).1
        simp [Unmixed, ha, hm, hd] at this
      · intro h1; exact absurd (h1 d (by simp)) hd

theorem walk_manual {c : Ctx} (h : c.err = none) (ha : c.auto = false) (hm : c.manual = true)
    (ds : List (List Nat)) (r : List Nat) : (walk c ds r).err = none ↔ ∀ d ∈ ds, d ≠ [] := by
  induction ds generalizing c with
  | nil => simp [walk, h]
  | cons d ds ih =>
    show (walk (afterRef c d r) ds r).err = none ↔ _
    by_cases hd : d = []
    · constructor
      · intro h1
        have := (afterRef_none.1 (walk_err h1)).1
        simp [Unmixed, ha, hm, hd] at this
      · intro h1; exact absurd hd (h1 d (by simp))
    · have e1 : (afterRef c d r).err = none := afterRef_none.2 ⟨by simp [Unmixed, ha, hd], h⟩
      rw [ih e1 (by simp [afterRef, ha, hd]) (by simp [afterRef, hm])]
      simp [hd]

theorem assign_auto (k : CharKind) (n : Nat) (ds : List (List Nat)) (h : ∀ d ∈ ds, d = []) :
    assign k n ds = List.range' n ds.length := by
  induction ds generalizing n with
  | nil => rfl
  | cons d ds ih =>
    obtain rfl := h d (by simp)
    simp only [assign, refPos, if_true, List.length_cons, List.range'_succ]
    rw [ih _ (fun d hd => h d (by simp [hd]))]

theorem assign_manual (k : CharKind) (n : Nat) (ds : List (List Nat)) (h : ∀ d ∈ ds, d ≠ []) :
    assign k n ds = ds.map (numVal k) := by
  induction ds generalizing n with
  | nil => rfl
  | cons d ds ih =>
    have := h d (by simp)
    simp only [assign, refPos, if_neg this, List.map_cons]
    rw [ih _ (fun d hd => h d (by simp [hd]))]

theorem positions_iff {k : CharKind} {fmt : List Nat} {ds : List (List Nat)} {ps : List Nat} :
    (walk { rest := fmt } ds []).err = none ∧ ps = assign k 0 ds ↔ Positions k ds ps := by
  have hw : (walk { rest := fmt } ds []).err = none ↔ (∀ d ∈ ds, d = []) ∨ (∀ d ∈ ds, d ≠ []) := by
    cases ds with
    | nil => simp [walk]
    | cons d ds =>
      show (walk (afterRef { rest := fmt } d []) ds []).err = none ↔ _
      by_cases hd : d = []
      · subst hd
        rw [walk_auto rfl rfl rfl]
        simp
      · rw [walk_manual (by simp [afterRef, hd]) (by simp [afterRef, hd]) (by simp [afterRef, hd])]
        simp [hd]
  unfold Positions
  rw [hw]
  constructor
  · rintro ⟨h | h, e⟩
    · exact .inl ⟨h, by rw [e, assign_auto k 0 ds h, List.range_eq_range']⟩
    · exact .inr ⟨h, by rw [e, assign_manual k 0 ds h]⟩
  · rintro (⟨h, e⟩ | ⟨h, e⟩)
    · exact ⟨.inl h, by rw [e, assign_auto k 0 ds h, List.range_eq_range']⟩
    · exact ⟨.inr h, by rw [e, assign_manual k 0 ds h]⟩

/-- The parser accepts exactly the renderings of well-formed trees that have a meaning. -/
theorem parseFormat_iff {k : CharKind} (hk : IsCharKind k) {ts : List PType} {fmt : List Nat}
    {ss : List FSpec} : parseFormat k ts fmt = .ok ss ↔
      ∃ segs, Wf k segs ∧ render segs = fmt ∧ Denotes k ts (fieldsOf segs) ss := by
  unfold parseFormat
  constructor
  · intro h
    cases hl : parseLoop k ts (fmt.length + 1) [] { rest := fmt } with
    | mk ss' c' =>
      rw [hl] at h
      simp only at h
      cases he : c'.err with
      | some e => rw [he] at h; cases h
      | none =>
        rw [he] at h
        cases h
        obtain ⟨segs, ss', a1, a2, a3, a4, a5, a6, a7⟩ := loop_sound hk _ _ _ _ _ hl he (by simp)
        rw [List.nil_append] at a3
        subst a3
        refine ⟨segs, a1, a2.symm, ⟨by simpa using a7, a4, positions_iff.1 ⟨a5, a6⟩⟩⟩
  · rintro ⟨segs, w, rfl, ⟨d1, d2, d3⟩⟩
    obtain ⟨e1, e2⟩ := positions_iff.2 d3
    rw [loop_complete hk segs _ { rest := render segs } [] ss w rfl (by simp) e1 d2 e2 (by simpa using d1)]
    simp only [e1, List.nil_append]

/-- `a{:>5}` for an integer: the tree, and the request it means. -/
example : ∃ segs ss, Wf ⟨8, true⟩ segs ∧ render segs = [0x61, 0x7b, 0x3a, 0x3e, 0x35, 0x7d] ∧
    Denotes ⟨8, true⟩ [.integral] (fieldsOf segs) ss ∧ ss.map (fun s => (s.position, s.align, s.width)) = [(0, .right, some 5)] := by
  have hk : IsCharKind ⟨8, true⟩ := by constructor
  cases h : parseFormat ⟨8, true⟩ [.integral] [0x61, 0x7b, 0x3a, 0x3e, 0x35, 0x7d] with
  | error e =>
    have : (match parseFormat ⟨8, true⟩ [.integral] [0x61, 0x7b, 0x3a, 0x3e, 0x35, 0x7d] with
      | .ok _ => true | _ => false) = true := by decide +kernel
    rw [h] at this; cases this
  | ok ss =>
    obtain ⟨segs, h1, h2, h3⟩ := (parseFormat_iff hk).1 h
    refine ⟨segs, ss, h1, h2, h3, ?_⟩
    have : (match parseFormat ⟨8, true⟩ [.integral] [0x61, 0x7b, 0x3a, 0x3e, 0x35, 0x7d] with
      | .ok ss => ss.map (fun s => (s.position, s.align, s.width)) | _ => []) = [(0, .right, some 5)] := by decide +kernel
    rw [h] at this; exact this

end Verif.Format
