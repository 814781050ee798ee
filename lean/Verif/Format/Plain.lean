import Verif.Format.Props

/-!
# Format strings whose fields have no options

`a{}b` and `a{}b{}c` with parameters of any type: what is shown for a parameter is what the format string `{}` shows
for it alone. The files that use the formatter with a fixed format string build on these lemmas.
-/

namespace Verif.Format

open Verif.Str (CharKind)

/-- The specifier of a field `{}` for a parameter of a type. -/
def plainSpec (i : Nat) (t : PType) : FSpec := { position := i, size := 2, kind := inferKind (some t) }

/-- What `{}` shows for a parameter. -/
def shown (p : Param) : List Nat := formatParam 127 (plainSpec 0 p.type) [p] p

theorem formatParam_ps (mc i : Nat) (ps : List Param) (t : PType) (p : Param) :
    formatParam mc (plainSpec i t) ps p = formatParam mc (plainSpec 0 t) [p] p := by
  have hw : ∀ f, (plainSpec i t).widthOf ps f = f := fun _ => rfl
  have hp : ∀ f, (plainSpec i t).precisionOf ps f = f := fun _ => rfl
  have hw' : ∀ f, (plainSpec 0 t).widthOf [p] f = f := fun _ => rfl
  have hp' : ∀ f, (plainSpec 0 t).precisionOf [p] f = f := fun _ => rfl
  cases p <;> rfl

theorem plain_char {mc : Nat} {ps : List Param} {n : Nat} {ss : List FSpec} {c : Nat} {r t : List Nat}
    (hc : c ≠ 0x7b ∧ c ≠ 0x7d) (h : formatLoop mc ps n ss r = some t) :
    formatLoop mc ps (n + 1) ss (c :: r) = some (c :: t) := by
  unfold formatLoop
  simp only [if_neg hc.1, if_neg hc.2, h, Option.map_some]

theorem plain_chars {mc : Nat} {ps : List Param} {ss : List FSpec} {r t : List Nat} :
    ∀ (l : List Nat) (n : Nat), (∀ c ∈ l, c ≠ 0x7b ∧ c ≠ 0x7d) → formatLoop mc ps n ss r = some t →
    formatLoop mc ps (l.length + n) ss (l ++ r) = some (l ++ t) := by
  intro l
  induction l with
  | nil => intro n _ h; simpa using h
  | cons c l ih =>
    intro n hl h
    have := plain_char (hl c (by simp)) (ih n (fun x hx => hl x (List.mem_cons_of_mem _ hx)) h)
    rw [List.length_cons, show l.length + 1 + n = l.length + n + 1 by omega]
    exact this

theorem plain_field {ps : List Param} {n i : Nat} {ss : List FSpec} {r t : List Nat} {p : Param}
    (hp : ps[i]? = some p) (h : formatLoop 127 ps n ss r = some t) :
    formatLoop 127 ps (n + 1) (plainSpec i p.type :: ss) (0x7b :: 0x7d :: r) = some (shown p ++ t) := by
  unfold formatLoop
  have hp' : ps[(plainSpec i p.type).position]? = some p := hp
  simp only [if_true, if_neg (show ¬ (0x7d : Nat) = 0x7b by decide), hp', formatParam_ps 127 i ps]
  have : (plainSpec i p.type).size = 2 := rfl
  rw [this]
  simp only [List.drop_succ_cons, List.drop_zero, h, Option.map_some, shown]

/-- The whole of a format string `a{}b`. -/
theorem format_plain_one {fmt a b : List Nat} {p : Param} (hf : fmt = a ++ 0x7b :: 0x7d :: b)
    (hb : ∀ c ∈ a ++ b, c ≠ 0x7b ∧ c ≠ 0x7d)
    (hp : parseFormat ⟨8, true⟩ [p.type] fmt = .ok [plainSpec 0 p.type]) :
    format ⟨8, true⟩ fmt [p] = .text (a ++ (shown p ++ b)) := by
  have h0 : ∀ n, formatLoop 127 [p] (b.length + (n + 1)) [] (b ++ []) = some (b ++ []) :=
    fun n => plain_chars b _ (fun c hc => hb c (List.mem_append_right _ hc)) rfl
  have h1 : formatLoop 127 [p] (a.length + (b.length + (1 + 1) + 1)) [plainSpec 0 p.type] fmt =
      some (a ++ (shown p ++ b)) := by
    have := plain_chars a _ (fun c hc => hb c (List.mem_append_left _ hc)) (plain_field (i := 0) (ps := [p]) rfl (h0 1))
    simpa [hf] using this
  unfold format
  simp only [List.map_cons, List.map_nil, hp]
  have hl : fmt.length + 1 = a.length + (b.length + (1 + 1) + 1) := by rw [hf]; simp; omega
  rw [hl, show maxCharOf ⟨8, true⟩ = 127 from rfl, h1]

/-- The whole of a format string `a{}b{}c`. -/
theorem format_plain_two {fmt a b c : List Nat} {p q : Param}
    (hf : fmt = a ++ 0x7b :: 0x7d :: (b ++ 0x7b :: 0x7d :: c))
    (hb : ∀ x ∈ a ++ (b ++ c), x ≠ 0x7b ∧ x ≠ 0x7d)
    (hp : parseFormat ⟨8, true⟩ [p.type, q.type] fmt = .ok [plainSpec 0 p.type, plainSpec 1 q.type]) :
    format ⟨8, true⟩ fmt [p, q] = .text (a ++ (shown p ++ (b ++ (shown q ++ c)))) := by
  have h0 : ∀ n, formatLoop 127 [p, q] (c.length + (n + 1)) [] (c ++ []) = some (c ++ []) :=
    fun n => plain_chars c _ (fun x hc => hb x (List.mem_append_right _ (List.mem_append_right _ hc))) rfl
  have h1 : formatLoop 127 [p, q] (a.length + ((b.length + (c.length + (2 + 1) + 1)) + 1))
      [plainSpec 0 p.type, plainSpec 1 q.type] fmt = some (a ++ (shown p ++ (b ++ (shown q ++ c)))) := by
    have h2 := plain_chars b _ (fun x hc => hb x (List.mem_append_right _ (List.mem_append_left _ hc)))
      (plain_field (i := 1) (ps := [p, q]) rfl (h0 2))
    have := plain_chars a _ (fun x hc => hb x (List.mem_append_left _ hc)) (plain_field (i := 0) (ps := [p, q]) rfl h2)
    simpa [hf] using this
  unfold format
  simp only [List.map_cons, List.map_nil, hp]
  have hl : fmt.length + 1 = a.length + ((b.length + (c.length + (2 + 1) + 1)) + 1) := by rw [hf]; simp; omega
  rw [hl, show maxCharOf ⟨8, true⟩ = 127 from rfl, h1]

/-- `shown` is what the format string `{}` makes of the parameter. -/
theorem format_shown (p : Param) : format ⟨8, true⟩ [0x7b, 0x7d] [p] = .text (shown p) := by
  have := format_plain_one (fmt := [0x7b, 0x7d]) (a := []) (b := []) (p := p) rfl (by simp)
    (by cases p with
      | int c _ _ _ => cases c <;> rfl
      | _ => rfl)
  simpa using this

/-- A string is shown as it is. -/
theorem shown_str (s : List Nat) (h : s.length < 2 ^ 64) : shown (.str s) = s := by
  have h1 : min (2 ^ 64 - 1) s.length = s.length := by omega
  unfold shown formatParam formatString formatStringWith
  have hw : (plainSpec 0 (Param.str s).type).widthOf [.str s] 0 = 0 := rfl
  have hp : (plainSpec 0 (Param.str s).type).precisionOf [.str s] (2 ^ 64 - 1) = 2 ^ 64 - 1 := rfl
  simp only [hw, hp, h1]
  have : max s.length 0 - s.length = 0 := by omega
  rw [this]
  simp [plainSpec, padding]

/-- An integer is shown by its decimal digits, with a minus sign if it is negative. -/
theorem shown_int (signed : Bool) (bits repr : Nat) (hb : 0 < bits) (hr : repr < 2 ^ bits) :
    ∃ ds, Numeral 10 false (intValue signed bits repr).natAbs ds ∧
      shown (.int false signed bits repr) = (if intValue signed bits repr < 0 then [0x2d] else []) ++ ds := by
  have h := formatInteger_shows (maxChar := 127) (s := plainSpec 0 .integral) (ps := [.int false signed bits repr])
    (b := 10) (signed := signed) (bits := bits) (repr := repr) rfl hb hr
  obtain ⟨base, ds, h1, h2, -, h3⟩ := h
  have h1 : base = 10 := h1
  subst h1
  have hz : (plainSpec 0 .integral).zero = false := rfl
  rw [hz, if_neg (by simp)] at h3
  have hw : (plainSpec 0 .integral).widthOf [.int false signed bits repr] 0 = 0 := rfl
  have ha : altText (plainSpec 0 .integral) = [] := rfl
  rw [hw, ha] at h3
  obtain ⟨l, r, ho, hlr, -⟩ := h3
  have hl : l = 0 ∧ r = 0 := by omega
  refine ⟨ds, h2, ?_⟩
  show formatInteger 127 (plainSpec 0 .integral) [.int false signed bits repr] signed bits repr = _
  rw [ho, hl.1, hl.2]
  by_cases hn : intValue signed bits repr < 0 <;> simp [signText, plainSpec, hn]

end Verif.Format
