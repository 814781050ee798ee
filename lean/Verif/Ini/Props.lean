import Verif.Ini.Proofs
import Verif.Json.Escape
import Verif.Json.Text

/-! # INI: the properties C39 and C40 -/

namespace Verif.Ini

open Verif.Json (Value MapOf StringBody SortedKeys Chars mapOf_self mapOf_unique lastOf_append)
open Verif.Str (AsciiSpace Pieces joinWith)

/-! ## C39: rendering a configuration -/

/-- One setting: the text of the name, the name it denotes, the text of the value, the value it
denotes, and whether it is written between double quotes. -/
structure Setting where
  nameText : List Nat
  name : List Nat
  valueText : List Nat
  value : List Nat
  quoted : Bool

/-- One section: the text of its name, the name, and its settings. -/
structure Section where
  nameText : List Nat
  name : List Nat
  settings : List Setting

/-- No white space at either end. -/
def NoSpaceAround (t : List Nat) : Prop :=
  (∀ c, t.head? = some c → ¬ AsciiSpace c) ∧ (∀ c, t.getLast? = some c → ¬ AsciiSpace c)

/-- Two equals signs in a row. -/
def DoubleEquals (t : List Nat) : Prop := ∃ p q, t = p ++ 0x3d :: 0x3d :: q

/-- A setting that can be written down: the texts are JSON string bodies of the name and the value,
the name is clean, and the value has no two equals signs in a row; without quotes, the value is clean
as well. -/
structure Setting.Ok (s : Setting) : Prop where
  name : StringBody s.nameText s.name
  value : StringBody s.valueText s.value
  nonempty : s.nameText ≠ []
  trimmed : NoSpaceAround s.nameText
  bare : Bare s.nameText
  noEquals : 0x3d ∉ s.nameText
  start : s.nameText.head? ≠ some 0x3b ∧ s.nameText.head? ≠ some 0x5b
  noDouble : ¬ DoubleEquals s.valueText
  plain : s.quoted = false → s.valueText ≠ [] ∧ NoSpaceAround s.valueText ∧ Bare s.valueText ∧
    s.valueText.head? ≠ some 0x3d ∧ s.valueText.getLast? ≠ some 0x3d ∧ s.valueText.getLast? ≠ some 0x5d

/-- A section that can be written down. -/
structure Section.Ok (s : Section) : Prop where
  name : StringBody s.nameText s.name
  trimmed : NoSpaceAround s.nameText
  bare : Bare s.nameText
  settings : ∀ x ∈ s.settings, x.Ok

/-- `name=value` or `name="value"`. -/
def Setting.line (s : Setting) : List Nat :=
  s.nameText ++ 0x3d :: (if s.quoted then 0x22 :: (s.valueText ++ [0x22]) else s.valueText)

/-- `[name]`. -/
def Section.headerLine (s : Section) : List Nat := 0x5b :: (s.nameText ++ [0x5d])

/-- The lines of a configuration. -/
def linesOf (cfg : List Section) : List (List Nat) :=
  cfg.flatMap (fun s => s.headerLine :: s.settings.map Setting.line)

/-- The text of a configuration. -/
def render (cfg : List Section) : List Nat := joinWith 0x0a (linesOf cfg)

/-- The declarations of a configuration. -/
def docOf (cfg : List Section) : Doc :=
  cfg.map (fun s => (s.name, s.settings.map (fun x => (x.name, x.value))))

theorem stripped_self {t : List Nat} (h : NoSpaceAround t) : Stripped t t :=
  ⟨[], [], by simp, by simp, by simp, h.1, h.2⟩

theorem pieces_exact : ∀ (n : Nat) (t : List Nat), t.length = n → t ≠ [] → t.head? ≠ some 0x3d →
    t.getLast? ≠ some 0x3d → ¬ DoubleEquals t → ∃ ps, Pieces 0x3d t ps ∧ ps ≠ [] ∧ joinWith 0x3d ps = t := by
  intro n
  induction n using Nat.strongRecOn with
  | _ n ih =>
    intro t hn hne hh hl hd
    by_cases hm : 0x3d ∈ t
    · have hfirst : ∃ p q, t = p ++ 0x3d :: q ∧ 0x3d ∉ p := by
        clear ih hn hne hh hl hd
        induction t with
        | nil => simp at hm
        | cons c t iht =>
          by_cases hc : c = 0x3d
          · exact ⟨[], t, by simp [hc], by simp⟩
          · have hm' : 0x3d ∈ t := by
              rcases List.mem_cons.mp hm with h | h
              · exact absurd h.symm hc
              · exact h
            obtain ⟨p, q, h1, h2⟩ := iht hm'
            refine ⟨c :: p, q, by simp [h1], ?_⟩
            simp only [List.mem_cons, not_or]; exact ⟨Ne.symm hc, h2⟩
      obtain ⟨p, q, rfl, hp⟩ := hfirst
      have hp0 : p ≠ [] := by rintro rfl; exact hh rfl
      have hq0 : q ≠ [] := by
        rintro rfl
        apply hl
        rw [List.getLast?_append]; rfl
      have hqh : q.head? ≠ some 0x3d := by
        intro h
        cases q with
        | nil => simp at h
        | cons c q => simp at h; subst h; exact hd ⟨p, q, rfl⟩
      have hql : q.getLast? ≠ some 0x3d := by
        intro h
        apply hl
        rw [List.getLast?_append, List.getLast?_cons, h]; rfl
      have hqd : ¬ DoubleEquals q := by
        rintro ⟨a, b, rfl⟩
        exact hd ⟨p ++ 0x3d :: a, b, by simp⟩
      obtain ⟨ps, h1, h2, h3⟩ := ih q.length (by subst hn; simp; omega) q rfl hq0 hqh hql hqd
      refine ⟨p :: ps, .piece hp0 hp h1, by simp, ?_⟩
      cases ps with
      | nil => exact absurd rfl h2
      | cons a ps => simp only [joinWith] at h3 ⊢; rw [h3]
    · exact ⟨[t], .last hne hm, by simp, rfl⟩

theorem head_append {a b : List Nat} (h : a ≠ []) : (a ++ b).head? = a.head? := by
  cases a with
  | nil => exact absurd rfl h
  | cons c a => rfl

theorem last_append {a b : List Nat} (h : b ≠ []) : (a ++ b).getLast? = b.getLast? := by
  rw [List.getLast?_append]
  cases b with
  | nil => exact absurd rfl h
  | cons c b => rw [List.getLast?_cons]; rfl

/-- The common part: a line made of a clean name and a value text `x`. -/
theorem setting_line {nt nm x x1 x2 v : List Nat} (h1 : StringBody nt nm) (h2 : nt ≠ [])
    (h3 : NoSpaceAround nt) (h4 : Bare nt) (h5 : 0x3d ∉ nt)
    (h6 : nt.head? ≠ some 0x3b ∧ nt.head? ≠ some 0x5b) (x0 : x ≠ []) (xs : NoSpaceAround x)
    (xh : x.head? ≠ some 0x3d) (xl : x.getLast? ≠ some 0x3d) (xb : x.getLast? ≠ some 0x5d)
    (xd : ¬ DoubleEquals x) (u1 : Unquoted 0x27 x x1) (u2 : Unquoted 0x22 x1 x2) (hv : StringBody x2 v) :
    Line (nt ++ 0x3d :: x) (.setting nm v) := by
  obtain ⟨ps, hp, hne, hj⟩ := pieces_exact _ x rfl x0 xh xl xd
  cases ps with
  | nil => exact absurd rfl hne
  | cons v0 r =>
    have hl : (nt ++ 0x3d :: x).getLast? = x.getLast? := by
      rw [show nt ++ 0x3d :: x = (nt ++ [0x3d]) ++ x by simp, last_append x0]
    have hh : (nt ++ 0x3d :: x).head? = nt.head? := head_append h2
    refine .setting (t := nt ++ 0x3d :: x) (stripped_self ⟨?_, ?_⟩) ?_ ?_ ?_ (.piece h2 h5 hp)
      (stripped_self h3) h4 ?_ u1 u2 h1 hv
    · rw [hh]; exact h3.1
    · rw [hl]; exact xs.2
    · rw [hh]; exact h6.1
    · rw [hh]; exact h6.2
    · rw [hl]; exact xb
    · rw [hj]; exact stripped_self xs

theorem Setting.Ok.reads {s : Setting} (h : s.Ok) : Line s.line (.setting s.name s.value) := by
  unfold Setting.line
  cases hq : s.quoted with
  | false =>
    simp only [Bool.false_eq_true, if_false]
    obtain ⟨p1, p2, p3, p4, p5, p6⟩ := h.plain hq
    exact setting_line h.name h.nonempty h.trimmed h.bare h.noEquals h.start p1 p2 p4 p5 p6 h.noDouble
      (Or.inr (Or.inr ⟨p3.1, p3.2.1, rfl⟩)) (Or.inr (Or.inr ⟨p3.2.2.1, p3.2.2.2, rfl⟩)) h.value
  | true =>
    simp only [if_true]
    have hl : (0x22 :: (s.valueText ++ [0x22])).getLast? = some 0x22 := by
      rw [← List.cons_append, last_append (by simp)]; rfl
    refine setting_line h.name h.nonempty h.trimmed h.bare h.noEquals h.start (by simp) ⟨?_, ?_⟩
      (by simp) (by rw [hl]; simp) (by rw [hl]; simp) ?_
      (Or.inr (Or.inr ⟨by simp, by rw [hl]; simp, rfl⟩)) (Or.inl rfl) h.value
    · intro c hc; simp at hc; subst hc; unfold AsciiSpace; omega
    · intro c hc; rw [hl] at hc; simp at hc; subst hc; unfold AsciiSpace; omega
    · rintro ⟨p, q, e⟩
      cases p with
      | nil => simp at e
      | cons c p =>
        simp only [List.cons_append, List.cons.injEq] at e
        obtain ⟨_, e⟩ := e
        rcases List.eq_nil_or_concat q with rfl | ⟨q', c', rfl⟩
        · have := congrArg List.getLast? e
          rw [last_append (by simp), last_append (by simp)] at this
          simp at this
        · rw [List.concat_eq_append] at e
          have e2 : s.valueText ++ [0x22] = (p ++ 0x3d :: 0x3d :: q') ++ [c'] := by rw [e]; simp
          exact h.noDouble ⟨p, q', (List.append_inj' e2 rfl).1⟩

theorem Section.Ok.reads {s : Section} (h : s.Ok) : Line s.headerLine (.header s.name) := by
  refine .header (b := s.nameText) (stripped_self ⟨?_, ?_⟩) (stripped_self h.trimmed) h.bare h.name
  · intro c hc; unfold Section.headerLine at hc; simp at hc; subst hc; unfold AsciiSpace; omega
  · intro c hc
    unfold Section.headerLine at hc
    rw [← List.cons_append, last_append (by simp)] at hc
    simp at hc; subst hc; unfold AsciiSpace; omega

theorem reads_settings {ls : List (List Nat)} {d : Doc} {k : List Nat} : ∀ (xs : List Setting)
    (ls : List (List Nat)) (as : List (List Nat × List Nat)), (∀ x ∈ xs, x.Ok) →
    Reads ls (d ++ [(k, as)]) →
    Reads (ls ++ xs.map Setting.line) (d ++ [(k, as ++ xs.map (fun x => (x.name, x.value)))]) := by
  intro xs
  induction xs with
  | nil => intro ls as _ h; simpa using h
  | cons x xs ih =>
    intro ls as hx h
    have := ih (ls ++ [x.line]) (as ++ [(x.name, x.value)]) (fun y hy => hx y (List.mem_cons_of_mem _ hy))
      (.setting h (hx x List.mem_cons_self).reads)
    simpa using this

theorem reads_cfg : ∀ (cfg : List Section) (ls : List (List Nat)) (d : Doc), (∀ s ∈ cfg, s.Ok) →
    Reads ls d → Reads (ls ++ linesOf cfg) (d ++ docOf cfg) := by
  intro cfg
  induction cfg with
  | nil => intro ls d _ h; simpa [linesOf, docOf] using h
  | cons s cfg ih =>
    intro ls d hs h
    have hso := hs s List.mem_cons_self
    have h1 := Reads.header h hso.reads
    have h2 := reads_settings (ls := ls) s.settings _ [] hso.settings h1
    have h3 := ih _ _ (fun y hy => hs y (List.mem_cons_of_mem _ hy)) h2
    simpa [linesOf, docOf] using h3

theorem body_no_newline {t m : List Nat} (h : StringBody t m) : ∀ c ∈ t, 0x20 ≤ c ∧ c < 256 :=
  fun c hc => ⟨Verif.Json.chars_ge h.2 c hc, Verif.Json.wf8_bytes h.1 c hc⟩

theorem lines_clean {cfg : List Section} (hs : ∀ s ∈ cfg, s.Ok) :
    ∀ l ∈ linesOf cfg, ∀ c ∈ l, 0x20 ≤ c ∧ c < 256 := by
  intro l hl c hc
  unfold linesOf at hl
  rw [List.mem_flatMap] at hl
  obtain ⟨s, h1, h2⟩ := hl
  have ho := hs s h1
  rcases List.mem_cons.mp h2 with rfl | h2
  · unfold Section.headerLine at hc
    simp only [List.mem_cons, List.mem_append, List.not_mem_nil, or_false] at hc
    rcases hc with rfl | hc | rfl
    · omega
    · exact body_no_newline ho.name c hc
    · omega
  · rw [List.mem_map] at h2
    obtain ⟨x, h3, rfl⟩ := h2
    have hx := ho.settings x h3
    unfold Setting.line at hc
    simp only [List.mem_cons, List.mem_append] at hc
    rcases hc with hc | rfl | hc
    · exact body_no_newline hx.name c hc
    · omega
    · split at hc
      · simp only [List.mem_cons, List.mem_append, List.not_mem_nil, or_false] at hc
        rcases hc with rfl | hc | rfl
        · omega
        · exact body_no_newline hx.value c hc
        · omega
      · exact body_no_newline hx.value c hc

/-- C39: the rendering of a configuration parses exactly to the object it denotes: sections and
settings become entries, of several with the same name the last counts. -/
theorem ini_render (cfg : List Section) (hs : ∀ s ∈ cfg, s.Ok) (hne : cfg ≠ [])
    (hlen : (render cfg).length < 2 ^ 63) (v : Value) :
    parse (render cfg) = some v ↔ Denotes (docOf cfg) v := by
  have hclean := lines_clean hs
  have hlne : linesOf cfg ≠ [] := by
    cases cfg with
    | nil => exact absurd rfl hne
    | cons s cfg => simp [linesOf]
  have hlines : Lines (render cfg) (linesOf cfg) := by
    refine ⟨hlne, ?_, rfl⟩
    intro l hl hc
    have := hclean l hl _ hc; omega
  have hbytes : ∀ c ∈ render cfg, c < 256 := by
    intro c hc
    rcases mem_joinWith hc with rfl | ⟨l, h1, h2⟩
    · omega
    · exact (hclean l h1 c h2).2
  have hr : Reads (linesOf cfg) (docOf cfg) := by
    have := reads_cfg cfg [] [] hs .nil
    simpa using this
  have hdne : docOf cfg ≠ [] := by
    cases cfg with
    | nil => exact absurd rfl hne
    | cons s cfg => simp [docOf]
  rw [parse_iff (render cfg) hbytes hlen v]
  constructor
  · intro h
    obtain ⟨ls, d, h1, h2, h3, h4⟩ := id h
    -- the same text cannot denote something else: compare with the parser's own result
    obtain ⟨st, h5, h6⟩ := run_complete hr (fun l hl => by
      have := (lines_mem hl).2
      have e : (joinWith 0x0a (linesOf cfg)).length = (render cfg).length := rfl
      omega)
    have hp : parse (render cfg) = some (.obj st.values) := by
      unfold parse
      rw [show render cfg = joinWith 0x0a (linesOf cfg) from rfl, loop_lines _ _ hlines.1 hlines.2.1, h5]
      simp only []
      rw [if_neg (fun e => hdne ((values_empty h6).1 e))]
    have hv : parse (render cfg) = some v := (parse_iff (render cfg) hbytes hlen v).2 h
    rw [hp] at hv
    simp at hv
    obtain ⟨es, a, b, _⟩ := h6
    exact ⟨es, st.values, a, b, hv.symm⟩
  · intro h
    exact ⟨linesOf cfg, docOf cfg, hlines, hr, hdne, h⟩

/-- C39: a configuration whose sections, and whose settings in each section, are in key order without
duplicates parses to exactly that object. -/
theorem ini_roundtrip (cfg : List Section) (hs : ∀ s ∈ cfg, s.Ok) (hne : cfg ≠ [])
    (hlen : (render cfg).length < 2 ^ 63) (hk : cfg.Pairwise (fun a b => a.name < b.name))
    (hn : ∀ s ∈ cfg, s.settings.Pairwise (fun a b => a.name < b.name)) :
    parse (render cfg) = some (.obj (cfg.map (fun s =>
      (s.name, .obj (s.settings.map (fun x => (x.name, .str x.value))))))) := by
  rw [ini_render cfg hs hne hlen]
  have hent : ∀ cfg : List Section, (∀ s ∈ cfg, s.settings.Pairwise (fun a b => a.name < b.name)) →
      Entries (docOf cfg) (cfg.map (fun s =>
        (s.name, Value.obj (s.settings.map (fun x => (x.name, .str x.value)))))) := by
    intro cfg
    have key : ∀ (cfg : List Section) (d : Doc) (es : List (List Nat × Value)), Entries d es →
        (∀ s ∈ cfg, s.settings.Pairwise (fun a b => a.name < b.name)) →
        Entries (d ++ docOf cfg) (es ++ cfg.map (fun s =>
          (s.name, Value.obj (s.settings.map (fun x => (x.name, .str x.value)))))) := by
      intro cfg
      induction cfg with
      | nil => intro d es h _; simpa [docOf] using h
      | cons s cfg ih =>
        intro d es h hp
        have h1 : SectionValue (s.settings.map (fun x => (x.name, x.value)))
            (.obj (s.settings.map (fun x => (x.name, .str x.value)))) := by
          refine ⟨_, rfl, ?_⟩
          have e : (s.settings.map (fun x => (x.name, x.value))).map (fun p => (p.1, Value.str p.2)) =
              s.settings.map (fun x => (x.name, Value.str x.value)) := by simp
          rw [e]
          exact mapOf_self (List.pairwise_map.2 (hp s List.mem_cons_self))
        have := ih _ _ (Entries.snoc (k := s.name) h h1) (fun y hy => hp y (List.mem_cons_of_mem _ hy))
        simpa [docOf] using this
    intro hp
    simpa using key cfg [] [] .nil hp
  exact ⟨_, _, hent cfg hn, mapOf_self (List.pairwise_map.2 hk), rfl⟩

/-- `[srv]`, `port=80`, `title=" a=b "` -/
def sampleCfg : List Section :=
  [⟨[0x73, 0x72, 0x76], [0x73, 0x72, 0x76],
    [⟨[0x70], [0x70], [0x38, 0x30], [0x38, 0x30], false⟩,
     ⟨[0x74], [0x74], [0x20, 0x61, 0x3d, 0x62, 0x20], [0x20, 0x61, 0x3d, 0x62, 0x20], true⟩]⟩]

theorem plain_body {t : List Nat} (h : ∀ c ∈ t, 0x20 ≤ c ∧ c < 0x80 ∧ c ≠ 0x22 ∧ c ≠ 0x5c) :
    StringBody t t := by
  refine ⟨Verif.Json.wf8_ascii t (fun b hb => (h b hb).2.1), ?_⟩
  induction t with
  | nil => exact .nil
  | cons c t ih =>
    have hc := h c List.mem_cons_self
    exact .plain hc.1 hc.2.2.1 hc.2.2.2 (ih (fun x hx => h x (List.mem_cons_of_mem _ hx)))

theorem no_double {t : List Nat} (h : ∀ i, t[i]? = some 0x3d → t[i + 1]? ≠ some 0x3d) :
    ¬ DoubleEquals t := by
  rintro ⟨p, q, rfl⟩
  exact h p.length (by simp) (by simp [List.getElem?_append])

example : parse (render sampleCfg) = some (.obj [([0x73, 0x72, 0x76],
    .obj [([0x70], .str [0x38, 0x30]), ([0x74], .str [0x20, 0x61, 0x3d, 0x62, 0x20])])]) := by
  refine ini_roundtrip sampleCfg ?_ (by simp [sampleCfg]) (by decide) (by simp [sampleCfg]) ?_
  · intro s hs
    simp only [sampleCfg, List.mem_singleton] at hs
    subst hs
    refine ⟨plain_body (by decide), ⟨by decide, by decide⟩, by unfold Bare; decide, ?_⟩
    intro x hx
    simp only [List.mem_cons, List.not_mem_nil, or_false] at hx
    rcases hx with rfl | rfl
    · exact ⟨plain_body (by decide), plain_body (by decide), by decide, ⟨by decide, by decide⟩,
        by unfold Bare; decide, by decide, by decide, by
          rintro ⟨p, q, e⟩
          have e' : ([0x38, 0x30] : List Nat) = p ++ 0x3d :: 0x3d :: q := e
          have : 0x3d ∈ ([0x38, 0x30] : List Nat) := by rw [e']; simp
          simp at this,
        fun _ => ⟨by decide, ⟨by decide, by decide⟩, by unfold Bare; decide, by decide, by decide, by decide⟩⟩
    · refine ⟨plain_body (by decide), plain_body (by decide), by decide, ⟨by decide, by decide⟩,
        by unfold Bare; decide, by decide, by decide, no_double ?_, fun h => by simp at h⟩
      intro i hi
      match i with
      | 0 | 1 | 3 | 4 => simp at hi
      | 2 => simp
      | n + 5 => simp at hi
  · intro s hs
    simp only [sampleCfg, List.mem_singleton] at hs
    subst hs
    exact List.Pairwise.cons
      (by intro p hp; simp at hp; subst hp; exact (Verif.Json.strLt_iff _ _).1 (by decide))
      (List.pairwise_singleton _ _)

/-! ## C40: malformed lines, and no setting is lost -/

/-- C40, the exact language: a text is accepted exactly if each of its lines is blank, a comment, a
section header, or a setting after some header, and there is at least one header; the result is the
object denoted. In particular a line without a meaning makes the parse fail. -/
theorem ini_language (s : List Nat) (hb : ∀ c ∈ s, c < 256) (hs : s.length < 2 ^ 63) (v : Value) :
    parse s = some v ↔ ∃ ls d, Lines s ls ∧ Reads ls d ∧ d ≠ [] ∧ Denotes d v := parse_iff s hb hs v

theorem reads_lines {ls : List (List Nat)} {d : Doc} (h : Reads ls d) : ∀ l ∈ ls, ∃ i, Line l i := by
  induction h with
  | nil => simp
  | nothing _ h ih => intro l hl; simp at hl; exact hl.elim (ih l) (fun e => e ▸ ⟨_, h⟩)
  | header _ h ih => intro l hl; simp at hl; exact hl.elim (ih l) (fun e => e ▸ ⟨_, h⟩)
  | setting _ h ih => intro l hl; simp at hl; exact hl.elim (ih l) (fun e => e ▸ ⟨_, h⟩)

theorem lines_unique {s : List Nat} : ∀ {ls ls' : List (List Nat)}, Lines s ls → Lines s ls' → ls = ls' := by
  intro ls
  induction ls generalizing s with
  | nil => intro ls' h; exact absurd rfl h.1
  | cons a ls ih =>
    intro ls' h h'
    cases ls' with
    | nil => exact absurd rfl h'.1
    | cons b ls' =>
      obtain ⟨_, h2, h3⟩ := h
      obtain ⟨_, h2', h3'⟩ := h'
      have ha := h2 a List.mem_cons_self
      have hb := h2' b List.mem_cons_self
      cases ls with
      | nil =>
        cases ls' with
        | nil => simp only [joinWith] at h3 h3'; rw [h3, h3']
        | cons c ls' =>
          simp only [joinWith] at h3 h3'
          exfalso; apply ha; rw [h3, ← h3']; simp
      | cons c ls =>
        cases ls' with
        | nil =>
          simp only [joinWith] at h3 h3'
          exfalso; apply hb; rw [h3', ← h3]; simp
        | cons c' ls' =>
          simp only [joinWith] at h3 h3'
          rw [← h3'] at h3
          obtain ⟨e1, e2⟩ := Verif.Str.append_cons_inj ha hb h3
          subst e1
          rw [ih ⟨by simp, fun l hl => h2 l (List.mem_cons_of_mem _ hl), e2⟩
            ⟨by simp, fun l hl => h2' l (List.mem_cons_of_mem _ hl), rfl⟩]

/-- C40: a text with a meaningless line is rejected. -/
theorem ini_rejects (s : List Nat) (hb : ∀ c ∈ s, c < 256) (hs : s.length < 2 ^ 63)
    (ls : List (List Nat)) (hl : Lines s ls) (l : List Nat) (hm : l ∈ ls) (hbad : ∀ i, ¬ Line l i) :
    parse s = none := by
  cases h : parse s with
  | none => rfl
  | some v =>
    obtain ⟨ls', d, h1, h2, _, _⟩ := (parse_iff s hb hs v).1 h
    rw [lines_unique hl h1] at hm
    obtain ⟨i, hi⟩ := reads_lines h2 l hm
    exact absurd hi (hbad i)

theorem lastOf_mid (es es2 : List (List Nat × Value)) (k : List Nat) (v : Value)
    (h : ∀ p ∈ es2, p.1 ≠ k) : Verif.Json.lastOf (es ++ (k, v) :: es2) k = some v := by
  unfold Verif.Json.lastOf
  rw [List.reverse_append, List.reverse_cons, List.find?_append, List.find?_append]
  have : es2.reverse.find? (fun p => p.1 == k) = none := by
    rw [List.find?_eq_none]
    intro p hp
    have := h p (by simpa using hp)
    simpa using this
  rw [this]; simp

theorem entries_split {d1 d2 : Doc} {k : List Nat} {as : List (List Nat × List Nat)}
    {es : List (List Nat × Value)} (h : Entries (d1 ++ (k, as) :: d2) es) :
    ∃ e1 v e2, es = e1 ++ (k, v) :: e2 ∧ SectionValue as v ∧ e2.map (·.1) = d2.map (·.1) := by
  generalize hd : d1 ++ (k, as) :: d2 = d at h
  induction h generalizing d2 with
  | nil => simp at hd
  | @snoc d es k' as' v h1 h2 ih =>
    rcases List.eq_nil_or_concat d2 with rfl | ⟨d3, x, rfl⟩
    · have := List.append_inj' (t₁ := [(k, as)]) hd rfl
      obtain ⟨rfl, e⟩ := this
      simp only [List.cons.injEq, Prod.mk.injEq, and_true] at e
      obtain ⟨rfl, rfl⟩ := e
      exact ⟨es, v, [], rfl, h2, rfl⟩
    · rw [List.concat_eq_append] at hd ⊢
      have hd' : (d1 ++ (k, as) :: d3) ++ [x] = d ++ [(k', as')] := by rw [← hd]; simp
      obtain ⟨e1, e2⟩ := List.append_inj' hd' rfl
      obtain ⟨a, v', b, rfl, h3, h4⟩ := ih e1
      simp only [List.cons.injEq, and_true] at e2
      subst e2
      exact ⟨a, v', b ++ [(k', v)], by simp, h3, by simp [h4]⟩

/-- C40: in an accepted text, every setting is in the result unless the section is declared again
later or the name is set again in the same declaration. Missing: without this proviso the claim is
false (`ini_lost_setting_violated`). -/
theorem ini_keeps_settings_partial (s : List Nat) (v : Value) (ls : List (List Nat)) (d1 d2 : Doc)
    (k n w : List Nat) (as1 as2 : List (List Nat × List Nat)) (hb : ∀ c ∈ s, c < 256)
    (hs : s.length < 2 ^ 63) (hp : parse s = some v) (hl : Lines s ls)
    (hr : Reads ls (d1 ++ (k, as1 ++ (n, w) :: as2) :: d2)) (hk : ∀ p ∈ d2, p.1 ≠ k)
    (hn : ∀ p ∈ as2, p.1 ≠ n) :
    ∃ m ms, v = .obj m ∧ (k, .obj ms) ∈ m ∧ (n, .str w) ∈ ms := by
  -- the document of `hr` is the one the parser read
  have hall : ∃ es m, Entries (d1 ++ (k, as1 ++ (n, w) :: as2) :: d2) es ∧ MapOf es m ∧ v = .obj m := by
    obtain ⟨st, h5, h6⟩ := run_complete hr (fun l hl' => by
      have := (lines_mem hl').2
      rw [hl.2.2] at this; omega)
    have hp' : parse s = some (.obj st.values) := by
      unfold parse
      rw [← hl.2.2, loop_lines _ _ hl.1 hl.2.1, h5]
      simp only []
      rw [if_neg (fun e => by have := (values_empty h6).1 e; simp at this)]
    rw [hp] at hp'
    simp at hp'
    obtain ⟨es, a, b, _⟩ := h6
    exact ⟨es, st.values, a, b, hp'⟩
  obtain ⟨es, m, h1, h2, rfl⟩ := hall
  obtain ⟨e1, x, e2, rfl, ⟨ms, rfl, h3⟩, h4⟩ := entries_split h1
  refine ⟨m, ms, rfl, ?_, ?_⟩
  · rw [h2.2]
    apply lastOf_mid
    intro p hp' e
    have : p.1 ∈ d2.map (·.1) := by rw [← h4]; exact List.mem_map_of_mem hp'
    obtain ⟨q, h7, h8⟩ := List.mem_map.mp this
    exact hk q h7 (by rw [h8, e])
  · rw [h3.2]
    rw [List.map_append, List.map_cons]
    apply lastOf_mid
    intro p hp' e
    obtain ⟨q, h7, rfl⟩ := List.mem_map.mp hp'
    exact hn q h7 e

/-- C40 fails: the second declaration of section `a` discards `x=1`. -/
theorem ini_lost_setting_violated :
    -- [a] x=1 [a] y=2
    parse [0x5b, 0x61, 0x5d, 0x0a, 0x78, 0x3d, 0x31, 0x0a, 0x5b, 0x61, 0x5d, 0x0a, 0x79, 0x3d, 0x32] =
      some (.obj [([0x61], .obj [([0x79], .str [0x32])])]) := by
  with_unfolding_all rfl

/-- C40 fails: `=x=1` is no assignment `name=value` (the name is missing), but is accepted as `x=1`. -/
theorem ini_missing_name_violated :
    parse [0x5b, 0x61, 0x5d, 0x0a, 0x3d, 0x78, 0x3d, 0x31] =
      some (.obj [([0x61], .obj [([0x78], .str [0x31])])]) := by
  with_unfolding_all rfl

/-- C40 fails: a value that is a single quotation mark is unbalanced, but is accepted as empty. -/
theorem ini_lone_quote_violated :
    parse [0x5b, 0x61, 0x5d, 0x0a, 0x78, 0x3d, 0x27] = some (.obj [([0x61], .obj [([0x78], .str [])])]) := by
  with_unfolding_all rfl

/-- A line without a meaning: `x` in a section. -/
example : parse [0x5b, 0x61, 0x5d, 0x0a, 0x78] = none := by with_unfolding_all rfl

end Verif.Ini
