/-!
# The default logger, and the lifetime of loggers up to the end of the program

The registry of loggers is a function-local static object (registry.cpp 38-42): it is built when it is first used and destroyed when
the program ends, in the reverse order of the construction of static objects. Loggers are shared: program variables and the
registry's slots hold references, and a logger is destroyed when the last one goes; its destructor uses the registry
(logger.cpp 85-88). Loggers and variables are numbers.

Simplifications: only successful creations; names are left out (see C63); one thread (`set_default_logger` is documented not to be
thread-safe, logger.hpp 249-251); variables that are neither static nor released before the end are never destroyed (leaked).
-/

namespace Verif.Logger.Default

/-- A static object: the registry, or a variable of the program that can hold a logger. -/
inductive Item
  | registry
  | var (v : Nat)
  deriving DecidableEq, Repr

/-- The program: its static objects, newest first; whether the registry has been built, and destroyed; the references held by
variables (variable, logger); the default logger set by the program, if any (`m_default_logger`, or the initial console logger);
the loggers destroyed; and whether the registry was used after its destruction. -/
structure Prog where
  statics : List Item
  built : Bool
  gone : Bool
  holds : List (Nat × Nat)
  dflt : Option Nat
  destroyed : List Nat
  misused : Bool
  deriving DecidableEq, Repr

/-- The start of the program. -/
def Prog.init : Prog := ⟨[], false, false, [], none, [], false⟩

/-- `Registry::instance`, registry.cpp 38-42, with the constructor 16-25: the default is the initial logger. -/
def Prog.touch (p : Prog) : Prog := if p.built then p else { p with built := true, statics := .registry :: p.statics }

/-- Somebody has a reference to the logger. -/
def Prog.held (p : Prog) (l : Nat) : Bool := p.holds.any (fun e => e.2 == l) || p.dflt == some l

/-- A reference to the logger has been given up: if it was the last one the logger is destroyed, which uses the registry: `~Logger`,
logger.cpp 85-88, and `unregister_logger`, registry.cpp 78-87. -/
def Prog.dropped (p : Prog) (l : Nat) : Prog :=
  if p.held l then p else { p with destroyed := l :: p.destroyed, misused := p.misused || p.gone }

/-- The references given up when a variable loses its content. -/
def Prog.releases (p : Prog) : List Nat → Prog
  | [] => p
  | l :: ls => (p.dropped l).releases ls

/-- The variable loses its content. -/
def Prog.clear (p : Prog) (v : Nat) : Prog :=
  ({ p with holds := p.holds.filter fun e => e.1 != v } : Prog).releases ((p.holds.filter fun e => e.1 == v).map Prod.snd)

/-- `set_default_logger`, registry.cpp 45-55 (logger.cpp 140-143): null stands for the initial logger. The default logger replaced is
let go. -/
def Prog.setDefault (p : Prog) (l : Option Nat) : Prog :=
  let p := p.touch
  match p.dflt with
  | none => { p with dflt := l }
  | some old => { p with dflt := l }.dropped old

/-- What a program does. -/
inductive Op
  /-- a static variable is constructed (empty) -/
  | declare (v : Nat)
  /-- `Logger::create`, logger.cpp 100-137, assigned to a variable -/
  | create (v l : Nat)
  /-- a variable is assigned a copy of another one -/
  | copy (v w : Nat)
  /-- a variable is reset, or a local one goes out of scope -/
  | reset (v : Nat)
  /-- `Logger::set_default_logger`, logger.cpp 140-143 -/
  | setDefault (l : Option Nat)
  /-- a `LOG*` macro, logger.hpp 23-99: it uses the default logger -/
  | log
  deriving DecidableEq, Repr

/-- The effect. -/
def Prog.step (p : Prog) : Op → Prog
  | .declare v => { p with statics := .var v :: p.statics }
  | .create v l => let p := p.touch.clear v; { p with holds := (v, l) :: p.holds }
  | .copy v w =>
    match p.holds.find? (fun e => e.1 == w) with
    | some (_, l) => if v = w then p else let p := p.clear v; { p with holds := (v, l) :: p.holds }
    | none => p.clear v
  | .reset v => p.clear v
  | .setDefault l => p.setDefault l
  | .log => p.touch

/-- The logger a `LOG*` macro uses: `get_default_logger`, registry.cpp 58-61. `none` is the initial console logger. -/
def Prog.target (p : Prog) : Option Nat := p.dflt

/-- What programs can do: variables are constructed once; a logger that is created is a new one (it is one of the loggers `used`
before otherwise); one that is made the default is held by the caller. -/
def Op.allowed (p : Prog) (used : List Nat) : Op → Prop
  | .declare v => Item.var v ∉ p.statics ∧ ∀ l, (v, l) ∉ p.holds
  | .create _ l => l ∉ used
  | .setDefault (some l) => ∃ v, (v, l) ∈ p.holds
  | _ => True

/-- The logger an operation creates. -/
def Op.creates : Op → List Nat
  | .create _ l => [l]
  | _ => []

/-- Executions up to the end of `main`: the operations, and the loggers created. -/
inductive Exec : Prog → List Op → List Nat → Prop
  | init : Exec .init [] []
  | step {p : Prog} {ops : List Op} {used : List Nat} (op : Op) : Exec p ops used → op.allowed p used →
      Exec (p.step op) (ops ++ [op]) (op.creates ++ used)

/-- The destruction of one static object: a variable gives up its reference; the registry (`~Registry`, registry.cpp 28-35) gives up
the default logger, whose destructor still finds it alive, and is gone. -/
def Prog.destroy (p : Prog) : Item → Prog
  | .var v => p.clear v
  | .registry =>
    match p.dflt with
    | none => { p with gone := true }
    | some l => { { p with dflt := none }.dropped l with gone := true }

/-- The end of the program: static objects are destroyed, the newest first. -/
def Prog.exit (p : Prog) : Prog := p.statics.foldl Prog.destroy p

/-! ## Specification -/

/-- The argument of the last `set_default_logger`. -/
def lastSet : List Op → Option Nat
  | [] => none
  | .setDefault l :: ops => if ops.any (fun o => match o with | .setDefault _ => true | _ => false) then lastSet ops else l
  | _ :: ops => lastSet ops

/-- Static variables constructed before the registry: those below it in the order of construction. -/
def older : List Item → List Nat
  | [] => []
  | .registry :: rest => rest.filterMap fun | .var v => some v | .registry => none
  | .var _ :: rest => older rest

/-! ## Proofs -/

/-- A logger held has not been destroyed; the registry is among the statics once when built; a variable holds one logger. -/
structure Inv (p : Prog) (used : List Nat) : Prop where
  alive : ∀ l, p.held l = true → l ∉ p.destroyed
  known : ∀ l, p.held l = true ∨ l ∈ p.destroyed → l ∈ used
  once : p.statics.count .registry = if p.built then 1 else 0
  nodup : (p.holds.map Prod.fst).Nodup
  fine : p.gone = false ∧ p.misused = false
  early : p.built = false → p.holds = [] ∧ p.dflt = none
  distinct : p.statics.Nodup

theorem dropped_fields (p : Prog) (l : Nat) : (p.dropped l).statics = p.statics ∧ (p.dropped l).built = p.built ∧ (p.dropped l).gone = p.gone ∧
    (p.dropped l).holds = p.holds ∧ (p.dropped l).dflt = p.dflt := by
  unfold Prog.dropped; split <;> simp

theorem releases_fields (ls : List Nat) : ∀ p : Prog, (p.releases ls).statics = p.statics ∧ (p.releases ls).built = p.built ∧
    (p.releases ls).gone = p.gone ∧ (p.releases ls).holds = p.holds ∧ (p.releases ls).dflt = p.dflt := by
  induction ls with
  | nil => intro p; exact ⟨rfl, rfl, rfl, rfl, rfl⟩
  | cons l ls ih =>
    intro p
    obtain ⟨h1, h2, h3, h4, h5⟩ := ih (p.dropped l)
    obtain ⟨g1, g2, g3, g4, g5⟩ := dropped_fields p l
    exact ⟨h1.trans g1, h2.trans g2, h3.trans g3, h4.trans g4, h5.trans g5⟩

theorem held_congr {p q : Prog} (h1 : p.holds = q.holds) (h2 : p.dflt = q.dflt) (l : Nat) : p.held l = q.held l := by
  unfold Prog.held; rw [h1, h2]

theorem held_iff (p : Prog) (l : Nat) : p.held l = true ↔ (∃ v, (v, l) ∈ p.holds) ∨ p.dflt = some l := by
  unfold Prog.held
  simp only [Bool.or_eq_true, List.any_eq_true, beq_iff_eq]
  constructor
  · rintro (⟨⟨v, l'⟩, h, rfl⟩ | h)
    · exact .inl ⟨v, h⟩
    · exact .inr h
  · rintro (⟨v, h⟩ | h)
    · exact .inl ⟨_, h, rfl⟩
    · exact .inr h

/-- Exactly the loggers given up and not held are destroyed. -/
theorem releases_destroyed (ls : List Nat) : ∀ (p : Prog) (l : Nat), l ∈ (p.releases ls).destroyed ↔
    l ∈ p.destroyed ∨ l ∈ ls ∧ p.held l = false := by
  induction ls with
  | nil => intro p l; simp [Prog.releases]
  | cons x ls ih =>
    intro p l
    have hf := dropped_fields p x
    rw [Prog.releases, ih (p.dropped x) l, held_congr hf.2.2.2.1 hf.2.2.2.2]
    unfold Prog.dropped
    split
    · rename_i hx
      simp only [List.mem_cons]
      constructor
      · rintro (h | ⟨h, g⟩)
        · exact .inl h
        · exact .inr ⟨.inr h, g⟩
      · rintro (h | ⟨rfl | h, g⟩)
        · exact .inl h
        · rw [hx] at g; cases g
        · exact .inr ⟨h, g⟩
    · rename_i hx
      have hx : p.held x = false := by simpa using hx
      simp only [List.mem_cons]
      constructor
      · rintro ((rfl | h) | ⟨h, g⟩)
        · exact .inr ⟨.inl rfl, hx⟩
        · exact .inl h
        · exact .inr ⟨.inr h, g⟩
      · rintro (h | ⟨rfl | h, g⟩)
        · exact .inl (.inr h)
        · exact .inl (.inl rfl)
        · exact .inr ⟨h, g⟩

theorem releases_misused (ls : List Nat) : ∀ p : Prog, (p.releases ls).misused = true ↔
    p.misused = true ∨ p.gone = true ∧ ∃ l ∈ ls, p.held l = false := by
  induction ls with
  | nil => intro p; simp [Prog.releases]
  | cons x ls ih =>
    intro p
    have hf := dropped_fields p x
    rw [Prog.releases, ih (p.dropped x), hf.2.2.1]
    simp only [held_congr hf.2.2.2.1 hf.2.2.2.2, List.mem_cons]
    unfold Prog.dropped
    split
    · rename_i hx
      constructor
      · rintro (h | ⟨h, l, hl, g⟩)
        · exact .inl h
        · exact .inr ⟨h, l, .inr hl, g⟩
      · rintro (h | ⟨h, l, rfl | hl, g⟩)
        · exact .inl h
        · rw [hx] at g; cases g
        · exact .inr ⟨h, l, hl, g⟩
    · rename_i hx
      have hx : p.held x = false := by simpa using hx
      simp only [Bool.or_eq_true]
      constructor
      · rintro ((h | h) | ⟨h, l, hl, g⟩)
        · exact .inl h
        · exact .inr ⟨h, x, .inl rfl, hx⟩
        · exact .inr ⟨h, l, .inr hl, g⟩
      · rintro (h | ⟨h, l, rfl | hl, g⟩)
        · exact .inl (.inl h)
        · exact .inl (.inr h)
        · exact .inr ⟨h, l, hl, g⟩

theorem clear_fields (p : Prog) (v : Nat) : (p.clear v).statics = p.statics ∧ (p.clear v).built = p.built ∧ (p.clear v).gone = p.gone ∧
    (p.clear v).holds = (p.holds.filter fun e => e.1 != v) ∧ (p.clear v).dflt = p.dflt := releases_fields _ _

theorem mem_clear_holds (p : Prog) (v w l : Nat) : (w, l) ∈ (p.clear v).holds ↔ w ≠ v ∧ (w, l) ∈ p.holds := by
  rw [(clear_fields p v).2.2.2.1, List.mem_filter]
  simp only [bne_iff_ne]
  exact ⟨fun h => ⟨h.2, h.1⟩, fun h => ⟨h.2, h.1⟩⟩

theorem clear_held (p : Prog) (v l : Nat) : (p.clear v).held l = true ↔ (∃ w, w ≠ v ∧ (w, l) ∈ p.holds) ∨ p.dflt = some l := by
  rw [held_iff, (clear_fields p v).2.2.2.2]
  simp only [mem_clear_holds]

theorem clear_destroyed (p : Prog) (v l : Nat) : l ∈ (p.clear v).destroyed ↔
    l ∈ p.destroyed ∨ (v, l) ∈ p.holds ∧ (p.clear v).held l = false := by
  unfold Prog.clear
  rw [releases_destroyed, held_congr (releases_fields _ _).2.2.2.1 (releases_fields _ _).2.2.2.2]
  simp only [List.mem_map, List.mem_filter, beq_iff_eq]
  constructor
  · rintro (h | ⟨⟨⟨w, l'⟩, ⟨hm, rfl⟩, rfl⟩, g⟩)
    · exact .inl h
    · exact .inr ⟨hm, g⟩
  · rintro (h | ⟨hm, g⟩)
    · exact .inl h
    · exact .inr ⟨⟨_, ⟨hm, rfl⟩, rfl⟩, g⟩

theorem clear_misused (p : Prog) (v : Nat) : (p.clear v).misused = true ↔
    p.misused = true ∨ p.gone = true ∧ ∃ l, (v, l) ∈ p.holds ∧ (p.clear v).held l = false := by
  unfold Prog.clear
  rw [releases_misused]
  have hf := fun l => held_congr (p := ({ p with holds := p.holds.filter fun e => e.1 != v } : Prog).releases ((p.holds.filter fun e => e.1 == v).map Prod.snd))
    (releases_fields _ _).2.2.2.1 (releases_fields _ _).2.2.2.2 l
  simp only [hf, List.mem_map, List.mem_filter, beq_iff_eq]
  constructor
  · rintro (h | ⟨h, l, ⟨⟨w, l'⟩, ⟨hm, rfl⟩, rfl⟩, g⟩)
    · exact .inl h
    · exact .inr ⟨h, l', hm, g⟩
  · rintro (h | ⟨h, l, hm, g⟩)
    · exact .inl h
    · exact .inr ⟨h, l, ⟨_, ⟨hm, rfl⟩, rfl⟩, g⟩

theorem Inv.clear {p : Prog} {used : List Nat} (h : Inv p used) (v : Nat) : Inv (p.clear v) used := by
  obtain ⟨f1, f2, f3, f4, f5⟩ := clear_fields p v
  have mono : ∀ l, (p.clear v).held l = true → p.held l = true := by
    intro l hl
    rw [held_iff]
    rcases (clear_held p v l).1 hl with ⟨w, _, hm⟩ | hd
    · exact .inl ⟨w, hm⟩
    · exact .inr hd
  refine ⟨?_, ?_, ?_, ?_, ?_, ?_, ?_⟩
  · intro l hl hd
    rcases (clear_destroyed p v l).1 hd with hd | ⟨_, g⟩
    · exact h.alive l (mono l hl) hd
    · rw [hl] at g; cases g
  · rintro l (hl | hd)
    · exact h.known l (.inl (mono l hl))
    · rcases (clear_destroyed p v l).1 hd with hd | ⟨hm, _⟩
      · exact h.known l (.inr hd)
      · exact h.known l (.inl ((held_iff p l).2 (.inl ⟨v, hm⟩)))
  · rw [f1, f2]; exact h.once
  · rw [f4]; exact h.nodup.sublist (List.filter_sublist.map _)
  · refine ⟨by rw [f3]; exact h.fine.1, ?_⟩
    have := mt (clear_misused p v).1 (by simp [h.fine])
    simpa using this
  · intro hb
    rw [f2] at hb
    obtain ⟨h1, h2⟩ := h.early hb
    rw [f4, f5, h1]
    exact ⟨rfl, h2⟩
  · rw [f1]; exact h.distinct

theorem Inv.touch {p : Prog} {used : List Nat} (h : Inv p used) : Inv p.touch used := by
  unfold Prog.touch
  split
  · exact h
  · rename_i hb
    have hb : p.built = false := by simpa using hb
    have hc : p.statics.count .registry = 0 := by
      have := h.once
      rw [hb] at this
      simpa using this
    refine ⟨h.alive, h.known, by simp [hc], h.nodup, h.fine, by simp, ?_⟩
    exact List.nodup_cons.2 ⟨List.count_eq_zero.1 hc, h.distinct⟩

theorem touch_fields (p : Prog) : p.touch.holds = p.holds ∧ p.touch.dflt = p.dflt ∧ p.touch.built = true := by
  unfold Prog.touch
  split
  · rename_i h; exact ⟨rfl, rfl, h⟩
  · exact ⟨rfl, rfl, rfl⟩

/-- A variable that holds nothing gets a logger that is alive. -/
theorem Inv.give {p : Prog} {used used' : List Nat} (h : Inv p used) (hu : ∀ x ∈ used, x ∈ used') {v l : Nat} (hv : ∀ x, (v, x) ∉ p.holds)
    (hl : l ∉ p.destroyed) (hk : l ∈ used') (hb : p.built = true) : Inv { p with holds := (v, l) :: p.holds } used' := by
  have hheld : ∀ x, ({ p with holds := (v, l) :: p.holds } : Prog).held x = true → x = l ∨ p.held x = true := by
    intro x hx
    rw [held_iff] at hx
    rcases hx with ⟨w, hw⟩ | hd
    · rcases List.mem_cons.1 hw with e | hw
      · cases e; exact .inl rfl
      · exact .inr ((held_iff p x).2 (.inl ⟨w, hw⟩))
    · exact .inr ((held_iff p x).2 (.inr hd))
  refine ⟨?_, ?_, h.once, ?_, h.fine, ?_, h.distinct⟩
  · intro x hx
    rcases hheld x hx with rfl | hx
    · exact hl
    · exact h.alive x hx
  · rintro x (hx | hx)
    · rcases hheld x hx with rfl | hx
      · exact hk
      · exact hu _ (h.known x (.inl hx))
    · exact hu _ (h.known x (.inr hx))
  · rw [List.map_cons, List.nodup_cons]
    refine ⟨fun hm => ?_, h.nodup⟩
    obtain ⟨⟨w, x⟩, hm', e⟩ := List.mem_map.1 hm
    have e : w = v := e
    subst e
    exact hv x hm'
  · intro hb'; rw [hb] at hb'; cases hb'

theorem Inv.step {p : Prog} {used : List Nat} (h : Inv p used) (op : Op) (ha : op.allowed p used) : Inv (p.step op) (op.creates ++ used) := by
  cases op with
  | declare v =>
    refine ⟨h.alive, h.known, ?_, h.nodup, h.fine, h.early, ?_⟩
    · have := h.once
      simp only [Prog.step]
      rw [List.count_cons_of_ne (by simp)]
      exact this
    · exact List.nodup_cons.2 ⟨ha.1, h.distinct⟩
  | create v l =>
    have hu : l ∉ used := ha
    have h1 := h.touch.clear v
    refine h1.give (fun x hx => List.mem_append_right _ hx) (fun x hx => ?_) (fun hd => ?_) (by simp [Op.creates]) ?_
    · exact ((mem_clear_holds _ _ _ _).1 hx).1 rfl
    · exact hu (h1.known l (.inr hd))
    · rw [(clear_fields _ _).2.1]; exact (touch_fields p).2.2
  | copy v w =>
    simp only [Prog.step, Op.creates, List.nil_append]
    cases hf : p.holds.find? (fun e => e.1 == w) with
    | none => exact h.clear v
    | some e =>
      obtain ⟨w', l⟩ := e
      simp only []
      have hm : (w', l) ∈ p.holds := List.mem_of_find?_eq_some hf
      have hw : w' = w := by simpa using List.find?_some hf
      subst hw
      split
      · exact h
      · rename_i hne
        have h1 := h.clear v
        have hheld : (p.clear v).held l = true := (clear_held p v l).2 (.inl ⟨w', fun e => hne e.symm, hm⟩)
        refine h1.give (fun x hx => hx) (fun x hx => ?_) (h1.alive l hheld) (h1.known l (.inl hheld)) ?_
        · exact ((mem_clear_holds _ _ _ _).1 hx).1 rfl
        · rw [(clear_fields p v).2.1]
          cases hb : p.built with
          | true => rfl
          | false => rw [(h.early hb).1] at hm; cases hm
  | reset v => exact h.clear v
  | log => exact h.touch
  | setDefault x =>
    simp only [Prog.step, Op.creates, List.nil_append, Prog.setDefault]
    have h1 := h.touch
    have hx : ∀ l, x = some l → p.held l = true := by
      rintro l rfl
      obtain ⟨v, hv⟩ := ha
      exact (held_iff p l).2 (.inl ⟨v, hv⟩)
    have hx1 : ∀ l, x = some l → ∃ v, (v, l) ∈ p.touch.holds := by
      rintro l rfl
      obtain ⟨v, hv⟩ := ha
      exact ⟨v, by rw [(touch_fields p).1]; exact hv⟩
    have h2 : Inv { p.touch with dflt := x } used := by
      have mono : ∀ l, ({ p.touch with dflt := x } : Prog).held l = true → p.touch.held l = true := by
        intro l hl
        rw [held_iff] at hl ⊢
        rcases hl with hl | hl
        · exact .inl hl
        · exact .inl (hx1 l hl)
      refine ⟨fun l hl => h1.alive l (mono l hl), fun l hl => h1.known l (hl.imp (mono l) id), h1.once, h1.nodup, h1.fine, ?_, h1.distinct⟩
      intro hb
      have : p.touch.built = false := hb
      rw [(touch_fields p).2.2] at this
      cases this
    cases hd : p.touch.dflt with
    | none => exact h2
    | some old =>
      simp only [Prog.dropped]
      split
      · exact h2
      · rename_i hn
        have hn : ({ p.touch with dflt := x } : Prog).held old = false := by simpa using hn
        refine ⟨?_, ?_, h2.once, h2.nodup, ?_, h2.early, h2.distinct⟩
        · intro l hl hm
          have hl : ({ p.touch with dflt := x } : Prog).held l = true := hl
          rcases List.mem_cons.1 hm with rfl | hm
          · exact absurd (hn.symm.trans hl) (by simp)
          · exact h2.alive l hl hm
        · rintro l (hl | hm)
          · exact h2.known l (.inl hl)
          · rcases List.mem_cons.1 hm with rfl | hm
            · exact h1.known l (.inl ((held_iff _ _).2 (.inr hd)))
            · exact h2.known l (.inr hm)
        · exact ⟨h2.fine.1, by
            show (p.touch.misused || p.touch.gone) = false
            rw [h1.fine.1, h1.fine.2]; rfl⟩

theorem Exec.inv {p : Prog} {ops : List Op} {used : List Nat} (h : Exec p ops used) : Inv p used := by
  induction h with
  | init =>
    refine ⟨?_, ?_, rfl, by simp [Prog.init], ⟨rfl, rfl⟩, fun _ => ⟨rfl, rfl⟩, by simp [Prog.init]⟩
    · intro l hl; cases hl
    · rintro l (hl | hl) <;> cases hl
  | step op _ ha ih => exact ih.step op ha

theorem lastSet_snoc (ops : List Op) (op : Op) : lastSet (ops ++ [op]) = (match op with | .setDefault l => l | _ => lastSet ops) := by
  induction ops with
  | nil => cases op <;> rfl
  | cons o ops ih =>
    cases o with
    | setDefault l =>
      simp only [List.cons_append, lastSet, List.any_append, List.any_cons, List.any_nil, Bool.or_false]
      cases op with
      | setDefault l' => simp only [Bool.or_true, if_true]; exact ih
      | _ =>
        simp only [Bool.or_false]
        split <;> simp_all
    | _ => simp only [List.cons_append, lastSet]; exact ih

theorem step_target (p : Prog) (op : Op) : (p.step op).dflt = (match op with | .setDefault l => l | _ => p.dflt) := by
  cases op with
  | declare v => rfl
  | create v l => exact (clear_fields _ _).2.2.2.2.trans (touch_fields p).2.1
  | copy v w =>
    simp only [Prog.step]
    split
    · split
      · rfl
      · exact (clear_fields _ _).2.2.2.2
    · exact (clear_fields _ _).2.2.2.2
  | reset v => exact (clear_fields _ _).2.2.2.2
  | log => exact (touch_fields p).2.1
  | setDefault l =>
    simp only [Prog.step, Prog.setDefault]
    split
    · rfl
    · exact (dropped_fields _ _).2.2.2.2

/-! ### The end of the program -/

/-- Destroying variables after the registry. -/
theorem after_registry (vs : List Nat) : ∀ p : Prog, p.gone = true → p.dflt = none → (((vs.map Item.var).foldl Prog.destroy p).misused = true ↔
    p.misused = true ∨ ∃ l, (∃ v ∈ vs, (v, l) ∈ p.holds) ∧ ∀ v, (v, l) ∈ p.holds → v ∈ vs) := by
  induction vs with
  | nil => intro p _ _; simp
  | cons v vs ih =>
    intro p hg hd
    obtain ⟨f1, f2, f3, f4, f5⟩ := clear_fields p v
    simp only [List.map_cons, List.foldl_cons]
    show ((vs.map Item.var).foldl Prog.destroy (p.clear v)).misused = true ↔ _
    rw [ih (p.clear v) (f3.trans hg) (f5.trans hd), clear_misused]
    simp only [mem_clear_holds, hg, true_and]
    have hh : ∀ l, (p.clear v).held l = false ↔ ∀ w, (w, l) ∈ p.holds → w = v := by
      intro l
      have := clear_held p v l
      rw [hd] at this
      simp only [reduceCtorEq, or_false] at this
      constructor
      · intro hf w hw
        by_cases e : w = v
        · exact e
        · have := this.2 ⟨w, e, hw⟩
          rw [hf] at this; cases this
      · intro hf
        cases hc : (p.clear v).held l with
        | false => rfl
        | true =>
          obtain ⟨w, hne, hw⟩ := this.1 hc
          exact absurd (hf w hw) hne
    simp only [hh, List.mem_cons]
    constructor
    · rintro ((h | ⟨l, hl, hall⟩) | ⟨l, ⟨w, hw, hne, hl⟩, hall⟩)
      · exact .inl h
      · exact .inr ⟨l, ⟨v, .inl rfl, hl⟩, fun w hw => .inl (hall w hw)⟩
      · refine .inr ⟨l, ⟨w, .inr hw, hl⟩, fun x hx => ?_⟩
        by_cases e : x = v
        · exact .inl e
        · exact .inr (hall x ⟨e, hx⟩)
    · rintro (h | ⟨l, ⟨w, hw, hl⟩, hall⟩)
      · exact .inl (.inl h)
      · by_cases e : ∀ x, (x, l) ∈ p.holds → x = v
        · refine .inl (.inr ⟨l, ?_, e⟩)
          have := e w hl
          subst this
          exact hl
        · have e : ∃ x, (x, l) ∈ p.holds ∧ x ≠ v := by
            apply Classical.byContradiction
            intro hn
            exact e fun x hx => Classical.byContradiction fun hc => hn ⟨x, hx, hc⟩
          obtain ⟨x, hx, hne⟩ := e
          refine .inr ⟨l, ⟨x, ?_, hne, hx⟩, fun y hy => ?_⟩
          · rcases hall x hx with h | h
            · exact absurd h hne
            · exact h
          · rcases hall y hy.2 with h | h
            · exact absurd h hy.1
            · exact h

/-- Destroying variables before the registry: nothing is misused, and the references that remain are those of other variables. -/
theorem before_registry (vs : List Nat) : ∀ p : Prog, p.gone = false → ((vs.map Item.var).foldl Prog.destroy p).gone = false ∧
    (((vs.map Item.var).foldl Prog.destroy p).misused = true ↔ p.misused = true) ∧
    (∀ v l, (v, l) ∈ ((vs.map Item.var).foldl Prog.destroy p).holds ↔ (v, l) ∈ p.holds ∧ v ∉ vs) := by
  induction vs with
  | nil => intro p hg; simp [hg]
  | cons v vs ih =>
    intro p hg
    obtain ⟨f1, f2, f3, f4, f5⟩ := clear_fields p v
    obtain ⟨i1, i2, i3⟩ := ih (p.clear v) (f3.trans hg)
    simp only [List.map_cons, List.foldl_cons]
    refine ⟨i1, ?_, ?_⟩
    · show ((vs.map Item.var).foldl Prog.destroy (p.clear v)).misused = true ↔ _
      rw [i2, clear_misused, hg]; simp
    · intro w l
      show (w, l) ∈ ((vs.map Item.var).foldl Prog.destroy (p.clear v)).holds ↔ _
      rw [i3, mem_clear_holds]
      simp only [List.mem_cons, not_or]
      exact ⟨fun h => ⟨h.1.2, h.1.1, h.2⟩, fun h => ⟨⟨h.2.1, h.1⟩, h.2.2⟩⟩

/-- A stack without the registry. -/
theorem split_none : ∀ l : List Item, l.count .registry = 0 → ∃ b : List Nat, l = b.map Item.var ∧
    (l.filterMap fun | .var v => some v | .registry => none) = b := by
  intro l
  induction l with
  | nil => intro _; exact ⟨[], rfl, rfl⟩
  | cons x l ih =>
    intro h
    cases x with
    | registry => simp at h
    | var v =>
      rw [List.count_cons] at h
      obtain ⟨b, rfl, hb⟩ := ih (by simpa using h)
      exact ⟨v :: b, rfl, congrArg (v :: ·) hb⟩

/-- A stack with the registry once: newer variables, the registry, older variables. -/
theorem split_registry : ∀ l : List Item, l.count .registry = 1 → ∃ a b : List Nat, l = a.map Item.var ++ .registry :: b.map Item.var ∧
    older l = b := by
  intro l
  induction l with
  | nil => intro h; simp at h
  | cons x l ih =>
    intro h
    cases x with
    | registry =>
      rw [List.count_cons] at h
      obtain ⟨b, rfl, hb⟩ := split_none l (by simpa using h)
      exact ⟨[], b, rfl, hb⟩
    | var v =>
      rw [List.count_cons] at h
      obtain ⟨a, b, rfl, hb⟩ := ih (by simpa using h)
      exact ⟨v :: a, b, rfl, hb⟩

/-! ## The property -/

/-- The default logger: after any history of a program, a `LOG*` macro uses the logger last given to `set_default_logger` (the
initial console logger after a null one, or if there was none), and that logger has not been destroyed, even if the program has
given up all its own references to it; nor has any logger the program still refers to. -/
theorem default_logger {p : Prog} {ops : List Op} {used : List Nat} (h : Exec p ops used) :
    p.target = lastSet ops ∧ (∀ l, p.target = some l → l ∉ p.destroyed) ∧ (∀ v l, (v, l) ∈ p.holds → l ∉ p.destroyed) := by
  refine ⟨?_, fun l hl => h.inv.alive l ((held_iff p l).2 (.inr hl)), fun v l hl => h.inv.alive l ((held_iff p l).2 (.inl ⟨v, hl⟩))⟩
  unfold Prog.target
  induction h with
  | init => rfl
  | step op _ _ ih => rw [step_target, lastSet_snoc]; cases op <;> simp [ih]

/-- Destroying the registry while variables are left. -/
theorem destroy_registry (p : Prog) (hg : p.gone = false) : (p.destroy .registry).gone = true ∧ (p.destroy .registry).dflt = none ∧
    (p.destroy .registry).holds = p.holds ∧ ((p.destroy .registry).misused = true ↔ p.misused = true) := by
  unfold Prog.destroy
  simp only []
  split
  · rename_i hd; exact ⟨rfl, hd, rfl, Iff.rfl⟩
  · rename_i l hd
    obtain ⟨_, _, _, f4, f5⟩ := dropped_fields ({ p with dflt := none }) l
    refine ⟨rfl, f5, f4, ?_⟩
    show (Prog.dropped { p with dflt := none } l).misused = true ↔ _
    unfold Prog.dropped
    split <;> simp [hg]

/-- Exactly when the end of the program is unsafe: the destroyed registry is used if and only if, at the end of `main`, some logger
is referred to by a static variable constructed before the registry was first used, and all variables that refer to it are static. -/
theorem exit_exact {p : Prog} {ops : List Op} {used : List Nat} (h : Exec p ops used) :
    p.exit.misused = true ↔ ∃ l, (∃ v ∈ older p.statics, (v, l) ∈ p.holds) ∧ ∀ v, (v, l) ∈ p.holds → Item.var v ∈ p.statics := by
  have hi := h.inv
  unfold Prog.exit
  cases hb : p.built with
  | false =>
    have hc : p.statics.count .registry = 0 := by rw [hi.once, hb]; rfl
    obtain ⟨b, hs, _⟩ := split_none p.statics hc
    have hh := (hi.early hb).1
    rw [hs]
    rw [(before_registry b p hi.fine.1).2.1, hi.fine.2, hh]
    simp
  | true =>
    have hc : p.statics.count .registry = 1 := by rw [hi.once, hb]; rfl
    obtain ⟨a, b, hs, ho⟩ := split_registry p.statics hc
    have hdis : ∀ v ∈ b, v ∉ a := by
      intro v hv ha
      have := hi.distinct
      rw [hs] at this
      exact (List.nodup_append.1 this).2.2 _ (List.mem_map.2 ⟨v, ha, rfl⟩) _ (List.mem_cons_of_mem _ (List.mem_map.2 ⟨v, hv, rfl⟩)) rfl
    have hmem : ∀ v, Item.var v ∈ p.statics ↔ v ∈ a ∨ v ∈ b := by
      intro v
      rw [hs]
      simp
    obtain ⟨g1, g2, g3⟩ := before_registry a p hi.fine.1
    rw [ho]
    simp only [hmem]
    rw [hs, List.foldl_append, List.foldl_cons]
    generalize List.foldl Prog.destroy p (a.map Item.var) = q at g1 g2 g3
    obtain ⟨r1, r2, r3, r4⟩ := destroy_registry q g1
    rw [after_registry b _ r1 r2, r3, r4, g2, hi.fine.2]
    simp only [g3, Bool.false_eq_true, false_or]
    constructor
    · rintro ⟨l, ⟨v, hv, hm, _⟩, hall⟩
      refine ⟨l, ⟨v, hv, hm⟩, fun w hw => ?_⟩
      by_cases e : w ∈ a
      · exact .inl e
      · exact .inr (hall w ⟨hw, e⟩)
    · rintro ⟨l, ⟨v, hv, hm⟩, hall⟩
      refine ⟨l, ⟨v, hv, hm, hdis v hv⟩, fun w hw => ?_⟩
      rcases hall w hw.1 with e | e
      · exact absurd e hw.2
      · exact e

/-- Programs that give up the loggers held by the static variables constructed before the first use of the logging system end
safely. -/
theorem exit_safe_partial {p : Prog} {ops : List Op} {used : List Nat} (h : Exec p ops used)
    (hsafe : ∀ v ∈ older p.statics, ∀ l, (v, l) ∉ p.holds) : p.exit.misused = false := by
  cases hm : p.exit.misused with
  | false => rfl
  | true =>
    obtain ⟨l, ⟨v, hv, hl⟩, _⟩ := (exit_exact h).1 hm
    exact absurd hl (hsafe v hv l)

/-- Programs do not end safely in general: a logger kept in a static variable. -/
theorem exit_violated : ∃ p ops used, Exec p ops used ∧ p.exit.misused = true :=
  ⟨_, _, _, .step (.create 0 5) (.step (.declare 0) .init ⟨by simp [Prog.init], by simp [Prog.init]⟩) (by simp [Op.allowed, Op.creates]), by decide⟩

/-- Not vacuous: two loggers; the first becomes the default and is given up; the program logs, and ends safely although a static
variable newer than the registry holds the second logger. -/
example : ∃ p ops used, Exec p ops used ∧ p.target = some 5 ∧ p.holds = [(1, 6)] ∧ p.destroyed = [] ∧ older p.statics = [] ∧
    p.exit.misused = false ∧ p.exit.destroyed = [5, 6] :=
  ⟨_, _, _, .step (.create 1 6) (.step (.declare 1) (.step .log (.step (.reset 0) (.step (.setDefault (some 5)) (.step (.create 0 5) .init
    (by simp [Op.allowed])) ⟨0, by decide⟩) trivial) trivial) ⟨by decide, by simp [Prog.init, Prog.step, Prog.touch, Prog.clear, Prog.releases,
    Prog.setDefault, Prog.dropped, Prog.held]⟩) (by simp [Op.allowed, Op.creates]), by decide⟩

end Verif.Logger.Default
