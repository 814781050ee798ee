import Verif.Config.Lemmas

/-!
# Configurations: the properties
-/

namespace Verif.Config

open Verif.Json (Value lookup SortedKeys)

/-! ## C50: configurations reflect the file -/

/-- C50, as far as it holds: if every file read was one of key-value pairs (or could not be parsed at all), then in
every history each configuration object someone holds has exactly the section of its identifier in the file
last read; so every value it is asked for is the one of the file, converted, or the default if it is missing or
cannot be converted. -/
theorem config_reflects_file_partial (casts : Nat → Nat → Bool) (ops : List Op) (ho : ∀ op ∈ ops, KeyValueFile op) (n : Nat)
    (o : Obj) (hn : (run casts ops).objs[n]? = some o) (hl : o.live = true) :
    o.values = sectionOf o.id (lastFile ops) ∧
      ∀ {α : Type} (conv : Value → Option α) (name : List Nat) (dflt : α),
        (∀ m v x, sectionOf o.id (lastFile ops) = .obj m → lookup name m = some v → conv v = some x →
          getValue conv o.values name dflt = x) ∧
        ((¬ ∃ m v x, sectionOf o.id (lastFile ops) = .obj m ∧ lookup name m = some v ∧ conv v = some x) →
          getValue conv o.values name dflt = dflt) := by
  obtain ⟨h1, h2⟩ := fresh_run casts ops ho
  have hv : o.values = sectionOf o.id (lastFile ops) := (h1 n o hn hl).trans (h2 o.id)
  refine ⟨hv, fun conv name dflt => ⟨fun m v x hm hlk hx => ?_, fun hno => ?_⟩⟩
  · rw [hv, hm]; simp only [getValue, hlk, hx]; rfl
  · unfold getValue
    split
    · rename_i m hm
      split
      · rename_i v hlk
        cases hc : conv v with
        | none => rfl
        | some x => exact absurd ⟨m, v, x, by rw [← hv, hm], hlk, hc⟩ hno
      · rfl
    · rfl

/-- Identifiers and a file used in the examples: `{"a": {"x": 5}}`. -/
def idA : List Nat := [0x61]
def nameX : List Nat := [0x78]
def fileA : Value := .obj [(idA, .obj [(nameX, .int 5)])]
def asInt : Value → Option Int
  | .int i => some i
  | _ => none

/-- A history meeting the hypotheses: create, update, an update that cannot be parsed, another one. -/
example : (∀ op ∈ [Op.create idA 0, .update (some fileA), .update none, .update (some fileA)], KeyValueFile op) ∧
    ((run (· == ·) [.create idA 0, .update (some fileA), .update none, .update (some fileA)]).objs.map
      fun o => (getValue asInt o.values nameX 7, o.live)) = [(5, true)] := by
  constructor
  · intro op h
    have h : op = .create idA 0 ∨ op = .update (some fileA) ∨ op = .update none ∨ op = .update (some fileA) := by simpa using h
    rcases h with rfl | rfl | rfl | rfl
    · trivial
    · exact List.pairwise_singleton ..
    · trivial
    · exact List.pairwise_singleton ..
  · rfl

/-- C50 fails for a file that can be parsed but is not an object: the configuration keeps the values of an older
file, although the manager has dropped them; and they then change to the defaults just by asking for the configuration
again. (config_manager.cpp 151-156) -/
theorem config_reflects_file_violated :
    let ops := [Op.create idA 0, .update (some fileA), .update (some (.arr []))]
    lastFile ops = .arr [] ∧
      ((run (· == ·) ops).objs.map fun o => getValue asInt o.values nameX 7) = [5] ∧
      ((run (· == ·) (ops ++ [.create idA 0])).objs.map fun o => getValue asInt o.values nameX 7) = [7] ∧
      ((run (· == ·) ops).create (· == ·) idA 0).2 = some 0 := ⟨rfl, rfl, rfl, rfl⟩

/-- A file that cannot be parsed (such as one read while it is being written) is not ignored: it resets
every configuration to its defaults, until the file is read again. -/
theorem unparsable_file_resets (casts : Nat → Nat → Bool) (ops : List Op) (ho : ∀ op ∈ ops, KeyValueFile op) (n : Nat) (o : Obj)
    (hn : (run casts (ops ++ [.update none])).objs[n]? = some o) (hl : o.live = true) {α : Type} (conv : Value → Option α)
    (name : List Nat) (dflt : α) : getValue conv o.values name dflt = dflt := by
  have h := config_reflects_file_partial casts (ops ++ [.update none]) (by
    intro op hm
    rcases List.mem_append.mp hm with hm | hm
    · exact ho op hm
    · rw [List.mem_singleton.mp hm]; trivial) n o hn hl
  have e : lastFile (ops ++ [.update none]) = .null := by
    unfold lastFile; rw [List.foldl_append]; rfl
  rw [e] at h
  refine (h.2 conv name dflt).2 ?_
  rintro ⟨m, _, _, hm, _⟩
  cases hm

/-- C81 fails: the values of a configuration file that exists when the manager is created are not seen until the file is
changed: a configuration made then has its defaults only, whatever the file says. -/
theorem existing_file_not_read_violated (file : Option Value) {α : Type} (conv : Value → Option α) (id name : List Nat) (dflt : α) :
    (((Manager.started file).create (· == ·) id 0).1.objs.map fun o => getValue conv o.values name dflt) = [dflt] ∧
      sectionOf idA fileA = .obj [(nameX, .int 5)] := by
  refine ⟨?_, rfl⟩
  simp [Manager.started, Manager.create, Manager.init, find, Manager.fill, setValues, section?, Verif.Json.asObject,
    Verif.Json.subscript, Verif.Json.insertNew, lookup, getValue, List.modify]

/-- C81, as far as it holds: from the first change event on the file is seen, also by the configurations made before it,
and by those made later, until the next event. -/
theorem existing_file_seen_partial (casts : Nat → Nat → Bool) (file : Value) (before after : List Op)
    (hf : KeyValueFile (.update (some file))) (hb : ∀ op ∈ before, KeyValueFile op)
    (ha : ∀ op ∈ after, ∀ p, op ≠ .update p) (n : Nat) (o : Obj)
    (hn : (((before ++ .update (some file) :: after).foldl (Manager.step casts) (Manager.started (some file)))).objs[n]? = some o)
    (hl : o.live = true) : o.values = sectionOf o.id file := by
  have hlast : lastFile (before ++ .update (some file) :: after) = file := by
    unfold lastFile
    rw [List.foldl_append, List.foldl_cons]
    have : ∀ (ops : List Op) (v : Value), (∀ op ∈ ops, ∀ p, op ≠ .update p) → ops.foldl nextFile v = v := by
      intro ops
      induction ops with
      | nil => intro v _; rfl
      | cons op ops ih =>
        intro v h
        rw [List.foldl_cons, ih _ (fun o ho => h o (by simp [ho]))]
        cases op with
        | update p => exact absurd rfl (h _ (by simp) p)
        | _ => rfl
    rw [this _ _ ha]
    rfl
  have := (config_reflects_file_partial casts (before ++ .update (some file) :: after) (by
    intro op hop
    rcases List.mem_append.1 hop with h | h
    · exact hb op h
    · rcases List.mem_cons.1 h with rfl | h
      · exact hf
      · cases op with
        | update p => exact absurd rfl (ha _ h p)
        | _ => trivial) n o hn hl).1
  rw [hlast] at this
  exact this

example : ((([Op.create idA 0] ++ Op.update (some fileA) :: [Op.create [0x62] 0]).foldl (Manager.step (· == ·))
    (Manager.started (some fileA))).objs.map fun o : Obj => getValue asInt o.values nameX (7 : Int)) = [5, 7] := rfl

/-! ## C51: one configuration object per identifier -/

/-- C51: in every history at most one held object has a given identifier, and asking for that identifier gives this
object, or nothing if it is not of the type asked for. -/
theorem create_returns_live (casts : Nat → Nat → Bool) (ops : List Op) (ho : ∀ op ∈ ops, WellFormedFile op) (n : Nat) (o : Obj)
    (hn : (run casts ops).objs[n]? = some o) (hl : o.live = true) :
    (∀ (m : Nat) (o' : Obj), (run casts ops).objs[m]? = some o' → o'.live = true → o'.id = o.id → m = n) ∧
      ∀ ty, ((run casts ops).create casts o.id ty).2 = if casts o.ty ty then some n else none := by
  have hi := inv_run casts ops ho
  have hm := hi.live n o hn hl
  have hf := (find_iff hi.keys o.id n).mpr hm
  refine ⟨fun m o' h' hl' e => ?_, fun ty => ?_⟩
  · have := (find_iff hi.keys o.id m).mpr (by rw [← e]; exact hi.live m o' h' hl')
    rw [hf] at this; cases this; rfl
  · unfold Manager.create
    simp only [hf, hn, hl, if_true]
    split <;> rfl

/-- C51: if nobody holds an object with the identifier, a new object is made, which is held and has the
identifier and type asked for. -/
theorem create_makes_new (casts : Nat → Nat → Bool) (ops : List Op) (ho : ∀ op ∈ ops, WellFormedFile op) (id : List Nat) (ty : Nat)
    (hno : ∀ (n : Nat) (o : Obj), (run casts ops).objs[n]? = some o → o.live = true → o.id ≠ id) :
    ((run casts ops).create casts id ty).2 = some (run casts ops).objs.length ∧
      ∃ o, ((run casts ops).create casts id ty).1.objs[(run casts ops).objs.length]? = some o ∧ o.id = id ∧ o.ty = ty ∧ o.live = true := by
  have hi := inv_run casts ops ho
  have fresh : ∃ o : Obj, ((({ run casts ops with
      objs := (run casts ops).objs ++ [{ id := id, ty := ty, values := .null, live := true }]
      configs := assign id (run casts ops).objs.length (run casts ops).configs } : Manager).fill (run casts ops).objs.length id).objs)[
        (run casts ops).objs.length]? = some o ∧ o.id = id ∧ o.ty = ty ∧ o.live = true := by
    refine ⟨{ id := id, ty := ty, values := (section? id (run casts ops).values).2, live := true }, ?_, rfl, rfl, rfl⟩
    show (setValues _ _ _)[_]? = _
    rw [setValues_get, if_pos rfl, List.getElem?_concat_length]; rfl
  unfold Manager.create
  simp only []
  cases hf : find id (run casts ops).configs with
  | none => exact ⟨rfl, fresh⟩
  | some n =>
    simp only []
    obtain ⟨o, h1, h2⟩ := hi.entry id n ((find_iff hi.keys id n).mp hf)
    have hd : o.live = false := by
      cases hl : o.live with
      | false => rfl
      | true => exact absurd h2 (hno n o h1 hl)
    simp only [h1, hd, Bool.false_eq_true, if_false]
    exact ⟨trivial, fresh⟩

/-- Whether the object at a position is held. -/
def liveAt (objs : List Obj) (n : Nat) : Bool := match objs[n]? with
  | some o => o.live
  | none => false

theorem countP_range (objs : List Obj) : objs.countP (·.live) = ((List.range objs.length).filter (liveAt objs)).length := by
  induction objs with
  | nil => rfl
  | cons o objs ih =>
    have e : liveAt (o :: objs) ∘ Nat.succ = liveAt objs := by funext n; rfl
    rw [List.length_cons, List.range_succ_eq_map, List.filter_cons, List.countP_cons, ih, List.filter_map, e]
    show _ = (if o.live = true then _ else _ : List Nat).length
    split
    · rw [List.length_cons, List.length_map]
    · rw [List.length_map]; rfl

/-- C51: `prune` returns the number of configuration objects that are held. -/
theorem prune_counts_live (casts : Nat → Nat → Bool) (ops : List Op) (ho : ∀ op ∈ ops, WellFormedFile op) :
    (run casts ops).prune.2 = liveCount (run casts ops) := by
  have hi := inv_run casts ops ho
  show ((run casts ops).configs.filter _).length = _
  unfold liveCount
  rw [countP_range, ← List.length_map (f := (·.2))]
  apply List.Perm.length_eq
  have inj : ∀ k k' n, (k, n) ∈ (run casts ops).configs → (k', n) ∈ (run casts ops).configs → k = k' := by
    intro k k' n h h'
    obtain ⟨o, h1, h2⟩ := hi.entry k n h
    obtain ⟨o', h3, h4⟩ := hi.entry k' n h'
    rw [h1] at h3; cases h3
    rw [← h2, h4]
  have hl : ∀ n, (run casts ops).isLive n = liveAt (run casts ops).objs n := fun n => rfl
  rw [List.perm_ext_iff_of_nodup]
  · intro n
    rw [List.mem_map, List.mem_filter, List.mem_range]
    constructor
    · rintro ⟨⟨k, n'⟩, hm, rfl⟩
      obtain ⟨h1, h2⟩ := List.mem_filter.mp hm
      obtain ⟨o, h3, _⟩ := hi.entry k n' h1
      exact ⟨(List.getElem?_eq_some_iff.mp h3).1, h2⟩
    · rintro ⟨h1, h2⟩
      have h3 : (run casts ops).objs[n]? = some (run casts ops).objs[n] := List.getElem?_eq_getElem h1
      have h4 : ((run casts ops).objs[n]).live = true := by
        unfold liveAt at h2; rw [h3] at h2; exact h2
      exact ⟨(_, n), List.mem_filter.mpr ⟨hi.live n _ h3 h4, h2⟩, rfl⟩
  · have hk : ((run casts ops).configs.filter fun e => (run casts ops).isLive e.2).Pairwise (fun a b => a.1 ≠ b.1) :=
      List.pairwise_map.mp (keys_filter hi.keys _)
    refine List.pairwise_map.mpr (List.Pairwise.imp_of_mem ?_ hk)
    intro a b ha hb hne e
    apply hne
    refine inj a.1 b.1 a.2 (List.mem_filter.mp ha).1 ?_
    rw [e]; exact (List.mem_filter.mp hb).1
  · exact List.Pairwise.filter _ List.nodup_range

/-- A history with two objects of which one is released; the other one is found again, also with another type. -/
example :
    let s := run (· == ·) [.create idA 0, .create nameX 1, .release 1]
    liveCount s = 1 ∧ s.prune.2 = 1 ∧ (s.create (· == ·) idA 0).2 = some 0 ∧ (s.create (· == ·) idA 3).2 = none ∧
      (s.create (· == ·) nameX 1).2 = some 2 := by decide +kernel

end Verif.Config
