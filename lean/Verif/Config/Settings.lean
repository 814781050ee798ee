import Verif.Config.Files
import Verif.Json.ConvertProps
import Verif.Huffman.Props

/-!
# C137: the settings of the library's own components

`get_value<T>` with the conversions of `Verif.Json.Convert`, and the getters of the configurations that come with the
library: network_config.cpp 6-17, logger_config.cpp 6-21, path_config.cpp 6-10, system_config.cpp 6-10,
coder_config.cpp 6-20.
-/

namespace Verif.Config

open Verif.Json (Value lookup SortedKeys Out IntTy toInt toBool DecimalText Denotes)

/-! ## Model -/

/-- The bytes of an ASCII text. -/
def ascii (s : String) : List Nat := s.toList.map Char.toNat

/-- `Config::get_value<T>`, config.hpp 55-69, for a conversion that can throw (then the default is returned) or be
undefined. -/
def getTyped {α : Type} (conv : Value → Out α) (values : Value) (name : List Nat) (dflt : α) : Out α :=
  match values with
  | .obj m =>
    match lookup name m with
    | some v => match conv v with
      | .threw => .ok dflt
      | r => r
    | none => .ok dflt
  | _ => .ok dflt

/-- A setting that is a number: the identifier of its configuration, its name, its type and its default. -/
structure Getter where
  «section» : List Nat
  name : List Nat
  ty : IntTy
  dflt : Int

/-- What the getter returns. -/
def Getter.read (g : Getter) (values : Value) : Out Int := getTyped (toInt g.ty) values g.name g.dflt

/-- network_config.cpp 6-11, network_config.hpp 19, 32. -/
def socketIoWaitTime : Getter := ⟨ascii "network", ascii "socket_io_wait_time", ⟨true, 64⟩, 10000⟩
/-- network_config.cpp 14-17, network_config.hpp 33. -/
def packetSize : Getter := ⟨ascii "network", ascii "packet_size", ⟨false, 64⟩, 4096⟩
/-- logger_config.cpp 12-15, logger_config.hpp 19, 38. -/
def maxLogFileSize : Getter := ⟨ascii "logger", ascii "max_log_file_size", ⟨false, 64⟩, 20 * 2 ^ 20⟩
/-- logger_config.cpp 18-21, logger_config.hpp 39. -/
def maxMessageSize : Getter := ⟨ascii "logger", ascii "max_message_size", ⟨false, 32⟩, 256⟩
/-- path_config.cpp 6-10, path_config.hpp 18, 26. -/
def pathPollInterval : Getter := ⟨ascii "path", ascii "poll_interval", ⟨true, 64⟩, 1000⟩
/-- system_config.cpp 6-10, system_config.hpp 18, 26. -/
def systemPollInterval : Getter := ⟨ascii "system", ascii "poll_interval", ⟨true, 64⟩, 1000⟩
/-- coder_config.cpp 8-9, coder_config.hpp 20, 33: in KiB (`huffman_encoder_chunk_size()` shifts it by ten). -/
def chunkSizeKb : Getter := ⟨ascii "coder", ascii "encoder_chunk_size_kb", ⟨false, 16⟩, 256⟩
/-- coder_config.cpp 15-20, coder_config.hpp 34. -/
def maxCodeLength : Getter := ⟨ascii "coder", ascii "encoder_max_code_length", ⟨false, 8⟩, 11⟩

/-- `huffman_encoder_chunk_size()`, coder_config.cpp 6-12: as `std::uint32_t`. -/
def chunkSize (values : Value) : Out Int :=
  match chunkSizeKb.read values with
  | .ok kb => .ok (kb * 2 ^ 10 % 2 ^ 32)
  | r => r

/-- `compress_log_files()`, logger_config.cpp 6-9, logger_config.hpp 37: the conversion to `bool` never throws. -/
def compressLogFiles (values : Value) : Out Bool :=
  getTyped (fun v => .ok (toBool v)) values (ascii "compress_log_files") true

/-- All settings that are numbers. -/
def getters : List Getter :=
  [socketIoWaitTime, packetSize, maxLogFileSize, maxMessageSize, pathPollInterval, systemPollInterval, chunkSizeKb, maxCodeLength]

/-! ## Specification -/

/-- The text of a setting in an INI file, if the file has the section and the setting. -/
def Written (cfg : List Verif.Ini.Section) (sectionName name text : List Nat) : Prop :=
  ∃ sec ∈ cfg, sec.name = sectionName ∧ ∃ x ∈ sec.settings, x.name = name ∧ x.value = text

/-- The value of a setting in a JSON file. -/
def Stated (file : Value) (sectionName name : List Nat) (v : Value) : Prop :=
  ∃ m, file = .obj m ∧ ∃ sec, (sectionName, Value.obj sec) ∈ m ∧ (name, v) ∈ sec

/-- A history of an INI manager: every file read is some INI text. -/
def IniHistory (ops : List Op) : Prop :=
  ∀ op ∈ ops, (∃ t, op = .update (Verif.Ini.parse t) ∧ (∀ c ∈ t, c < 256) ∧ t.length < 2 ^ 63) ∨ ∀ p, op ≠ .update p

/-! ## Proofs -/

theorem getters_real : ∀ g ∈ getters, g.ty.Real := by
  have : getters.all (fun g => decide (1 ≤ g.ty.bits) && decide (g.ty.bits ≤ 64)) = true := by decide +kernel
  intro g hg
  have := List.all_eq_true.mp this g hg
  rw [Bool.and_eq_true, decide_eq_true_iff, decide_eq_true_iff] at this
  exact this

/-- The value of a section of the file in a history whose files are INI texts. -/
theorem ini_values (casts : Nat → Nat → Bool) (before : List Op) (hbefore : IniHistory before)
    (cfg : List Verif.Ini.Section) (hs : ∀ s ∈ cfg, s.Ok) (hne : cfg ≠ []) (hlen : (Verif.Ini.render cfg).length < 2 ^ 63)
    (hk : cfg.Pairwise (fun a b => a.name < b.name)) (hn : ∀ s ∈ cfg, s.settings.Pairwise (fun a b => a.name < b.name))
    (n : Nat) (o : Obj) (ho : (run casts (before ++ [.update (Verif.Ini.parse (Verif.Ini.render cfg))])).objs[n]? = some o)
    (hl : o.live = true) :
    (∀ sec ∈ cfg, o.id = sec.name → o.values = .obj (sec.settings.map fun x => (x.name, .str x.value))) ∧
      ((∀ sec ∈ cfg, o.id ≠ sec.name) → o.values = .null) := by
  have hp := Verif.Ini.ini_roundtrip cfg hs hne hlen hk hn
  rw [hp] at ho
  have hsorted : SortedKeys (cfg.map fun s => (s.name, Value.obj (s.settings.map fun x => (x.name, .str x.value)))) :=
    List.pairwise_map.mpr hk
  have hr := (config_reflects_file_partial casts _ (by
    intro op hm
    rcases List.mem_append.mp hm with hm | hm
    · rcases hbefore op hm with ⟨t, rfl, h1, h2⟩ | h
      · exact ini_files_are_key_value t h1 h2
      · cases op with
        | update p => exact absurd rfl (h p)
        | _ => trivial
    · rw [List.mem_singleton.mp hm]; exact hsorted) n o ho hl).1
  have e : lastFile (before ++ [.update (some (.obj (cfg.map fun s => (s.name, Value.obj (s.settings.map fun x => (x.name, .str x.value))))))]) =
      .obj (cfg.map fun s => (s.name, Value.obj (s.settings.map fun x => (x.name, .str x.value)))) := by
    unfold lastFile; rw [List.foldl_append]; rfl
  rw [e, sectionOf_obj] at hr
  constructor
  · intro sec hsec hid
    have h1 : lookup sec.name (cfg.map fun s => (s.name, Value.obj (s.settings.map fun x => (x.name, .str x.value)))) =
        some (.obj (sec.settings.map fun x => (x.name, .str x.value))) :=
      (Verif.Json.lookup_iff hsorted _ _).mpr (List.mem_map.mpr ⟨sec, hsec, rfl⟩)
    rw [hr, hid, h1]; rfl
  · intro hno
    have h1 : lookup o.id (cfg.map fun s => (s.name, Value.obj (s.settings.map fun x => (x.name, .str x.value)))) = none := by
      cases hc : lookup o.id (cfg.map fun s => (s.name, Value.obj (s.settings.map fun x => (x.name, .str x.value)))) with
      | none => rfl
      | some v =>
        obtain ⟨sec, hsec, he⟩ := List.mem_map.mp ((Verif.Json.lookup_iff hsorted _ _).mp hc)
        injection he with he1 _
        exact absurd he1.symm (hno sec hsec)
    rw [hr, h1]; rfl

/-- C137 for INI files (missing: the setting that is not a number, see `ini_boolean_violated`). After the file was read,
every number setting of the library's components is the number written in the file if that is a decimal numeral of the
setting's type; otherwise, or if the file does not mention it, it is the default. -/
theorem ini_settings_partial (casts : Nat → Nat → Bool) (before : List Op) (hbefore : IniHistory before)
    (cfg : List Verif.Ini.Section) (hs : ∀ s ∈ cfg, s.Ok) (hne : cfg ≠ []) (hlen : (Verif.Ini.render cfg).length < 2 ^ 63)
    (hk : cfg.Pairwise (fun a b => a.name < b.name)) (hn : ∀ s ∈ cfg, s.settings.Pairwise (fun a b => a.name < b.name))
    (n : Nat) (o : Obj) (ho : (run casts (before ++ [.update (Verif.Ini.parse (Verif.Ini.render cfg))])).objs[n]? = some o)
    (hl : o.live = true) (g : Getter) (hid : o.id = g.section) :
    (∀ text x, Written cfg g.section g.name text → DecimalText g.ty.signed text x → g.ty.Holds x → g.read o.values = .ok x) ∧
      ((¬ ∃ text x, Written cfg g.section g.name text ∧ DecimalText g.ty.signed text x ∧ g.ty.Holds x) →
        g.read o.values = .ok g.dflt) := by
  obtain ⟨hv1, hv2⟩ := ini_values casts before hbefore cfg hs hne hlen hk hn n o ho hl
  have hsorted : ∀ sec ∈ cfg, SortedKeys (sec.settings.map fun x => (x.name, Value.str x.value)) :=
    fun sec hsec => List.pairwise_map.mpr (hn sec hsec)
  constructor
  · rintro text x ⟨sec, hsec, hsn, y, hy, hyn, rfl⟩ hd hx
    unfold Getter.read
    rw [hv1 sec hsec (hid.trans hsn.symm)]
    have h2 : lookup g.name (sec.settings.map fun x => (x.name, Value.str x.value)) = some (.str y.value) := by
      rw [← hyn]
      exact (Verif.Json.lookup_iff (hsorted sec hsec) _ _).mpr (List.mem_map.mpr ⟨y, hy, rfl⟩)
    have h3 : toInt g.ty (.str y.value) = .ok x := ((Verif.Json.json_text_to_integer g.ty y.value).1 x).mpr ⟨hd, hx⟩
    simp only [getTyped, h2, h3]
  · intro hno
    unfold Getter.read
    by_cases hsec : ∃ sec ∈ cfg, o.id = sec.name
    · obtain ⟨sec, hsec, hsn⟩ := hsec
      rw [hv1 sec hsec hsn]
      simp only [getTyped]
      cases hc : lookup g.name (sec.settings.map fun x => (x.name, Value.str x.value)) with
      | none => rfl
      | some v =>
        obtain ⟨y, hy, he⟩ := List.mem_map.mp ((Verif.Json.lookup_iff (hsorted sec hsec) _ _).mp hc)
        injection he with he1 he2
        subst he2
        have h3 : toInt g.ty (.str y.value) = .threw := by
          refine (Verif.Json.json_text_to_integer g.ty y.value).2.mpr ?_
          rintro ⟨x, hx⟩
          exact hno ⟨y.value, x, ⟨sec, hsec, hsn.symm.trans hid, y, hy, he1, rfl⟩, hx⟩
        simp only [h3]
    · rw [hv2 fun sec h1 h2 => hsec ⟨sec, h1, h2⟩]
      rfl

/-- C137 fails for INI files: whatever text is written for the setting that is a truth value, such as `false`, `no` or `0`,
it means "yes" unless it is empty. -/
theorem ini_boolean_violated (casts : Nat → Nat → Bool) (before : List Op) (hbefore : IniHistory before)
    (cfg : List Verif.Ini.Section) (hs : ∀ s ∈ cfg, s.Ok) (hne : cfg ≠ []) (hlen : (Verif.Ini.render cfg).length < 2 ^ 63)
    (hk : cfg.Pairwise (fun a b => a.name < b.name)) (hn : ∀ s ∈ cfg, s.settings.Pairwise (fun a b => a.name < b.name))
    (n : Nat) (o : Obj) (ho : (run casts (before ++ [.update (Verif.Ini.parse (Verif.Ini.render cfg))])).objs[n]? = some o)
    (hl : o.live = true) (hid : o.id = ascii "logger") (text : List Nat)
    (hw : Written cfg (ascii "logger") (ascii "compress_log_files") text) :
    (text ≠ [] → compressLogFiles o.values = .ok true) ∧ (text = [] → compressLogFiles o.values = .ok false) := by
  obtain ⟨hv1, _⟩ := ini_values casts before hbefore cfg hs hne hlen hk hn n o ho hl
  obtain ⟨sec, hsec, hsn, y, hy, hyn, rfl⟩ := hw
  have h2 : lookup (ascii "compress_log_files") (sec.settings.map fun x => (x.name, Value.str x.value)) = some (.str y.value) := by
    rw [← hyn]
    exact (Verif.Json.lookup_iff (List.pairwise_map.mpr (hn sec hsec)) _ _).mpr (List.mem_map.mpr ⟨y, hy, rfl⟩)
  unfold compressLogFiles
  rw [hv1 sec hsec (hid.trans hsn.symm)]
  simp only [getTyped, h2, Verif.Json.toBool]
  constructor
  · intro h
    cases hy : y.value with
    | nil => exact absurd hy h
    | cons _ _ => rfl
  · intro h; rw [h]; rfl

theorem wf_member {v : Value} {k : List Nat} : ∀ {m : List (List Nat × Value)}, Verif.Json.WFMembers m → (k, v) ∈ m → v.WF := by
  intro m
  induction m with
  | nil => intro _ h; cases h
  | cons p m ih =>
    obtain ⟨k', v'⟩ := p
    intro h hm
    rcases List.mem_cons.mp hm with e | hm
    · injection e with _ e2; subst e2; exact h.2.1
    · exact ih h.2.2 hm

theorem sectionOf_wf {file : Value} (hwf : file.WF) (id : List Nat) : (sectionOf id file).WF := by
  cases file with
  | obj m =>
    rw [sectionOf_obj]
    cases hc : lookup id m with
    | none => trivial
    | some v => exact wf_member hwf.2 ((Verif.Json.lookup_iff hwf.1 id v).mp hc)
  | _ => trivial

theorem stated_iff {file : Value} (hwf : file.WF) (id name : List Nat) (v : Value) :
    Stated file id name v ↔ ∃ sec, sectionOf id file = .obj sec ∧ lookup name sec = some v := by
  constructor
  · rintro ⟨m, rfl, sec, h1, h2⟩
    have hm := (Verif.Json.lookup_iff hwf.1 id (.obj sec)).mpr h1
    have hs : SortedKeys sec := (wf_member hwf.2 h1).1
    exact ⟨sec, by rw [sectionOf_obj, hm]; rfl, (Verif.Json.lookup_iff hs name v).mpr h2⟩
  · rintro ⟨sec, h1, h2⟩
    have hw := sectionOf_wf hwf id
    cases file with
    | obj m =>
      rw [sectionOf_obj] at h1
      cases hc : lookup id m with
      | none => rw [hc] at h1; cases h1
      | some w =>
        rw [hc] at h1
        have e : w = .obj sec := h1
        subst e
        have hm := (Verif.Json.lookup_iff hwf.1 id _).mp hc
        exact ⟨m, rfl, sec, hm, (Verif.Json.lookup_iff (wf_member hwf.2 hm).1 name v).mp h2⟩
    | _ => cases h1

/-- A history of a JSON manager in which every file is an object (or could not be parsed), and the last one is `text`. -/
theorem json_values (io : Verif.Json.FloatIO) (ft : Verif.Json.Features) (casts : Nat → Nat → Bool) (before : List Op)
    (hbefore : ∀ op ∈ before, KeyValueFile op) (text : List Nat) (hb : ∀ c ∈ text, c < 256) (m : List (List Nat × Value))
    (hp : Verif.Json.parse io ft text = some (.obj m)) (n : Nat) (o : Obj)
    (ho : (run casts (before ++ [.update (Verif.Json.parse io ft text)])).objs[n]? = some o) (hl : o.live = true) :
    o.values = sectionOf o.id (.obj m) ∧ (Value.obj m).WF := by
  have hwf := (Verif.Json.json_parser_all_input io ft text (.obj m) hb hp).2.2
  rw [hp] at ho
  have hr := (config_reflects_file_partial casts _ (by
    intro op hm
    rcases List.mem_append.mp hm with hm | hm
    · exact hbefore op hm
    · rw [List.mem_singleton.mp hm]; exact hwf.1) n o ho hl).1
  have e : lastFile (before ++ [.update (some (.obj m))]) = .obj m := by
    unfold lastFile; rw [List.foldl_append]; rfl
  rw [e] at hr
  exact ⟨hr, hwf⟩

/-- C137 for JSON files (missing: numbers the setting's type cannot hold, see `json_settings_violated`). After a JSON file was
read, every number setting is the number the file states if it is one of the setting's type, given as a number or as a text;
it is the default if the file does not state it, states a text that is no such number, or something that is neither. The setting that is a truth
value is the one the file states, or the default. -/
theorem json_settings_partial (io : Verif.Json.FloatIO) (ft : Verif.Json.Features) (casts : Nat → Nat → Bool) (before : List Op)
    (hbefore : ∀ op ∈ before, KeyValueFile op) (text : List Nat) (hb : ∀ c ∈ text, c < 256) (m : List (List Nat × Value))
    (hp : Verif.Json.parse io ft text = some (.obj m)) (n : Nat) (o : Obj)
    (ho : (run casts (before ++ [.update (Verif.Json.parse io ft text)])).objs[n]? = some o) (hl : o.live = true) :
    (∀ g ∈ getters, o.id = g.section →
      (∀ v x, Stated (.obj m) g.section g.name v → Denotes v x → g.ty.Holds x → g.read o.values = .ok x) ∧
      (∀ s x, Stated (.obj m) g.section g.name (.str s) → DecimalText g.ty.signed s x → g.ty.Holds x → g.read o.values = .ok x) ∧
      ((¬ ∃ v, Stated (.obj m) g.section g.name v) → g.read o.values = .ok g.dflt) ∧
      (∀ s, Stated (.obj m) g.section g.name (.str s) → (¬ ∃ x, DecimalText g.ty.signed s x ∧ g.ty.Holds x) → g.read o.values = .ok g.dflt) ∧
      (∀ v, Stated (.obj m) g.section g.name v → (v = .null ∨ (∃ b, v = .bool b) ∨ (∃ l, v = .arr l) ∨ ∃ k, v = .obj k) →
        g.read o.values = .ok g.dflt)) ∧
    (o.id = ascii "logger" →
      (∀ b, Stated (.obj m) (ascii "logger") (ascii "compress_log_files") (.bool b) → compressLogFiles o.values = .ok b) ∧
      ((¬ ∃ v, Stated (.obj m) (ascii "logger") (ascii "compress_log_files") v) → compressLogFiles o.values = .ok true)) := by
  obtain ⟨hv, hwf⟩ := json_values io ft casts before hbefore text hb m hp n o ho hl
  have absent : ∀ {α : Type} (conv : Value → Out α) (id name : List Nat) (d : α), o.id = id →
      (¬ ∃ v, Stated (.obj m) id name v) → getTyped conv o.values name d = .ok d := by
    intro α conv id name d hid hno
    rw [hv, hid]
    cases hs : sectionOf id (.obj m) with
    | obj sec =>
      simp only [getTyped]
      cases hc : lookup name sec with
      | none => rfl
      | some v => exact absurd ⟨v, (stated_iff hwf id name v).mpr ⟨sec, hs, hc⟩⟩ hno
    | _ => rfl
  have there : ∀ {α : Type} (conv : Value → Out α) (id name : List Nat) (d : α) (v : Value), o.id = id →
      Stated (.obj m) id name v → getTyped conv o.values name d = (match conv v with | .threw => .ok d | r => r) := by
    intro α conv id name d v hid h
    obtain ⟨sec, h1, h2⟩ := (stated_iff hwf id name v).mp h
    rw [hv, hid, h1]
    simp only [getTyped, h2]
  refine ⟨fun g hg hid => ⟨?_, ?_, ?_, ?_, ?_⟩, fun hid => ⟨?_, ?_⟩⟩
  · intro v x hst hd hx
    unfold Getter.read
    rw [there _ _ _ _ v hid hst, Verif.Json.json_number_exact_partial g.ty (getters_real g hg) v x hd hx]
  · intro s x hst hd hx
    unfold Getter.read
    rw [there _ _ _ _ _ hid hst, ((Verif.Json.json_text_to_integer g.ty s).1 x).mpr ⟨hd, hx⟩]
  · exact absent _ _ _ _ hid
  · intro s hst hno
    unfold Getter.read
    rw [there _ _ _ _ _ hid hst, (Verif.Json.json_text_to_integer g.ty s).2.mpr hno]
  · intro v hst hk
    unfold Getter.read
    rw [there _ _ _ _ _ hid hst]
    rcases hk with rfl | ⟨b, rfl⟩ | ⟨l, rfl⟩ | ⟨k, rfl⟩ <;> rfl
  · intro b hst
    unfold compressLogFiles
    rw [there _ _ _ _ _ hid hst]
    rfl
  · exact absent _ _ _ _ hid

/-- C137 fails for JSON files: a number the setting's type does not hold is not replaced by the default but wrapped around, and one in
floating-point notation that does not fit is undefined behaviour: a maximal code length of 267 means 11, a packet size of -1 means
2^64-1, and one of 1e20 anything. -/
theorem json_settings_violated (k : Nat) :
    maxCodeLength.read (sectionOf (ascii "coder") (.obj [(ascii "coder", .obj [(ascii "encoder_max_code_length", .uint k)])])) =
      .ok (k % 256 : Nat) ∧
    packetSize.read (sectionOf (ascii "network") (.obj [(ascii "network", .obj [(ascii "packet_size", .int (-1))])])) = .ok (2 ^ 64 - 1) ∧
    packetSize.read (sectionOf (ascii "network") (.obj [(ascii "network", .obj [(ascii "packet_size", .flt (.fin (10 ^ 20) 0))])])) = .ub := by
  refine ⟨?_, by decide +kernel, by decide +kernel⟩
  show Out.ok (Verif.Json.castTo ⟨false, 8⟩ k) = _
  unfold Verif.Json.castTo
  simp

/-- Every configuration has its defaults until a file is read, and after a file that cannot be parsed. -/
theorem settings_default (casts : Nat → Nat → Bool) (ops : List Op) (ho : ∀ op ∈ ops, KeyValueFile op) (hlast : lastFile ops = .null)
    (n : Nat) (o : Obj) (hn : (run casts ops).objs[n]? = some o) (hl : o.live = true) :
    socketIoWaitTime.read o.values = .ok 10000 ∧ packetSize.read o.values = .ok 4096 ∧
    maxLogFileSize.read o.values = .ok 20971520 ∧ maxMessageSize.read o.values = .ok 256 ∧
    pathPollInterval.read o.values = .ok 1000 ∧ systemPollInterval.read o.values = .ok 1000 ∧
    chunkSize o.values = .ok 262144 ∧ maxCodeLength.read o.values = .ok 11 ∧ compressLogFiles o.values = .ok true := by
  have h := (config_reflects_file_partial casts ops ho n o hn hl).1
  rw [hlast] at h
  have : o.values = .null := h
  rw [this]
  decide +kernel

/-- A file of one section with one setting. -/
def iniFile (sectionName name : String) (text : List Nat) : List Nat := ascii ("[" ++ sectionName ++ "]\n" ++ name ++ "=") ++ text

/-- What a setting is after that file was read. -/
def after {α : Type} (id : List Nat) (get : Value → Out α) (file : List Nat) : Option (Out α) :=
  (Verif.Ini.parse file).map fun v => get (sectionOf id v)

theorem word_file (s n text : List Nat) (hs : s ≠ [] ∧ ∀ c ∈ s, 0x5f ≤ c ∧ c ≤ 0x7a) (hn : n ≠ [] ∧ ∀ c ∈ n, 0x5f ≤ c ∧ c ≤ 0x7a)
    (ht : text ≠ [] ∧ ∀ c ∈ text, c = 0x2d ∨ Verif.Str.AsciiDigit c) (hl : s.length + n.length + text.length < 2 ^ 62) :
    Verif.Ini.parse (0x5b :: (s ++ [0x5d]) ++ 0x0a :: (n ++ 0x3d :: text)) = some (.obj [(s, .obj [(n, .str text)])]) := by
  have ht' : ∀ c ∈ text, 0x2d ≤ c ∧ c ≤ 0x39 := by
    intro c hc
    rcases ht.2 c hc with h | h
    · omega
    · unfold Verif.Str.AsciiDigit at h; omega
  have noSpace : ∀ (t : List Nat), (∀ c ∈ t, 0x2d ≤ c) → Verif.Ini.NoSpaceAround t := by
    intro t h
    have : ∀ c ∈ t, ¬ Verif.Str.AsciiSpace c := by
      intro c hc hsp
      have := h c hc
      unfold Verif.Str.AsciiSpace at hsp
      omega
    exact ⟨fun c hc => this c (List.mem_of_mem_head? hc), fun c hc => this c (List.mem_of_getLast? hc)⟩
  have bare : ∀ (t : List Nat), (∀ c ∈ t, 0x2d ≤ c) → Verif.Ini.Bare t := by
    intro t h
    refine ⟨fun e => ?_, fun e => ?_, fun e => ?_, fun e => ?_⟩
    · have := h _ (List.mem_of_mem_head? e); omega
    · have := h _ (List.mem_of_getLast? e); omega
    · have := h _ (List.mem_of_mem_head? e); omega
    · have := h _ (List.mem_of_getLast? e); omega
  have body : ∀ (t : List Nat), (∀ c ∈ t, 0x2d ≤ c ∧ c ≤ 0x7a ∧ c ≠ 0x5c) → Verif.Json.StringBody t t :=
    fun t h => Verif.Ini.plain_body fun c hc => by have := h c hc; omega
  have hx : Verif.Ini.Setting.Ok ⟨n, n, text, text, false⟩ := by
    refine ⟨body n fun c hc => ?_, body text fun c hc => ?_, hn.1, noSpace n fun c hc => ?_, bare n fun c hc => ?_, fun h => ?_, ⟨fun e => ?_, fun e => ?_⟩,
      ?_, fun _ => ⟨ht.1, noSpace text fun c hc => (ht' c hc).1, bare text fun c hc => (ht' c hc).1, fun e => ?_, fun e => ?_, fun e => ?_⟩⟩
    · have := hn.2 c hc; omega
    · have := ht' c hc; omega
    · have := hn.2 c hc; omega
    · have := hn.2 c hc; omega
    · have := hn.2 _ h; omega
    · have := hn.2 _ (List.mem_of_mem_head? e); omega
    · have := hn.2 _ (List.mem_of_mem_head? e); omega
    · rintro ⟨a, b, e⟩
      have := ht' 0x3d (by show 0x3d ∈ text; rw [show text = _ from e]; simp)
      omega
    · have := ht' _ (List.mem_of_mem_head? e); omega
    · have := ht' _ (List.mem_of_getLast? e); omega
    · have := ht' _ (List.mem_of_getLast? e); omega
  have hsec : Verif.Ini.Section.Ok ⟨s, s, [⟨n, n, text, text, false⟩]⟩ := by
    refine ⟨body s fun c hc => ?_, noSpace s fun c hc => ?_, bare s fun c hc => ?_, fun x hx' => ?_⟩
    · have := hs.2 c hc; omega
    · have := hs.2 c hc; omega
    · have := hs.2 c hc; omega
    · rw [List.mem_singleton.mp hx']; exact hx
  have e : Verif.Ini.render [⟨s, s, [⟨n, n, text, text, false⟩]⟩] = 0x5b :: (s ++ [0x5d]) ++ 0x0a :: (n ++ 0x3d :: text) := by
    simp [Verif.Ini.render, Verif.Ini.linesOf, Verif.Ini.Section.headerLine, Verif.Ini.Setting.line, Verif.Str.joinWith]
  rw [← e]
  refine Verif.Ini.ini_roundtrip [⟨s, s, [⟨n, n, text, text, false⟩]⟩] ?_ (by simp) ?_ (by simp) ?_
  · intro x hx'; rw [List.mem_singleton.mp hx']; exact hsec
  · rw [e]; simp only [List.length_append, List.length_cons, List.length_nil]; omega
  · intro x hx'; rw [List.mem_singleton.mp hx']; simp

theorem iniFile_eq (s n : String) (text : List Nat) :
    iniFile s n text = 0x5b :: (ascii s ++ [0x5d]) ++ 0x0a :: (ascii n ++ 0x3d :: text) := by
  unfold iniFile ascii
  simp

theorem after_number (g : Getter) (s n : String) (hs : g.section = ascii s) (hn : g.name = ascii n)
    (h1 : (ascii s).isEmpty = false ∧ (ascii s).all (fun c => decide (0x5f ≤ c) && decide (c ≤ 0x7a)) = true)
    (h2 : (ascii n).isEmpty = false ∧ (ascii n).all (fun c => decide (0x5f ≤ c) && decide (c ≤ 0x7a)) = true)
    (h3 : (ascii s).length + (ascii n).length < 2 ^ 32)
    (text : List Nat) (ht : text ≠ [] ∧ ∀ c ∈ text, c = 0x2d ∨ Verif.Str.AsciiDigit c) (hl : text.length < 2 ^ 61) :
    after g.section g.read (iniFile s n text) =
      some (match toInt g.ty (.str text) with | .threw => .ok g.dflt | r => r) := by
  have conv : ∀ t : List Nat, t.isEmpty = false ∧ t.all (fun c => decide (0x5f ≤ c) && decide (c ≤ 0x7a)) = true →
      t ≠ [] ∧ ∀ c ∈ t, 0x5f ≤ c ∧ c ≤ 0x7a := by
    intro t h
    refine ⟨fun e => (by rw [e] at h; exact absurd h.1 (by decide)), fun c hc => ?_⟩
    have := List.all_eq_true.mp h.2 c hc
    simpa using this
  unfold after
  rw [iniFile_eq, word_file (ascii s) (ascii n) text (conv _ h1) (conv _ h2) ht (by omega), hs]
  have e1 : sectionOf (ascii s) (.obj [(ascii s, .obj [(ascii n, .str text)])]) = .obj [(ascii n, .str text)] := by
    simp [sectionOf_obj, lookup]
  simp only [Option.map_some, e1, Getter.read, hn, getTyped]
  simp only [lookup, beq_self_eq_true, if_true]
  cases toInt g.ty (.str text) <;> rfl

/-- C137, setting by setting: in the section and under the name documented, every decimal number of the setting's type is taken (with
a minus sign only for the times), and a larger one is replaced by the default. -/
theorem ini_documented_settings (ds : List Nat) (hne : ds ≠ []) (hd : ∀ c ∈ ds, Verif.Str.AsciiDigit c) (hl : ds.length < 2 ^ 60) :
    let x := Verif.Str.numeral 10 ds
    let net := after (ascii "network")
    let log := after (ascii "logger")
    let cod := after (ascii "coder")
    net socketIoWaitTime.read (iniFile "network" "socket_io_wait_time" ds) = some (.ok (if x < 2 ^ 63 then x else 10000)) ∧
    net socketIoWaitTime.read (iniFile "network" "socket_io_wait_time" (0x2d :: ds)) = some (.ok (if x ≤ 2 ^ 63 then -x else 10000)) ∧
    net packetSize.read (iniFile "network" "packet_size" ds) = some (.ok (if x < 2 ^ 64 then x else 4096)) ∧
    net packetSize.read (iniFile "network" "packet_size" (0x2d :: ds)) = some (.ok 4096) ∧
    log maxLogFileSize.read (iniFile "logger" "max_log_file_size" ds) = some (.ok (if x < 2 ^ 64 then x else 20971520)) ∧
    log maxMessageSize.read (iniFile "logger" "max_message_size" ds) = some (.ok (if x < 2 ^ 32 then x else 256)) ∧
    after (ascii "path") pathPollInterval.read (iniFile "path" "poll_interval" ds) = some (.ok (if x < 2 ^ 63 then x else 1000)) ∧
    after (ascii "path") pathPollInterval.read (iniFile "path" "poll_interval" (0x2d :: ds)) = some (.ok (if x ≤ 2 ^ 63 then -x else 1000)) ∧
    after (ascii "system") systemPollInterval.read (iniFile "system" "poll_interval" ds) = some (.ok (if x < 2 ^ 63 then x else 1000)) ∧
    after (ascii "system") systemPollInterval.read (iniFile "system" "poll_interval" (0x2d :: ds)) = some (.ok (if x ≤ 2 ^ 63 then -x else 1000)) ∧
    cod chunkSize (iniFile "coder" "encoder_chunk_size_kb" ds) = some (.ok (if x < 2 ^ 16 then x * 1024 else 262144)) ∧
    cod maxCodeLength.read (iniFile "coder" "encoder_max_code_length" ds) = some (.ok (if x < 2 ^ 8 then x else 11)) := by
  intro x net log cod
  have hdt : ds ≠ [] ∧ ∀ c ∈ ds, c = 0x2d ∨ Verif.Str.AsciiDigit c := ⟨hne, fun c hc => .inr (hd c hc)⟩
  have hmt : (0x2d :: ds) ≠ [] ∧ ∀ c ∈ (0x2d :: ds), c = 0x2d ∨ Verif.Str.AsciiDigit c :=
    ⟨by simp, fun c hc => by rcases List.mem_cons.mp hc with h | h; exact .inl h; exact .inr (hd c h)⟩
  have pos : ∀ (t : IntTy) (d : Int),
      (match toInt t (.str ds) with | .threw => .ok d | r => r) = Out.ok (if x < 2 ^ (if t.signed then t.bits - 1 else t.bits) then (x : Int) else d) := by
    intro t d
    have hh : t.Holds (x : Int) ↔ x < 2 ^ (if t.signed then t.bits - 1 else t.bits) := by
      unfold IntTy.Holds
      have c1 : ((2 : Int) ^ (t.bits - 1)) = ((2 ^ (t.bits - 1) : Nat) : Int) := by rw [Int.natCast_pow]; rfl
      have c2 : ((2 : Int) ^ t.bits) = ((2 ^ t.bits : Nat) : Int) := by rw [Int.natCast_pow]; rfl
      rw [c1, c2]
      split
      · generalize 2 ^ (t.bits - 1) = z; omega
      · generalize 2 ^ t.bits = z; omega
    by_cases h : x < 2 ^ (if t.signed then t.bits - 1 else t.bits)
    · rw [((Verif.Json.json_text_to_integer t ds).1 x).mpr ⟨.pos ds hne hd, hh.mpr h⟩, if_pos h]
    · rw [(Verif.Json.json_text_to_integer t ds).2.mpr, if_neg h]
      rintro ⟨y, hy, hy'⟩
      cases hy with
      | pos _ _ => exact h (hh.mp hy')
      | neg ds' _ _ _ => 
        have := hd 0x2d List.mem_cons_self
        unfold Verif.Str.AsciiDigit at this; omega
  have negS : ∀ (d : Int), (match toInt ⟨true, 64⟩ (.str (0x2d :: ds)) with | .threw => .ok d | r => r) =
      Out.ok (if x ≤ 2 ^ 63 then -(x : Int) else d) := by
    intro d
    have hh : IntTy.Holds ⟨true, 64⟩ (-(x : Int)) ↔ x ≤ 2 ^ 63 := by
      unfold IntTy.Holds
      simp only [if_true]
      omega
    by_cases h : x ≤ 2 ^ 63
    · rw [((Verif.Json.json_text_to_integer ⟨true, 64⟩ (0x2d :: ds)).1 (-(x : Int))).mpr ⟨.neg ds rfl hne hd, hh.mpr h⟩, if_pos h]
    · rw [(Verif.Json.json_text_to_integer ⟨true, 64⟩ (0x2d :: ds)).2.mpr, if_neg h]
      rintro ⟨y, hy, hy'⟩
      cases hy with
      | pos _ h2 =>
        rename_i h3
        have := h3 0x2d List.mem_cons_self
        unfold Verif.Str.AsciiDigit at this; omega
      | neg ds' _ _ _ => exact h (hh.mp hy')
  have negU : ∀ (d : Int), (match toInt ⟨false, 64⟩ (.str (0x2d :: ds)) with | .threw => .ok d | r => r) = Out.ok d := by
    intro d
    rw [(Verif.Json.json_text_to_integer ⟨false, 64⟩ (0x2d :: ds)).2.mpr]
    rintro ⟨y, hy, hy'⟩
    cases hy with
    | pos _ h2 =>
      rename_i h3
      have := h3 0x2d List.mem_cons_self
      unfold Verif.Str.AsciiDigit at this; omega
    | neg ds' h _ _ => cases h
  have hl' : (0x2d :: ds).length < 2 ^ 61 := by simp only [List.length_cons]; omega
  have hl'' : ds.length < 2 ^ 61 := by omega
  have chunk : cod chunkSizeKb.read (iniFile "coder" "encoder_chunk_size_kb" ds) = some (.ok (if x < 2 ^ 16 then x else 256)) := by
    exact (after_number chunkSizeKb _ _ rfl rfl (by decide) (by decide) (by decide) ds hdt hl'').trans (congrArg some (pos _ _))
  refine ⟨?_, ?_, ?_, ?_, ?_, ?_, ?_, ?_, ?_, ?_, ?_, ?_⟩
  · exact (after_number socketIoWaitTime _ _ rfl rfl (by decide) (by decide) (by decide) ds hdt hl'').trans (congrArg some (pos _ _))
  · exact (after_number socketIoWaitTime _ _ rfl rfl (by decide) (by decide) (by decide) _ hmt hl').trans (congrArg some (negS _))
  · exact (after_number packetSize _ _ rfl rfl (by decide) (by decide) (by decide) ds hdt hl'').trans (congrArg some (pos _ _))
  · exact (after_number packetSize _ _ rfl rfl (by decide) (by decide) (by decide) _ hmt hl').trans (congrArg some (negU _))
  · exact (after_number maxLogFileSize _ _ rfl rfl (by decide) (by decide) (by decide) ds hdt hl'').trans (congrArg some (pos _ _))
  · exact (after_number maxMessageSize _ _ rfl rfl (by decide) (by decide) (by decide) ds hdt hl'').trans (congrArg some (pos _ _))
  · exact (after_number pathPollInterval _ _ rfl rfl (by decide) (by decide) (by decide) ds hdt hl'').trans (congrArg some (pos _ _))
  · exact (after_number pathPollInterval _ _ rfl rfl (by decide) (by decide) (by decide) _ hmt hl').trans (congrArg some (negS _))
  · exact (after_number systemPollInterval _ _ rfl rfl (by decide) (by decide) (by decide) ds hdt hl'').trans (congrArg some (pos _ _))
  · exact (after_number systemPollInterval _ _ rfl rfl (by decide) (by decide) (by decide) _ hmt hl').trans (congrArg some (negS _))
  · unfold cod after at chunk ⊢
    obtain ⟨v, h1, h2⟩ := Option.map_eq_some_iff.mp chunk
    rw [h1]
    simp only [Option.map_some, chunkSize, h2]
    congr 2
    split <;> omega
  · exact (after_number maxCodeLength _ _ rfl rfl (by decide) (by decide) (by decide) ds hdt hl'').trans (congrArg some (pos _ _))

/-- What that means for the Huffman encoder: with this INI file, it reports success for every input and writes something
that cannot be decoded (C11). -/
theorem ini_zero_chunk_size (input : List Nat) :
    ∃ file, Verif.Ini.parse (ascii "[coder]\nencoder_chunk_size_kb = 0") = some file ∧
      chunkSizeKb.read (sectionOf (ascii "coder") file) = .ok 0 ∧ maxCodeLength.read (sectionOf (ascii "coder") file) = .ok 11 ∧
      ∃ out, Verif.Huffman.Encodes 0 11 input out ∧ Verif.Huffman.decode out = .fail := by
  have h : ((Verif.Ini.parse (ascii "[coder]\nencoder_chunk_size_kb = 0")).map fun file =>
      let v := sectionOf (ascii "coder") file; (chunkSizeKb.read v, maxCodeLength.read v)) = some (.ok 0, .ok 11) := by
    decide +kernel
  obtain ⟨file, h1, h2⟩ := Option.map_eq_some_iff.mp h
  injection h2 with h3 h4
  exact ⟨file, h1, h3, h4, Verif.Huffman.huffman_lossless_violated 11 (by decide) input⟩

/-! ## Examples -/

/-- A file with two settings, one of them out of range: the first is taken, of the second the default is. -/
example : ((Verif.Ini.parse (ascii "[logger]\nmax_message_size = 99\nmax_log_file_size = -5\ncompress_log_files = false")).map
      fun file => let v := sectionOf (ascii "logger") file; (maxMessageSize.read v, maxLogFileSize.read v, compressLogFiles v)) =
    some (.ok 99, .ok 20971520, .ok true) := by
  decide +kernel

/-- Hypotheses of `ini_settings_partial`: a manager that made a logger configuration and then read a file. -/
example : (((run (fun _ _ => true) ([.create (ascii "logger") 0] ++
      [.update (Verif.Ini.parse (Verif.Ini.render [⟨ascii "logger", ascii "logger",
        [⟨ascii "max_message_size", ascii "max_message_size", ascii "99", ascii "99", false⟩]⟩]))])).objs[0]?).map
      fun o => (o.live, o.id, maxMessageSize.read o.values)) = some (true, maxMessageSize.section, .ok 99) := by
  decide +kernel

end Verif.Config
