import Verif.Config.Props
import Verif.Ini.Props
import Verif.Json.Props

/-!
# Configurations together with the parsers
-/

namespace Verif.Config

open Verif.Json (Value lookup SortedKeys)

/-- Whatever an INI file contains, what the INI parser makes of it is a file of key-value pairs or nothing. So
`config_reflects_file_partial` covers every history of a manager of INI files (smaller than 2^63 bytes). -/
theorem ini_files_are_key_value (text : List Nat) (hb : ∀ c ∈ text, c < 256) (hs : text.length < 2 ^ 63) :
    KeyValueFile (.update (Verif.Ini.parse text)) := by
  cases hp : Verif.Ini.parse text with
  | none => trivial
  | some v =>
    obtain ⟨_, _, _, _, _, _, m, _, hm, rfl⟩ := (Verif.Ini.ini_language text hb hs v).mp hp
    exact hm.1

/-- A file with one setting (`[a]`, `x=1`). -/
example : KeyValueFile (.update (Verif.Ini.parse [0x5b, 0x61, 0x5d, 0x0a, 0x78, 0x3d, 0x31])) ∧
    Verif.Ini.parse [0x5b, 0x61, 0x5d, 0x0a, 0x78, 0x3d, 0x31] = some (.obj [([0x61], .obj [([0x78], .str [0x31])])]) :=
  ⟨ini_files_are_key_value _ (by decide) (by decide), by with_unfolding_all rfl⟩

/-- What the JSON parser makes of a file is well-formed. -/
theorem json_files_are_well_formed (io : Verif.Json.FloatIO) (ft : Verif.Json.Features) (text : List Nat) (hb : ∀ c ∈ text, c < 256) :
    WellFormedFile (.update (Verif.Json.parse io ft text)) := by
  cases hp : Verif.Json.parse io ft text with
  | none => trivial
  | some v =>
    have := (Verif.Json.json_parser_all_input io ft text v hb hp).2.2
    cases v with
    | obj m => exact this.1
    | _ => trivial

/-- A JSON file with a section, whatever the floating-point library. -/
example (io : Verif.Json.FloatIO) :
    WellFormedFile (.update (Verif.Json.parse io ⟨false, false, false⟩ [0x7b, 0x22, 0x61, 0x22, 0x3a, 0x7b, 0x7d, 0x7d])) :=
  json_files_are_well_formed _ _ _ (by decide)

/-- C50 for INI files, from text to value: after the file was written as `render cfg` and read, every configuration
someone holds gives each setting of its section, converted, or the default if it cannot be converted. -/
theorem ini_config_end_to_end (casts : Nat → Nat → Bool) (before : List Op)
    (hbefore : ∀ op ∈ before, (∃ t, op = .update (Verif.Ini.parse t) ∧ (∀ c ∈ t, c < 256) ∧ t.length < 2 ^ 63) ∨ ∀ p, op ≠ .update p)
    (cfg : List Verif.Ini.Section) (hs : ∀ s ∈ cfg, s.Ok) (hne : cfg ≠ []) (hlen : (Verif.Ini.render cfg).length < 2 ^ 63)
    (hk : cfg.Pairwise (fun a b => a.name < b.name)) (hn : ∀ s ∈ cfg, s.settings.Pairwise (fun a b => a.name < b.name))
    (n : Nat) (o : Obj) (ho : (run casts (before ++ [.update (Verif.Ini.parse (Verif.Ini.render cfg))])).objs[n]? = some o)
    (hl : o.live = true) (sec : Verif.Ini.Section) (hsec : sec ∈ cfg) (hid : o.id = sec.name) (x : Verif.Ini.Setting)
    (hx : x ∈ sec.settings) {α : Type} (conv : Value → Option α) (dflt : α) :
    getValue conv o.values x.name dflt = (conv (.str x.value)).getD dflt := by
  have hp := Verif.Ini.ini_roundtrip cfg hs hne hlen hk hn
  rw [hp] at ho
  have hsorted : SortedKeys (cfg.map fun s => (s.name, Value.obj (s.settings.map fun x => (x.name, .str x.value)))) :=
    List.pairwise_map.mpr hk
  have hr := config_reflects_file_partial casts _ (by
    intro op hm
    rcases List.mem_append.mp hm with hm | hm
    · rcases hbefore op hm with ⟨t, rfl, h1, h2⟩ | h
      · exact ini_files_are_key_value t h1 h2
      · cases op with
        | update p => exact absurd rfl (h p)
        | _ => trivial
    · rw [List.mem_singleton.mp hm]; exact hsorted) n o ho hl
  have e : lastFile (before ++ [.update (some (.obj (cfg.map fun s => (s.name, Value.obj (s.settings.map fun x => (x.name, .str x.value))))))]) =
      .obj (cfg.map fun s => (s.name, Value.obj (s.settings.map fun x => (x.name, .str x.value)))) := by
    unfold lastFile; rw [List.foldl_append]; rfl
  rw [e] at hr
  have h1 : lookup sec.name (cfg.map fun s => (s.name, Value.obj (s.settings.map fun x => (x.name, .str x.value)))) =
      some (.obj (sec.settings.map fun x => (x.name, .str x.value))) :=
    (Verif.Json.lookup_iff hsorted _ _).mpr (List.mem_map.mpr ⟨sec, hsec, rfl⟩)
  have h2 : lookup x.name (sec.settings.map fun x => (x.name, Value.str x.value)) = some (.str x.value) :=
    (Verif.Json.lookup_iff (List.pairwise_map.mpr (hn sec hsec)) _ _).mpr (List.mem_map.mpr ⟨x, hx, rfl⟩)
  have h3 : o.values = .obj (sec.settings.map fun x => (x.name, .str x.value)) := by
    rw [hr.1, hid]; simp only [sectionOf_obj, h1, Option.getD_some]
  rw [h3]
  simp only [getValue, h2]

/-- The hypotheses of `ini_config_end_to_end` about the manager are met: a configuration of section `srv` made before
the file (of `Verif.Ini.sampleCfg`, whose conditions are shown in `Verif.Ini`) is read. -/
example : ((run (fun _ _ => true) ([.create [0x73, 0x72, 0x76] 0] ++
      [.update (Verif.Ini.parse (Verif.Ini.render Verif.Ini.sampleCfg))])).objs[0]?).map
      (fun o => (o.live, o.id)) = some (true, [0x73, 0x72, 0x76]) ∧
    Verif.Ini.sampleCfg.map (·.name) = [[0x73, 0x72, 0x76]] := by
  constructor
  · decide +kernel
  · rfl

end Verif.Config
