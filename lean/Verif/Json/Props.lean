import Verif.Json.Text
import Verif.Json.Total
import Verif.Json.OpsProof
import Verif.Json.IterProof

/-!
# JSON: the properties C28-C38 and C76

`io` is the standard library's conversion between floating point values and text; every theorem holds
for every `io`. Texts are byte lists.
-/

namespace Verif.Json

open Verif.Unicode (WellFormed8 utf8Of)

/-- A conversion for the examples: prints `0.5`, and reads `0.5` only. -/
def halfIO : FloatIO where
  fmt := fun _ => [0x30, 0x2e, 0x35]
  ofText := fun t => if t = [0x30, 0x2e, 0x35] then some (.fin 1 1) else none

/-- `{"a": [-1, null, "é\n"], "b": 18446744073709551615}`, an example. -/
def sample : Value :=
  .obj [([0x61], .arr [.int (-1), .null, .str [0xc3, 0xa9, 0x0a]]), ([0x62], .uint (2 ^ 64 - 1))]

mutual
theorem all_mono {p q : Value → Prop} (h : ∀ v, p v → q v) : ∀ v : Value, v.All p → v.All q
  | .null, hv => h _ hv
  | .str _, hv => h _ hv
  | .obj m, hv => ⟨h _ hv.1, allMembers_mono h m hv.2⟩
  | .arr l, hv => ⟨h _ hv.1, allElems_mono h l hv.2⟩
  | .bool _, hv => h _ hv
  | .int _, hv => h _ hv
  | .uint _, hv => h _ hv
  | .flt _, hv => h _ hv
theorem allMembers_mono {p q : Value → Prop} (h : ∀ v, p v → q v) : ∀ m, AllMembers p m → AllMembers q m
  | [], _ => trivial
  | (_, v) :: m, hm => ⟨all_mono h v hm.1, allMembers_mono h m hm.2⟩
theorem allElems_mono {p q : Value → Prop} (h : ∀ v, p v → q v) : ∀ l, AllElems p l → AllElems q l
  | [], _ => trivial
  | v :: l, hl => ⟨all_mono h v hl.1, allElems_mono h l hl.2⟩
end

theorem notFloat_back {io : FloatIO} {v : Value} (h : NotFloat v) : FloatBack io v := by
  cases v <;> simp_all [NotFloat, FloatBack]

theorem notFloat_finite {v : Value} (h : NotFloat v) : FiniteFloat v := by
  cases v <;> simp_all [NotFloat, FiniteFloat]

theorem eq_container {v w : Value} (h : eq v w = true) : isContainer v = isContainer w := by
  cases v <;> cases w <;> simp_all [eq, isContainer]

theorem sample_wf : sample.WF ∧ sample.All NotFloat := by
  refine ⟨⟨?_, ?_, ⟨?_, trivial, ?_, trivial⟩, ?_, ?_, trivial⟩, ?_⟩
  · exact List.Pairwise.cons (by intro p hp; simp at hp; subst hp; exact (strLt_iff _ _).1 (by decide))
      (List.pairwise_singleton _ _)
  · exact wf8_ascii _ (by simp)
  · exact ⟨by decide, by decide⟩
  · exact (Verif.Unicode.utf8_validate_iff true [0xc3, 0xa9, 0x0a] (by simp)).1 (by decide +kernel)
  · exact wf8_ascii _ (by simp)
  · show 2 ^ 64 - 1 < 2 ^ 64
    decide
  · simp [sample, Value.All, AllMembers, AllElems, NotFloat]

/-! ## C28: serialize, then parse -/

/-- C28, values whose floating point numbers (if any) are printed as numbers that read back equal. -/
theorem json_roundtrip_floats (io : FloatIO) (ft : Features) (v : Value) (hw : v.WF)
    (hf : v.All (FloatBack io)) (hc : Container v ∨ ft.anyType = true) :
    ∃ t w, serialize io v = some t ∧ parse io ft t = some w ∧ eq v w = true := by
  obtain ⟨t, w, h1, h2, h3⟩ := serialize_value v hw hf
  refine ⟨t, w, h1, ?_, h3⟩
  rw [parse_iff io ft t w (fun c hc => (tb_value h2 c hc).1)]
  refine ⟨jtext_mono (rfc_le true ft.comments ft.trailingComma) (fun _ _ => trivial)
    ⟨[], t, [], by simp, by intro c hc; simp at hc, h2, by intro c hc; simp at hc⟩, ?_⟩
  rw [← eq_container h3]
  rcases hc with h | h
  · simp [(isContainer_iff v).2 h]
  · simp [h]

/-- C28: parsing the serialization of a value without floating point numbers yields an equal value,
whatever the parser's flags (top-level values that are neither object nor array need the flag that
allows them). -/
theorem json_roundtrip (io : FloatIO) (ft : Features) (v : Value) (hw : v.WF) (hf : v.All NotFloat)
    (hc : Container v ∨ ft.anyType = true) :
    ∃ t w, serialize io v = some t ∧ parse io ft t = some w ∧ eq v w = true :=
  json_roundtrip_floats io ft v hw (all_mono (fun _ h => notFloat_back h) v hf) hc

example : ∃ t w, serialize halfIO sample = some t ∧ parse halfIO {} t = some w ∧ eq sample w = true :=
  json_roundtrip halfIO {} sample sample_wf.1 sample_wf.2 (Or.inl (.obj _))

/-! ## C29: the serialization is RFC 8259 text -/

/-- C29 for values whose strings are UTF-8 and whose floats print as JSON numbers. Missing: strings
truncated by `resize`, infinities and NaN (`serialize_resize_violated`, `serialize_inf_violated`). -/
theorem serialize_rfc_partial (io : FloatIO) (v : Value) (hw : v.WF) (hf : v.All (FloatBack io)) :
    ∃ t w, serialize io v = some t ∧ JText io rfc8259 t w ∧ eq v w = true ∧
      ∀ c ∈ t, 0x20 ≤ c ∨ c = 0x09 ∨ c = 0x0a ∨ c = 0x0d := by
  obtain ⟨t, w, h1, h2, h3⟩ := serialize_value v hw hf
  exact ⟨t, w, h1, ⟨[], t, [], by simp, by intro c hc; simp at hc, h2, by intro c hc; simp at hc⟩, h3,
    fun c hc => (tb_value h2 c hc).2⟩

example : ∃ t w, serialize halfIO sample = some t ∧ JText halfIO rfc8259 t w ∧ eq sample w = true ∧
    ∀ c ∈ t, 0x20 ≤ c ∨ c = 0x09 ∨ c = 0x0a ∨ c = 0x0d :=
  serialize_rfc_partial halfIO sample sample_wf.1
    (all_mono (fun _ h => notFloat_back h) _ sample_wf.2)

/-- C29 fails for a string cut inside a character by `resize`: the value is reached by one call, and
serializing it dereferences an empty optional. -/
theorem serialize_resize_violated (io : FloatIO) (cap : Nat) :
    convertToString [0xc3, 0xa9] = some [0xc3, 0xa9] ∧
    serialize io (step cap (.str [0xc3, 0xa9]) (.resize 1)).1 = none := by
  have h : (step cap (.str [0xc3, 0xa9]) (.resize 1)).1 = .str [0xc3] := rfl
  refine ⟨by decide +kernel, ?_⟩
  rw [h]
  show serializeString [0xc3] = none
  decide +kernel

/-- C29 fails for an infinity, printed as `inf` (formatters.hpp uses `std::to_chars`): no RFC 8259
text. -/
theorem serialize_inf_violated (io : FloatIO) (h : io.fmt (.inf false) = [0x69, 0x6e, 0x66]) :
    serialize io (.flt (.inf false)) = some [0x69, 0x6e, 0x66] ∧
    ∀ v, ¬ JText io rfc8259 [0x69, 0x6e, 0x66] v := by
  refine ⟨by simp [serialize, h], ?_⟩
  intro v hv
  have h1 : parse io { anyType := true } [0x69, 0x6e, 0x66] = some v :=
    (parse_iff io _ _ v (by intro b hb; simp at hb; omega)).2
      ⟨jtext_mono (rfc_le true false false) (fun _ _ => trivial) hv, by simp⟩
  have h2 : parse io { anyType := true } [0x69, 0x6e, 0x66] = none := by
    have e1 : wsComments false [0x69, 0x6e, 0x66] = (true, [0x69, 0x6e, 0x66]) := by decide +kernel
    have e2 : parseValue io [0x69, 0x6e, 0x66] = .fail := by rfl
    simp [parse, parseFuel, parseJson, e1, e2]
  rw [h1] at h2; simp at h2

/-! ## C30: constructing a string -/

/-- C30: a text is accepted exactly if it is UTF-8 and a sequence of RFC 8259 characters (no raw
quote or control character, valid escapes), and what is stored is what it denotes. -/
theorem json_string_iff (t m : List Nat) (ht : ∀ b ∈ t, b < 256) :
    convertToString t = some m ↔ StringBody t m := convertToString_iff t m ht

example : convertToString [0x5c, 0x75, 0x64, 0x38, 0x33, 0x64, 0x5c, 0x75, 0x64, 0x65, 0x30, 0x30] =
    some [0xf0, 0x9f, 0x98, 0x80] := by decide +kernel

/-! ## C31: storing a string read back -/

/-- C31 fails: the stored string may be un-escaped a second time to something else, or be rejected. -/
theorem json_string_restore_violated :
    (convertToString [0x5c, 0x5c, 0x6e] = some [0x5c, 0x6e] ∧ convertToString [0x5c, 0x6e] = some [0x0a]) ∧
    (convertToString [0x5c, 0x6e] = some [0x0a] ∧ convertToString [0x0a] = none) := by decide +kernel

/-- C31 for stored strings without quotes, reverse solidi and control characters. -/
theorem json_string_restore_partial (s : List Nat) (hw : WellFormed8 s)
    (hs : ∀ c ∈ s, 0x20 ≤ c ∧ c ≠ 0x22 ∧ c ≠ 0x5c) : convertToString s = some s := by
  rw [json_string_iff s s (wf8_bytes hw)]
  refine ⟨hw, ?_⟩
  clear hw
  induction s with
  | nil => exact .nil
  | cons c s ih =>
    have := hs c List.mem_cons_self
    exact .plain this.1 this.2.1 this.2.2 (ih (fun x hx => hs x (List.mem_cons_of_mem _ hx)))

example : convertToString [0x61, 0xc3, 0xa9] = some [0x61, 0xc3, 0xa9] := by decide +kernel

theorem utf8Of_length_le (c : Nat) : (utf8Of c).length ≤ 4 := by
  unfold utf8Of; repeat' split
  all_goals simp

/-- Every escape is longer than what it denotes. -/
theorem chars_length {t m : List Nat} (h : Chars t m) :
    m.length ≤ t.length ∧ (m.length = t.length → ∀ c ∈ t, 0x20 ≤ c ∧ c ≠ 0x22 ∧ c ≠ 0x5c) := by
  induction h with
  | nil => simp
  | @plain c t m h1 h2 h3 _ ih =>
    simp only [List.length_cons, Nat.add_le_add_iff_right, Nat.add_right_cancel_iff, List.mem_cons,
      forall_eq_or_imp]
    exact ⟨ih.1, fun h => ⟨⟨h1, h2, h3⟩, ih.2 h⟩⟩
  | simple _ _ ih => simp only [List.length_cons]; exact ⟨by omega, fun h => by omega⟩
  | @uni h c t m h1 _ _ ih =>
    have := utf8Of_length_le c
    simp only [List.length_cons, List.length_append, h1.1]; exact ⟨by omega, fun h => by omega⟩
  | @pair h hi l lo t m h1 _ h2 _ _ ih =>
    have := utf8Of_length_le (0x10000 + (hi - 0xd800) * 0x400 + (lo - 0xdc00))
    simp only [List.length_cons, List.length_append, h1.1, h2.1]; exact ⟨by omega, fun h => by omega⟩

/-- C31, exactly: a string held by a Json is stored again unchanged if and only if it has no quote, no reverse
solidus and no control character; what is held is always UTF-8. -/
theorem json_string_restore_iff (t s : List Nat) (ht : ∀ b ∈ t, b < 256) (h : convertToString t = some s) :
    convertToString s = some s ↔ ∀ c ∈ s, 0x20 ≤ c ∧ c ≠ 0x22 ∧ c ≠ 0x5c := by
  have hw := chars_wf ((json_string_iff t s ht).1 h)
  constructor
  · intro h2
    exact (chars_length ((json_string_iff s s (wf8_bytes hw)).1 h2).2).2 rfl
  · exact json_string_restore_partial s hw

/-- A string that is not stored again unchanged is refused or stored as something shorter. -/
theorem json_string_restore_shorter (s s' : List Nat) (hb : ∀ b ∈ s, b < 256) (h : convertToString s = some s') :
    s' = s ∨ s'.length < s.length := by
  obtain ⟨h1, h2⟩ := (json_string_iff s s' hb).1 h
  rcases Nat.lt_or_eq_of_le (chars_length h2).1 with h3 | h3
  · exact .inr h3
  · have := json_string_restore_partial s h1 ((chars_length h2).2 h3)
    rw [h] at this
    cases this
    exact .inl rfl


/-! ## C32: equality -/

/-- C32 fails: `-1 == -1.0`, and `-1` (signed) equals 2^64 - 1 (unsigned), but `-1.0` does not. -/
theorem json_eq_trans_violated :
    eq (.flt (.fin (-1) 0)) (.int (-1)) = true ∧ eq (.int (-1)) (.uint (2 ^ 64 - 1)) = true ∧
    eq (.flt (.fin (-1) 0)) (.uint (2 ^ 64 - 1)) = false := by decide +kernel

/-- C32 fails among floats as well: 0, 2^-63, 2^-62. -/
theorem json_eq_trans_floats_violated :
    eq (.flt (.fin 0 0)) (.flt (.fin 1 63)) = true ∧ eq (.flt (.fin 1 63)) (.flt (.fin 1 62)) = true ∧
    eq (.flt (.fin 0 0)) (.flt (.fin 1 62)) = false := by decide +kernel

/-- C32 fails: infinities and NaN are not equal to themselves. -/
theorem json_eq_refl_violated : eq (.flt .nan) (.flt .nan) = false ∧
    eq (.flt (.inf true)) (.flt (.inf true)) = false := by decide +kernel

/-- C32: symmetric on all values, reflexive without infinities and NaN, transitive without floats. -/
theorem json_eq_equivalence_partial :
    (∀ a b : Value, a.WF → b.WF → eq a b = true → eq b a = true) ∧
    (∀ a : Value, a.All FiniteFloat → eq a a = true) ∧
    (∀ a b c : Value, a.WF → b.WF → c.WF → a.All NotFloat → b.All NotFloat → c.All NotFloat →
      eq a b = true → eq b c = true → eq a c = true) := by
  refine ⟨?_, eq_refl, ?_⟩
  · intro a b ha hb h
    rw [← eq_symm a b ha hb]; exact h
  · intro a b c ha hb hc fa fb fc h1 h2
    rw [eq_bits _ _ ha hc fa fc]
    rw [eq_bits _ _ ha hb fa fb] at h1
    rw [eq_bits _ _ hb hc fb fc] at h2
    rw [h1, h2]

example : eq (.arr [.int 1]) (.arr [.uint 1]) = true ∧ (Value.arr [.int 1]).WF ∧
    (Value.arr [.int 1]).All NotFloat := by
  refine ⟨by decide, ⟨⟨by decide, by decide⟩, trivial⟩, ?_⟩
  simp [Value.All, AllElems, NotFloat]

/-! ## C33: order -/

/-- C33 fails: signed -1 is below unsigned 0 and unsigned 0 is below signed -1. -/
theorem json_order_violated :
    less (.int (-1)) (.uint 0) = true ∧ less (.uint 0) (.int (-1)) = true := by decide +kernel

/-- C33 for values without floats whose integers are all signed, or all unsigned, or all between 0 and
2^63 - 1: exactly one of `<`, `==`, `>` holds, and `<` is transitive. -/
theorem json_order_partial (c : NumClass) :
    (∀ a b : Value, a.All c.holds → b.All c.holds →
      Tri (less a b = true) (eq a b = true) (less b a = true)) ∧
    (∀ a : Value, a.All c.holds → less a a = false) ∧
    (∀ a b d : Value, a.All c.holds → b.All c.holds → d.All c.holds →
      less a b = true → less b d = true → less a d = true) := by
  have tri : ∀ a b : Value, a.All c.holds → b.All c.holds →
      Tri (less a b = true) (eq a b = true) (less b a = true) := by
    intro a b ha hb
    have h := less_tri (canon a) (canon b) (canon_only a ha) (canon_only b hb)
    obtain ⟨h1, h2⟩ := less_canon a b ha hb
    rw [h1, h2]
    unfold Tri at h ⊢
    rw [eq_canon a b ha hb]; exact h
  refine ⟨tri, ?_, ?_⟩
  · intro a ha
    have := tri a a ha ha
    unfold Tri at this
    cases hl : less a a with
    | false => rfl
    | true => rw [hl] at this; simp at this
  · intro a b d ha hb hd h1 h2
    rw [(less_canon a b ha hb).1] at h1
    rw [(less_canon b d hb hd).1] at h2
    rw [(less_canon a d ha hd).1]
    exact less_trans _ _ _ (canon_only a ha) (canon_only b hb) (canon_only d hd) h1 h2

example : (Value.arr [.int (-1), .str [0x61]]).All NumClass.signed.holds := by
  simp [Value.All, AllElems, NumClass.holds]

/-- C33: the other comparison operators agree with `<`. -/
theorem json_order_operators (a b : Value) :
    (lessEq a b = true ↔ less b a = false) ∧ (greater a b = true ↔ less b a = true) ∧
    (greaterEq a b = true ↔ less a b = false) := by
  unfold greater lessEq greaterEq
  refine ⟨by simp, ?_, by simp⟩
  cases less b a <;> simp

/-! ## C34: hashes -/

/-- C34 fails: equal values with integers of different kinds hash differently whenever `std::hash`
maps 1 of both integer types to 1 (libstdc++: the identity). -/
theorem json_hash_violated (h : Hashers) (h1 : h.int 1 = 1) (h2 : h.uint 1 = 1) :
    eq (.int 1) (.uint 1) = true ∧ hash h (.int 1) ≠ hash h (.uint 1) := by
  refine ⟨by decide, ?_⟩
  simp only [hash, h1, h2]
  decide +kernel

/-- C34 for values without floats whose integers are all signed or all unsigned. -/
theorem json_hash_partial (h : Hashers) (c : NumClass) (hc : c ≠ .common) (a b : Value)
    (ha : a.All c.holds) (hb : b.All c.holds) (he : eq a b = true) : hash h a = hash h b := by
  rw [eq_same hc a b ha hb he]

example : eq (.arr [.uint 3]) (.arr [.uint 3]) = true ∧
    (Value.arr [.uint 3]).All NumClass.unsigned.holds := by
  refine ⟨by decide, ?_⟩
  simp [Value.All, AllElems, NumClass.holds]

/-! ## C35: container operations -/

/-- C35, except for the calls `Deviates` (which throw but change the value): every history of calls
gives the results of the same operations on a finite map or a sequence. -/
theorem json_containers_partial {cap : Nat} (hc : cap < 2 ^ 63) (v : Value) (hv : Fits cap v)
    (ops : List Op) (ho : ∀ o ∈ ops, o.Ok) (hd : NoDeviation cap v ops) :
    History cap (abs v) ops (abs (run cap v ops).1) (run cap v ops).2 := run_expected hc ops v hv ho hd

example : (run 100 .null [.pushBack (.int 1), .setIdx 2 (.bool true), .popBack, .size]) =
    (.arr [.int 1, .null], [.unit, .unit, .unit, .num 2]) ∧
    NoDeviation 100 .null [.pushBack (.int 1), .setIdx 2 (.bool true), .popBack, .size] := by
  refine ⟨rfl, ?_, ?_, ?_, ?_, trivial⟩
  · exact fun h => h
  · rintro (⟨h, _⟩ | ⟨_, h⟩)
    · cases h
    · exact absurd h (by decide)
  · exact fun h => h
  · exact fun h => h

/-- C35 fails: `json[key]` with an invalid key throws but turns null into an empty object, and so does
`merge` with an array; `json[SIZE_MAX]` throws but empties the array. -/
theorem json_containers_violated (cap : Nat) (raw : List Nat) (hr : convertToString raw = none)
    (l : List Value) (hl : l.length < 2 ^ 64) :
    step cap .null (.subKey raw) = (.obj [], .threw) ∧
    step cap .null (.merge (.arr l)) = (.obj [], .threw) ∧
    step cap (.arr l) (.subIdx (2 ^ 64 - 1)) = (.arr [], .threw) := by
  refine ⟨?_, rfl, ?_⟩
  · simp [step, withSubscript, asObject, hr]
  · have hg : growTo cap (2 ^ 64 - 1) l = ([], false) := by
      unfold growTo
      have e : (2 ^ 64 - 1 + 1) % 2 ^ 64 = 0 := by decide
      rw [e]
      by_cases h : 2 ^ 64 - 1 < l.length
      · omega
      · rw [if_neg h]
        simp [resizeTo]
    simp only [step, withIndex, asArray, hg]
    simp

/-- `"` is an invalid key. -/
example : convertToString [0x22] = none := by decide +kernel

/-! ## C36: iterators -/

/-- C36, except for the offset -2^63 (`std::abs` of it is undefined): every sequence of operations on
an iterator behaves like a cursor into the container, stays between begin and end, and reads only
elements of the container. -/
theorem json_iterators_partial (v : Value) (l : List Value) (_hv : elements v = some l) (pos : Nat)
    (hp : pos ≤ l.length) (ops : List ItOp) (ho : ∀ o ∈ ops, o.Ok) :
    ∃ q xs, itRun v l pos ops = .ok (q, xs) ∧ q ≤ l.length ∧ (∀ x ∈ xs, x ∈ l) ∧
      ItHistory (isArr v) l pos ops q xs := hasOffsets_isArr v ▸ iter_run ops pos hp ho

example : itRun (.arr [.int 1, .int 2]) [.int 1, .int 2] 0 [.inc, .get, .inc, .get, .inc, .index (-1)] =
    .ok (2, [.int 2, .int 2]) := rfl

/-- C36 fails for the offset -2^63. -/
theorem json_iterators_violated (l : List Value) (pos : Nat) :
    itStep (.arr l) l pos (.add (-(2 ^ 63))) = .ub ∧ itStep (.arr l) l pos (.sub (-(2 ^ 63))) = .ub := by
  simp [itStep, hasOffsets, moveBy, validateOffset, negate]

/-! ## C37: what the parser accepts -/

/-- C37 fails: `[\v]` is accepted, although a vertical tab is no JSON white space. -/
theorem json_parser_strict_violated (io : FloatIO) :
    parse io {} [0x5b, 0x0b, 0x5d] = some (.arr []) ∧ ∀ v, ¬ JText io rfc8259 [0x5b, 0x0b, 0x5d] v := by
  refine ⟨?_, ?_⟩
  · rw [parse_iff io {} _ _ (by intro b hb; simp at hb; omega)]
    refine ⟨⟨[], [0x5b, 0x0b, 0x5d], [], rfl, .nil, ?_, Or.inl .nil⟩, rfl⟩
    exact JValue.arr0 (a := [0x0b]) (.ws (by omega) .nil)
  · intro v hv
    have := (tb_text hv 0x0b (by simp)).2
    omega

/-- C37: without flags, a text without vertical tabs is accepted exactly if it is an RFC 8259 object or
array, and the result is the value it denotes; every RFC 8259 object or array is accepted. -/
theorem json_parser_strict_partial (io : FloatIO) (s : List Nat) (v : Value) (hb : ∀ b ∈ s, b < 256) :
    ((∀ c ∈ s, c ≠ 0x0b) →
      (parse io {} s = some v ↔ JText io rfc8259 s v ∧ Container v)) ∧
    (JText io rfc8259 s v → Container v → parse io {} s = some v) := by
  have h1 := parse_iff io {} s v hb
  have back : JText io rfc8259 s v → Container v → parse io {} s = some v := by
    intro h hc
    rw [h1]
    exact ⟨jtext_mono (rfc_le true false false) (fun _ _ => trivial) h, by simp [(isContainer_iff v).2 hc]⟩
  refine ⟨?_, back⟩
  intro hv
  constructor
  · intro h
    obtain ⟨h2, h3⟩ := h1.1 h
    exact ⟨jtext_mono le_rfc hv h2, (isContainer_iff v).1 (by simpa using h3)⟩
  · rintro ⟨h, hc⟩; exact back h hc

example : ∀ io, parse io {} [0x7b, 0x7d] = some (.obj []) := by
  intro io
  refine (json_parser_strict_partial io _ _ (by intro b hb; simp at hb; omega)).2 ?_ (.obj _)
  exact ⟨[], [0x7b, 0x7d], [], rfl, by intro c hc; simp at hc, .obj0 (a := []) (by intro c hc; simp at hc),
    by intro c hc; simp at hc⟩

/-- C37: comments and trailing commas only with their flags (`dialect false false trailing` has no
comments, `dialect _ _ false` no trailing commas), and without comments nothing else is tolerated. -/
theorem json_parser_flags (io : FloatIO) (ft : Features) (s : List Nat) (v : Value)
    (hb : ∀ b ∈ s, b < 256) (h : parse io ft s = some v) :
    JText io (dialect true ft.comments ft.trailingComma) s v ∧
    (ft.comments = false → JText io (dialect false false ft.trailingComma) s v) ∧
    (ft.anyType = false → Container v) := by
  obtain ⟨h1, h2⟩ := (parse_iff io ft s v hb).1 h
  refine ⟨h1, ?_, ?_⟩
  · intro hc
    unfold Features.lang at h1
    rw [hc] at h1
    exact jtext_mono (lenient_le _) (fun _ _ => trivial) h1
  · intro ha
    rw [ha] at h2; exact (isContainer_iff v).1 (by simpa using h2)

/-! ## C38: all input, last duplicate -/

/-- C38: a successful parse accounts for every byte of the input: blanks, one value, blanks. The value
is the one the grammar assigns to the text (in which the last of several entries with the same key
wins, `MapOf`), and it is the only one. -/
theorem json_parser_all_input (io : FloatIO) (ft : Features) (s : List Nat) (v : Value)
    (hb : ∀ b ∈ s, b < 256) (h : parse io ft s = some v) :
    (∃ a t b, s = a ++ t ++ b ∧ ft.lang.blank a ∧ JValue io ft.lang t v ∧ ft.lang.final b) ∧
    (∀ w, JText io ft.lang s w → w = v) ∧ v.WF := by
  have h1 := ((parse_iff io ft s v hb).1 h).1
  refine ⟨h1, ?_, jtext_wf h1⟩
  intro w hw
  have e : ({ ft with anyType := true } : Features).lang = ft.lang := rfl
  have hv := (parse_iff io { ft with anyType := true } s v hb).2 ⟨e ▸ h1, by simp⟩
  have hw' := (parse_iff io { ft with anyType := true } s w hb).2 ⟨e ▸ hw, by simp⟩
  rw [hv] at hw'
  simpa using hw'.symm

/-- C38, duplicates: for two entries whose key texts denote the same key, the object has one entry,
with the second value. -/
theorem json_parser_duplicate (io : FloatIO) (ft : Features) (t1 t2 k u1 u2 : List Nat) (v1 v2 : Value)
    (h1 : StringBody t1 k) (h2 : StringBody t2 k) (hu1 : JValue io rfc8259 u1 v1)
    (hu2 : JValue io rfc8259 u2 v2) :
    parse io ft (0x7b :: (0x22 :: (t1 ++ 0x22 :: 0x3a :: u1) ++ 0x2c ::
      (0x22 :: (t2 ++ 0x22 :: 0x3a :: u2)) ++ [0x7d])) = some (.obj [(k, v2)]) := by
  have ws : RfcWs [] := by intro c hc; simp at hc
  have m1 : JMember io rfc8259 (0x22 :: (t1 ++ 0x22 :: ([] ++ 0x3a :: ([] ++ u1)))) k v1 :=
    .mk h1 ws ws hu1
  have m2 : JMember io rfc8259 (0x22 :: (t2 ++ 0x22 :: ([] ++ 0x3a :: ([] ++ u2)))) k v2 :=
    .mk h2 ws ws hu2
  have ms : JMembers io rfc8259 ([] ++ 0x2c :: ([] ++ (0x22 :: (t2 ++ 0x22 :: ([] ++ 0x3a :: ([] ++ u2)))) ++
    [])) [(k, v2)] := .cons ws ws m2 (.nil ws)
  have mo : MapOf [(k, v1), (k, v2)] [(k, v2)] := by
    refine ⟨by simp [SortedKeys], ?_⟩
    intro k' v'
    simp only [lastOf, List.reverse_cons, List.reverse_nil, List.nil_append, List.cons_append,
      List.find?_cons, List.find?_nil, List.mem_cons, List.not_mem_nil, or_false, Prod.mk.injEq]
    by_cases h : k = k'
    · subst h; simp [eq_comm]
    · have : (k == k') = false := by simp [h]
      simp [this, Ne.symm h]
  have jv := JValue.obj (io := io) (D := rfc8259) (a := []) ws m1 ms mo
  have jt : JText io rfc8259 (0x7b :: (0x22 :: (t1 ++ 0x22 :: 0x3a :: u1) ++ 0x2c ::
      (0x22 :: (t2 ++ 0x22 :: 0x3a :: u2)) ++ [0x7d])) (.obj [(k, v2)]) := by
    refine ⟨[], _, [], ?_, ws, jv, ws⟩
    simp
  rw [parse_iff io ft _ _ (fun c hc => (tb_text jt c hc).1)]
  exact ⟨jtext_mono (rfc_le true ft.comments ft.trailingComma) (fun _ _ => trivial) jt, by simp [isContainer]⟩

example : StringBody [0x61] [0x61] ∧ StringBody [0x5c, 0x75, 0x30, 0x30, 0x36, 0x31] [0x61] :=
  ⟨(json_string_iff _ _ (by simp)).1 (by decide +kernel),
    (json_string_iff _ _ (by intro b hb; simp at hb; omega)).1 (by decide +kernel)⟩

/-! ## C76: comments -/

/-- C76: with any flags, the parser accepts exactly the language `Features.lang`; texts without a
solidus are treated as if comments were not allowed. -/
theorem json_parser_language (io : FloatIO) (ft : Features) (s : List Nat) (v : Value)
    (hb : ∀ b ∈ s, b < 256) :
    (parse io ft s = some v ↔ JText io (dialect true ft.comments ft.trailingComma) s v ∧
      (Container v ∨ ft.anyType = true)) ∧
    ((∀ c ∈ s, c ≠ 0x2f) → parse io ft s = some v →
      parse io { ft with comments := false } s = some v) := by
  have key := fun ft => parse_iff io ft s v hb
  refine ⟨?_, ?_⟩
  · rw [key ft]
    simp [Features.lang, isContainer_iff]
  · intro hs h
    rw [key] at h ⊢
    exact ⟨jtext_mono (strict_le false ft.trailingComma) (fun _ _ => trivial)
      (jtext_mono (comments_le true ft.comments ft.trailingComma) hs h.1), h.2⟩

/-- C76 fails: with comments allowed, a solidus and any one byte after a comma are skipped: `[1,/x2]`
is read as `[1,2]`. -/
theorem json_parser_comment_violated (io : FloatIO) :
    parse io { comments := true } [0x5b, 0x31, 0x2c, 0x2f, 0x78, 0x32, 0x5d] =
      some (.arr [.uint 1, .uint 2]) := by
  rw [parse_iff io _ _ _ (by intro b hb; simp at hb; omega)]
  have n1 : Number io [0x31] (.uint 1) := .uint (ds := [0x31]) (Or.inr ⟨0x31, [], rfl, by omega, by omega, by simp⟩)
    (by decide)
  have n2 : Number io [0x32] (.uint 2) := .uint (ds := [0x32]) (Or.inr ⟨0x32, [], rfl, by omega, by omega, by simp⟩)
    (by decide)
  refine ⟨⟨[], [0x5b, 0x31, 0x2c, 0x2f, 0x78, 0x32, 0x5d], [], rfl, .nil, ?_, Or.inl .nil⟩, rfl⟩
  refine JValue.arr (a := []) (t := [0x31]) (r := [0x2c, 0x2f, 0x78, 0x32]) .nil (.num n1) ?_
  refine JElems.cons (b := []) (c := [0x2f, 0x78]) (t := [0x32]) (r := []) .nil ?_ (.num n2) (.nil .nil)
  exact Or.inr ⟨rfl, [], 0x78, [], rfl, .nil, by decide, by decide, .nil, rfl⟩

end Verif.Json
