import Verif.Json.Props
import Verif.Unicode.Unescape

/-!
# C29: the exact text of a serialization; C33: what the order means
-/

namespace Verif.Json

open Verif.Unicode (WellFormed8 Scalar utf8Of utf16Of LowerHexRun escape escape_format wf8_iff)
open Verif.Str (AsciiDigit numeral)

/-! ## Specification -/

/-- The text of one character inside quotes: a two-character escape where RFC 8259 has one (except
for `/`), printable ASCII as it is, anything else as `\u` escapes of its UTF-16 form. -/
inductive CharText : Nat → List Nat → Prop
  | short {c e : Nat} : (e, c) ∈ simpleEscapes → c ≠ 0x2f → CharText c [0x5c, e]
  | plain {c : Nat} : 0x20 ≤ c → c ≤ 0x7e → c ≠ 0x22 → c ≠ 0x5c → CharText c [c]
  | bmp {c : Nat} {h : List Nat} : ¬ (0x20 ≤ c ∧ c ≤ 0x7e) → (∀ e, (e, c) ∉ simpleEscapes) → c ≤ 0xffff →
      LowerHexRun 4 h c → CharText c (0x5c :: 0x75 :: h)
  | pair {c hi lo : Nat} {h l : List Nat} : utf16Of c = [hi, lo] → LowerHexRun 4 h hi → LowerHexRun 4 l lo →
      CharText c (0x5c :: 0x75 :: (h ++ 0x5c :: 0x75 :: l))

/-- The texts of the characters of a string. -/
inductive CharsText : List Nat → List Nat → Prop
  | nil : CharsText [] []
  | cons {c cps t r} : CharText c t → CharsText cps r → CharsText (c :: cps) (t ++ r)

/-- A quoted string. -/
def StringText (s t : List Nat) : Prop :=
  ∃ cps r, (∀ c ∈ cps, Scalar c) ∧ s = cps.flatMap utf8Of ∧ CharsText cps r ∧ t = 0x22 :: (r ++ [0x22])

/-- The texts of the parts, separated by single commas. -/
def commaList (ts : List (List Nat)) : List Nat := [0x2c].intercalate ts

mutual
/-- The one text a value is written as: no blanks, members in key order, numbers without leading
zeros or plus signs. -/
inductive Text (io : FloatIO) : Value → List Nat → Prop
  | null : Text io .null [0x6e, 0x75, 0x6c, 0x6c]
  | tru : Text io (.bool true) [0x74, 0x72, 0x75, 0x65]
  | fals : Text io (.bool false) [0x66, 0x61, 0x6c, 0x73, 0x65]
  | str {s t} : StringText s t → Text io (.str s) t
  | nat {i ds} : 0 ≤ i → IntPart ds → (numeral 10 ds : Int) = i → Text io (.int i) ds
  | neg {i ds} : i < 0 → IntPart ds → -(numeral 10 ds : Int) = i → Text io (.int i) (0x2d :: ds)
  | uint {n ds} : IntPart ds → numeral 10 ds = n → Text io (.uint n) ds
  | flt {f} : Text io (.flt f) (io.fmt f)
  | arr {l ts} : Texts io l ts → Text io (.arr l) (0x5b :: (commaList ts ++ [0x5d]))
  | obj {m ts} : MemberTexts io m ts → Text io (.obj m) (0x7b :: (commaList ts ++ [0x7d]))
/-- Those of the elements. -/
inductive Texts (io : FloatIO) : List Value → List (List Nat) → Prop
  | nil : Texts io [] []
  | cons {v l t ts} : Text io v t → Texts io l ts → Texts io (v :: l) (t :: ts)
/-- Those of the members. -/
inductive MemberTexts (io : FloatIO) : List (List Nat × Value) → List (List Nat) → Prop
  | nil : MemberTexts io [] []
  | cons {k v m tk t ts} : StringText k tk → Text io v t → MemberTexts io m ts →
      MemberTexts io ((k, v) :: m) ((tk ++ 0x3a :: t) :: ts)
end

/-! ## Proof: the serializer writes it -/

theorem charText_escOne {c : Nat} (hc : Scalar c) : CharText c (escOne c) := by
  unfold escOne
  cases hw : writeSimple c with
  | some e =>
    obtain ⟨h1, h2⟩ := (writeSimple_iff c e).1 hw
    exact .short h1 h2
  | none =>
    have hn : ∀ e, ¬ ((e, c) ∈ simpleEscapes ∧ c ≠ 0x2f) := by
      intro e he
      rw [(writeSimple_iff c e).2 he] at hw; cases hw
    simp only
    rcases escape_format true c hc with ⟨h1, h2, h3⟩ | ⟨h1, h2, h, h3, h4⟩ | ⟨_, h, _⟩ |
        ⟨_, _, hi, lo, h, l, h1, h2, h3, h4⟩
    · rw [h3]
      refine .plain h1 h2 ?_ ?_
      · rintro rfl; exact hn 0x22 ⟨by simp [simpleEscapes], by decide⟩
      · rintro rfl; exact hn 0x5c ⟨by simp [simpleEscapes], by decide⟩
    · rw [h4]
      refine .bmp h1 ?_ h2 h3
      intro e he
      refine hn e ⟨he, ?_⟩
      rintro rfl; omega
    · cases h
    · rw [h4]; exact .pair h1 h2 h3

theorem charsText_flat : ∀ cps : List Nat, (∀ c ∈ cps, Scalar c) → CharsText cps (cps.flatMap escOne) := by
  intro cps
  induction cps with
  | nil => intro _; exact .nil
  | cons c cps ih =>
    intro h
    rw [List.flatMap_cons]
    exact .cons (charText_escOne (h c (by simp))) (ih (fun x hx => h x (List.mem_cons_of_mem _ hx)))

theorem stringText_wf {s : List Nat} (h : WellFormed8 s) :
    ∃ t, serializeString s = some t ∧ StringText s t := by
  obtain ⟨cps, h1, rfl⟩ := (wf8_iff s).1 h
  refine ⟨0x22 :: (cps.flatMap escOne ++ [0x22]), ?_, cps, _, h1, rfl, charsText_flat cps h1, rfl⟩
  unfold serializeString
  rw [escapeBody_flat cps h1]; rfl

theorem commaList_cons (t : List Nat) (ts : List (List Nat)) :
    commaList (t :: ts) = commaThen (!ts.isEmpty) t (commaList ts) := by
  unfold commaList commaThen
  cases ts with
  | nil => simp [List.intercalate]
  | cons u ts => simp [List.intercalate, List.intersperse]

mutual
theorem text_value {io : FloatIO} : ∀ (v : Value), v.WF → ∃ t, serialize io v = some t ∧ Text io v t
  | .null, _ => ⟨_, rfl, .null⟩
  | .str s, h => by
    obtain ⟨t, h1, h2⟩ := stringText_wf h
    exact ⟨t, by rw [serialize]; exact h1, .str h2⟩
  | .bool true, _ => ⟨_, rfl, .tru⟩
  | .bool false, _ => ⟨_, rfl, .fals⟩
  | .int i, _ => by
    obtain ⟨h1, h2⟩ := digits_intPart i.natAbs
    rw [serialize, fmtInt]
    split
    · exact ⟨_, rfl, .neg (by assumption) h1 (by rw [h2]; omega)⟩
    · exact ⟨_, rfl, .nat (by omega) h1 (by rw [h2]; omega)⟩
  | .uint n, _ => by
    obtain ⟨h1, h2⟩ := digits_intPart n
    exact ⟨_, by rw [serialize], .uint h1 h2⟩
  | .flt f, _ => ⟨_, by rw [serialize], .flt⟩
  | .arr l, h => by
    obtain ⟨ts, h1, h2⟩ := text_elems (io := io) l h
    exact ⟨_, by rw [serialize, h1]; rfl, .arr h2⟩
  | .obj m, h => by
    obtain ⟨ts, h1, h2⟩ := text_members (io := io) m h.2
    exact ⟨_, by rw [serialize, h1]; rfl, .obj h2⟩
theorem text_elems {io : FloatIO} : ∀ (l : List Value), WFElems l →
    ∃ ts, serializeElems io l = some (commaList ts) ∧ Texts io l ts
  | [], _ => ⟨[], rfl, .nil⟩
  | v :: l, h => by
    obtain ⟨t, h1, h2⟩ := text_value (io := io) v h.1
    obtain ⟨ts, h3, h4⟩ := text_elems (io := io) l h.2
    refine ⟨t :: ts, ?_, .cons h2 h4⟩
    have e : l.isEmpty = ts.isEmpty := by cases h4 <;> rfl
    rw [serializeElems, h1, h3, commaList_cons, e]
theorem text_members {io : FloatIO} : ∀ (m : List (List Nat × Value)), WFMembers m →
    ∃ ts, serializeMembers io m = some (commaList ts) ∧ MemberTexts io m ts
  | [], _ => ⟨[], rfl, .nil⟩
  | (k, v) :: m, h => by
    obtain ⟨tk, g1, g2⟩ := stringText_wf h.1
    obtain ⟨t, h1, h2⟩ := text_value (io := io) v h.2.1
    obtain ⟨ts, h3, h4⟩ := text_members (io := io) m h.2.2
    refine ⟨(tk ++ 0x3a :: t) :: ts, ?_, .cons g2 h2 h4⟩
    have e : m.isEmpty = ts.isEmpty := by cases h4 <;> rfl
    rw [serializeMembers, g1, h1, h3, commaList_cons, e]
end

/-- C29: the text of a value whose strings are UTF-8 is exactly the one of the specification. -/
theorem serialize_text (io : FloatIO) (v : Value) (hw : v.WF) :
    ∃ t, serialize io v = some t ∧ Text io v t := text_value v hw

example : ∃ t, serialize halfIO sample = some t ∧ Text halfIO sample t :=
  serialize_text halfIO sample sample_wf.1

example : Text halfIO (.arr [.int (-7), .uint 0]) [0x5b, 0x2d, 0x37, 0x2c, 0x30, 0x5d] :=
  .arr (ts := [[0x2d, 0x37], [0x30]])
    (.cons (.neg (by decide) (Or.inr ⟨0x37, [], rfl, by decide, by decide, by simp⟩) (by decide))
      (.cons (.uint (Or.inl rfl) (by decide)) .nil))

/-! ## C33: the meaning of the order -/

/-- Lexicographic order from an order of the elements. -/
inductive LexLess {α : Type} (lt : α → α → Prop) : List α → List α → Prop
  | nil {y ys} : LexLess lt [] (y :: ys)
  | head {x y xs ys} : lt x y → LexLess lt (x :: xs) (y :: ys)
  | tail {x y xs ys} : ¬ lt x y → ¬ lt y x → LexLess lt xs ys → LexLess lt (x :: xs) (y :: ys)

/-- Members compare by key, then by value. -/
def MemberLess (a b : List Nat × Value) : Prop :=
  a.1 < b.1 ∨ (¬ b.1 < a.1 ∧ less a.2 b.2 = true)

/-- The order of the kinds: null, string, object, array, boolean, number. -/
def Value.kind : Value → Nat
  | .null => 0
  | .str _ => 1
  | .obj _ => 2
  | .arr _ => 3
  | .bool _ => 4
  | .int _ => 5
  | .uint _ => 5
  | .flt _ => 5

theorem lessElems_iff : ∀ a b : List Value,
    lessElems a b = true ↔ LexLess (fun x y => less x y = true) a b := by
  intro a
  induction a with
  | nil =>
    intro b
    cases b with
    | nil => simp only [lessElems, Bool.false_eq_true, false_iff]; intro h; cases h
    | cons => simp only [lessElems, true_iff]; exact .nil
  | cons x a ih =>
    intro b
    cases b with
    | nil => simp only [lessElems, Bool.false_eq_true, false_iff]; intro h; cases h
    | cons y b =>
      rw [lessElems]
      simp only [Bool.or_eq_true, Bool.and_eq_true, Bool.not_eq_true', ih b]
      constructor
      · intro h
        by_cases h1 : less x y = true
        · exact .head h1
        · rcases h with h | ⟨h2, h3⟩
          · exact .head h
          · exact .tail h1 (by simp [h2]) h3
      · intro h
        cases h with
        | head h => exact Or.inl h
        | tail h1 h2 h3 => exact Or.inr ⟨by simpa using h2, h3⟩

theorem lessMembers_iff : ∀ a b : List (List Nat × Value),
    lessMembers a b = true ↔ LexLess MemberLess a b := by
  intro a
  induction a with
  | nil =>
    intro b
    cases b with
    | nil => simp only [lessMembers, Bool.false_eq_true, false_iff]; intro h; cases h
    | cons => simp only [lessMembers, true_iff]; exact .nil
  | cons x a ih =>
    obtain ⟨k, v⟩ := x
    intro b
    cases b with
    | nil => simp only [lessMembers, Bool.false_eq_true, false_iff]; intro h; cases h
    | cons y b =>
      obtain ⟨k', v'⟩ := y
      rw [lessMembers]
      have s1 := strLt_iff k k'
      have s2 := strLt_iff k' k
      have nb : ¬ (k < k' ∧ k' < k) := fun h => List.lt_asymm h.1 h.2
      simp only [Bool.or_eq_true, Bool.and_eq_true, Bool.not_eq_true', ih b]
      have s2' : strLt k' k = false ↔ ¬ k' < k := by rw [← s2]; simp
      rw [s1, s2']
      constructor
      · intro h
        by_cases h1 : MemberLess (k, v) (k', v')
        · exact .head h1
        · unfold MemberLess at h1
          rcases h with h | ⟨h2, h | ⟨h3, h4⟩⟩
          · exact .head (Or.inl h)
          · exact .head (Or.inr ⟨h2, h⟩)
          · refine .tail h1 ?_ h4
            rintro (h5 | ⟨_, h5⟩)
            · exact h2 h5
            · simp only at h5; rw [h5] at h3; cases h3
      · intro h
        cases h with
        | head h =>
          rcases h with h | ⟨h1, h2⟩
          · exact Or.inl h
          · exact Or.inr ⟨h1, Or.inl h2⟩
        | tail h1 h2 h3 =>
          unfold MemberLess at h1 h2
          simp only [not_or, not_and] at h1 h2
          refine Or.inr ⟨h2.1, Or.inr ⟨?_, h3⟩⟩
          have := h2.2 h1.1
          simpa using this

/-- C33: within a kind the order is the natural one (false before true, strings by their bytes,
numbers of one type by value, containers lexicographically), between kinds it is fixed. -/
theorem json_order_meaning :
    (∀ a b, less (.bool a) (.bool b) = true ↔ a = false ∧ b = true) ∧
    (∀ a b : List Nat, less (.str a) (.str b) = true ↔ a < b) ∧
    (∀ a b : Int, less (.int a) (.int b) = true ↔ a < b) ∧
    (∀ a b : Nat, less (.uint a) (.uint b) = true ↔ a < b) ∧
    (∀ (a : Int) (b : Nat), -(2 ^ 63) ≤ a → b < 2 ^ 63 → (less (.int a) (.uint b) = true ↔ a < b)) ∧
    (∀ (a : Nat) (b : Int), 0 ≤ b → (less (.uint a) (.int b) = true ↔ a < b)) ∧
    (∀ (i j : Int) (n m : Nat), less (.flt (.fin i n)) (.flt (.fin j m)) = true ↔
      i * 2 ^ m < j * 2 ^ n) ∧
    (∀ a b, less (.arr a) (.arr b) = true ↔ LexLess (fun x y => less x y = true) a b) ∧
    (∀ a b, less (.obj a) (.obj b) = true ↔ LexLess MemberLess a b) ∧
    (∀ a b : Value, a.kind ≠ b.kind → (less a b = true ↔ a.kind < b.kind)) := by
  refine ⟨?_, ?_, ?_, ?_, ?_, ?_, ?_, ?_, ?_, ?_⟩
  · intro a b; rw [less]; cases a <;> cases b <;> simp
  · intro a b; rw [less]; exact strLt_iff a b
  · intro a b; rw [less]; simp
  · intro a b; rw [less]; simp
  · intro a b h1 h2; rw [less]; unfold toSigned; rw [if_pos h2]; simp
  · intro a b h1; rw [less]; unfold toUnsigned; rw [if_pos h1]; simp
  · intro i j n m; rw [less]; unfold Flt.lt; simp only [decide_eq_true_eq]
  · intro a b; rw [less]; exact lessElems_iff a b
  · intro a b; rw [less]; exact lessMembers_iff a b
  · intro a b h
    cases a <;> cases b <;> first
      | exact absurd rfl h
      | (simp [less, Value.index, Value.kind])

example : less (.arr [.int 1, .str [0x62]]) (.arr [.int 1, .str [0x62], .null]) = true ∧
    less (.obj [([0x61], .int 2)]) (.obj [([0x61], .int 3)]) = true ∧ less (.str []) (.bool false) = true := by
  decide +kernel

end Verif.Json
