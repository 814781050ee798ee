import Verif.Coder.Model
import Verif.Base64.Props
import Verif.Huffman.Props

/-!
# Coding files: C113
-/

namespace Verif.Coder

/-- New names get files that did not exist. -/
def Disk.Sound (d : Disk) : Prop := ∀ p i, d.file p = some i → i < d.fresh

theorem read_put_ne {d : Disk} {i : Nat} {l : List Nat} {p : Nat} (h : d.file p ≠ some i) :
    (d.put i l).read p = d.read p := by
  unfold Disk.read Disk.put
  cases hp : d.file p with
  | none => rfl
  | some j =>
    rw [hp] at h
    have : j ≠ i := fun e => h (by rw [e])
    simp [this]

theorem openOut_cases {d : Disk} {q o : Nat} (h : (d.openOut q).1 = some o) :
    (d.file q = some o ∧ (d.openOut q).2 = d.put o []) ∨
    (d.file q = none ∧ o = d.fresh ∧ (d.openOut q).2 =
      { (d.put d.fresh []) with file := fun x => if x = q then some d.fresh else d.file x, fresh := d.fresh + 1 }) := by
  unfold Disk.openOut at h ⊢
  split at h
  · rename_i hw
    rw [if_pos hw]
    cases hf : d.file q with
    | some i => rw [hf] at h; cases h; exact .inl ⟨rfl, rfl⟩
    | none => rw [hf] at h; cases h; exact .inr ⟨rfl, rfl, rfl⟩
  · cases h

/-- Names of other files are not affected by opening an output. -/
theorem openOut_others {d : Disk} (hs : d.Sound) {q o : Nat} (h : (d.openOut q).1 = some o) (l : List Nat) (p : Nat)
    (hp : p ≠ q) (hd : ∀ i, d.file p = some i → d.file q ≠ some i) :
    ((d.openOut q).2.put o l).read p = d.read p ∧ ((d.openOut q).2.put o l).file p = d.file p := by
  rcases openOut_cases h with ⟨h1, h2⟩ | ⟨h1, h2, h3⟩
  · have hne : d.file p ≠ some o := fun e => hd _ e h1
    rw [h2]
    refine ⟨?_, rfl⟩
    rw [read_put_ne (d := d.put o []) hne, read_put_ne hne]
  · have hne : d.file p ≠ some o := fun e => by have := hs _ _ e; omega
    rw [h3]
    refine ⟨?_, by simp [Disk.put, hp]⟩
    rw [read_put_ne (by simp only [if_neg hp]; exact hne)]
    unfold Disk.read
    simp only [if_neg hp]
    cases hf : d.file p with
    | none => rfl
    | some j =>
      rw [hf] at hne
      have : j ≠ d.fresh := fun e => hne (by rw [e, h2])
      simp [Disk.put, this]

theorem openOut_target {d : Disk} {q o : Nat} (h : (d.openOut q).1 = some o) (l : List Nat) :
    ((d.openOut q).2.put o l).file q = some o ∧ ((d.openOut q).2.put o l).read q = some l := by
  rcases openOut_cases h with ⟨h1, h2⟩ | ⟨h1, h2, h3⟩
  · rw [h2]; exact ⟨h1, by simp [Disk.read, Disk.put, h1]⟩
  · subst h2
    rw [h3]; exact ⟨by simp [Disk.put], by simp [Disk.read, Disk.put]⟩

theorem openOut_sound {d : Disk} (hs : d.Sound) {q : Nat} : (d.openOut q).2.Sound := by
  unfold Disk.openOut
  split
  · cases hf : d.file q with
    | some i => exact hs
    | none =>
      intro p i h
      simp only at h
      split at h
      · cases h; exact Nat.lt_succ_self _
      · exact Nat.lt_succ_of_lt (hs p i h)
  · exact hs

/-- Names of one file. -/
def Disk.Same (d : Disk) (p q : Nat) : Prop := p = q ∨ ∃ i, d.file p = some i ∧ d.file q = some i

theorem not_same {d : Disk} {p q : Nat} (h : ¬ d.Same p q) : p ≠ q ∧ ∀ i, d.file p = some i → d.file q ≠ some i :=
  ⟨fun e => h (.inl e), fun i a b => h (.inr ⟨i, a, b⟩)⟩

theorem codeFile_sound {c : Coder} {room : Nat} {d d' : Disk} {p q : Nat} {ok : Bool} (hs : d.Sound)
    (h : CodeFile c room d p q d' ok) : d'.Sound := by
  cases h with
  | notOpened => exact openOut_sound hs
  | fits => exact openOut_sound hs
  | cut => exact openOut_sound hs

/-- Coding a file changes no other file: not the input, nor any third file, whatever the outcome. -/
theorem other_files_untouched {c : Coder} {room : Nat} {d d' : Disk} {p q : Nat} {ok : Bool} (hs : d.Sound)
    (h : CodeFile c room d p q d' ok) (r : Nat) (hr : ¬ d.Same r q) : d'.read r = d.read r := by
  obtain ⟨h1, h2⟩ := not_same hr
  cases h with
  | notOpened =>
    cases ho : (d.openOut q).1 with
    | none =>
      unfold Disk.openOut at ho ⊢
      split at ho
      · cases hf : d.file q <;> rw [hf] at ho <;> cases ho
      · rename_i hw; rw [if_neg hw]
    | some o =>
      have := (openOut_others hs ho [] r h1 h2).1
      rcases openOut_cases ho with ⟨a, b⟩ | ⟨a, b, e⟩
      · rw [b] at this ⊢
        exact read_put_ne (fun e => h2 _ e a)
      · rw [e] at this ⊢
        rw [← this]
        refine (read_put_ne ?_).symm
        simp only [if_neg h1]
        intro e; have := hs _ _ e; omega
  | fits a b => exact (openOut_others hs b _ r h1 h2).1
  | cut a b => exact (openOut_others hs b _ r h1 h2).1

/-- What success means for two different files and a device with room: the output holds what the coder gives for
the contents of the input. -/
theorem success_means_coded {c : Coder} {room : Nat} {d d' : Disk} {p q : Nat} (hs : d.Sound) (hpq : ¬ d.Same p q)
    (h : CodeFile c room d p q d' true) :
    ∃ input out, d.read p = some input ∧ c.run input (.ret true out) ∧
      (out.length ≤ room → d'.read q = some out) := by
  obtain ⟨h1, h2⟩ := not_same hpq
  have key : ∀ i o, d.openIn p = some i → (d.openOut q).1 = some o →
      d.read p = some ((d.openOut q).2.data i) := by
    intro i o hi ho
    have hf : d.file p = some i := by
      unfold Disk.openIn at hi
      cases hf : d.file p with
      | none => rw [hf] at hi; cases hi
      | some j => rw [hf] at hi; simp only at hi; split at hi <;> cases hi; rfl
    have hne : i ≠ o := by
      rcases openOut_cases ho with ⟨a, _⟩ | ⟨_, b, _⟩
      · exact fun e => h2 i hf (by rw [e]; exact a)
      · have := hs _ _ hf; omega
    have hdata : (d.openOut q).2.data i = d.data i := by
      rcases openOut_cases ho with ⟨_, b⟩ | ⟨_, b, e⟩
      · rw [b]; simp [Disk.put, hne]
      · rw [e]; simp [Disk.put, b ▸ hne]
    rw [hdata]
    unfold Disk.read
    rw [hf]; rfl
  generalize hok : true = ok at h
  cases h with
  | notOpened => cases hok
  | fits a b r f =>
    subst hok
    exact ⟨_, _, key _ _ a b, r, fun _ => (openOut_target b _).2⟩
  | cut a b r f k =>
    rename_i i o ok out kept late
    cases ok with
    | false => cases hok
    | true => rw [← hok]; exact ⟨_, out, key _ _ a b, r, fun hf => by omega⟩

/-- A call on files that can be opened, on a device with room, gives what the coder gives. -/
theorem coded_if_possible {c : Coder} {room : Nat} {d d' : Disk} {p q : Nat} {ok : Bool} {input : List Nat} {i : Nat}
    (hs : d.Sound) (hpq : ¬ d.Same p q) (hf : d.file p = some i) (hr : d.mayRead i = true) (hw : d.mayWrite q = true)
    (hi : d.read p = some input) {P : List Nat → Prop}
    (hc : ∀ r, c.run input r → ∃ out, r = .ret true out ∧ P out ∧ out.length ≤ room) (h : CodeFile c room d p q d' ok) :
    ok = true ∧ (∃ out, P out ∧ d'.read q = some out) ∧ d'.read p = some input ∧ d'.file p = some i ∧ d'.mayRead = d.mayRead ∧
      d'.mayWrite = d.mayWrite := by
  obtain ⟨h1, h2⟩ := not_same hpq
  have hin : d.openIn p = some i := by unfold Disk.openIn; rw [hf]; simp [hr]
  have hopen : ∃ o, (d.openOut q).1 = some o := by
    unfold Disk.openOut
    rw [if_pos hw]
    cases d.file q <;> exact ⟨_, rfl⟩
  obtain ⟨o, ho⟩ := hopen
  have hperm : (d.openOut q).2.mayRead = d.mayRead ∧ (d.openOut q).2.mayWrite = d.mayWrite := by
    rcases openOut_cases ho with ⟨_, b⟩ | ⟨_, _, b⟩ <;> rw [b] <;> exact ⟨rfl, rfl⟩
  have hdata : (d.openOut q).2.data i = input := by
    have hdi : d.data i = input := by
      unfold Disk.read at hi; rw [hf] at hi; cases hi; rfl
    rcases openOut_cases ho with ⟨a, b⟩ | ⟨_, b, e⟩
    · rw [b]
      have : i ≠ o := fun e => h2 i hf (by rw [e]; exact a)
      simp [Disk.put, this, hdi]
    · rw [e]
      have : i ≠ d.fresh := by have := hs _ _ hf; omega
      simp [Disk.put, this, hdi]
  cases h with
  | notOpened e => rcases e with e | e; rw [hin] at e; cases e; rw [ho] at e; cases e
  | fits a b r f =>
    rw [hin] at a; cases a
    rw [ho] at b; cases b
    rw [hdata] at r
    obtain ⟨out', e, hP, _⟩ := hc _ r
    cases e
    refine ⟨rfl, ⟨_, hP, (openOut_target ho _).2⟩, ?_, ?_, hperm⟩
    · rw [(openOut_others hs ho _ p h1 h2).1, hi]
    · rw [(openOut_others hs ho _ p h1 h2).2, hf]
  | cut a b r f k =>
    rw [hin] at a; cases a
    rw [ho] at b; cases b
    rw [hdata] at r
    obtain ⟨out, e, _, hl⟩ := hc _ r
    cases e
    omega

theorem not_same_after {c : Coder} {room : Nat} {d d' : Disk} {p q r : Nat} {ok : Bool} (hs : d.Sound)
    (h : CodeFile c room d p q d' ok) (hr : ¬ d.Same r q) (ho : ∃ o, (d.openOut q).1 = some o) : ¬ d'.Same r q := by
  obtain ⟨h1, h2⟩ := not_same hr
  obtain ⟨o, ho⟩ := ho
  have key : ∀ l, ¬ ((d.openOut q).2.put o l).Same r q := by
    intro l hl
    have a := (openOut_others hs ho l r h1 h2).2
    have b := (openOut_target ho l).1
    rcases hl with hl | ⟨i, e1, e2⟩
    · exact h1 hl
    · rw [a] at e1
      rw [b] at e2
      cases e2
      rcases openOut_cases ho with ⟨x, _⟩ | ⟨_, x, _⟩
      · exact h2 _ e1 x
      · have := hs _ _ e1; omega
  cases h with
  | notOpened => exact key []
  | fits a b => rw [ho] at b; cases b; exact key _
  | cut a b => rw [ho] at b; cases b; exact key _

/-- Coding a file to a second one and back to a third (which may be the first) restores the contents. -/
theorem file_roundtrip {c e : Coder} {room : Nat} {d d1 d2 : Disk} {p q r i : Nat} {ok1 ok2 : Bool}
    {input : List Nat} {P : List Nat → Prop} (hs : d.Sound) (hread : ∀ i, d.mayRead i = true) (hwrite : ∀ x, d.mayWrite x = true)
    (hf : d.file p = some i) (hi : d.read p = some input) (hpq : ¬ d.Same p q) (hrq : ¬ d.Same r q)
    (hc : ∀ x, c.run input x → ∃ out, x = .ret true out ∧ P out ∧ out.length ≤ room)
    (he : ∀ out x, P out → e.run out x → x = .ret true input) (hroom : input.length ≤ room)
    (h1 : CodeFile c room d p q d1 ok1) (h2 : CodeFile e room d1 q r d2 ok2) :
    ok1 = true ∧ ok2 = true ∧ d2.read r = some input ∧ ∃ out, P out ∧ d2.read q = some out := by
  obtain ⟨a1, ⟨out, hP, a2⟩, _, _, a5, a6⟩ := coded_if_possible hs hpq hf (hread i) (hwrite q) hi hc h1
  have hopen : ∃ o, (d.openOut q).1 = some o := by
    unfold Disk.openOut
    rw [if_pos (hwrite q)]
    cases d.file q <;> exact ⟨_, rfl⟩
  have hq : ∃ o, d1.file q = some o := by
    unfold Disk.read at a2
    cases hx : d1.file q with
    | none => rw [hx] at a2; cases a2
    | some o => exact ⟨o, rfl⟩
  obtain ⟨o, hq⟩ := hq
  have hn := not_same_after hs h1 hrq hopen
  obtain ⟨b1, ⟨_, e, b2⟩, b3, _⟩ := coded_if_possible (P := fun x => x = input) (codeFile_sound hs h1) (fun h => hn (by
      rcases h with h | ⟨j, x, y⟩
      · exact .inl h.symm
      · exact .inr ⟨j, y, x⟩)) hq (by rw [a5]; exact hread o) (by rw [a6]; exact hwrite r) a2
    (fun x hx => ⟨input, he out x hP hx, rfl, hroom⟩) h2
  subst e
  exact ⟨a1, b1, b2, out, hP, b3⟩

/-- C113 for Base64 (with the input lengths for which C04 holds). -/
theorem base64_file_roundtrip_partial {room : Nat} {d d1 d2 : Disk} {p q r i : Nat} {ok1 ok2 : Bool}
    {input : List Nat} (hs : d.Sound) (hread : ∀ i, d.mayRead i = true) (hwrite : ∀ x, d.mayWrite x = true)
    (hf : d.file p = some i) (hi : d.read p = some input) (hb : ∀ b ∈ input, b < 256)
    (ho : ¬ Base64.Overrun input.length) (hpq : ¬ d.Same p q) (hrq : ¬ d.Same r q)
    (hroom : 4 * ((input.length + 2) / 3) ≤ room)
    (h1 : CodeFile base64Encoder room d p q d1 ok1) (h2 : CodeFile base64Decoder room d1 q r d2 ok2) :
    ok1 = true ∧ ok2 = true ∧ d2.read r = some input ∧ d2.read q = some (Base64.rfcEncode input) := by
  have hl := Base64.rfcEncode_length input
  have hdec : Base64.decode (Base64.rfcEncode input) = .ok input := by
    obtain ⟨enc, e1, e2⟩ := Base64.base64_roundtrip_partial (fun _ _ => 0) (by simp) input hb ho
    rw [Base64.base64_encode_rfc_partial (fun _ _ => 0) (by simp) input hb ho] at e1
    cases e1
    exact e2
  obtain ⟨a, b, c, out, e, f⟩ := file_roundtrip (P := fun x => x = Base64.rfcEncode input) (c := base64Encoder)
    (e := base64Decoder) hs hread hwrite hf hi hpq hrq (by
      rintro x ⟨stale, hst, hx⟩
      rw [Base64.base64_encode_rfc_partial stale hst input hb ho] at hx
      exact ⟨_, hx, rfl, by rw [hl]; exact hroom⟩) (by
      rintro out x rfl hx
      simp only [base64Decoder, hdec] at hx
      exact hx) (by omega) h1 h2
  exact ⟨a, b, c, e ▸ f⟩

/-- C113 for the Huffman coder (with the configurations for which C08 holds). The encoder may choose among several
encodings. -/
theorem huffman_file_roundtrip_partial {room kb M : Nat} {d d1 d2 : Disk} {p q r i : Nat} {ok1 ok2 : Bool}
    {input : List Nat} (hs : d.Sound) (hread : ∀ i, d.mayRead i = true) (hwrite : ∀ x, d.mayWrite x = true)
    (hf : d.file p = some i) (hi : d.read p = some input) (hb : ∀ b ∈ input, b < 256)
    (hv : Huffman.Valid kb M input) (hpq : ¬ d.Same p q) (hrq : ¬ d.Same r q)
    (hroom : (∀ out, Huffman.Encodes kb M input out → out.length ≤ room) ∧ input.length ≤ room)
    (h1 : CodeFile (huffmanEncoder kb M) room d p q d1 ok1) (h2 : CodeFile huffmanDecoder room d1 q r d2 ok2) :
    ok1 = true ∧ ok2 = true ∧ d2.read r = some input := by
  obtain ⟨a, b, c, _⟩ := file_roundtrip (P := Huffman.Encodes kb M input) (c := huffmanEncoder kb M)
    (e := huffmanDecoder) hs hread hwrite hf hi hpq hrq (by
      rintro x (⟨out, hx, rfl⟩ | ⟨hx, _⟩)
      · exact ⟨out, rfl, hx, hroom.1 out hx⟩
      · have := hv.len_le; omega) (by
      intro out x hP hx
      simp only [huffmanDecoder, (Huffman.huffman_roundtrip kb M input hb hv).2 out hP] at hx
      exact hx) hroom.2 h1 h2
  exact ⟨a, b, c⟩

/-- C113 for decoding Base64: success means that the input file is a Base64 encoding in the sense of RFC 4648, of
the bytes the output file then holds (if they fit on the device). -/
theorem base64_decode_file_sound {room : Nat} {d d' : Disk} {p q : Nat} (hs : d.Sound) (hpq : ¬ d.Same p q)
    (h : CodeFile base64Decoder room d p q d' true) :
    ∃ input out, d.read p = some input ∧ Base64.Denotes input out ∧ (out.length ≤ room → d'.read q = some out) := by
  obtain ⟨input, out, h1, h2, h3⟩ := success_means_coded hs hpq h
  refine ⟨input, out, h1, ?_, h3⟩
  unfold base64Decoder at h2
  simp only at h2
  cases hd : Base64.decode input with
  | ub => rw [hd] at h2; cases h2
  | fail => rw [hd] at h2; obtain ⟨_, e⟩ := h2; cases e
  | ok o =>
    rw [hd] at h2
    cases h2
    exact Base64.base64_decode_sound _ _ hd

/-- C113: with a code length the encoder does not support the call is refused, and the output file is left with
the one byte that is the header of an empty bit stream. -/
theorem huffman_encode_file_refused {room kb M : Nat} {d : Disk} {p q i : Nat} (hM : 16 ≤ M) (hroom : 1 ≤ room)
    (hf : d.file p = some i) (hr : d.mayRead i = true) (hw : d.mayWrite q = true) :
    (∃ d' ok, CodeFile (huffmanEncoder kb M) room d p q d' ok) ∧
    ∀ d' ok, CodeFile (huffmanEncoder kb M) room d p q d' ok → ok = false ∧ d'.read q = BitStream.encode [] := by
  have hin : d.openIn p = some i := by unfold Disk.openIn; rw [hf]; simp [hr]
  have hopen : ∃ o, (d.openOut q).1 = some o := by
    unfold Disk.openOut
    rw [if_pos hw]
    cases d.file q <;> exact ⟨_, rfl⟩
  obtain ⟨o, ho⟩ := hopen
  refine ⟨⟨_, _, .fits hin ho (.inr ⟨hM, rfl⟩) hroom⟩, ?_⟩
  intro d' ok h
  cases h with
  | notOpened e => rcases e with e | e; rw [hin] at e; cases e; rw [ho] at e; cases e
  | fits a b r f =>
    rcases r with ⟨_, hx, _⟩ | ⟨_, hx⟩
    · have := hx.1; omega
    · cases hx
      exact ⟨rfl, (openOut_target b _).2.trans (by decide +kernel)⟩
  | cut a b r f k =>
    rcases r with ⟨_, hx, _⟩ | ⟨_, hx⟩
    · have := hx.1; omega
    · cases hx
      exact absurd f (by simp; omega)

/-- C113: a call that cannot open one of the files returns false, and no coder is consulted. -/
theorem unopened_refused {c : Coder} {room : Nat} {d d' : Disk} {p q : Nat} {ok : Bool}
    (ho : (∀ i, d.file p = some i → d.mayRead i = false) ∨ d.mayWrite q = false) (h : CodeFile c room d p q d' ok) :
    ok = false := by
  have key : ∀ i o, d.openIn p = some i → (d.openOut q).1 = some o → False := by
    intro i o h1 h2
    rcases ho with ho | ho
    · unfold Disk.openIn at h1
      cases hf : d.file p with
      | none => rw [hf] at h1; cases h1
      | some j => rw [hf] at h1; simp only [ho j hf] at h1; cases h1
    · unfold Disk.openOut at h2
      rw [if_neg (by rw [ho]; simp)] at h2
      cases h2
  cases h with
  | notOpened => rfl
  | fits a b => exact (key _ _ a b).elim
  | cut a b => exact (key _ _ a b).elim

/-- A disk with one file of three bytes under the names 0 and 1, and another file under the name 2. -/
def exampleDisk : Disk where
  file p := if p < 2 then some 0 else if p = 2 then some 1 else none
  data i := if i = 0 then [1, 2, 3] else [9]
  mayRead _ := true
  mayWrite _ := true
  fresh := 2

theorem example_sound : exampleDisk.Sound := by
  intro p i h
  unfold exampleDisk at h ⊢
  simp only at h ⊢
  split at h
  · cases h; omega
  · split at h <;> cases h; omega

/-- The hypotheses of the theorems are met: encoding to a new file and decoding over the old name. -/
example : ∃ d1 d2 ok1 ok2, CodeFile base64Encoder 100 exampleDisk 0 3 d1 ok1 ∧ CodeFile base64Decoder 100 d1 3 2 d2 ok2 ∧
    ¬ exampleDisk.Same 0 3 ∧ ¬ exampleDisk.Same 2 3 ∧ ok1 = true ∧ ok2 = true ∧ d2.read 2 = some [1, 2, 3] := by
  have n1 : ¬ exampleDisk.Same 0 3 := by rintro (h | ⟨i, h, h2⟩); cases h; cases h2
  have n2 : ¬ exampleDisk.Same 2 3 := by rintro (h | ⟨i, h, h2⟩); cases h; cases h2
  have ho : ¬ Base64.Overrun ([1, 2, 3] : List Nat).length := by unfold Base64.Overrun; decide
  have hb : ∀ b ∈ ([1, 2, 3] : List Nat), b < 256 := by decide
  have e1 : CodeFile base64Encoder 100 exampleDisk 0 3 _ true := .fits (i := 0) (o := 2)
    (out := Base64.rfcEncode [1, 2, 3]) rfl rfl
    ⟨fun _ _ => 0, by simp, by
      rw [show (exampleDisk.openOut 3).2.data 0 = [1, 2, 3] from rfl,
        Base64.base64_encode_rfc_partial (fun _ _ => 0) (by simp) _ hb ho]⟩
    (by rw [Base64.rfcEncode_length]; decide)
  have hdec : Base64.decode (Base64.rfcEncode [1, 2, 3]) = .ok [1, 2, 3] := by
    obtain ⟨enc, e1, e2⟩ := Base64.base64_roundtrip_partial (fun _ _ => 0) (by simp) [1, 2, 3] hb ho
    rw [Base64.base64_encode_rfc_partial (fun _ _ => 0) (by simp) _ hb ho] at e1
    cases e1
    exact e2
  have e2 : CodeFile base64Decoder 100 ((exampleDisk.openOut 3).2.put 2 (Base64.rfcEncode [1, 2, 3])) 3 2 _ true :=
    .fits (i := 2) (o := 1) (out := [1, 2, 3]) rfl rfl (by
      show (match Base64.decode (Base64.rfcEncode [1, 2, 3]) with
        | .ub => _ | .fail => _ | .ok out => _)
      rw [hdec]) (by decide)
  exact ⟨_, _, _, _, e1, e2, n1, n2, rfl, rfl, rfl⟩

/-- The refusals: code length 20, and a name that denotes no file. -/
example : (∃ d' ok, CodeFile (huffmanEncoder 256 20) 5 exampleDisk 0 2 d' ok) ∧
    ∀ i, exampleDisk.file 7 = some i → exampleDisk.mayRead i = false :=
  ⟨(huffman_encode_file_refused (i := 0) (by omega) (by omega) rfl rfl rfl).1, fun _ h => nomatch h⟩

/-! ## What does not hold -/

/-- C113 does not hold in general: encoding a file onto itself destroys it and reports success (the output is
truncated before the input is read, coder.cpp 85-86), also if the two names differ. -/
theorem encode_in_place_violated (d' : Disk) (ok : Bool) (h : CodeFile base64Encoder 100 exampleDisk 0 1 d' ok) :
    exampleDisk.read 0 = some [1, 2, 3] ∧ ok = true ∧ d'.read 0 = some [] := by
  have he : ∀ stale : Nat → Nat → Nat, (∀ i j, stale i j < 256) → Base64.encode stale [] = .ok [] := by
    intro stale hst
    rw [Base64.base64_encode_rfc_partial stale hst [] (by simp) (by unfold Base64.Overrun; decide),
      List.eq_nil_of_length_eq_zero (Base64.rfcEncode_length [])]
  refine ⟨rfl, ?_⟩
  cases h with
  | notOpened e => rcases e with e | e <;> cases e
  | fits a b r f =>
    cases a; cases b
    obtain ⟨stale, hst, hx⟩ := r
    rw [show (exampleDisk.openOut 1).2.data 0 = [] from rfl, he stale hst] at hx
    cases hx
    exact ⟨rfl, rfl⟩
  | cut a b r f k =>
    cases a; cases b
    obtain ⟨stale, hst, hx⟩ := r
    rw [show (exampleDisk.openOut 1).2.data 0 = [] from rfl, he stale hst] at hx
    cases hx
    exact absurd f (by simp)

/-- There is such a call: it does not depend on what memory held. -/
example : ∃ d' ok, CodeFile base64Encoder 100 exampleDisk 0 1 d' ok := by
  refine ⟨_, _, .fits (i := 0) (o := 0) (ok := true) (out := []) rfl rfl ⟨fun _ _ => 0, by simp, ?_⟩ (by simp)⟩
  rw [show (exampleDisk.openOut 1).2.data 0 = [] from rfl,
    Base64.base64_encode_rfc_partial (fun _ _ => 0) (by simp) [] (by simp) (by unfold Base64.Overrun; decide),
    List.eq_nil_of_length_eq_zero (Base64.rfcEncode_length [])]

/-- C113 does not hold in general: a call that fails because there is no input file empties the output file. -/
theorem failed_call_truncates_violated (c : Coder) (d' : Disk) (ok : Bool)
    (h : CodeFile c 100 exampleDisk 7 2 d' ok) :
    exampleDisk.read 2 = some [9] ∧ ok = false ∧ d'.read 2 = some [] := by
  refine ⟨rfl, ?_⟩
  cases h with
  | notOpened e => exact ⟨rfl, rfl⟩
  | fits a => cases a
  | cut a => cases a

/-- There is such a call of every coder. -/
example (c : Coder) : ∃ d' ok, CodeFile c 100 exampleDisk 7 2 d' ok := ⟨_, _, .notOpened (.inl rfl)⟩

/-- C113 does not hold in general: on a full device the Huffman encoder reports success (the bit stream writer
drops the result of every write, bit_stream_writer.hpp 133-135), and what is left is no encoding. -/
theorem full_device_success_violated (d' : Disk) (ok : Bool)
    (h : CodeFile (huffmanEncoder 256 11) 0 exampleDisk 0 2 d' ok) :
    ok = true ∧ d'.read 2 = some [] ∧ ¬ Huffman.Encodes 256 11 [1, 2, 3] [] := by
  have hne : ¬ Huffman.Encodes 256 11 [1, 2, 3] [] := by
    intro hE
    have := Huffman.huffman_lossless_partial 256 11 [1, 2, 3] [] (by decide)
      (Huffman.valid_of_eight _ _ _ (by omega) (by omega) (by omega) (by omega)) hE
    exact absurd this (by decide +kernel)
  suffices x : ok = true ∧ d'.read 2 = some [] from ⟨x.1, x.2, hne⟩
  cases h with
  | notOpened e => rcases e with e | e <;> cases e
  | fits a b r f =>
    cases a; cases b
    rcases r with ⟨out, hx, e⟩ | ⟨hx, _⟩
    · cases e
      cases List.eq_nil_of_length_eq_zero (Nat.le_zero.1 f)
      exact absurd hx hne
    · omega
  | cut a b r f k =>
    cases a; cases b
    cases List.eq_nil_of_length_eq_zero (Nat.le_zero.1 k)
    rcases r with ⟨out, hx, e⟩ | ⟨hx, _⟩
    · cases e
      exact ⟨rfl, rfl⟩
    · omega

/-- There is such a call. -/
example : ∃ d' ok, CodeFile (huffmanEncoder 256 11) 0 exampleDisk 0 2 d' ok := by
  have hv : Huffman.Valid 256 11 [1, 2, 3] := Huffman.valid_of_eight _ _ _ (by omega) (by omega) (by omega) (by omega)
  obtain ⟨out, ho⟩ := (Huffman.huffman_roundtrip 256 11 [1, 2, 3] (by decide) hv).1
  have hl : 0 < out.length := by
    rcases Nat.eq_zero_or_pos out.length with h | h
    · cases List.eq_nil_of_length_eq_zero h
      exact absurd ((Huffman.huffman_roundtrip 256 11 [1, 2, 3] (by decide) hv).2 _ ho) (by decide +kernel)
    · exact h
  exact ⟨_, _, .cut (i := 0) (o := 1) (ok := true) (kept := []) (late := true) rfl rfl (.inl ⟨out, ho, rfl⟩) hl (by simp)⟩

/-- C113 does not hold in general: the Base64 encoder may report success on a full device, because the last bytes
are still in the stream's buffer when the return value is fixed. -/
theorem late_write_violated :
    ∃ d', CodeFile base64Encoder 0 exampleDisk 0 2 d' true ∧ d'.read 2 = some [] := by
  refine ⟨_, .cut (i := 0) (o := 1) (ok := true) (out := Base64.rfcEncode [1, 2, 3]) (kept := []) (late := true) rfl rfl
    ⟨fun _ _ => 0, by simp, ?_⟩ (by rw [Base64.rfcEncode_length]; decide) (by simp), rfl⟩
  rw [show (exampleDisk.openOut 2).2.data 0 = [1, 2, 3] from rfl,
    Base64.base64_encode_rfc_partial (fun _ _ => 0) (by simp) _ (by decide) (by unfold Base64.Overrun; decide)]

end Verif.Coder
