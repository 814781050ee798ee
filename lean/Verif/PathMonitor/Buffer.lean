import Verif.PathMonitor.Lemmas

/-!
# The buffers the operating system fills

How the path monitor takes apart the bytes written by `read` on an inotify descriptor (Linux) and by `ReadDirectoryChangesW` (Windows).
Bytes are numbers below 256, the machine is little-endian. `none` is a read outside the array (undefined behaviour). File names are
mapped to the numbers of `Verif.PathMonitor.Model` by an arbitrary function `naming`.
-/

namespace Verif.PathMonitor

/-- A 32-bit number in memory at an offset. -/
def u32At (buf : List Nat) (off : Nat) : Option Nat :=
  match buf.drop off with
  | a :: b :: c :: d :: _ => some (a + 256 * b + 65536 * c + 16777216 * d)
  | _ => none

/-- A C string in memory at an offset (nix/path_monitor_impl.cpp 133). -/
def cStringAt (buf : List Nat) (off : Nat) : Option (List Nat) :=
  if 0 ∈ buf.drop off then some ((buf.drop off).takeWhile (· != 0)) else none

/-! ## Linux -/

/-- The loop of `read_events` (nix/path_monitor_impl.cpp 96-109) from an offset, `size` being what `read` returned. `inotify_event` is
`wd`, `mask`, `cookie`, `len` and the name. -/
def readLoop (order : List (Nat × Info)) (naming : List Nat → Nat) (buf : List Nat) (size off : Nat) : Option (List Call) :=
  if off < size then
    match u32At buf off, u32At buf (off + 4), u32At buf (off + 12) with
    | some wd, some mask, some len =>
      if len > 0 then
        match cStringAt buf (off + 16) with
        | some name => (readLoop order naming buf size (off + (16 + len))).map (handleEvent order ⟨wd, naming name, mask⟩ ++ ·)
        | none => none
      else readLoop order naming buf size (off + (16 + len))
    | _, _, _ => none
  else some []
termination_by size - off

/-- What `read` writes into the array: the bytes over its beginning. -/
def overwrite (data buf : List Nat) : List Nat := data ++ buf.drop data.length

/-- `while (read_events())` (nix/path_monitor_impl.cpp 71-73; `read_events` 84-113): the results of the successive reads, the one after
the last being an error or an end of file. The calls made and the array afterwards. -/
def pollReads (order : List (Nat × Info)) (naming : List Nat → Nat) : List (List Nat) → List Nat → Option (List Call × List Nat)
  | [], buf => some ([], buf)
  | data :: rs, buf =>
    if data = [] then some ([], buf)
    else
      match readLoop order naming (overwrite data buf) data.length 0 with
      | none => none
      | some cs => (pollReads order naming rs (overwrite data buf)).map fun p => (cs ++ p.1, p.2)

/-! ## Windows -/

/-- `FILE_ACTION_ADDED` to `FILE_ACTION_RENAMED_NEW_NAME` are 1 to 5; `convert_to_event`, win/path_monitor_impl.cpp 131-155. -/
def convertAction (action : Nat) : PathEvent :=
  if action = 1 ∨ action = 5 then .created
  else if action = 2 ∨ action = 4 then .deleted
  else if action = 3 then .changed
  else .none

/-- Bytes of the array at an offset; `none` when they are not all inside. -/
def bytesAt (buf : List Nat) (off n : Nat) : Option (List Nat) :=
  if off + n ≤ buf.length then some ((buf.drop off).take n) else none

/-- The callback for one entry (win/path_monitor_impl.cpp 86-115). -/
def winCall (d : Nat) (info : Info) (naming : List Nat → Nat) (action : Nat) (name : List Nat) : List Call :=
  if convertAction action = .none then []
  else
    match (match get (naming name) info.files with
      | some c => some c
      | none => info.pathHandler) with
    | some c => [⟨c, d, naming name, convertAction action⟩]
    | none => []

/-- `handle_events` (win/path_monitor_impl.cpp 79-128) from an offset. `FILE_NOTIFY_INFORMATION` is `NextEntryOffset`, `Action`,
`FileNameLength` and the name. Simplifications: the name of an entry whose action is unknown is not read by the code, here it is; a wide
string is its bytes. -/
def winLoop (d : Nat) (info : Info) (naming : List Nat → Nat) (buf : List Nat) (off : Nat) : Option (List Call) :=
  if off < buf.length then
    match u32At buf off, u32At buf (off + 4), u32At buf (off + 8) with
    | some next, some action, some len =>
      match bytesAt buf (off + 12) (len / 2 * 2) with
      | none => none
      | some name =>
        if next = 0 then some (winCall d info naming action name)
        else (winLoop d info naming buf (off + next)).map (winCall d info naming action name ++ ·)
    | _, _, _ => none
  else none
termination_by buf.length - off

/-- What has become of the pending `ReadDirectoryChangesW` of a directory when `GetOverlappedResult` is called. -/
inductive Completion
  /-- still pending -/
  | pending
  /-- the bytes written -/
  | written (data : List Nat)
  /-- too much happened: zero bytes, nothing written (this is how the system reports it) -/
  | overflow

/-- The array of a directory after a completion. -/
def Completion.fill (c : Completion) (buf : List Nat) : List Nat :=
  match c with
  | .pending => buf
  | .written data => overwrite data buf
  | .overflow => buf

/-- One turn of the loop of `poll` (win/path_monitor_impl.cpp 48-63): the calls, the array, and whether the directory is to be removed.
The number of bytes is not looked at. -/
def winPoll1 (d : Nat) (info : Info) (naming : List Nat → Nat) (buf : List Nat) (c : Completion) (refreshed : Bool) :
    Option (List Call × List Nat × Bool) :=
  match c with
  | .pending => some ([], buf, false)
  | c => (winLoop d info naming (c.fill buf) 0).map fun cs => (cs, c.fill buf, !refreshed)

/-- Successive polls of one directory (win/path_monitor_impl.cpp 42-71), until it is removed. -/
def winPolls (d : Nat) (info : Info) (naming : List Nat → Nat) : List (Completion × Bool) → List Nat → Option (List Call)
  | [], _ => some []
  | (c, ok) :: cs, buf =>
    match winPoll1 d info naming buf c ok with
    | none => none
    | some (calls, buf, removed) =>
      if removed then some calls else (winPolls d info naming cs buf).map (calls ++ ·)

/-! ## Specification -/

/-- A 32-bit number as bytes, the least first. -/
def enc32 (n : Nat) : List Nat := [n % 256, n / 256 % 256, n / 65536 % 256, n / 16777216 % 256]

/-- A file name and what happened to it. -/
structure Change where
  wd : Nat
  mask : Nat
  name : List Nat

/-- The kernel's encoding of an event (`inotify(7)`): a name is followed by one zero or more, an event without a name has no bytes
there. -/
inductive EncEvent : Change → List Nat → Prop
  | named (e : Change) (cookie pad : Nat) : e.wd < 2 ^ 32 → e.mask < 2 ^ 32 → e.name ≠ [] → (∀ b ∈ e.name, b ≠ 0 ∧ b < 256) →
      e.name.length + (pad + 1) < 2 ^ 32 →
      EncEvent e (enc32 e.wd ++ enc32 e.mask ++ enc32 cookie ++ enc32 (e.name.length + (pad + 1)) ++ (e.name ++ List.replicate (pad + 1) 0))
  | bare (e : Change) (cookie : Nat) : e.wd < 2 ^ 32 → e.mask < 2 ^ 32 → e.name = [] →
      EncEvent e (enc32 e.wd ++ enc32 e.mask ++ enc32 cookie ++ enc32 0)

/-- Several events one after the other. -/
inductive EncEvents : List Change → List Nat → Prop
  | nil : EncEvents [] []
  | cons {e : Change} {es : List Change} {b bs : List Nat} : EncEvent e b → EncEvents es bs → EncEvents (e :: es) (b ++ bs)

/-- An entry of a directory and what happened to it. -/
structure WinChange where
  action : Nat
  name : List Nat

/-- The system's encoding of entries (`FILE_NOTIFY_INFORMATION`): each says how far away the next one is, the last says 0. `junk` are the
bytes between them. -/
inductive EncWin : List WinChange → List Nat → Prop
  | last (e : WinChange) (junk : List Nat) : e.action < 2 ^ 32 → e.name.length < 2 ^ 32 → e.name.length % 2 = 0 →
      EncWin [e] (enc32 0 ++ enc32 e.action ++ enc32 e.name.length ++ (e.name ++ junk))
  | more (e : WinChange) (junk : List Nat) {es : List WinChange} {bs : List Nat} : e.action < 2 ^ 32 → e.name.length < 2 ^ 32 →
      e.name.length % 2 = 0 → 12 + (e.name.length + junk.length) < 2 ^ 32 → EncWin es bs →
      EncWin (e :: es) (enc32 (12 + (e.name.length + junk.length)) ++ enc32 e.action ++ enc32 e.name.length ++ (e.name ++ junk) ++ bs)

/-! ## Proofs -/

theorem u32At_enc (pre t : List Nat) (n : Nat) (h : n < 2 ^ 32) (off : Nat) (ho : off = pre.length) : u32At (pre ++ (enc32 n ++ t)) off = some n := by
  subst ho
  unfold u32At
  rw [List.drop_left]
  show some (n % 256 + 256 * (n / 256 % 256) + 65536 * (n / 65536 % 256) + 16777216 * (n / 16777216 % 256)) = some n
  congr 1
  omega

theorem enc32_length (n : Nat) : (enc32 n).length = 4 := rfl

theorem cStringAt_enc (pre name t : List Nat) (pad off : Nat) (ho : off = pre.length) (h : ∀ b ∈ name, b ≠ 0 ∧ b < 256) :
    cStringAt (pre ++ (name ++ List.replicate (pad + 1) 0 ++ t)) off = some name := by
  subst ho
  unfold cStringAt
  rw [List.drop_left, if_pos (by simp [List.replicate_succ])]
  congr 1
  rw [List.append_assoc, List.takeWhile_append_of_pos (by intro b hb; simpa using (h b hb).1)]
  simp [List.replicate_succ]

theorem readLoop_enc (order : List (Nat × Info)) (naming : List Nat → Nat) {es : List Change} {bs : List Nat} (h : EncEvents es bs) :
    ∀ (pre t : List Nat) (size : Nat), size = (pre ++ bs).length →
      readLoop order naming (pre ++ (bs ++ t)) size pre.length =
        some ((es.filter fun e => e.name != []).flatMap fun e => handleEvent order ⟨e.wd, naming e.name, e.mask⟩) := by
  induction h with
  | nil =>
    intro pre t size hs
    rw [readLoop, if_neg (by rw [hs]; simp)]
    rfl
  | cons he _ ih =>
    rename_i e es b bs _
    intro pre t size hs
    cases he with
    | named cookie pad h1 h2 h3 h4 h5 =>
      have ih := ih (pre ++ (enc32 e.wd ++ enc32 e.mask ++ enc32 cookie ++ enc32 (e.name.length + (pad + 1)) ++ (e.name ++ List.replicate (pad + 1) 0))) t size
        (by rw [hs]; simp)
      rw [readLoop, if_pos (by rw [hs]; simp only [List.length_append, enc32_length]; omega)]
      have e1 := u32At_enc pre (enc32 e.mask ++ (enc32 cookie ++ (enc32 (e.name.length + (pad + 1)) ++ (e.name ++ List.replicate (pad + 1) 0 ++ (bs ++ t))))) e.wd h1 pre.length rfl
      have e2 := u32At_enc (pre ++ enc32 e.wd) (enc32 cookie ++ (enc32 (e.name.length + (pad + 1)) ++ (e.name ++ List.replicate (pad + 1) 0 ++ (bs ++ t)))) e.mask h2 (pre.length + 4)
        (by simp [enc32_length])
      have e3 := u32At_enc (pre ++ enc32 e.wd ++ enc32 e.mask ++ enc32 cookie) (e.name ++ List.replicate (pad + 1) 0 ++ (bs ++ t)) _ h5 (pre.length + 12)
        (by simp [enc32_length])
      have e4 := cStringAt_enc (pre ++ enc32 e.wd ++ enc32 e.mask ++ enc32 cookie ++ enc32 (e.name.length + (pad + 1))) e.name (bs ++ t) pad (pre.length + 16)
        (by simp [enc32_length]) h4
      simp only [List.append_assoc] at e1 e2 e3 e4 ih ⊢
      rw [e1, e2, e3]
      dsimp only
      rw [if_pos (by omega), e4]
      dsimp only
      have hl : (pre ++ (enc32 e.wd ++ (enc32 e.mask ++ (enc32 cookie ++ (enc32 (e.name.length + (pad + 1)) ++ (e.name ++ List.replicate (pad + 1) 0)))))).length =
          pre.length + (16 + (e.name.length + (pad + 1))) := by
        simp [enc32_length]; omega
      rw [hl] at ih
      rw [ih, List.filter_cons_of_pos (by simpa using h3)]
      rfl
    | bare cookie h1 h2 h3 =>
      have ih := ih (pre ++ (enc32 e.wd ++ enc32 e.mask ++ enc32 cookie ++ enc32 0)) t size (by rw [hs]; simp)
      rw [readLoop, if_pos (by rw [hs]; simp only [List.length_append, enc32_length]; omega)]
      have e1 := u32At_enc pre (enc32 e.mask ++ (enc32 cookie ++ (enc32 0 ++ (bs ++ t)))) e.wd h1 pre.length rfl
      have e2 := u32At_enc (pre ++ enc32 e.wd) (enc32 cookie ++ (enc32 0 ++ (bs ++ t))) e.mask h2 (pre.length + 4) (by simp [enc32_length])
      have e3 := u32At_enc (pre ++ enc32 e.wd ++ enc32 e.mask ++ enc32 cookie) (bs ++ t) 0 (by omega) (pre.length + 12) (by simp [enc32_length])
      simp only [List.append_assoc] at e1 e2 e3 ih ⊢
      rw [e1, e2, e3]
      dsimp only
      rw [if_neg (by omega)]
      have hl : (pre ++ (enc32 e.wd ++ (enc32 e.mask ++ (enc32 cookie ++ enc32 0)))).length = pre.length + (16 + 0) := by
        simp [enc32_length]
      rw [hl] at ih
      rw [ih, List.filter_cons_of_neg (by simp [h3])]

theorem bytesAt_enc (pre name t : List Nat) (off : Nat) (ho : off = pre.length) : bytesAt (pre ++ (name ++ t)) off name.length = some name := by
  subst ho
  unfold bytesAt
  rw [if_pos (by simp), List.drop_left, List.take_left]

theorem winLoop_enc (d : Nat) (info : Info) (naming : List Nat → Nat) {es : List WinChange} {bs : List Nat} (h : EncWin es bs) :
    ∀ (pre t : List Nat), winLoop d info naming (pre ++ (bs ++ t)) pre.length = some (es.flatMap fun e => winCall d info naming e.action e.name) := by
  induction h with
  | last e junk h1 h2 h3 =>
    intro pre t
    have e1 := u32At_enc pre (enc32 e.action ++ (enc32 e.name.length ++ (e.name ++ (junk ++ t)))) 0 (by omega) pre.length rfl
    have e2 := u32At_enc (pre ++ enc32 0) (enc32 e.name.length ++ (e.name ++ (junk ++ t))) e.action h1 (pre.length + 4) (by simp [enc32_length])
    have e3 := u32At_enc (pre ++ enc32 0 ++ enc32 e.action) (e.name ++ (junk ++ t)) e.name.length h2 (pre.length + 8) (by simp [enc32_length])
    have e4 := bytesAt_enc (pre ++ enc32 0 ++ enc32 e.action ++ enc32 e.name.length) e.name (junk ++ t) (pre.length + 12) (by simp [enc32_length])
    rw [winLoop, if_pos (by simp only [List.length_append, enc32_length]; omega)]
    simp only [List.append_assoc] at e1 e2 e3 e4 ⊢
    rw [e1, e2, e3]
    dsimp only
    rw [show e.name.length / 2 * 2 = e.name.length by omega, e4]
    simp
  | more e junk h1 h2 h3 h4 _ ih =>
    rename_i es bs _
    intro pre t
    have ih := ih (pre ++ (enc32 (12 + (e.name.length + junk.length)) ++ enc32 e.action ++ enc32 e.name.length ++ (e.name ++ junk))) t
    have e1 := u32At_enc pre (enc32 e.action ++ (enc32 e.name.length ++ (e.name ++ (junk ++ (bs ++ t))))) _ h4 pre.length rfl
    have e2 := u32At_enc (pre ++ enc32 (12 + (e.name.length + junk.length))) (enc32 e.name.length ++ (e.name ++ (junk ++ (bs ++ t)))) e.action h1 (pre.length + 4) (by simp [enc32_length])
    have e3 := u32At_enc (pre ++ enc32 (12 + (e.name.length + junk.length)) ++ enc32 e.action) (e.name ++ (junk ++ (bs ++ t))) e.name.length h2 (pre.length + 8) (by simp [enc32_length])
    have e4 := bytesAt_enc (pre ++ enc32 (12 + (e.name.length + junk.length)) ++ enc32 e.action ++ enc32 e.name.length) e.name (junk ++ (bs ++ t)) (pre.length + 12) (by simp [enc32_length])
    rw [winLoop, if_pos (by simp only [List.length_append, enc32_length]; omega)]
    simp only [List.append_assoc] at e1 e2 e3 e4 ih ⊢
    rw [e1, e2, e3]
    dsimp only
    rw [show e.name.length / 2 * 2 = e.name.length by omega, e4]
    dsimp only
    have hl : (pre ++ (enc32 (12 + (e.name.length + junk.length)) ++ (enc32 e.action ++ (enc32 e.name.length ++ (e.name ++ junk))))).length =
        pre.length + (12 + (e.name.length + junk.length)) := by simp [enc32_length]; omega
    rw [hl] at ih
    rw [if_neg (by omega), ih]
    rfl


theorem pollReads_enc (order : List (Nat × Info)) (naming : List Nat → Nat) (tail : List (List Nat))
    (ht : tail = [] ∨ tail.head? = some []) : ∀ (batches : List (List Change × List Nat)) (buf : List Nat),
    (∀ b ∈ batches, EncEvents b.1 b.2 ∧ b.1 ≠ []) →
    ∃ buf', pollReads order naming (batches.map (·.2) ++ tail) buf = some (((batches.flatMap (·.1)).filter fun e => e.name != []).flatMap
      fun e => handleEvent order ⟨e.wd, naming e.name, e.mask⟩, buf') := by
  intro batches
  induction batches with
  | nil =>
    intro buf _
    refine ⟨buf, ?_⟩
    rcases tail with _ | ⟨d, tail⟩
    · rfl
    · rcases ht with ht | ht
      · exact nomatch ht
      · simp only [List.head?_cons, Option.some.injEq] at ht
        subst ht
        rfl
  | cons b bs ih =>
    intro buf h
    obtain ⟨es, data⟩ := b
    obtain ⟨h1, h2⟩ := h _ List.mem_cons_self
    have hd : data ≠ [] := by
      cases h1 with
      | nil => exact absurd rfl h2
      | cons he _ => cases he <;> simp [enc32]
    obtain ⟨buf', hb⟩ := ih (overwrite data buf) fun b hb => h b (List.mem_cons_of_mem _ hb)
    refine ⟨buf', ?_⟩
    have hr := readLoop_enc order naming h1 [] (buf.drop data.length) data.length rfl
    rw [List.map_cons, List.cons_append, pollReads, if_neg hd]
    simp only [List.nil_append, List.length_nil] at hr
    unfold overwrite at hb ⊢
    rw [hr]
    dsimp only
    rw [hb]
    simp

theorem queue_invoked (order : List (Nat × Info)) (naming : List Nat → Nat) (es : List Change) : ∀ (s : Monitor),
    s.queue = es.map (fun e => ⟨e.wd, naming e.name, e.mask⟩) →
    (es.foldl (fun s _ => s.dispatch order) s).invoked = s.invoked ++ es.flatMap fun e => handleEvent order ⟨e.wd, naming e.name, e.mask⟩ := by
  induction es with
  | nil => intro s _; simp
  | cons e es ih =>
    intro s hs
    rw [List.foldl_cons]
    have h1 : s.dispatch order = { s with queue := es.map (fun e => ⟨e.wd, naming e.name, e.mask⟩), invoked := s.invoked ++ handleEvent order ⟨e.wd, naming e.name, e.mask⟩ } := by
      unfold Monitor.dispatch
      rw [hs]
      rfl
    rw [h1, ih _ rfl]
    simp

/-! ## Properties -/

/-- What the kernel writes is taken apart exactly: for every series of batches up to the first read that gives nothing, whatever was in the
array before and whatever a read after the empty one would give, the callbacks invoked are those of the events that have a name, in the
order of the kernel, and nothing outside the array is read. -/
theorem inotify_batches (order : List (Nat × Info)) (naming : List Nat → Nat) (batches : List (List Change × List Nat)) (buf : List Nat)
    (later : List (List Nat)) (hl : later = [] ∨ later.head? = some []) (h : ∀ b ∈ batches, EncEvents b.1 b.2 ∧ b.1 ≠ []) :
    (pollReads order naming (batches.map (·.2) ++ later) buf).map (·.1) = some (((batches.flatMap (·.1)).filter fun e => e.name != []).flatMap
      fun e => handleEvent order ⟨e.wd, naming e.name, e.mask⟩) := by
  obtain ⟨buf', h'⟩ := pollReads_enc order naming later hl batches buf h
  rw [h']
  rfl

/-- A poll is the dispatching of its named events one by one, as in `Verif.PathMonitor.Model`. -/
theorem inotify_batches_dispatch (order : List (Nat × Info)) (naming : List Nat → Nat) (batches : List (List Change × List Nat)) (buf : List Nat)
    (later : List (List Nat)) (hl : later = [] ∨ later.head? = some []) (s : Monitor) (h : ∀ b ∈ batches, EncEvents b.1 b.2 ∧ b.1 ≠ [])
    (hs : s.queue = ((batches.flatMap (·.1)).filter fun e => e.name != []).map fun e => ⟨e.wd, naming e.name, e.mask⟩) :
    (pollReads order naming (batches.map (·.2) ++ later) buf).map (s.invoked ++ ·.1) =
      some ((((batches.flatMap (·.1)).filter fun e => e.name != []).foldl (fun s _ => s.dispatch order) s).invoked) := by
  obtain ⟨buf', h'⟩ := pollReads_enc order naming later hl batches buf h
  rw [h', queue_invoked order naming _ s hs]
  rfl

/-- An event with a name, one without. -/
example : EncEvents [⟨1, 2, [0x61]⟩, ⟨2 ^ 32 - 1, 0x4000, []⟩]
    ((enc32 1 ++ enc32 2 ++ enc32 0 ++ enc32 (1 + (2 + 1)) ++ ([0x61] ++ List.replicate (2 + 1) 0)) ++
      ((enc32 (2 ^ 32 - 1) ++ enc32 0x4000 ++ enc32 0 ++ enc32 0) ++ [])) :=
  .cons (.named ⟨1, 2, [0x61]⟩ 0 2 (by decide) (by decide) (by simp) (by simp) (by decide))
    (.cons (.bare ⟨2 ^ 32 - 1, 0x4000, []⟩ 0 (by decide) (by decide) rfl) .nil)

/-- The calls a poll makes for the entries of a directory. -/
def winCalls (d : Nat) (info : Info) (naming : List Nat → Nat) (es : List WinChange) : List Call :=
  es.flatMap fun e => winCall d info naming e.action e.name

/-- The event an action number stands for (`FILE_ACTION_ADDED` 1, `REMOVED` 2, `MODIFIED` 3, `RENAMED_OLD_NAME` 4, `RENAMED_NEW_NAME`
5). -/
inductive ActionEvent : Nat → PathEvent → Prop
  | added : ActionEvent 1 .created
  | removed : ActionEvent 2 .deleted
  | modified : ActionEvent 3 .changed
  | oldName : ActionEvent 4 .deleted
  | newName : ActionEvent 5 .created

/-- Windows: an entry gives one call at most, to the file's callback if it has one, else to the directory's, with the path and the
event. -/
theorem win_call (d : Nat) (info : Info) (naming : List Nat → Nat) (action : Nat) (name : List Nat) (hk : Keys info.files) :
    (winCall d info naming action name).length ≤ 1 ∧
    ∀ x, x ∈ winCall d info naming action name ↔ x.dir = d ∧ x.name = naming name ∧ ActionEvent action x.event ∧
      ((naming name, x.callback) ∈ info.files ∨ ((∀ c, (naming name, c) ∉ info.files) ∧ info.pathHandler = some x.callback)) := by
  have hev : ∀ e, e ≠ PathEvent.none → (convertAction action = e ↔ ActionEvent action e) := by
    intro e he
    unfold convertAction
    constructor
    · intro h
      split at h
      · rename_i h1; subst h; rcases h1 with rfl | rfl <;> constructor
      · split at h
        · rename_i h1; subst h; rcases h1 with rfl | rfl <;> constructor
        · split at h
          · rename_i h1; subst h; subst h1; constructor
          · exact absurd h.symm he
    · intro h; cases h <;> rfl
  have hnone : ∀ e, ActionEvent action e → e ≠ .none := by intro e h; cases h <;> simp
  unfold winCall
  split
  · rename_i h0
    refine ⟨by simp, fun x => ⟨fun h => (nomatch h), fun ⟨_, _, h, _⟩ => ?_⟩⟩
    have := (hev _ (hnone _ h)).2 h
    rw [h0] at this
    exact absurd this.symm (hnone _ h)
  · rename_i h0
    have hact := (hev _ h0).1 rfl
    have huniq : ∀ e, ActionEvent action e → e = convertAction action := fun e h => ((hev e (hnone e h)).2 h).symm
    rcases hg : get (naming name) info.files with _ | c
    · have hno : ∀ c, (naming name, c) ∉ info.files := fun c hc => by
        rw [← get_iff hk] at hc; rw [hg] at hc; cases hc
      dsimp only
      rcases hp : info.pathHandler with _ | c
      · refine ⟨by simp, fun x => ⟨fun h => (nomatch h), fun ⟨_, _, _, h⟩ => ?_⟩⟩
        rcases h with h | h
        · exact absurd h (hno _)
        · exact nomatch h.2
      · refine ⟨by simp, fun x => ⟨fun h => ?_, fun ⟨h1, h2, h3, h4⟩ => ?_⟩⟩
        · simp only [List.mem_singleton] at h
          subst h
          exact ⟨rfl, rfl, hact, .inr ⟨hno, rfl⟩⟩
        · obtain ⟨c', d', n', e'⟩ := x
          rcases h4 with h4 | h4
          · exact absurd h4 (hno _)
          · dsimp only at h1 h2 h3 h4
            subst h1 h2
            rw [huniq _ h3]
            have := h4.2
            injection this with this
            subst this
            simp
    · have hc : (naming name, c) ∈ info.files := (get_iff hk _ _).1 hg
      refine ⟨by simp, fun x => ⟨fun h => ?_, fun ⟨h1, h2, h3, h4⟩ => ?_⟩⟩
      · simp only [List.mem_singleton] at h
        subst h
        exact ⟨rfl, rfl, hact, .inl hc⟩
      · obtain ⟨c', d', n', e'⟩ := x
        rcases h4 with h4 | h4
        · dsimp only at h1 h2 h3 h4
          subst h1 h2
          rw [huniq _ h3]
          rw [← get_iff hk, hg] at h4
          injection h4 with h4
          subst h4
          simp
        · exact absurd hc (h4.1 c)

/-- Windows: what the system writes is taken apart exactly, whatever was in the array, as long as it never reports an overflow: over any
series of polls each entry gives its call once, in order. -/
theorem win_polls_partial (d : Nat) (info : Info) (naming : List Nat → Nat) : ∀ (polls : List (Option (List WinChange × List Nat))) (buf : List Nat),
    (∀ p ∈ polls, ∀ b, p = some b → EncWin b.1 b.2) →
    winPolls d info naming (polls.map fun p => ((p.map fun b => Completion.written b.2).getD .pending, true)) buf =
      some (polls.flatMap fun p => (p.map fun b => winCalls d info naming b.1).getD []) := by
  intro polls
  induction polls with
  | nil => intro buf _; rfl
  | cons p ps ih =>
    intro buf h
    have ih := fun buf => ih buf fun q hq => h q (List.mem_cons_of_mem _ hq)
    cases p with
    | none =>
      rw [List.map_cons, winPolls]
      simp only [Option.map_none, Option.getD_none, winPoll1, Bool.false_eq_true, if_false, List.nil_append, List.flatMap_cons]
      rw [ih buf]
      rfl
    | some b =>
      obtain ⟨es, data⟩ := b
      have hr := winLoop_enc d info naming (h _ List.mem_cons_self _ rfl) [] (buf.drop data.length)
      simp only [List.nil_append, List.length_nil] at hr
      rw [List.map_cons, winPolls]
      simp only [Option.map_some, Option.getD_some, winPoll1, Completion.fill]
      rw [show overwrite data buf = data ++ buf.drop data.length from rfl, hr]
      simp only [Option.map_some, Bool.not_true, Bool.false_eq_true, if_false]
      rw [ih]
      rfl

/-- Windows: when the system takes no further request for a directory, its last entries are delivered and then nothing. -/
theorem win_poll_removed (d : Nat) (info : Info) (naming : List Nat → Nat) (es : List WinChange) (data buf : List Nat) (later : List (Completion × Bool))
    (h : EncWin es data) : winPolls d info naming ((.written data, false) :: later) buf = some (winCalls d info naming es) := by
  have hr := winLoop_enc d info naming h [] (buf.drop data.length)
  simp only [List.nil_append, List.length_nil] at hr
  simp only [winPolls, winPoll1, Completion.fill]
  rw [show overwrite data buf = data ++ buf.drop data.length from rfl, hr]
  rfl

/-- Windows: after an overflow, of which the system reports zero bytes, the entries of the previous completion are delivered again; and an
overflow before anything was written makes the monitor take apart an array that was never filled, which can lead outside it. -/
theorem win_polls_violated :
    (∀ (d : Nat) (info : Info) (naming : List Nat → Nat) (es : List WinChange) (data buf : List Nat), EncWin es data →
      winPolls d info naming [(.written data, true), (.overflow, true)] buf = some (winCalls d info naming es ++ winCalls d info naming es)) ∧
    winPolls 0 ⟨0, some 0, []⟩ (fun _ => 0) [(.overflow, true)] (List.replicate 2048 1) = none := by
  constructor
  · intro d info naming es data buf h
    have hr := winLoop_enc d info naming h [] (buf.drop data.length)
    simp only [List.nil_append, List.length_nil] at hr
    simp only [winPolls, winPoll1, Completion.fill]
    rw [show overwrite data buf = data ++ buf.drop data.length from rfl, hr]
    simp [winCalls, hr]
  · have h1 : winLoop 0 ⟨0, some 0, []⟩ (fun _ => 0) (List.replicate 2048 1) 0 = none := by
      decide +kernel
    simp only [winPolls, winPoll1, Completion.fill]
    rw [h1]
    rfl

/-- Two entries, a file created and one deleted. -/
example : EncWin [⟨1, [0x61, 0]⟩, ⟨2, [0x62, 0]⟩]
    (enc32 (12 + (2 + 2)) ++ enc32 1 ++ enc32 2 ++ ([0x61, 0] ++ [7, 7]) ++ (enc32 0 ++ enc32 2 ++ enc32 2 ++ ([0x62, 0] ++ []))) :=
  .more ⟨1, [0x61, 0]⟩ [7, 7] (by decide) (by decide) rfl (by decide) (.last ⟨2, [0x62, 0]⟩ [] (by decide) (by decide) rfl)

end Verif.PathMonitor
