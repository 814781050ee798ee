/-!
# C154: logging from several threads

Source: `/repo/fly/logger/logger.cpp` 174-220, `/repo/fly/logger/logger.hpp` 430-433.

`m_last_task_failed` is atomic, `m_index` is a plain integer and nothing protects the sink. So a thread that executes
`log_to_sink` goes through the steps of `Pc`, and other threads can act between any two of them. (In C++ two
unprotected accesses to `m_index` are a data race; the interleaving is the mildest thing that can happen.) What is
in a record is C65; here a message is a number. The asynchronous logger uses a sequenced task runner, which executes
one task at a time in the order of posting (C45), so its tasks have one executor.
-/

namespace Verif.Logger.Threads

/-- How far an executor of `log_to_sink` is (logger.cpp 205-220). -/
inductive Pc where
  | out
  /-- `m_last_task_failed` was false (176, 187) -/
  | checked (message : Nat)
  /-- `m_index` was read (213) -/
  | loaded (message index : Nat)
  /-- and the next number written back (213) -/
  | stored (message index : Nat)
  /-- in `Sink::stream` (217) -/
  | inSink (message index : Nat)
  /-- back, with the answer of the sink (218) -/
  | answered (ok : Bool)
deriving DecidableEq, Repr

structure State where
  /-- whether the logger has a task runner (logger.cpp 183) -/
  async : Bool
  failed : Bool
  index : Nat
  /-- the executors: the threads of the program, or the one of the sequenced runner -/
  pcs : List Pc
  /-- the tasks of the runner -/
  queue : List Nat
  /-- the calls of `Sink::stream`: message and index -/
  offered : List (Nat × Nat)
deriving DecidableEq, Repr

/-- A logger after `initialize` (logger.cpp 163-172): synchronous with a number of threads. -/
def syncStart (threads : Nat) : State := ⟨false, false, 0, List.replicate threads .out, [], []⟩

/-- The same with a task runner. -/
def asyncStart : State := ⟨true, false, 0, [.out], [], []⟩

inductive Op where
  /-- a call of `log` with this message, by executor `t` if the logger is synchronous, else by any thread -/
  | call (t message : Nat)
  /-- the runner takes its next task -/
  | take
  | load (t : Nat)
  | store (t : Nat)
  | stream (t : Nat)
  | answer (t : Nat) (ok : Bool)
  | finish (t : Nat)
deriving DecidableEq, Repr

/-- Executor `t` goes on. -/
def State.set (s : State) (t : Nat) (p : Pc) : State := { s with pcs := s.pcs.set t p }

/-- One step, if it is possible. -/
def step (s : State) : Op → Option State
  -- logger.cpp 176-202
  | .call t m =>
    if s.failed then some s
    else if s.async then some { s with queue := s.queue ++ [m] }
    else if s.pcs[t]? = some Pc.out then some (s.set t (.checked m)) else none
  -- logger.cpp 185-191
  | .take =>
    match s.queue with
    | [] => none
    | m :: q =>
      if s.async ∧ s.pcs[0]? = some Pc.out then
        some (if s.failed then { s with queue := q } else { s.set 0 (.checked m) with queue := q })
      else none
  -- logger.cpp 213
  | .load t =>
    match s.pcs[t]? with
    | some (.checked m) => some (s.set t (.loaded m s.index))
    | _ => none
  | .store t =>
    match s.pcs[t]? with
    | some (.loaded m i) => some { s.set t (.stored m i) with index := i + 1 }
    | _ => none
  -- logger.cpp 217
  | .stream t =>
    match s.pcs[t]? with
    | some (.stored m i) => some { s.set t (.inSink m i) with offered := s.offered ++ [(m, i)] }
    | _ => none
  | .answer t ok =>
    match s.pcs[t]? with
    | some (.inSink _ _) => some (s.set t (.answered ok))
    | _ => none
  -- logger.cpp 218
  | .finish t =>
    match s.pcs[t]? with
    | some (.answered ok) => some { s.set t .out with failed := !ok }
    | _ => none

/-- A history. -/
def run : State → List Op → Option State
  | s, [] => some s
  | s, o :: r => (step s o).bind fun s' => run s' r

/-! ## Specification -/

/-- The records offered to the sink have the indices 0, 1, 2, ... in this order. -/
def Consecutive (offered : List (Nat × Nat)) : Prop := offered.map (·.2) = List.range offered.length

/-- The sink never works on two records at once. -/
def OneInSink (s : State) : Prop :=
  ∀ (t t' m i m' i' : Nat), s.pcs[t]? = some (Pc.inSink m i) → s.pcs[t']? = some (Pc.inSink m' i') → t = t'

/-- The messages of the calls of `log`, in order. -/
def calls : List Op → List Nat
  | [] => []
  | .call _ m :: r => m :: calls r
  | _ :: r => calls r

/-- The sink never refuses a record. -/
def NoRefusal (ops : List Op) : Prop := ∀ t : Nat, Op.answer t false ∉ ops

/-- Nobody is executing `log_to_sink` and no task waits. -/
def Quiet (s : State) : Prop := (∀ p ∈ s.pcs, p = Pc.out) ∧ s.queue = []

/-- If this is a call, no thread is executing `log_to_sink`. -/
def Alone (s : State) : Op → Prop
  | .call _ _ => ∀ p ∈ s.pcs, p = Pc.out
  | _ => True

/-- The program makes its calls one after the other: no call begins before the previous one has returned. -/
def Serial : State → List Op → Prop
  | _, [] => True
  | s, o :: r =>
    Alone s o ∧
    match step s o with
    | some s' => Serial s' r
    | none => True

/-! ## When at most one executor is at work -/

/-- The message an executor has and has not offered yet. -/
def Pc.pending : Pc → List Nat
  | .checked m | .loaded m _ | .stored m _ => [m]
  | _ => []

structure Inv (s : State) : Prop where
  /-- at most one executor is at work -/
  one : ∀ (t t' : Nat) (p p' : Pc), s.pcs[t]? = some p → s.pcs[t']? = some p' → p ≠ Pc.out → p' ≠ Pc.out → t = t'
  single : s.async = true → s.pcs.length = 1
  empty : s.async = false → s.queue = []
  indices : Consecutive s.offered
  /-- the next index, unless a record that has one is not offered yet -/
  next : (∀ t m i : Nat, s.pcs[t]? ≠ some (Pc.stored m i)) → s.index = s.offered.length
  loaded : ∀ t m i : Nat, s.pcs[t]? = some (Pc.loaded m i) → i = s.offered.length
  stored : ∀ t m i : Nat, s.pcs[t]? = some (Pc.stored m i) → i = s.offered.length ∧ s.index = s.offered.length + 1

theorem set_get {l : List Pc} {t u : Nat} {p q : Pc} (h : (l.set t p)[u]? = some q) :
    (u = t ∧ q = p) ∨ (u ≠ t ∧ l[u]? = some q) := by
  by_cases e : u = t
  · subst e
    rw [List.getElem?_set_self'] at h
    cases hx : l[u]? with
    | none => rw [hx] at h; cases h
    | some x => rw [hx] at h; cases h; exact .inl ⟨rfl, rfl⟩
  · rw [List.getElem?_set_ne (fun e' => e e'.symm)] at h
    exact .inr ⟨e, h⟩

/-- An executor at work goes on. -/
theorem one_set {s : State} (h : Inv s) {t : Nat} {a b : Pc} (ht : s.pcs[t]? = some a) (ha : a ≠ Pc.out) :
    (∀ (u u' : Nat) (p p' : Pc), (s.pcs.set t b)[u]? = some p → (s.pcs.set t b)[u']? = some p' → p ≠ Pc.out → p' ≠ Pc.out → u = u') ∧
    ∀ (u : Nat) (p : Pc), u ≠ t → (s.pcs.set t b)[u]? = some p → p = Pc.out := by
  have others : ∀ (u : Nat) (p : Pc), u ≠ t → s.pcs[u]? = some p → p = Pc.out := by
    intro u p hu hp
    by_cases hx : p = Pc.out
    · exact hx
    · exact absurd (h.one u t p a hp ht hx ha) hu
  constructor
  · intro u u' p p' h1 h2 h3 h4
    rcases set_get h1 with ⟨e, -⟩ | ⟨e, q⟩
    · rcases set_get h2 with ⟨e', -⟩ | ⟨e', q'⟩
      · rw [e, e']
      · exact absurd (others _ _ e' q') h4
    · exact absurd (others _ _ e q) h3
  · intro u p hu hp
    rcases set_get hp with ⟨e, -⟩ | ⟨e, q⟩
    · exact absurd e hu
    · exact others _ _ hu q

/-- An executor begins while no other is at work. -/
theorem begin_inv {s : State} (h : Inv s) (hall : ∀ p ∈ s.pcs, p = Pc.out) (t m : Nat) (q : List Nat)
    (hq : s.async = false → q = []) : Inv { s.set t (.checked m) with queue := q } := by
  have others : ∀ (u : Nat) (p : Pc), u ≠ t → (s.pcs.set t (.checked m))[u]? = some p → p = Pc.out := by
    intro u p hu hp
    rcases set_get hp with ⟨e, -⟩ | ⟨e, x⟩
    · exact absurd e hu
    · exact hall _ (List.mem_of_getElem? x)
  have form : ∀ (u : Nat) (p : Pc), (s.pcs.set t (.checked m))[u]? = some p → p = Pc.out ∨ p = .checked m := by
    intro u p hp
    rcases set_get hp with ⟨-, e⟩ | ⟨e, x⟩
    · exact .inr e
    · exact .inl (hall _ (List.mem_of_getElem? x))
  refine ⟨?_, ?_, hq, h.indices, ?_, ?_, ?_⟩
  · intro u u' p p' h1 h2 h3 h4
    by_cases e : u = t
    · by_cases e' : u' = t
      · rw [e, e']
      · exact absurd (others _ _ e' h2) h4
    · exact absurd (others _ _ e h1) h3
  · intro ha
    simp only [State.set, List.length_set]
    exact h.single ha
  · intro _
    refine h.next fun u m i hu => ?_
    have := hall _ (List.mem_of_getElem? hu)
    cases this
  · intro u m' i hu
    rcases form _ _ hu with e | e <;> cases e
  · intro u m' i hu
    rcases form _ _ hu with e | e <;> cases e

theorem all_out {s : State} (h : Inv s) (ha : s.async = true) (h0 : s.pcs[0]? = some Pc.out) : ∀ p ∈ s.pcs, p = Pc.out := by
  have hl := h.single ha
  intro p hp
  obtain ⟨u, hu, e⟩ := List.getElem_of_mem hp
  have hu0 : u = 0 := by omega
  subst hu0
  rw [List.getElem?_eq_getElem hu, e] at h0
  exact Option.some.inj h0

theorem Inv.step {s s' : State} {o : Op} (h : Inv s)
    (hc : s.async = false → Alone s o) (hs : step s o = some s') : Inv s' := by
  cases o with
  | call t m =>
    simp only [Threads.step] at hs
    split at hs
    · cases hs; exact h
    · split at hs
      · rename_i ha
        cases hs
        exact ⟨h.one, h.single, fun e => (by rw [ha] at e; cases e), h.indices, h.next, h.loaded, h.stored⟩
      · rename_i ha
        split at hs
        · injection hs with hs
          subst hs
          have hf : s.async = false := by simpa using ha
          have := begin_inv h (hc hf) t m s.queue h.empty
          exact this
        · cases hs
  | take =>
    simp only [Threads.step] at hs
    split at hs
    · cases hs
    · rename_i m q hq
      split at hs
      · rename_i hx
        obtain ⟨ha, h0⟩ := hx
        have hall := all_out h ha h0
        injection hs with hs
        subst hs
        split
        · exact ⟨h.one, h.single, fun e => (by rw [ha] at e; cases e), h.indices, h.next, h.loaded, h.stored⟩
        · exact begin_inv h hall 0 m q (fun e => by rw [ha] at e; cases e)
      · cases hs
  | load t =>
    simp only [Threads.step] at hs
    split at hs
    · rename_i m ht
      injection hs with hs
      subst hs
      obtain ⟨o1, o2⟩ := one_set h (b := .loaded m s.index) ht (by simp)
      have hn : s.index = s.offered.length := by
        refine h.next fun u m' i hu => ?_
        have := h.one u t _ _ hu ht (by simp) (by simp)
        subst this
        rw [ht] at hu
        cases hu
      refine ⟨o1, fun ha => by simpa [State.set] using h.single ha, h.empty, h.indices, fun _ => hn, ?_, ?_⟩
      · intro u m' i hu
        rcases set_get hu with ⟨-, e⟩ | ⟨e, x⟩
        · cases e; exact hn
        · exact h.loaded _ _ _ x
      · intro u m' i hu
        rcases set_get hu with ⟨-, e⟩ | ⟨e, x⟩
        · cases e
        · exact h.stored _ _ _ x
    · cases hs
  | store t =>
    simp only [Threads.step] at hs
    split at hs
    · rename_i m i ht
      injection hs with hs
      subst hs
      obtain ⟨o1, o2⟩ := one_set h (b := .stored m i) ht (by simp)
      have hi := h.loaded _ _ _ ht
      have hlt := (List.getElem?_eq_some_iff.1 ht).1
      refine ⟨o1, fun ha => by simpa [State.set] using h.single ha, h.empty, h.indices, ?_, ?_, ?_⟩
      · intro hno
        exact absurd (by simp [State.set, List.getElem?_set_self hlt]) (hno t m i)
      · intro u m' j hu
        rcases set_get hu with ⟨-, e⟩ | ⟨e, x⟩
        · cases e
        · have := o2 u _ e hu
          cases this
      · intro u m' j hu
        rcases set_get hu with ⟨-, e⟩ | ⟨e, x⟩
        · cases e
          exact ⟨hi, congrArg (· + 1) hi⟩
        · have := o2 u _ e hu
          cases this
    · cases hs
  | stream t =>
    simp only [Threads.step] at hs
    split at hs
    · rename_i m i ht
      injection hs with hs
      subst hs
      obtain ⟨o1, o2⟩ := one_set h (b := .inSink m i) ht (by simp)
      obtain ⟨hi, hx⟩ := h.stored _ _ _ ht
      refine ⟨o1, fun ha => by simpa [State.set] using h.single ha, h.empty, ?_, ?_, ?_, ?_⟩
      · have := h.indices
        unfold Consecutive at this ⊢
        simp only [List.map_append, List.length_append, List.length_singleton, List.range_succ, List.map_singleton, this]
        rw [hi]
      · intro _
        simp only [List.length_append, List.length_singleton]
        exact hx
      · intro u m' j hu
        rcases set_get hu with ⟨-, e⟩ | ⟨e, x⟩
        · cases e
        · have := o2 u _ e hu
          cases this
      · intro u m' j hu
        rcases set_get hu with ⟨-, e⟩ | ⟨e, x⟩
        · cases e
        · have := o2 u _ e hu
          cases this
    · cases hs
  | answer t ok =>
    simp only [Threads.step] at hs
    split at hs
    · rename_i m i ht
      injection hs with hs
      subst hs
      obtain ⟨o1, o2⟩ := one_set h (b := .answered ok) ht (by simp)
      refine ⟨o1, fun ha => by simpa [State.set] using h.single ha, h.empty, h.indices, ?_, ?_, ?_⟩
      · intro _
        refine h.next fun u m' j hu => ?_
        have := h.one u t _ _ hu ht (by simp) (by simp)
        subst this
        rw [ht] at hu
        cases hu
      · intro u m' j hu
        rcases set_get hu with ⟨-, e⟩ | ⟨e, x⟩
        · cases e
        · have := o2 u _ e hu
          cases this
      · intro u m' j hu
        rcases set_get hu with ⟨-, e⟩ | ⟨e, x⟩
        · cases e
        · have := o2 u _ e hu
          cases this
    · cases hs
  | finish t =>
    simp only [Threads.step] at hs
    split at hs
    · rename_i ok ht
      injection hs with hs
      subst hs
      obtain ⟨o1, o2⟩ := one_set h (b := Pc.out) ht (by simp)
      refine ⟨o1, fun ha => by simpa [State.set] using h.single ha, h.empty, h.indices, ?_, ?_, ?_⟩
      · intro _
        refine h.next fun u m' j hu => ?_
        have := h.one u t _ _ hu ht (by simp) (by simp)
        subst this
        rw [ht] at hu
        cases hu
      · intro u m' j hu
        rcases set_get hu with ⟨-, e⟩ | ⟨e, x⟩
        · cases e
        · have := o2 u _ e hu
          cases this
      · intro u m' j hu
        rcases set_get hu with ⟨-, e⟩ | ⟨e, x⟩
        · cases e
        · have := o2 u _ e hu
          cases this
    · cases hs

/-! ## What reaches the sink -/

/-- `c`: the messages of the calls so far. -/
structure Kept (s : State) (c : List Nat) : Prop where
  pre : s.offered.map (·.1) <+: c
  /-- who is at work has seen that the logger has not failed, and nobody else is at work -/
  good : ∀ (t : Nat) (p : Pc), s.pcs[t]? = some p → p ≠ Pc.out → s.failed = false
  /-- the message of the executor at work is the next one -/
  busy : ∀ (t : Nat) (p : Pc), s.pcs[t]? = some p → p ≠ Pc.out → s.offered.map (·.1) ++ p.pending ++ s.queue = c
  quiet : s.failed = false → (∀ p ∈ s.pcs, p = Pc.out) → s.offered.map (·.1) ++ s.queue = c

/-- The message of a step that is a call. -/
def Op.message : Op → List Nat
  | .call _ m => [m]
  | _ => []

/-- An executor at work goes on to another state in which it is at work. -/
theorem Kept.move {s : State} {c : List Nat} (h : Kept s c) {t : Nat} {a b : Pc} (ht : s.pcs[t]? = some a)
    (ha : a ≠ .out) (hb : b ≠ .out) (o2 : ∀ (u : Nat) (p : Pc), u ≠ t → (s.pcs.set t b)[u]? = some p → p = .out)
    (i : Nat) (f : List (Nat × Nat)) (hf : f.map (·.1) ++ b.pending = s.offered.map (·.1) ++ a.pending) :
    Kept { s.set t b with index := i, offered := f } c := by
  have hlt := (List.getElem?_eq_some_iff.1 ht).1
  have key := h.busy t a ht ha
  refine ⟨?_, ?_, ?_, ?_⟩
  · exact ⟨b.pending ++ s.queue, by rw [← List.append_assoc, hf]; exact key⟩
  · intro u p hu hp
    exact h.good t a ht ha
  · intro u p hu hp
    have hu' : (s.pcs.set t b)[u]? = some p := hu
    rcases set_get hu' with ⟨-, e⟩ | ⟨e, x⟩
    · subst e
      show f.map (·.1) ++ p.pending ++ s.queue = c
      rw [hf]
      exact key
    · exact absurd (o2 u p e hu') hp
  · intro _ hall
    have : b ∈ s.pcs.set t b := List.mem_of_getElem? (List.getElem?_set_self hlt)
    exact absurd (hall b this) hb

/-- An executor begins. -/
theorem Kept.start {s : State} {c : List Nat} (h : Kept s c) (hg : s.failed = false) (hall : ∀ p ∈ s.pcs, p = Pc.out)
    (t m : Nat) (ht : s.pcs[t]? = some Pc.out) (q d : List Nat) (hd : s.queue ++ d = m :: q) :
    Kept { s.set t (.checked m) with queue := q } (c ++ d) := by
  have hlt := (List.getElem?_eq_some_iff.1 ht).1
  have key := h.quiet hg hall
  refine ⟨?_, ?_, ?_, ?_⟩
  · obtain ⟨r, hr⟩ := h.pre
    exact ⟨r ++ d, by rw [← hr]; simp [State.set]⟩
  · intro u p _ _
    exact hg
  · intro u p hu hp
    rcases set_get hu with ⟨-, e⟩ | ⟨e, x⟩
    · subst e
      show s.offered.map (·.1) ++ [m] ++ q = c ++ d
      rw [← key, List.append_assoc, List.append_assoc, hd]
      rfl
    · exact absurd (hall p (List.mem_of_getElem? x)) hp
  · intro _ ha
    have : Pc.checked m ∈ s.pcs.set t (.checked m) := List.mem_of_getElem? (List.getElem?_set_self hlt)
    exact absurd (ha _ this) (by simp)

theorem Kept.step {s s' : State} {c : List Nat} {o : Op} (h : Inv s) (k : Kept s c)
    (hc : s.async = false → Alone s o) (hs : step s o = some s') :
    Kept s' (c ++ o.message) := by
  cases o with
  | call t m =>
    simp only [Threads.step] at hs
    split at hs
    · rename_i hf
      cases hs
      refine ⟨?_, k.good, ?_, ?_⟩
      · obtain ⟨r, hr⟩ := k.pre
        exact ⟨r ++ [m], by rw [← hr]; simp [Op.message]⟩
      · intro u p hu hp
        have := k.good u p hu hp
        rw [hf] at this
        cases this
      · intro hg
        rw [hf] at hg
        cases hg
    · rename_i hf
      have hg : s.failed = false := by simpa using hf
      split at hs
      · cases hs
        refine ⟨?_, k.good, ?_, ?_⟩
        · obtain ⟨r, hr⟩ := k.pre
          exact ⟨r ++ [m], by rw [← hr]; simp [Op.message]⟩
        · intro u p hu hp
          have := k.busy u p hu hp
          show s.offered.map (·.1) ++ p.pending ++ (s.queue ++ [m]) = c ++ [m]
          rw [← this]
          simp
        · intro _ hall
          have := k.quiet hg hall
          show s.offered.map (·.1) ++ (s.queue ++ [m]) = c ++ [m]
          rw [← this]
          simp
      · rename_i ha
        split at hs
        · rename_i ht
          injection hs with hs
          subst hs
          have hf : s.async = false := by simpa using ha
          have := k.start hg (hc hf) t m ht s.queue [m] (by rw [h.empty hf]; rfl)
          exact this
        · cases hs
  | take =>
    simp only [Threads.step] at hs
    split at hs
    · cases hs
    · rename_i m q hq
      split at hs
      · rename_i hx
        obtain ⟨ha, h0⟩ := hx
        have hall := all_out h ha h0
        injection hs with hs
        subst hs
        split
        · rename_i hf
          refine ⟨?_, k.good, ?_, ?_⟩
          · simpa [Op.message] using k.pre
          · intro u p hu hp
            exact absurd (hall p (List.mem_of_getElem? hu)) hp
          · intro hg
            rw [show s.failed = true from hf] at hg
            cases hg
        · rename_i hf
          have := k.start (by simpa using hf) hall 0 m h0 q [] (by simpa using hq)
          exact this
      · cases hs
  | load t =>
    simp only [Threads.step] at hs
    split at hs
    · rename_i m ht
      injection hs with hs
      subst hs
      obtain ⟨-, o2⟩ := one_set h (b := .loaded m s.index) ht (by simp)
      have := k.move ht (by simp) (by simp) o2 s.index s.offered rfl
      simpa [Op.message, State.set] using this
    · cases hs
  | store t =>
    simp only [Threads.step] at hs
    split at hs
    · rename_i m i ht
      injection hs with hs
      subst hs
      obtain ⟨-, o2⟩ := one_set h (b := .stored m i) ht (by simp)
      have := k.move ht (by simp) (by simp) o2 (i + 1) s.offered rfl
      simpa [Op.message, State.set] using this
    · cases hs
  | stream t =>
    simp only [Threads.step] at hs
    split at hs
    · rename_i m i ht
      injection hs with hs
      subst hs
      obtain ⟨-, o2⟩ := one_set h (b := .inSink m i) ht (by simp)
      have := k.move ht (by simp) (by simp) o2 s.index (s.offered ++ [(m, i)]) (by simp [Pc.pending])
      simpa [Op.message, State.set] using this
    · cases hs
  | answer t ok =>
    simp only [Threads.step] at hs
    split at hs
    · rename_i m i ht
      injection hs with hs
      subst hs
      obtain ⟨-, o2⟩ := one_set h (b := .answered ok) ht (by simp)
      have := k.move ht (by simp) (by simp) o2 s.index s.offered rfl
      simpa [Op.message, State.set] using this
    · cases hs
  | finish t =>
    simp only [Threads.step] at hs
    split at hs
    · rename_i ok ht
      injection hs with hs
      subst hs
      obtain ⟨-, o2⟩ := one_set h (b := .out) ht (by simp)
      have hall : ∀ (u : Nat) (p : Pc), (s.pcs.set t .out)[u]? = some p → p = .out := by
        intro u p hu
        rcases set_get hu with ⟨-, e⟩ | ⟨e, x⟩
        · exact e
        · exact o2 u p e hu
      have key := k.busy t _ ht (by simp)
      refine ⟨?_, ?_, ?_, ?_⟩
      · simpa [Op.message, State.set] using k.pre
      · intro u p hu hp
        exact absurd (hall u p hu) hp
      · intro u p hu hp
        exact absurd (hall u p hu) hp
      · intro _ _
        simpa [Op.message, Pc.pending, State.set] using key
    · cases hs

/-- A sink that never refuses does not make the logger fail. -/
theorem never_fails (ops : List Op) : ∀ (s s' : State), s.failed = false →
    (∀ (t : Nat), s.pcs[t]? ≠ some (Pc.answered false)) → NoRefusal ops → run s ops = some s' → s'.failed = false := by
  induction ops with
  | nil => intro s s' h _ _ hr; cases hr; exact h
  | cons o r ih =>
    intro s s' hf hp hn hr
    cases hs : step s o with
    | none => simp [run, hs] at hr
    | some s1 =>
      simp only [run, hs, Option.bind_some] at hr
      have hn' : NoRefusal r := fun t ht => hn t (List.mem_cons_of_mem _ ht)
      have other : ∀ (t : Nat) (p : Pc), p ≠ .answered false →
          ∀ u : Nat, (s.pcs.set t p)[u]? ≠ some (Pc.answered false) := by
        intro t p hne u hu
        rcases set_get hu with ⟨-, e⟩ | ⟨e, x⟩
        · exact hne e.symm
        · exact hp u x
      have key : s1.failed = false ∧ ∀ (t : Nat), s1.pcs[t]? ≠ some (Pc.answered false) := by
        cases o with
        | call t m =>
          simp only [step, hf] at hs
          split at hs
          · cases hs; exact ⟨hf, hp⟩
          · split at hs
            · injection hs with hs; subst hs; exact ⟨rfl, hp⟩
            · split at hs
              · injection hs with hs; subst hs; exact ⟨hf, other _ _ (by simp)⟩
              · cases hs
        | take =>
          simp only [step, hf] at hs
          split at hs
          · cases hs
          · split at hs
            · injection hs with hs; subst hs; exact ⟨hf, other _ _ (by simp)⟩
            · cases hs
        | load t | store t | stream t =>
          simp only [step] at hs
          split at hs
          · injection hs with hs; subst hs; exact ⟨hf, other _ _ (by simp)⟩
          · cases hs
        | answer t ok =>
          simp only [step] at hs
          split at hs
          · injection hs with hs
            subst hs
            refine ⟨hf, other _ _ fun e => ?_⟩
            cases e
            exact hn t List.mem_cons_self
          · cases hs
        | finish t =>
          simp only [step] at hs
          split at hs
          · rename_i ok ht
            injection hs with hs
            subst hs
            refine ⟨?_, other _ _ (by simp)⟩
            cases ok
            · exact absurd ht (hp t)
            · rfl
          · cases hs
      exact ih s1 s' key.1 key.2 hn' hr

theorem step_async {s s1 : State} {o : Op} (hs : step s o = some s1) : s1.async = s.async := by
  revert hs
  cases o <;> simp only [step] <;> repeat' split
  all_goals (intro hs; first | cases hs | skip)
  all_goals first | rfl | skip
  all_goals (injection hs with hs; subst hs; first | rfl | (split <;> rfl))

/-- The calls are serial, or the logger is asynchronous. -/
theorem both_run (ops : List Op) : ∀ (s s' : State) (c : List Nat), Inv s → Kept s c →
    (s.async = true ∨ Serial s ops) → run s ops = some s' → Inv s' ∧ Kept s' (c ++ calls ops) := by
  induction ops with
  | nil =>
    intro s s' c h k _ hr
    cases hr
    exact ⟨h, by simpa [calls] using k⟩
  | cons o r ih =>
    intro s s' c h k hx hr
    cases hs : step s o with
    | none => simp [run, hs] at hr
    | some s1 =>
      simp only [run, hs, Option.bind_some] at hr
      have hasync : s1.async = s.async := step_async hs
      have hc : s.async = false → Alone s o := by
        intro ha
        rcases hx with e | e
        · rw [ha] at e; cases e
        · exact e.1
      have hx' : s1.async = true ∨ Serial s1 r := by
        rcases hx with e | e
        · left; rw [hasync, e]
        · right
          have := e.2
          simp only [hs] at this
          exact this
      have := ih s1 s' _ (h.step hc hs) (k.step h hc hs) hx' hr
      have e : c ++ o.message ++ calls r = c ++ calls (o :: r) := by
        cases o <;> simp [Op.message, calls]
      rw [e] at this
      exact this

end Verif.Logger.Threads
