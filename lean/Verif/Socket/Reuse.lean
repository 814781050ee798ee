import Verif.Socket.Service

/-!
# Sockets, one after the other, with the same handle number

The operating system gives the number of a closed handle to the next socket opened. The socket service (`Verif.Socket.Model`)
knows sockets by that number only. Here sockets have an identity of their own.

Simplification: a socket is not used after `close` was called on it (a request of a closed socket asks for handle `-1`, C73).
-/

namespace Verif.Socket.Reuse

/-- Who has a handle (`some (k, c)`: socket `k`; `c` says that its `close` has begun), and every request made so far with the socket it
was made for. -/
structure Env where
  owner : Int → Option (Nat × Bool)
  made : List (Nat × Request)

/-- What threads do with sockets. -/
inductive Act
  /-- a socket is opened and given the free handle `h` -/
  | opened (k : Nat) (h : Int)
  /-- an asynchronous operation: `notify_when_writable` or `notify_when_readable` of the socket's handle -/
  | ask (k : Nat) (h : Int) (dir : Dir)
  /-- `BaseSocket::close`, base_socket.cpp 147-153: `remove_socket` is posted -/
  | retire (k : Nat) (h : Int)
  /-- and then, base_socket.cpp 155-156, the handle is closed -/
  | freed (k : Nat) (h : Int)
  deriving DecidableEq, Repr

/-- The handle is changed. -/
def Env.set (e : Env) (h : Int) (o : Option (Nat × Bool)) : Env := { e with owner := fun x => if x = h then o else e.owner x }

/-- When an action can happen. A socket that is opened is a new one. -/
def Act.allowed (e : Env) : Act → Prop
  | .opened k h => e.owner h = none ∧ (∀ x ∈ e.made, x.1 ≠ k) ∧ (∀ h' c, e.owner h' ≠ some (k, c))
  | .ask k h _ => e.owner h = some (k, false)
  | .retire k h => e.owner h = some (k, false)
  | .freed k h => e.owner h = some (k, true)

/-- The tasks an action posts to the service, socket_service.cpp 48-61, 64-78, 81-95. Requests are numbered. -/
def Act.posts (e : Env) : Act → List Task
  | .opened .. => []
  | .ask _ h dir => [.notify ⟨dir, h, e.made.length⟩]
  | .retire _ h => [.remove h]
  | .freed .. => []

/-- The effect of an action. -/
def Act.after (e : Env) : Act → Env
  | .opened k h => e.set h (some (k, false))
  | .ask k h dir => { e with made := e.made ++ [(k, ⟨dir, h, e.made.length⟩)] }
  | .retire k h => e.set h (some (k, true))
  | .freed _ h => e.set h none

/-- Some actions, with the tasks they post. -/
inductive Acts : Env → List Task → Env → Prop
  | none (e : Env) : Acts e [] e
  | act {e e' : Env} {ts : List Task} (a : Act) : Acts e ts e' → a.allowed e' → Acts e (ts ++ a.posts e') (a.after e')

/-- The service and the sockets. -/
structure World where
  service : Service
  env : Env

/-- Executions: threads act; the service runs its oldest task, and threads act meanwhile (the callbacks among them). -/
inductive Reach : World → Prop
  | init : Reach ⟨.init, ⟨fun _ => none, []⟩⟩
  | acts {w : World} {ts : List Task} {e : Env} : Reach w → Acts w.env ts e → Reach ⟨{ w.service with queue := w.service.queue ++ ts }, e⟩
  | run {w : World} {ts : List Task} {e : Env} (readyW readyR : List Int) : Reach w → w.service.queue ≠ [] → Acts w.env ts e →
      Reach ⟨w.service.runNext readyW readyR ts, e⟩

/-! ## What a task of the service does to one request -/

/-- The request is in one of the lists. -/
def listed (s : Service) (r : Request) : Prop := r ∈ s.writes ∨ r ∈ s.reads

theorem serve_keeps (ready : List Int) : ∀ (rs : List Request) (r : Request), r ∈ rs → r ∈ (serve ready rs).1 ∨ r ∈ (serve ready rs).2 := by
  intro rs r h
  have := serve_filter ready rs r.handle
  have hm : r ∈ rs.filter (fun x => x.handle == r.handle) := List.mem_filter.2 ⟨h, by simp⟩
  rw [this] at hm
  rcases List.mem_append.1 hm with h | h
  · exact .inr (List.mem_filter.1 h).1
  · exact .inl (List.mem_filter.1 h).1

theorem poll_effect (s : Service) (a b : List Int) (ts : List Task) (r : Request) :
    (listed (s.poll a b ts) r → listed s r) ∧
    (listed s r → listed (s.poll a b ts) r ∨ r ∈ (s.poll a b ts).invoked) ∧
    (r ∈ (s.poll a b ts).invoked → r ∈ s.invoked ∨ listed s r ∧ (r.handle ∈ a ∨ r.handle ∈ b)) ∧
    (r ∈ s.invoked → r ∈ (s.poll a b ts).invoked) ∧
    ∃ tail, (∀ t ∈ tail, t = Task.poll) ∧ (s.poll a b ts).queue = s.queue ++ ts ++ tail := by
  refine ⟨?_, ?_, ?_, ?_, ?_⟩
  · rintro (h | h)
    · exact .inl ((serve_mem _ _ r).2 h)
    · exact .inr ((serve_mem _ _ r).2 h)
  · rintro (h | h)
    · rcases serve_keeps ((handlesOf s.writes).filter (· ∈ a)) _ _ h with h | h
      · exact .inl (.inl h)
      · exact .inr (List.mem_append_left _ (List.mem_append_right _ h))
    · rcases serve_keeps ((handlesOf s.reads).filter (· ∈ b)) _ _ h with h | h
      · exact .inl (.inr h)
      · exact .inr (List.mem_append_right _ h)
  · intro h
    rcases List.mem_append.1 h with h | h
    · rcases List.mem_append.1 h with h | h
      · exact .inl h
      · have := (serve_mem _ _ r).1 h
        exact .inr ⟨.inl this.1, .inl (by simpa using (List.mem_filter.1 this.2).2)⟩
    · have := (serve_mem _ _ r).1 h
      exact .inr ⟨.inr this.1, .inr (by simpa using (List.mem_filter.1 this.2).2)⟩
  · intro h; exact List.mem_append_left _ (List.mem_append_left _ h)
  · refine ⟨if (serve ((handlesOf s.writes).filter (· ∈ a)) s.writes).1 ≠ [] ∨
        (serve ((handlesOf s.reads).filter (· ∈ b)) s.reads).1 ≠ [] then [.poll] else [], ?_, rfl⟩
    intro t ht
    split at ht
    · exact List.mem_singleton.1 ht
    · cases ht

theorem add_listed (s : Service) (r x : Request) : listed (s.add r) x ↔ listed s x ∨ x = r := by
  unfold Service.add listed
  cases r.dir <;> simp only [List.mem_append, List.mem_singleton]
  · constructor
    · rintro ((h | h) | h)
      · exact .inl (.inl h)
      · exact .inr h
      · exact .inl (.inr h)
    · rintro ((h | h) | h)
      · exact .inl (.inl h)
      · exact .inr h
      · exact .inl (.inr h)
  · constructor
    · rintro (h | h | h)
      · exact .inl (.inl h)
      · exact .inl (.inr h)
      · exact .inr h
    · rintro ((h | h) | h)
      · exact .inl h
      · exact .inr (.inl h)
      · exact .inr (.inr h)

theorem add_rest (s : Service) (r : Request) : (s.add r).queue = s.queue ∧ (s.add r).invoked = s.invoked := by
  unfold Service.add; cases r.dir <;> exact ⟨rfl, rfl⟩

/-- The oldest task, and a request. -/
theorem run_effect (s : Service) (t : Task) (q : List Task) (hq : s.queue = t :: q) (a b : List Int) (ts : List Task) (r : Request) :
    (listed (s.runNext a b ts) r → (listed s r ∨ t = .notify r) ∧ t ≠ .remove r.handle) ∧
    (listed s r ∨ t = .notify r → t ≠ .remove r.handle → listed (s.runNext a b ts) r ∨ r ∈ (s.runNext a b ts).invoked) ∧
    (r ∈ (s.runNext a b ts).invoked → r ∈ s.invoked ∨ (listed s r ∨ t = .notify r) ∧ (r.handle ∈ a ∨ r.handle ∈ b)) ∧
    (r ∈ s.invoked → r ∈ (s.runNext a b ts).invoked) ∧
    ∃ tail, (∀ t ∈ tail, t = Task.poll) ∧ (s.runNext a b ts).queue = q ++ ts ++ tail := by
  unfold Service.runNext
  rw [hq]
  cases t with
  | poll =>
    obtain ⟨h1, h2, h3, h4, h5⟩ := poll_effect { s with queue := q } a b ts r
    refine ⟨fun h => ⟨.inl (h1 h), by simp⟩, fun h _ => ?_, fun h => ?_, h4, h5⟩
    · rcases h with h | h
      · exact h2 h
      · cases h
    · rcases h3 h with h | h
      · exact .inl h
      · exact .inr ⟨.inl h.1, h.2⟩
  | remove x =>
    refine ⟨?_, ?_, fun h => .inl h, id, ⟨[], by simp, by simp⟩⟩
    · intro h
      have hx : r.handle ≠ x := by
        rcases h with h | h <;> simpa using (List.mem_filter.1 h).2
      refine ⟨.inl ?_, by simpa using Ne.symm hx⟩
      rcases h with h | h
      · exact .inl (List.mem_filter.1 h).1
      · exact .inr (List.mem_filter.1 h).1
    · rintro (h | h) hx
      · have hx : r.handle ≠ x := by rintro rfl; exact hx rfl
        rcases h with h | h
        · exact .inl (.inl (List.mem_filter.2 ⟨h, by simpa using hx⟩))
        · exact .inl (.inr (List.mem_filter.2 ⟨h, by simpa using hx⟩))
      · cases h
  | notify y =>
    have hadd := add_listed { s with queue := q } y r
    obtain ⟨hrq, hri⟩ := add_rest { s with queue := q } y
    simp only []
    split
    · obtain ⟨h1, h2, h3, h4, ⟨tail, h5, h6⟩⟩ := poll_effect (({ s with queue := q } : Service).add y) a b ts r
      refine ⟨fun h => ⟨?_, by simp⟩, fun h _ => ?_, fun h => ?_, fun h => h4 (by rw [hri]; exact h), ⟨tail, h5, by rw [h6, hrq]⟩⟩
      · rcases hadd.1 (h1 h) with h | h
        · exact .inl h
        · exact .inr (by rw [h])
      · refine h2 (hadd.2 ?_)
        rcases h with h | h
        · exact .inl h
        · cases h; exact .inr rfl
      · rcases h3 h with h | h
        · rw [hri] at h; exact .inl h
        · refine .inr ⟨?_, h.2⟩
          rcases hadd.1 h.1 with h | h
          · exact .inl h
          · exact .inr (by rw [h])
    · refine ⟨fun h => ⟨?_, by simp⟩, fun h _ => .inl ?_, fun h => .inl ?_, fun h => ?_, ⟨[], by simp, by simp⟩⟩
      · rcases hadd.1 h with h | h
        · exact .inl h
        · exact .inr (by rw [h])
      · refine hadd.2 ?_
        rcases h with h | h
        · exact .inl h
        · cases h; exact .inr rfl
      · have h' : r ∈ (({ s with queue := q } : Service).add y).invoked := h
        rw [hri] at h'; exact h'
      · show r ∈ (({ s with queue := q } : Service).add y).invoked
        rw [hri]; exact h

/-! ## Invariants -/

/-- Requests made are numbered in order. -/
def Numbered (e : Env) : Prop := ∀ i (x : Nat × Request), e.made[i]? = some x → x.2.id = i

theorem Acts.numbered {e e' : Env} {ts : List Task} (h : Acts e ts e') (hn : Numbered e) : Numbered e' := by
  induction h with
  | none => exact hn
  | @act e' _ a _ _ ih =>
    cases a with
    | ask k h dir =>
      intro i x hx
      simp only [Act.after] at hx
      by_cases hi : i < e'.made.length
      · rw [List.getElem?_append_left hi] at hx
        exact ih i x hx
      · rw [List.getElem?_append_right (by omega)] at hx
        have : i - e'.made.length = 0 := by
          have := (List.getElem?_eq_some_iff.1 hx).1
          simp at this; omega
        rw [this] at hx
        simp only [List.getElem?_cons_zero, Option.some.injEq] at hx
        subst hx
        show e'.made.length = i
        omega
    | _ => exact ih

/-- What the actions of threads do to the standing of a request. -/
theorem Acts.standing {e e' : Env} {ts : List Task} (h : Acts e ts e') : ∀ k r, (k, r) ∈ e'.made →
    (e'.owner r.handle = some (k, false) →
      ((k, r) ∈ e.made ∧ e.owner r.handle = some (k, false) ∧ Task.remove r.handle ∉ ts) ∨
      ∃ a b, ts = a ++ .notify r :: b ∧ Task.remove r.handle ∉ b) ∧
    (e'.owner r.handle ≠ some (k, false) →
      ((k, r) ∈ e.made ∧ (e.owner r.handle ≠ some (k, false) ∨ Task.remove r.handle ∈ ts)) ∨
      ∃ a b, ts = a ++ .notify r :: b ∧ Task.remove r.handle ∈ b) := by
  induction h with
  | none =>
    intro k r hr
    exact ⟨fun ho => .inl ⟨hr, ho, by simp⟩, fun ho => .inl ⟨hr, .inl ho⟩⟩
  | @act e1 ts a hacts hall ih =>
    intro k r hr
    cases a with
    | opened k1 h1 =>
      obtain ⟨hn, hfm, hfo⟩ := hall
      have hr' : (k, r) ∈ e1.made := hr
      obtain ⟨i1, i2⟩ := ih k r hr'
      simp only [Act.posts, List.append_nil]
      have hk : k ≠ k1 := hfm _ hr'
      have hsame : (Act.after e1 (.opened k1 h1)).owner r.handle = some (k, false) ↔ e1.owner r.handle = some (k, false) := by
        simp only [Act.after, Env.set]
        split
        · rename_i hh
          rw [hh, hn]; simp [Ne.symm hk]
        · rfl
      exact ⟨fun ho => i1 (hsame.1 ho), fun ho => i2 fun h => ho (hsame.2 h)⟩
    | ask k1 h1 dir =>
      simp only [Act.allowed] at hall
      have hr' : (k, r) ∈ e1.made ∨ (k, r) = (k1, ⟨dir, h1, e1.made.length⟩) := by
        simpa [Act.after] using hr
      rcases hr' with hr' | hr'
      · obtain ⟨i1, i2⟩ := ih k r hr'
        refine ⟨fun ho => ?_, fun ho => ?_⟩
        · rcases i1 ho with ⟨x, y, z⟩ | ⟨a, b, rfl, z⟩
          · exact .inl ⟨x, y, by simp [Act.posts, z]⟩
          · exact .inr ⟨a, b ++ Act.posts e1 (.ask k1 h1 dir), by simp, by simp [Act.posts, z]⟩
        · rcases i2 ho with ⟨x, y⟩ | ⟨a, b, rfl, z⟩
          · refine .inl ⟨x, ?_⟩
            rcases y with y | y
            · exact .inl y
            · exact .inr (List.mem_append_left _ y)
          · exact .inr ⟨a, b ++ Act.posts e1 (.ask k1 h1 dir), by simp, List.mem_append_left _ z⟩
      · cases hr'
        refine ⟨fun _ => .inr ⟨ts, [], rfl, by simp⟩, fun ho => absurd hall ho⟩
    | retire k1 h1 =>
      simp only [Act.allowed] at hall
      have hr' : (k, r) ∈ e1.made := hr
      obtain ⟨i1, i2⟩ := ih k r hr'
      simp only [Act.posts, Act.after, Env.set]
      by_cases hh : r.handle = h1
      · rw [if_pos hh]
        refine ⟨fun ho => by simp at ho, fun _ => ?_⟩
        by_cases hk : e1.owner r.handle = some (k, false)
        · rcases i1 hk with ⟨x, y, z⟩ | ⟨a, b, rfl, z⟩
          · exact .inl ⟨x, .inr (by simp [hh])⟩
          · exact .inr ⟨a, b ++ [.remove h1], by simp, by simp [hh]⟩
        · rcases i2 hk with ⟨x, y⟩ | ⟨a, b, rfl, z⟩
          · exact .inl ⟨x, .inr (by simp [hh])⟩
          · exact .inr ⟨a, b ++ [.remove h1], by simp, by simp [hh]⟩
      · rw [if_neg hh]
        refine ⟨fun ho => ?_, fun ho => ?_⟩
        · rcases i1 ho with ⟨x, y, z⟩ | ⟨a, b, rfl, z⟩
          · exact .inl ⟨x, y, by simp [z, hh]⟩
          · exact .inr ⟨a, b ++ [.remove h1], by simp, by simp [z, hh]⟩
        · rcases i2 ho with ⟨x, y⟩ | ⟨a, b, rfl, z⟩
          · refine .inl ⟨x, ?_⟩
            rcases y with y | y
            · exact .inl y
            · exact .inr (List.mem_append_left _ y)
          · exact .inr ⟨a, b ++ [.remove h1], by simp, List.mem_append_left _ z⟩
    | freed k1 h1 =>
      simp only [Act.allowed] at hall
      have hr' : (k, r) ∈ e1.made := hr
      obtain ⟨i1, i2⟩ := ih k r hr'
      simp only [Act.posts, List.append_nil]
      have hsame : (Act.after e1 (.freed k1 h1)).owner r.handle = some (k, false) ↔ e1.owner r.handle = some (k, false) := by
        simp only [Act.after, Env.set]
        split
        · rename_i hh
          rw [hh, hall]; simp
        · rfl
      exact ⟨fun ho => i1 (hsame.1 ho), fun ho => i2 fun h => ho (hsame.2 h)⟩

/-- Actions keep the requests made. -/
theorem Acts.made {e e' : Env} {ts : List Task} (h : Acts e ts e') : ∃ l, e'.made = e.made ++ l := by
  induction h with
  | none => exact ⟨[], by simp⟩
  | act a _ _ ih =>
    obtain ⟨l, hl⟩ := ih
    cases a with
    | ask k h dir => exact ⟨l ++ [(k, ⟨dir, h, _⟩)], by simp only [Act.after]; rw [hl, List.append_assoc]⟩
    | _ => exact ⟨l, hl⟩

/-- Every task posted by actions belongs to a request made meanwhile. -/
theorem Acts.notify {e e' : Env} {ts : List Task} (h : Acts e ts e') : ∀ r, Task.notify r ∈ ts → (∃ k, (k, r) ∈ e'.made) ∧ e.made.length ≤ r.id := by
  induction h with
  | none => intro r hr; cases hr
  | @act e1 ts a ha _ ih =>
    intro r hr
    rcases List.mem_append.1 hr with hr | hr
    · obtain ⟨⟨k, hk⟩, hle⟩ := ih r hr
      refine ⟨⟨k, ?_⟩, hle⟩
      cases a with
      | ask k h dir => exact List.mem_append_left _ hk
      | _ => exact hk
    · cases a with
      | ask k h dir =>
        simp only [Act.posts, List.mem_singleton, Task.notify.injEq] at hr
        subst hr
        refine ⟨⟨k, by simp [Act.after]⟩, ?_⟩
        obtain ⟨l, hl⟩ := ha.made
        rw [hl]; simp
      | _ => simp [Act.posts] at hr

/-- The invariant: requests in the service were made; a request of a socket that is open is queued or listed with no removal of its
handle to come, or has been served; one of a socket that is closed has a removal of its handle coming. -/
structure Inv (w : World) : Prop where
  numbered : Numbered w.env
  known : ∀ r, Task.notify r ∈ w.service.queue ∨ listed w.service r ∨ r ∈ w.service.invoked → ∃ k, (k, r) ∈ w.env.made
  kept : ∀ k r, (k, r) ∈ w.env.made → w.env.owner r.handle = some (k, false) →
    (∃ a b, w.service.queue = a ++ .notify r :: b ∧ Task.remove r.handle ∉ b) ∨
    (listed w.service r ∧ Task.remove r.handle ∉ w.service.queue) ∨ r ∈ w.service.invoked
  ending : ∀ k r, (k, r) ∈ w.env.made → w.env.owner r.handle ≠ some (k, false) →
    (listed w.service r → Task.remove r.handle ∈ w.service.queue) ∧
    (∀ a b, w.service.queue = a ++ .notify r :: b → Task.remove r.handle ∈ b)

theorem numbered_unique {e : Env} (hn : Numbered e) {k k' : Nat} {r : Request} (h : (k, r) ∈ e.made) (h' : (k', r) ∈ e.made) : k = k' := by
  obtain ⟨i, hi⟩ := List.getElem?_of_mem h
  obtain ⟨j, hj⟩ := List.getElem?_of_mem h'
  have h1 := hn i _ hi
  have h2 := hn j _ hj
  simp only at h1 h2
  have : i = j := by omega
  subst this
  rw [hi] at hj
  simp at hj
  exact hj

/-- Where an element of a concatenation can be. -/
theorem split_append {α : Type} {x y a b : List α} {t : α} (h : x ++ y = a ++ t :: b) :
    (∃ c, x = a ++ t :: c ∧ b = c ++ y) ∨ (∃ c, a = x ++ c ∧ y = c ++ t :: b) := by
  rcases List.append_eq_append_iff.1 h with ⟨c, h1, h2⟩ | ⟨c, h1, h2⟩
  · exact .inr ⟨c, h1, h2⟩
  · cases c with
    | nil => exact .inr ⟨[], by simpa using h1.symm, by simpa using h2.symm⟩
    | cons z c =>
      simp only [List.cons_append, List.cons.injEq] at h2
      obtain ⟨rfl, h2⟩ := h2
      exact .inl ⟨c, h1, h2⟩

theorem made_id_lt {e : Env} (hn : Numbered e) {k : Nat} {r : Request} (h : (k, r) ∈ e.made) : r.id < e.made.length := by
  obtain ⟨i, hi⟩ := List.getElem?_of_mem h
  have := hn i _ hi
  have := (List.getElem?_eq_some_iff.1 hi).1
  simp only at *
  omega

/-- A request is posted once. -/
theorem occurs_once {e e' : Env} {a b c d : List Task} {r : Request} (ha : Acts e (a ++ Task.notify r :: b) e')
    (hcd : a ++ Task.notify r :: b = c ++ Task.notify r :: d) (hb : Task.remove r.handle ∈ b) : Task.remove r.handle ∈ d := by
  have once : ∀ {ts : List Task} {e'}, Acts e ts e' → ∀ r, Task.notify r ∈ ts → ∀ c d, ts = c ++ Task.notify r :: d →
      Task.notify r ∉ c ∧ r.id < e'.made.length := by
    intro ts e' ha
    induction ha with
    | none => intro r hr; cases hr
    | @act e1 ts act hacts _ ih =>
      intro r hr c d hcd
      rcases split_append hcd with ⟨x, h1, h2⟩ | ⟨x, h1, h2⟩
      · have := ih r (by rw [h1]; simp) c x h1
        refine ⟨this.1, ?_⟩
        cases act with
        | ask k h dir => simp only [Act.after, List.length_append, List.length_cons, List.length_nil]; omega
        | _ => exact this.2
      · cases act with
        | ask k h dir =>
          simp only [Act.posts] at h2
          cases x with
          | nil =>
            simp only [List.nil_append, List.cons.injEq, Task.notify.injEq] at h2
            obtain ⟨h3, _⟩ := h2
            refine ⟨?_, ?_⟩
            · rw [h1, List.append_nil]
              intro hm
              obtain ⟨y, z, hyz⟩ := List.append_of_mem hm
              have := (ih r hm y z hyz).2
              rw [← h3] at this
              exact Nat.lt_irrefl _ this
            · rw [← h3]; simp [Act.after]
          | cons y ys =>
            simp only [List.cons_append, List.cons.injEq] at h2
            have := congrArg List.length h2.2
            simp at this
        | retire k h =>
          simp only [Act.posts] at h2
          cases x with
          | nil => simp at h2
          | cons y ys =>
            simp only [List.cons_append, List.cons.injEq] at h2
            have := congrArg List.length h2.2
            simp at this
        | _ =>
          simp only [Act.posts] at h2
          have := congrArg List.length h2
          simp at this
  have hc := (once ha r (by simp) c d hcd).1
  have hai := (once ha r (by simp) a b rfl).1
  rcases split_append hcd with ⟨x, h1, h2⟩ | ⟨x, h1, h2⟩
  · exact absurd (by rw [h1]; simp) hai
  · cases x with
    | nil =>
      simp only [List.nil_append, List.cons.injEq, true_and] at h2
      rw [← h2]; exact hb
    | cons y ys =>
      simp only [List.cons_append, List.cons.injEq] at h2
      exact absurd (by rw [h1, ← h2.1]; simp) hc

/-- The invariant survives a change of the service which drops nothing that is to be kept, together with actions. -/
theorem Inv.next {w : World} (h : Inv w) {q tail : List Task} {s : Service} {ts : List Task} {e : Env} (ha : Acts w.env ts e)
    (hq : s.queue = q ++ ts ++ tail) (htail : ∀ t ∈ tail, t = Task.poll)
    (hknown : ∀ r, Task.notify r ∈ q ∨ listed s r ∨ r ∈ s.invoked → Task.notify r ∈ w.service.queue ∨ listed w.service r ∨ r ∈ w.service.invoked)
    (hkept : ∀ k r, (k, r) ∈ w.env.made → w.env.owner r.handle = some (k, false) →
      (∃ a b, q = a ++ .notify r :: b ∧ Task.remove r.handle ∉ b) ∨ (listed s r ∧ Task.remove r.handle ∉ q) ∨ r ∈ s.invoked)
    (hend : ∀ k r, (k, r) ∈ w.env.made → w.env.owner r.handle ≠ some (k, false) →
      (listed s r → Task.remove r.handle ∈ q) ∧ (∀ a b, q = a ++ .notify r :: b → Task.remove r.handle ∈ b))
    : Inv ⟨s, e⟩ := by
  have hnt : ∀ x, Task.remove x ∉ tail := fun x hx => by have := htail _ hx; cases this
  have hnt' : ∀ x, Task.notify x ∉ tail := fun x hx => by have := htail _ hx; cases this
  obtain ⟨l, hl⟩ := ha.made
  refine ⟨ha.numbered h.numbered, ?_, ?_, ?_⟩
  · intro r hr
    simp only [hq, List.mem_append] at hr
    rcases hr with ((hr | hr) | hr) | hr | hr
    · obtain ⟨k, hk⟩ := h.known r (hknown r (.inl hr))
      exact ⟨k, by rw [hl]; exact List.mem_append_left _ hk⟩
    · exact (ha.notify r hr).1
    · exact absurd hr (hnt' _)
    · obtain ⟨k, hk⟩ := h.known r (hknown r (.inr (.inl hr)))
      exact ⟨k, by rw [hl]; exact List.mem_append_left _ hk⟩
    · obtain ⟨k, hk⟩ := h.known r (hknown r (.inr (.inr hr)))
      exact ⟨k, by rw [hl]; exact List.mem_append_left _ hk⟩
  · intro k r hr ho
    rcases (ha.standing k r hr).1 ho with ⟨h1, h2, h3⟩ | ⟨a, b, rfl, h3⟩
    · rcases hkept k r h1 h2 with ⟨a, b, rfl, hb⟩ | ⟨hl', hb⟩ | hi
      · exact .inl ⟨a, b ++ ts ++ tail, by rw [hq]; simp, by simp [hb, h3, hnt]⟩
      · exact .inr (.inl ⟨hl', by rw [hq]; simp [hb, h3, hnt]⟩)
      · exact .inr (.inr hi)
    · exact .inl ⟨q ++ a, b ++ tail, by rw [hq]; simp, by simp [h3, hnt]⟩
  · intro k r hr ho
    -- the request was made before the step
    have old : (k, r) ∈ w.env.made → (w.env.owner r.handle ≠ some (k, false) ∨ Task.remove r.handle ∈ ts) →
        (listed s r → Task.remove r.handle ∈ s.queue) ∧ (∀ a b, s.queue = a ++ .notify r :: b → Task.remove r.handle ∈ b) := by
      intro h1 h2
      have hold : Task.notify r ∉ ts := fun hm => by
        have := (ha.notify r hm).2
        have := made_id_lt h.numbered h1
        omega
      rcases h2 with h2 | h2
      · obtain ⟨e1, e2⟩ := hend k r h1 h2
        refine ⟨fun hl => by rw [hq]; simp [e1 hl], fun a b hab => ?_⟩
        rw [hq, List.append_assoc] at hab
        rcases split_append hab with ⟨c, hc1, hc2⟩ | ⟨c, hc1, hc2⟩
        · rw [hc2]; exact List.mem_append_left _ (e2 _ _ hc1)
        · have hm : Task.notify r ∈ ts ++ tail := by rw [hc2]; simp
          rcases List.mem_append.1 hm with hm | hm
          · exact absurd hm hold
          · exact absurd hm (hnt' _)
      · refine ⟨fun _ => by rw [hq]; simp [h2], fun a b hab => ?_⟩
        rw [hq, List.append_assoc] at hab
        rcases split_append hab with ⟨c, hc1, hc2⟩ | ⟨c, hc1, hc2⟩
        · rw [hc2]; exact List.mem_append_right _ (List.mem_append_left _ h2)
        · have hm : Task.notify r ∈ ts ++ tail := by rw [hc2]; simp
          rcases List.mem_append.1 hm with hm | hm
          · exact absurd hm hold
          · exact absurd hm (hnt' _)
    by_cases hmade : (k, r) ∈ w.env.made
    · refine old hmade ?_
      rcases (ha.standing k r hr).2 ho with ⟨_, h2⟩ | ⟨a, b, rfl, _⟩
      · exact h2
      · have := (ha.notify r (by simp)).2
        have := made_id_lt h.numbered hmade
        omega
    · -- the request is new
      have hnew : ∀ k', (k', r) ∉ w.env.made := by
        intro k' hk'
        have : (k', r) ∈ e.made := by rw [hl]; exact List.mem_append_left _ hk'
        have := numbered_unique (ha.numbered h.numbered) this hr
        subst this
        exact hmade hk'
      have hnk : ¬ (Task.notify r ∈ w.service.queue ∨ listed w.service r ∨ r ∈ w.service.invoked) := fun hx => by
        obtain ⟨k', hk'⟩ := h.known r hx
        exact hnew k' hk'
      rcases (ha.standing k r hr).2 ho with ⟨h1, _⟩ | ⟨a, b, hab, hb⟩
      · exact absurd h1 hmade
      · refine ⟨fun hl => absurd (hknown r (.inr (.inl hl))) hnk, fun a' b' hab' => ?_⟩
        subst hab
        rw [hq] at hab'
        -- `ts` has the request once: its number was given once
        have hqn : Task.notify r ∉ q := fun hx => hnk (hknown r (.inl hx))
        rw [List.append_assoc] at hab'
        rcases split_append hab' with ⟨c, hc1, _⟩ | ⟨c, hc1, hc2⟩
        · exact absurd (by rw [hc1]; simp) hqn
        · rcases split_append hc2 with ⟨d, hd1, hd2⟩ | ⟨d, hd1, hd2⟩
          · rw [hd2]
            refine List.mem_append_left _ ?_
            -- the tail of the first occurrence contains the removal, that of the last does too
            exact occurs_once ha hd1 hb
          · exact absurd (by rw [hd2]; simp) (hnt' r)
theorem Inv.of {w : World} (h : Reach w) : Inv w := by
  induction h with
  | init =>
    refine ⟨?_, ?_, ?_, ?_⟩
    · intro i x hx; simp at hx
    · rintro r (hr | (hr | hr) | hr) <;> cases hr
    · intro k r hr; cases hr
    · intro k r hr; cases hr
  | @acts w ts e _ ha ih =>
    exact ih.next (q := w.service.queue) (tail := []) ha (by simp) (by simp) (fun r hr => hr) (fun k r h1 h2 => ih.kept k r h1 h2)
      (fun k r h1 h2 => ih.ending k r h1 h2)
  | @run w ts e a b _ hne ha ih =>
    obtain ⟨t, q, hq⟩ : ∃ t q, w.service.queue = t :: q := by
      cases hc : w.service.queue with
      | nil => exact absurd hc hne
      | cons t q => exact ⟨t, q, rfl⟩
    obtain ⟨_, _, _, _, ⟨tail, ht, hqueue⟩⟩ := run_effect w.service t q hq a b ts ⟨.read, 0, 0⟩
    refine ih.next (q := q) (tail := tail) ha hqueue ht ?_ ?_ ?_
    · intro r hr
      obtain ⟨e1, _, e3, _, _⟩ := run_effect w.service t q hq a b ts r
      rcases hr with hr | hr | hr
      · exact .inl (by rw [hq]; exact List.mem_cons_of_mem _ hr)
      · rcases (e1 hr).1 with h | h
        · exact .inr (.inl h)
        · exact .inl (by rw [hq, h]; simp)
      · rcases e3 hr with h | ⟨h | h, _⟩
        · exact .inr (.inr h)
        · exact .inr (.inl h)
        · exact .inl (by rw [hq, h]; simp)
    · intro k r h1 h2
      obtain ⟨_, e2, _, e4, _⟩ := run_effect w.service t q hq a b ts r
      rcases ih.kept k r h1 h2 with ⟨x, y, hxy, hy⟩ | ⟨hl, hr⟩ | hi
      · rw [hq] at hxy
        cases x with
        | nil =>
          simp only [List.nil_append, List.cons.injEq] at hxy
          obtain ⟨rfl, rfl⟩ := hxy
          rcases e2 (.inr rfl) (by simp) with h | h
          · exact .inr (.inl ⟨h, hy⟩)
          · exact .inr (.inr h)
        | cons z zs =>
          simp only [List.cons_append, List.cons.injEq] at hxy
          exact .inl ⟨zs, y, hxy.2, hy⟩
      · rw [hq] at hr
        have hr1 : t ≠ .remove r.handle := by rintro rfl; simp at hr
        have hr2 : Task.remove r.handle ∉ q := fun h => hr (List.mem_cons_of_mem _ h)
        rcases e2 (.inl hl) hr1 with h | h
        · exact .inr (.inl ⟨h, hr2⟩)
        · exact .inr (.inr h)
      · exact .inr (.inr (e4 hi))
    · intro k r h1 h2
      obtain ⟨e1, _, _, _, _⟩ := run_effect w.service t q hq a b ts r
      obtain ⟨i1, i2⟩ := ih.ending k r h1 h2
      refine ⟨fun hl => ?_, fun x y hxy => ?_⟩
      · obtain ⟨h, hne⟩ := e1 hl
        rcases h with h | h
        · have := i1 h
          rw [hq] at this
          rcases List.mem_cons.1 this with this | this
          · exact absurd this.symm hne
          · exact this
        · exact i2 [] q (by rw [hq, h]; rfl)
      · exact i2 (t :: x) y (by rw [hq, hxy]; rfl)

/-! ## The property -/

/-- No request of an open socket is lost, whatever sockets had the same handle before: every asynchronous operation started on a
socket that has not been closed since has been served, or is still waiting in the service (posted or listed), and nothing
that waits there will remove it. -/
theorem reuse_loses_nothing {w : World} (h : Reach w) (k : Nat) (r : Request) (hr : (k, r) ∈ w.env.made)
    (ho : w.env.owner r.handle = some (k, false)) :
    r ∈ w.service.invoked ∨ (r ∈ w.service.writes ∨ r ∈ w.service.reads) ∧ Task.remove r.handle ∉ w.service.queue ∨
    ∃ before after, w.service.queue = before ++ .notify r :: after ∧ Task.remove r.handle ∉ after := by
  rcases (Inv.of h).kept k r hr ho with h | h | h
  · exact .inr (.inr h)
  · exact .inr (.inl h)
  · exact .inl h

/-- A callback is invoked only for a socket that is open, or whose removal from the service is still to come (`close` has
returned or not); and only if the operating system reported its handle number. So once the removal has run, no callback
of the closed socket runs, whoever has the number now. -/
theorem reuse_callbacks_partial {w : World} (h : Reach w) (k : Nat) (r : Request) (hr : (k, r) ∈ w.env.made) (t : Task) (q : List Task)
    (hq : w.service.queue = t :: q) (readyW readyR : List Int) (ts : List Task) (hold : r ∉ w.service.invoked)
    (hi : r ∈ (w.service.runNext readyW readyR ts).invoked) :
    (r.handle ∈ readyW ∨ r.handle ∈ readyR) ∧ (w.env.owner r.handle = some (k, false) ∨ Task.remove r.handle ∈ w.service.queue) := by
  obtain ⟨_, _, e3, _, _⟩ := run_effect w.service t q hq readyW readyR ts r
  rcases e3 hi with h' | ⟨h', hready⟩
  · exact absurd h' hold
  · refine ⟨hready, ?_⟩
    by_cases ho : w.env.owner r.handle = some (k, false)
    · exact .inl ho
    · right
      obtain ⟨i1, i2⟩ := (Inv.of h).ending k r hr ho
      rcases h' with h' | h'
      · exact i1 h'
      · have := i2 [] q (by rw [hq, h']; rfl)
        rw [hq]; exact List.mem_cons_of_mem _ this

/-- A callback can be invoked on account of another socket: socket 0 waits for data and is closed; its handle number is given to
socket 1 before the service has run the removal, data arrive for socket 1, and the poll that is already queued invokes the callback
of socket 0. -/
theorem reuse_callbacks_violated :
    ∃ (w : World) (r : Request), Reach w ∧ (0, r) ∈ w.env.made ∧ w.env.owner r.handle = some (1, false) ∧ r ∉ w.service.invoked ∧
      w.service.queue ≠ [] ∧ r ∈ (w.service.runNext [] [r.handle] []).invoked := by
  let e0 : Env := ⟨fun _ => none, []⟩
  have a1 : Acts e0 _ _ := .act (.opened 0 3) (.none e0) ⟨rfl, (by intro x hx; cases hx), (by intro h c hc; cases hc)⟩
  have a2 := Acts.act (.ask 0 3 .read) a1 rfl
  have r0 : Reach ⟨.init, e0⟩ := .init
  have r1 := Reach.acts r0 a2
  -- the service takes the request and polls; nothing is ready, and it posts the next poll
  have r2 := Reach.run (w := ⟨_, _⟩) [] [] r1 (by simp [Act.posts]) (.none _)
  -- socket 0 is closed, and socket 1 gets its handle
  have b1 := Acts.act (.retire 0 3) (.none (Act.after (Act.after e0 (.opened 0 3)) (.ask 0 3 .read))) rfl
  have b2 := Acts.act (.freed 0 3) b1 rfl
  have b3 := Acts.act (.opened 1 3) b2 ⟨rfl, (by
      intro x hx
      have : x = (0, ⟨.read, 3, 0⟩) := by simpa [Act.after, Env.set, e0] using hx
      rw [this]; decide), (by
      intro h c hc
      simp only [Act.after, Env.set, e0] at hc
      repeat' (split at hc)
      all_goals cases hc)⟩
  have r3 := Reach.acts r2 b3
  exact ⟨_, ⟨.read, 3, 0⟩, r3, by simp [Act.after, Env.set, e0], rfl, by decide +kernel, by decide +kernel, by decide +kernel⟩

/-- The hypotheses of `reuse_loses_nothing` are met: two sockets one after the other with handle 3; the request of the second one
waits behind the removal of the first. -/
example : ∃ (w : World) (r : Request), Reach w ∧ (1, r) ∈ w.env.made ∧ w.env.owner r.handle = some (1, false) ∧
    w.service.queue = [.notify ⟨.read, 3, 0⟩, .remove 3, .notify r] := by
  let e0 : Env := ⟨fun _ => none, []⟩
  have a1 : Acts e0 _ _ := .act (.opened 0 3) (.none e0) ⟨rfl, (by intro x hx; cases hx), (by intro h c hc; cases hc)⟩
  have a2 := Acts.act (.ask 0 3 .read) a1 rfl
  have a3 := Acts.act (.retire 0 3) a2 rfl
  have a4 := Acts.act (.freed 0 3) a3 rfl
  have a5 := Acts.act (.opened 1 3) a4 ⟨rfl, (by
      intro x hx
      have : x = (0, ⟨.read, 3, 0⟩) := by simpa [Act.after, Env.set, e0] using hx
      rw [this]; decide), (by
      intro h c hc
      simp only [Act.after, Env.set, e0] at hc
      repeat' (split at hc)
      all_goals cases hc)⟩
  have a6 := Acts.act (.ask 1 3 .write) a5 rfl
  exact ⟨_, ⟨.write, 3, 1⟩, Reach.acts .init a6, by simp [Act.after, Env.set, e0], rfl, rfl⟩

end Verif.Socket.Reuse
