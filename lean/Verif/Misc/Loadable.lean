/-!
# Objects loaded from a database on demand

`/repo/satella/dao.py`.

`refresh` belongs to the user, who is to call the inherited one; so it either succeeds, and then
the object is marked as loaded (`/repo/satella/dao.py:26-34`), or raises before that.
-/
namespace Verif.Loadable

/-- Where a thread is in a method decorated with `must_be_loaded`.  (Part of the model of `Loadable`, /repo/satella/dao.py:8-34.) -/
inductive Pc where
  /-- not in such a method -/
  | out
  /-- found the object not loaded: about to call `refresh` -/
  | loading
  /-- about to execute the body of the method -/
  | body
  deriving Repr, DecidableEq

/-- What a thread saw happen.  (Part of the model of `Loadable`, /repo/satella/dao.py:8-34.) -/
inductive Ev where
  | asked                 -- a decorated method was called
  | refreshed (ok : Bool) -- `refresh` was called and succeeded, or raised
  | ran                   -- the body of the method was executed
  deriving Repr, DecidableEq

/-- The object and the threads using it; `log` has the events, the latest first.  (Part of the model of `Loadable`, /repo/satella/dao.py:8-34.) -/
structure State where
  loaded : Bool
  pc : Nat → Pc
  log : List (Nat × Ev)

/-- What may happen next to a thread.  (Part of the model of `Loadable`, /repo/satella/dao.py:8-34.) -/
inductive Op where
  /-- calls a decorated method -/
  | call
  /-- goes on in the method; if it is to call `refresh`, that succeeds or not -/
  | go (ok : Bool)
  /-- the program calls `refresh` itself -/
  | refresh (ok : Bool)
  deriving Repr, DecidableEq

/-- part of the model of `Loadable`, /repo/satella/dao.py:8-34 -/
def setPc (s : State) (t : Nat) (p : Pc) : Nat → Pc := fun u => if u = t then p else s.pc u

/-- `Loadable.__init__`, `/repo/satella/dao.py:20-23`, by thread 0. -/
def init (loadLazy : Bool) (ok : Bool) : State :=
  if loadLazy then ⟨false, fun _ => .out, []⟩
  else ⟨ok, fun _ => .out, [(0, .refreshed ok)]⟩

/-- One step of a thread in `inner` of `must_be_loaded`, `/repo/satella/dao.py:46-52`, or of `refresh`
(`/repo/satella/dao.py:34`) called by the program. -/
def step (s : State) (t : Nat) : Op → State
  | .call =>
    match s.pc t with
    | .out => { s with pc := setPc s t (if s.loaded then .body else .loading), log := (t, .asked) :: s.log }
    | _ => s
  | .go ok =>
    match s.pc t with
    | .out => s
    | .loading => { loaded := s.loaded || ok, pc := setPc s t (if ok then .body else .out), log := (t, .refreshed ok) :: s.log }
    | .body => { s with pc := setPc s t .out, log := (t, .ran) :: s.log }
  | .refresh ok =>
    match s.pc t with
    | .out => { s with loaded := s.loaded || ok, log := (t, .refreshed ok) :: s.log }
    | _ => s

/-- A schedule: who does what.  (Threads using an object as in `/repo/satella/dao.py:46-52`.) -/
def run (s : State) : List (Nat × Op) → State
  | [] => s
  | (t, op) :: rest => run (step s t op) rest

/-! ## Specification, over logs with the latest event first -/

/-- Before each execution of a method some `refresh` succeeded. -/
def LoadedFirst (log : List (Nat × Ev)) : Prop :=
  ∀ after t before, log = after ++ (t, Ev.ran) :: before → ∃ u, (u, Ev.refreshed true) ∈ before

/-- How many times `refresh` succeeded. -/
def successes (log : List (Nat × Ev)) : Nat := log.countP (fun e => e.2 = .refreshed true)

/-- How many times the database was asked. -/
def loads (log : List (Nat × Ev)) : Nat := log.countP (fun e => match e.2 with | .refreshed _ => true | _ => false)

structure Inv (s : State) : Prop where
  marked : s.loaded = true ↔ ∃ u, (u, Ev.refreshed true) ∈ s.log
  ready : ∀ t, s.pc t = .body → s.loaded = true
  first : LoadedFirst s.log

theorem loadedFirst_cons {log : List (Nat × Ev)} {e : Nat × Ev} (h : LoadedFirst log) (he : e.2 = .ran → ∃ u, (u, Ev.refreshed true) ∈ log) :
    LoadedFirst (e :: log) := by
  intro after t before heq
  cases after with
  | nil =>
    simp only [List.nil_append, List.cons.injEq] at heq
    obtain ⟨rfl, rfl⟩ := heq
    exact he rfl
  | cons a after =>
    simp only [List.cons_append, List.cons.injEq] at heq
    exact h after t before heq.2

theorem inv_init (lz ok : Bool) : Inv (init lz ok) := by
  cases lz with
  | true => refine ⟨by simp [init], by simp [init], ?_⟩; intro a t b h; cases a <;> simp [init] at h
  | false =>
    refine ⟨by cases ok <;> simp [init], by simp [init], ?_⟩
    intro a t b h
    cases a with
    | nil => simp [init] at h
    | cons a l => cases l <;> simp [init] at h

theorem inv_step {s : State} (I : Inv s) (t : Nat) (op : Op) : Inv (step s t op) := by
  cases op with
  | call =>
    simp only [step]
    split
    · refine ⟨?_, ?_, loadedFirst_cons I.first (by simp)⟩
      · simp only [List.mem_cons, Prod.mk.injEq]; rw [I.marked]; simp
      · intro u hu
        simp only [setPc] at hu
        split at hu
        · cases hl : s.loaded <;> simp_all
        · exact I.ready u hu
    · exact I
  | go ok =>
    simp only [step]
    split
    · exact I
    · refine ⟨?_, ?_, loadedFirst_cons I.first (by simp)⟩
      · simp only [Bool.or_eq_true, I.marked, List.mem_cons, Prod.mk.injEq]
        cases ok <;> simp
      · intro u hu
        simp only [setPc] at hu
        split at hu
        · cases ok <;> simp_all
        · simp [I.ready u hu]
    · rename_i hb
      refine ⟨?_, ?_, loadedFirst_cons I.first (fun _ => I.marked.1 (I.ready t hb))⟩
      · simp only [List.mem_cons, Prod.mk.injEq]; rw [I.marked]; simp
      · intro u hu
        simp only [setPc] at hu
        split at hu
        · simp at hu
        · exact I.ready u hu
  | refresh ok =>
    simp only [step]
    split
    · refine ⟨?_, ?_, loadedFirst_cons I.first (by simp)⟩
      · simp only [Bool.or_eq_true, I.marked, List.mem_cons, Prod.mk.injEq]
        cases ok <;> simp
      · intro u hu; simp [I.ready u hu]
    · exact I

theorem inv_run (sched : List (Nat × Op)) : ∀ {s : State}, Inv s → Inv (run s sched) := by
  induction sched with
  | nil => intro s I; exact I
  | cons a sched ih => intro s I; exact ih (inv_step I a.1 a.2)

/-! ## Properties -/

/-- **C192 (loaded before use)** In every schedule of threads, whatever fails, the body of a decorated
method is executed only after some `refresh` of the object succeeded. -/
theorem C192_loaded_first (lz ok : Bool) (sched : List (Nat × Op)) : LoadedFirst (run (init lz ok) sched).log :=
  (inv_run sched (inv_init lz ok)).first

/-- Only methods of one thread are called. -/
def Alone (t : Nat) (sched : List (Nat × Op)) : Prop := ∀ a ∈ sched, a.1 = t ∧ ∀ ok, a.2 ≠ .refresh ok

theorem once_step {s : State} {t : Nat} (I : Inv s) (h0 : ∀ u, u ≠ t → s.pc u = .out) (h1 : successes s.log ≤ 1)
    (h2 : s.pc t = .loading → s.loaded = false) (op : Op) (hop : ∀ ok, op ≠ .refresh ok) :
    (∀ u, u ≠ t → (step s t op).pc u = .out) ∧ successes (step s t op).log ≤ 1 ∧ ((step s t op).pc t = .loading → (step s t op).loaded = false) := by
  cases op with
  | refresh ok => exact absurd rfl (hop ok)
  | call =>
    simp only [step]
    split
    · refine ⟨fun u hu => by simp [setPc, hu, h0 u hu], ?_, ?_⟩
      · simpa [successes, List.countP_cons] using h1
      · simp only [setPc]
        cases hl : s.loaded <;> simp
    · exact ⟨h0, h1, h2⟩
  | go ok =>
    simp only [step]
    split
    · exact ⟨h0, h1, h2⟩
    · rename_i hl
      refine ⟨fun u hu => by simp [setPc, hu, h0 u hu], ?_, ?_⟩
      · have hz : successes s.log = 0 := by
          have := h2 hl
          unfold successes
          rw [List.countP_eq_zero]
          intro e he hee
          have hex : ∃ u, (u, Ev.refreshed true) ∈ s.log := ⟨e.1, by
            have : e.2 = .refreshed true := by simpa using hee
            rw [← this]; exact he⟩
          rw [I.marked.2 hex] at this
          simp at this
        unfold successes at hz ⊢
        rw [List.countP_cons, hz]
        split <;> omega
      · cases ok <;> simp [setPc]
    · refine ⟨fun u hu => by simp [setPc, hu, h0 u hu], ?_, by simp [setPc]⟩
      simpa [successes, List.countP_cons] using h1

/-- **C192 (loaded once)** If methods are called by one thread only, and the program does not call
`refresh`, the object is loaded successfully at most once, however often methods are called. -/
theorem C192_once (lz ok : Bool) (t : Nat) (sched : List (Nat × Op)) (h : Alone t sched) : successes (run (init lz ok) sched).log ≤ 1 := by
  have key : ∀ sched s, Alone t sched → Inv s → (∀ u, u ≠ t → s.pc u = .out) → successes s.log ≤ 1 → (s.pc t = .loading → s.loaded = false) →
      successes (run s sched).log ≤ 1 := by
    intro sched
    induction sched with
    | nil => intro s _ _ _ h1 _; exact h1
    | cons a sched ih =>
      intro s ha I h0 h1 h2
      obtain ⟨hat, hop⟩ := ha a (List.mem_cons_self ..)
      obtain ⟨g0, g1, g2⟩ := once_step I h0 h1 h2 a.2 hop
      simp only [run]
      obtain ⟨u, op⟩ := a
      simp only at hat
      subst hat
      exact ih _ (fun x hx => ha x (List.mem_cons_of_mem _ hx)) (inv_step I _ _) g0 g1 g2
  refine key sched _ h (inv_init lz ok) ?_ ?_ ?_
  · cases lz <;> simp [init]
  · cases lz <;> cases ok <;> simp [init, successes]
  · cases lz <;> simp [init]

/-- **C192 (when loading fails)** If `refresh` raises, the method is not executed, the object is as
loaded as it was, and the next call asks the database again. -/
theorem C192_failure (s : State) (t : Nat) (h : s.pc t = .out) (hl : s.loaded = false) :
    (run s [(t, .call), (t, .go false)]).loaded = false ∧ (run s [(t, .call), (t, .go false)]).log = (t, .refreshed false) :: (t, .asked) :: s.log ∧
    ∀ ok, (run s [(t, .call), (t, .go false), (t, .call), (t, .go ok)]).log = (t, .refreshed ok) :: (t, .asked) :: (t, .refreshed false) :: (t, .asked) :: s.log := by
  refine ⟨?_, ?_, fun ok => ?_⟩ <;> simp [run, step, h, hl, setPc]

/-- **C193 (load_lazy=True loads in the constructor), the violation** The documentation has it the
other way: with `load_lazy=True` the database is not asked in the constructor, with False it is. -/
theorem C193_documented_violates (ok : Bool) : (init true ok).loaded = false ∧ loads (init true ok).log = 0 ∧ loads (init false ok).log = 1 := by
  cases ok <;> simp [init, loads]

/-- **C193 (loaded once), the violation** Two threads calling methods may both load the object. -/
theorem C193_twice_violates : ∃ sched, (∀ a ∈ sched, ∀ ok, a.2 ≠ Op.refresh ok) ∧ successes (run (init true true) sched).log = 2 := by
  refine ⟨[(0, .call), (1, .call), (0, .go true), (1, .go true)], ?_, by decide⟩
  intro a ha ok
  simp at ha
  rcases ha with rfl | rfl | rfl | rfl <;> simp

/-- **C193 (loaded once), the part that holds** In every schedule, once a `refresh` has succeeded, a
method called from then on does not load the object. -/
theorem C193_after_partial (lz ok : Bool) (sched : List (Nat × Op)) (t : Nat) (hs : successes (run (init lz ok) sched).log ≠ 0)
    (hp : (run (init lz ok) sched).pc t = .out) (r : Bool) :
    (run (run (init lz ok) sched) [(t, .call), (t, .go r)]).log = (t, .ran) :: (t, .asked) :: (run (init lz ok) sched).log := by
  have I := inv_run sched (inv_init lz ok)
  have hl : (run (init lz ok) sched).loaded = true := by
    apply I.marked.2
    have : ∃ e ∈ (run (init lz ok) sched).log, e.2 = .refreshed true := by
      apply Classical.byContradiction
      intro hno
      apply hs
      unfold successes
      rw [List.countP_eq_zero]
      intro e he hee
      exact hno ⟨e, he, by simpa using hee⟩
    obtain ⟨e, he, h2⟩ := this
    exact ⟨e.1, by rw [← h2]; exact he⟩
  generalize run (init lz ok) sched = s at *
  simp [run, step, hp, hl, setPc]

example : successes (run (init true true) [(0, .call), (0, .go false), (0, .call), (0, .go true), (0, .go true), (0, .call), (0, .go true)]).log = 1 ∧
    (run (init true true) [(0, .call), (0, .go true), (0, .go true)]).log = [(0, .ran), (0, .refreshed true), (0, .asked)] := by decide
example : Alone 0 [(0, .call), (0, .go true)] := by intro a ha; simp at ha; rcases ha with rfl | rfl <;> simp
example : (init true true).pc 3 = .out ∧ (init true true).loaded = false := by decide
example : successes (run (init true true) [(1, .call), (1, .go true)]).log ≠ 0 ∧ (run (init true true) [(1, .call), (1, .go true)]).pc 2 = .out := by decide

end Verif.Loadable
