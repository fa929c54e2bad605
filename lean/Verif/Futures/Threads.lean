import Verif.Conc.MonitorProps
import Verif.Py.Run
/-!
# A Satella future among threads (satella/coding/concurrent/futures/futures.py), and C267, C268, C269

One `Future` is used by any number of threads.  `set_result`, `set_exception`, `result` look at `_state` once without holding the lock (:123, :139, :159), and then either act at once
(if the future is just calling its pre-done callbacks) or go on under the lock of `_condition`.  The lock is held while the pre-done callbacks are called, and not while the done callbacks are.
One step is: that first look; what is done under the lock, if it calls nothing; one call of a callback.

Simplifications: `result()` is called without a timeout; a pre-done callback sets the result or the exception and does nothing else (it may set what it was shown); CANCELLED and CANCELLED_AND_NOTIFIED are one state;
`V` contains None, which is what `_result` is first.
-/
namespace Verif.Futures.Th
open Verif.Conc (upd upd_same upd_other)

section
variable {V E : Type}

/-- `_state` of a future, /repo/satella/coding/concurrent/futures/futures.py:16-19 and the standard library -/
inductive FS where
  | pending
  | running
  | pre
  | finished
  | cancelled
  deriving DecidableEq

/-- what `done()` says (standard library).  (Part of the model of `Future`, /repo/satella/coding/concurrent/futures/futures.py:22-173.) -/
def FS.isDone : FS → Bool
  | .finished => true
  | .cancelled => true
  | _ => false

/-- What `result()` ends with: a value, the exception of the future, CancelledError or TimeoutError.  (Part of the model of `result`, /repo/satella/coding/concurrent/futures/futures.py:122-126.) -/
inductive Ret (V E : Type) where
  | value (v : V)
  | error (e : E)
  | cancelled
  | timeout

/-- A pre-done callback: from what the future presents when it is called to what it sets.  (Part of the model of `add_pre_done_callback`, /repo/satella/coding/concurrent/futures/futures.py:95-112.) -/
abbrev Cb (V E : Type) := Except E V → Except E V

/-- The calls threads make: set_result or set_exception, result, cancel, set_running_or_notify_cancel, add_pre_done_callback, add_done_callback.  (Part of the model of `Future`, /repo/satella/coding/concurrent/futures/futures.py:22-173.) -/
inductive Op (V E : Type) where
  | set (o : Except E V)
  | result
  | cancel
  | start
  | addPre (cb : Cb V E)
  | addDone

/-- Where a thread is.  (Part of the model of `Future`, /repo/satella/coding/concurrent/futures/futures.py:22-173.) -/
inductive Pc (V E : Type) where
  /-- in no call -/
  | idle
  /-- about to look at `_state`, :139, :159 -/
  | setRead (o : Except E V)
  /-- having seen PRE_FINISHED there, :140, :160-161 -/
  | setLate (o : Except E V)
  /-- about to take the lock, :142, :163 -/
  | setLock (o : Except E V)
  /-- calling the pre-done callbacks under the lock: these are left, :147, :168 -/
  | callingPre (left : List (Cb V E))
  /-- calling the done callbacks: these are left, :152, :173 -/
  | callingDone (left : List Nat)
  /-- about to look at `_state`, :123 -/
  | resRead
  /-- having seen PRE_FINISHED there, :124 -/
  | resNow
  /-- about to take the lock, :126 -/
  | resLock
  /-- waiting on the condition, :126 -/
  | resWait
  /-- notified, about to take the lock again, :126 -/
  | resWoken
  /-- about to take the lock in cancel -/
  | cancelLock
  /-- about to take the lock in set_running_or_notify_cancel -/
  | startLock
  /-- about to take the lock, :104 -/
  | addPreLock (cb : Cb V E)
  /-- about to take the lock in add_done_callback -/
  | addDoneLock

/-- What can be observed.  (Ghost; part of the model of `Future`, /repo/satella/coding/concurrent/futures/futures.py:22-173.) -/
inductive Ev (V E : Type) where
  /-- add_pre_done_callback took the callback, :106 -/
  | preAdded (cb : Cb V E)
  /-- a call set the outcome of a future not yet done, :145, :166 -/
  | given (t : Nat) (o : Except E V)
  /-- the future became FINISHED, :148, :169 -/
  | settled
  /-- the future was cancelled -/
  | cancelled
  /-- set_result or set_exception raised InvalidStateError, :143-144, :164-165 -/
  | refused (t : Nat)
  /-- set_result or set_exception changed the outcome another call had given, :140, :160-161 -/
  | overwrote (t : Nat) (o : Except E V)
  /-- `result()` ended -/
  | returned (t : Nat) (r : Ret V E)
  /-- the n-th done callback was called, when `result()` would end so -/
  | called (n : Nat) (r : Ret V E)
  /-- cancel returned -/
  | cancelReturned (t : Nat) (b : Bool)

/-- A future: `_state`, `_result` and `_exception` together (a result set over an exception is not seen), who holds the lock, both lists of callbacks (a done callback is called by its number), how many done callbacks were given, and the threads,
/repo/satella/coding/concurrent/futures/futures.py:38-41 -/
structure St (V E : Type) where
  st : FS
  out : Except E V
  lock : Option Nat
  pre : List (Cb V E)
  cbs : List Nat
  next : Nat
  pcs : Nat → Pc V E
  log : List (Ev V E)

/-- a new future, /repo/satella/coding/concurrent/futures/futures.py:38-41; `none` is None -/
def St.init (none : V) : St V E :=
  { st := .pending, out := .ok none, lock := Option.none, pre := [], cbs := [], next := 0, pcs := fun _ => .idle, log := [] }

/-- Setting `_result`, or `_exception` and `_result`, as seen by `__get_result`, /repo/satella/coding/concurrent/futures/futures.py:139-140,145,159-161,166 -/
def put : Except E V → Except E V → Except E V
  | .error e, .ok _ => .error e
  | _, o => o

/-- `__get_result` of the standard library, called at /repo/satella/coding/concurrent/futures/futures.py:124 -/
def present : Except E V → Ret V E
  | .ok v => .value v
  | .error e => .error e

/-- how `result()` would end on a future that is done, /repo/satella/coding/concurrent/futures/futures.py:126 -/
def St.view (s : St V E) : Ret V E :=
  match s.st with
  | .cancelled => .cancelled
  | _ => present s.out

/-- Where a thread that makes a call is first.  (Part of the model of `Future`, /repo/satella/coding/concurrent/futures/futures.py:22-173.) -/
def Op.entry : Op V E → Pc V E
  | .set o => .setRead o
  | .result => .resRead
  | .cancel => .cancelLock
  | .start => .startLock
  | .addPre cb => .addPreLock cb
  | .addDone => .addDoneLock

/-- `notify_all`, /repo/satella/coding/concurrent/futures/futures.py:151,172 -/
def wake (pcs : Nat → Pc V E) : Nat → Pc V E := fun u =>
  match pcs u with
  | .resWait => .resWoken
  | p => p

/-- What thread `t` does next.  (Part of the model of `Future`, /repo/satella/coding/concurrent/futures/futures.py:22-173.) -/
def St.go (s : St V E) (t : Nat) : St V E :=
  match s.pcs t with
  | .idle => s
  | .setRead o => { s with pcs := upd s.pcs t (if s.st = .pre then .setLate o else .setLock o) }
  | .setLate o => { s with out := put s.out o, pcs := upd s.pcs t .idle, log := s.log ++ [.overwrote t o] }
  | .setLock o =>
    if s.lock = none then
      if s.st.isDone then { s with pcs := upd s.pcs t .idle, log := s.log ++ [.refused t] }
      else { s with st := .pre, out := put s.out o, lock := some t, pcs := upd s.pcs t (.callingPre s.pre), log := s.log ++ [.given t o] }
    else s
  | .callingPre [] =>
    { s with st := .finished, lock := none, pcs := upd (wake s.pcs) t (.callingDone s.cbs), log := s.log ++ [.settled] }
  | .callingPre (cb :: left) => { s with out := put s.out (cb s.out), pcs := upd s.pcs t (.callingPre left) }
  | .callingDone [] => { s with pcs := upd s.pcs t .idle }
  | .callingDone (n :: left) => { s with pcs := upd s.pcs t (.callingDone left), log := s.log ++ [.called n s.view] }
  | .resRead => { s with pcs := upd s.pcs t (if s.st = .pre then .resNow else .resLock) }
  | .resNow => { s with pcs := upd s.pcs t .idle, log := s.log ++ [.returned t (present s.out)] }
  | .resLock =>
    if s.lock = none then
      if s.st.isDone then { s with pcs := upd s.pcs t .idle, log := s.log ++ [.returned t s.view] }
      else { s with pcs := upd s.pcs t .resWait }
    else s
  | .resWait => s
  | .resWoken =>
    if s.lock = none then
      if s.st.isDone then { s with pcs := upd s.pcs t .idle, log := s.log ++ [.returned t s.view] }
      else { s with pcs := upd s.pcs t .idle, log := s.log ++ [.returned t .timeout] }
    else s
  | .cancelLock =>
    if s.lock = none then
      if s.st = .running ∨ s.st = .finished then { s with pcs := upd s.pcs t .idle, log := s.log ++ [.cancelReturned t false] }
      else if s.st = .cancelled then { s with pcs := upd s.pcs t .idle, log := s.log ++ [.cancelReturned t true] }
      else { s with st := .cancelled, pcs := upd (wake s.pcs) t (.callingDone s.cbs), log := s.log ++ [.cancelled] }
    else s
  | .startLock =>
    if s.lock = none then { s with st := if s.st = .pending then .running else s.st, pcs := upd s.pcs t .idle } else s
  | .addPreLock cb =>
    if s.lock = none then
      if s.st.isDone then { s with pcs := upd s.pcs t .idle }
      else { s with pre := s.pre ++ [cb], pcs := upd s.pcs t .idle, log := s.log ++ [.preAdded cb] }
    else s
  | .addDoneLock =>
    if s.lock = none then
      if s.st.isDone then { s with next := s.next + 1, pcs := upd s.pcs t (.callingDone [s.next]) }
      else { s with cbs := s.cbs ++ [s.next], next := s.next + 1, pcs := upd s.pcs t .idle }
    else s

/-- What happens next: a thread in no call makes one, or a thread goes on.  (Part of the model of `Future`, /repo/satella/coding/concurrent/futures/futures.py:22-173.) -/
inductive Act (V E : Type) where
  | call (t : Nat) (op : Op V E)
  | go (t : Nat)

/-- One step.  (Part of the model of `Future`, /repo/satella/coding/concurrent/futures/futures.py:22-173.) -/
def step (s : St V E) : Act V E → St V E
  | .call t op =>
    match s.pcs t with
    | .idle => { s with pcs := upd s.pcs t op.entry }
    | _ => s
  | .go t => s.go t

/-- A schedule: any interleaving of the threads.  (Part of the model of `Future`, /repo/satella/coding/concurrent/futures/futures.py:22-173.) -/
def run (s : St V E) (acts : List (Act V E)) : St V E := acts.foldl step s

/-! ## Spec -/

/-- the pre-done callbacks taken so far, in order -/
def added (log : List (Ev V E)) : List (Cb V E) := log.filterMap fun | .preAdded cb => some cb | _ => none

/-- the outcomes set on a future not yet done, so far -/
def givens (log : List (Ev V E)) : List (Nat × Except E V) := log.filterMap fun | .given t o => some (t, o) | _ => none

/-- the done callbacks called so far -/
def calls (log : List (Ev V E)) : List Nat := log.filterMap fun | .called n _ => some n | _ => none

/-- what an outcome becomes when callbacks transform it, one after another -/
def transformed (o : Except E V) (cbs : List (Cb V E)) : Except E V := cbs.foldl (fun o cb => cb o) o

/-- the first outcome set on a future not yet done was `o`, set by `t` after `a`, and it was the only one -/
def First (log a : List (Ev V E)) (t : Nat) (o : Except E V) : Prop := ∃ b, log = a ++ .given t o :: b ∧ givens a = [] ∧ givens b = []

/-- how `result()` tells an outcome -/
def Tells (r : Ret V E) (o : Except E V) : Prop := (∀ v, o = .ok v → r = .value v) ∧ (∀ e, o = .error e → r = .error e)

/-- only thread `w` calls set_result and set_exception -/
def OneSetter (w : Nat) (acts : List (Act V E)) : Prop := ∀ t o, Act.call t (.set o) ∈ acts → t = w

/-- no pre-done callback tries to make a result of an exception (it could not: see `C51_recover_violates`) -/
def NoRecovery (acts : List (Act V E)) : Prop := ∀ t cb, Act.call t (.addPre cb) ∈ acts → ∀ e, ∃ e', cb (.error e) = .error e'


/-! ## Invariants -/

/-- what holds of every thread -/
def At (st : FS) (lock : Option Nat) (t : Nat) : Pc V E → Prop
  | .callingPre _ => lock = some t
  | .resWait => st.isDone = false
  | .resWoken => st.isDone = true
  | .callingDone _ => st.isDone = true
  | .resNow => st = .pre ∨ st = .finished
  | _ => True

/-- the lock is held while the pre-done callbacks are called; no thread waits for a future that is done -/
structure Lk (s : St V E) : Prop where
  at_ : ∀ t, At s.st s.lock t (s.pcs t)
  own : ∀ t, s.lock = some t → ∃ l, s.pcs t = .callingPre l
  pre : s.st = .pre ↔ s.lock ≠ none

theorem At.of_free {st : FS} {lock : Option Nat} {t : Nat} {p : Pc V E} (h : At st lock t p) {st' : FS} {lock' : Option Nat}
    (hl : lock = some t → lock' = some t) (hd : st'.isDone = st.isDone) (hn : st = .pre ∨ st = .finished → st' = .pre ∨ st' = .finished) : At st' lock' t p := by
  cases p <;> simp_all [At]

theorem At.wake {st : FS} {lock : Option Nat} {t : Nat} {pcs : Nat → Pc V E} (h : At st lock t (pcs t)) {st' : FS} {lock' : Option Nat}
    (hl : lock ≠ some t) (hd : st'.isDone = true) (hn : st = .pre ∨ st = .finished → st' = .finished) : At st' lock' t (wake pcs t) := by
  unfold Th.wake
  cases hp : pcs t <;> simp_all [At]

theorem upd_all {α : Type} {P : Nat → α → Prop} {f : Nat → α} {t : Nat} {a : α} (h : ∀ u, u ≠ t → P u (f u)) (ha : P t a) : ∀ u, P u (upd f t a u) := by
  intro u
  by_cases hu : u = t
  · subst hu; rw [upd_same]; exact ha
  · rw [upd_other _ _ hu]; exact h u hu

theorem Lk.init (none : V) : Lk (St.init none : St V E) := ⟨fun _ => trivial, (fun _ h => by cases h), by simp [St.init]⟩

/-- a thread moves, and neither the state nor the lock change -/
theorem Lk.move {s s' : St V E} (I : Lk s) (t : Nat) (p : Pc V E) (hp : ∀ l, s.pcs t ≠ .callingPre l) (h1 : s'.st = s.st) (h2 : s'.lock = s.lock)
    (h3 : s'.pcs = upd s.pcs t p) (ha : At s.st s.lock t p) : Lk s' := by
  refine ⟨?_, ?_, ?_⟩
  · rw [h1, h2, h3]; exact upd_all (P := fun u (q : Pc V E) => At s.st s.lock u q) (fun u _ => I.at_ u) ha
  · intro u hu
    rw [h2] at hu
    obtain ⟨l, hl⟩ := I.own u hu
    have : u ≠ t := fun e => hp l (e ▸ hl)
    exact ⟨l, by rw [h3, upd_other _ _ this]; exact hl⟩
  · rw [h1, h2]; exact I.pre

theorem Lk.go {s : St V E} (I : Lk s) (t : Nat) : Lk (s.go t) := by
  have ht := I.at_ t
  cases hpc : s.pcs t with
  | idle => simpa only [St.go, hpc] using I
  | setRead o =>
    simp only [St.go, hpc]
    refine I.move t _ (by simp [hpc]) rfl rfl rfl ?_
    split <;> trivial
  | setLate o =>
    simp only [St.go, hpc]
    exact I.move t _ (by simp [hpc]) rfl rfl rfl trivial
  | setLock o =>
    simp only [St.go, hpc]
    split
    · rename_i hl
      split
      · exact I.move t _ (by simp [hpc]) rfl rfl rfl trivial
      · rename_i hd
        refine ⟨upd_all (P := fun u (q : Pc V E) => At .pre (some t) u q) (fun u hu => (I.at_ u).of_free ?_ ?_ ?_) rfl, ?_, by simp⟩
        · rw [hl]; intro h; cases h
        · exact (by simpa using hd : s.st.isDone = false).symm
        · exact fun _ => .inl rfl
        · intro u hu
          cases hu
          exact ⟨s.pre, by simp⟩
    · exact I
  | callingPre l =>
    rw [hpc] at ht
    have hl : s.lock = some t := ht
    cases l with
    | nil =>
      simp only [St.go, hpc]
      refine ⟨upd_all (P := fun u (q : Pc V E) => At .finished none u q) (fun u hu => (I.at_ u).wake ?_ rfl (fun _ => rfl)) rfl, by simp, by simp⟩
      rw [hl]; intro h; cases h; exact hu rfl
    | cons cb l =>
      simp only [St.go, hpc]
      refine ⟨upd_all (P := fun u (q : Pc V E) => At s.st s.lock u q) (fun u _ => I.at_ u) hl, ?_, I.pre⟩
      intro u hu
      dsimp only at hu
      rw [hl] at hu
      cases hu
      exact ⟨l, by simp⟩
  | callingDone l =>
    rw [hpc] at ht
    cases l with
    | nil => simp only [St.go, hpc]; exact I.move t _ (by simp [hpc]) rfl rfl rfl trivial
    | cons n l => simp only [St.go, hpc]; exact I.move t _ (by simp [hpc]) rfl rfl rfl ht
  | resRead =>
    simp only [St.go, hpc]
    refine I.move t _ (by simp [hpc]) rfl rfl rfl ?_
    split
    · rename_i h; exact .inl h
    · trivial
  | resNow => simp only [St.go, hpc]; exact I.move t _ (by simp [hpc]) rfl rfl rfl trivial
  | resLock =>
    simp only [St.go, hpc]
    split
    · split
      · exact I.move t _ (by simp [hpc]) rfl rfl rfl trivial
      · rename_i hd
        exact I.move t _ (by simp [hpc]) rfl rfl rfl (by simpa [At] using hd)
    · exact I
  | resWait => simpa only [St.go, hpc] using I
  | resWoken =>
    simp only [St.go, hpc]
    split
    · split <;> exact I.move t _ (by simp [hpc]) rfl rfl rfl trivial
    · exact I
  | cancelLock =>
    simp only [St.go, hpc]
    split
    · rename_i hl
      split
      · exact I.move t _ (by simp [hpc]) rfl rfl rfl trivial
      · rename_i h1
        split
        · exact I.move t _ (by simp [hpc]) rfl rfl rfl trivial
        · rename_i h2
          have hnp : s.st ≠ .pre := fun h => I.pre.1 h hl
          refine ⟨upd_all (P := fun u (q : Pc V E) => At .cancelled s.lock u q) (fun u hu => (I.at_ u).wake ?_ rfl ?_) rfl, ?_, ?_⟩
          · rw [hl]; simp
          · intro h; rcases h with h | h
            · exact absurd h hnp
            · exact absurd (.inr h) h1
          · intro u hu; rw [hl] at hu; cases hu
          · simp [hl]
    · exact I
  | startLock =>
    simp only [St.go, hpc]
    split
    · rename_i hl
      refine ⟨upd_all (P := fun u (q : Pc V E) => At _ s.lock u q) (fun u hu => (I.at_ u).of_free id ?_ ?_) trivial, ?_, ?_⟩
      · split
        · rename_i h; rw [h]; rfl
        · rfl
      · intro h; split
        · rename_i h'; rw [h'] at h; simp at h
        · exact h
      · intro u hu; rw [hl] at hu; cases hu
      · dsimp only
        split
        · simp [hl]
        · exact I.pre
    · exact I
  | addPreLock cb =>
    simp only [St.go, hpc]
    split
    · split <;> exact I.move t _ (by simp [hpc]) rfl rfl rfl trivial
    · exact I
  | addDoneLock =>
    simp only [St.go, hpc]
    split
    · split
      · rename_i hd; exact I.move t _ (by simp [hpc]) rfl rfl rfl hd
      · exact I.move t _ (by simp [hpc]) rfl rfl rfl trivial
    · exact I

theorem step_call (s : St V E) (t : Nat) (op : Op V E) : step s (.call t op) = s ∨
    (s.pcs t = .idle ∧ step s (.call t op) = { s with pcs := upd s.pcs t op.entry }) := by
  simp only [step]
  split
  · rename_i h; exact .inr ⟨h, rfl⟩
  · exact .inl rfl

theorem Lk.step {s : St V E} (I : Lk s) (a : Act V E) : Lk (step s a) := by
  cases a with
  | go t => exact I.go t
  | call t op =>
    rcases step_call s t op with h | ⟨h1, h⟩
    · rw [h]; exact I
    · rw [h]
      refine I.move t _ (by simp [h1]) rfl rfl rfl ?_
      cases op <;> trivial

theorem run_ind {P : St V E → Prop} {none : V} (h0 : P (St.init none)) (hs : ∀ s a, P s → P (Th.step s a)) (acts : List (Act V E)) : P (run (St.init none) acts) := by
  unfold run
  generalize St.init none = s at h0
  induction acts generalizing s with
  | nil => exact h0
  | cons a l ih => exact ih (Th.step s a) (hs s a h0)

theorem lk (none : V) (acts : List (Act V E)) : Lk (run (St.init none) acts) := run_ind (Lk.init none) (fun _ a I => I.step a) acts

/-! ## Done callbacks are called once -/

/-- the done callbacks a thread has still to call -/
def pend : Pc V E → List Nat
  | .callingDone l => l
  | _ => []

/-- each done callback was called once, or is about to be called by one thread, or the future is not done -/
structure Cn (s : St V E) : Prop where
  before : s.st.isDone = false → calls s.log = [] ∧ s.cbs = List.range s.next
  once : (calls s.log).Nodup
  each : ∀ t, (pend (s.pcs t)).Nodup
  fresh : ∀ t, ∀ n ∈ pend (s.pcs t), n < s.next ∧ n ∉ calls s.log
  apart : ∀ t u, t ≠ u → ∀ n ∈ pend (s.pcs t), n ∉ pend (s.pcs u)
  old : ∀ n ∈ calls s.log, n < s.next
  all : s.st.isDone = true → ∀ n, n < s.next → n ∈ calls s.log ∨ ∃ t, n ∈ pend (s.pcs t)

theorem Cn.init (none : V) : Cn (St.init none : St V E) := by
  constructor <;> simp [St.init, calls, pend, FS.isDone]

/-- nothing the invariant is about changes -/
theorem Cn.same {s s' : St V E} (I : Cn s) (h1 : s'.st.isDone = s.st.isDone) (h2 : s'.cbs = s.cbs) (h3 : s'.next = s.next) (h4 : calls s'.log = calls s.log)
    (h5 : ∀ u, pend (s'.pcs u) = pend (s.pcs u)) : Cn s' := by
  constructor
  · rw [h1, h2, h3, h4]; exact I.before
  · rw [h4]; exact I.once
  · intro t; rw [h5]; exact I.each t
  · intro t; rw [h5, h3, h4]; exact I.fresh t
  · intro t u; rw [h5, h5]; exact I.apart t u
  · rw [h3, h4]; exact I.old
  · rw [h1, h3, h4]; intro hd n hn
    rcases I.all hd n hn with h | ⟨t, h⟩
    · exact .inl h
    · exact .inr ⟨t, by rw [h5]; exact h⟩

theorem pend_upd {pcs : Nat → Pc V E} {t : Nat} {p : Pc V E} (h : pend p = pend (pcs t)) (u : Nat) : pend (upd pcs t p u) = pend (pcs u) := by
  by_cases hu : u = t
  · subst hu; rw [upd_same]; exact h
  · rw [upd_other _ _ hu]

theorem pend_wake (pcs : Nat → Pc V E) (u : Nat) : pend (wake pcs u) = pend (pcs u) := by
  unfold wake; cases pcs u <;> rfl

theorem calls_snoc (log : List (Ev V E)) (e : Ev V E) (h : ∀ n r, e ≠ .called n r) : calls (log ++ [e]) = calls log := by
  cases e <;> simp [calls] at *

/-- the future becomes done: one thread calls the callbacks -/
theorem Cn.finish {s s' : St V E} (L : Lk s) (I : Cn s) (t : Nat) (hd : s.st.isDone = false) (h1 : s'.st.isDone = true) (h3 : s'.next = s.next)
    (h4 : calls s'.log = calls s.log) (h5 : s'.pcs = upd (wake s.pcs) t (.callingDone s.cbs)) : Cn s' := by
  obtain ⟨hc, hr⟩ := I.before hd
  have hp : ∀ u, u ≠ t → pend (s'.pcs u) = [] := by
    intro u hu
    rw [h5, upd_other _ _ hu, pend_wake]
    have := L.at_ u
    cases hpc : s.pcs u <;> try rfl
    rw [hpc] at this
    rw [show s.st.isDone = true from this] at hd
    cases hd
  have ht : pend (s'.pcs t) = List.range s.next := by rw [h5, upd_same]; exact hr
  constructor
  · rw [h1]; intro h; cases h
  · rw [h4]; exact I.once
  · intro u
    by_cases hu : u = t
    · subst hu; rw [ht]; exact List.nodup_range
    · rw [hp u hu]; exact List.nodup_nil
  · intro u n hn
    by_cases hu : u = t
    · subst hu; rw [ht] at hn; rw [h3, h4, hc]; exact ⟨List.mem_range.1 hn, by simp⟩
    · rw [hp u hu] at hn; cases hn
  · intro u v huv n hn
    by_cases hu : u = t
    · rw [hp v (fun h => huv (hu.trans h.symm))]; simp
    · rw [hp u hu] at hn; cases hn
  · rw [h3, h4]; exact I.old
  · intro _ n hn
    exact .inr ⟨t, by rw [ht]; exact List.mem_range.2 (h3 ▸ hn)⟩

theorem Cn.go {s : St V E} (L : Lk s) (I : Cn s) (t : Nat) : Cn (s.go t) := by
  have ht := L.at_ t
  cases hpc : s.pcs t with
  | idle => simpa only [St.go, hpc] using I
  | setRead o =>
    simp only [St.go, hpc]
    exact I.same rfl rfl rfl rfl (pend_upd (by rw [hpc]; split <;> rfl))
  | setLate o =>
    simp only [St.go, hpc]
    exact I.same rfl rfl rfl (calls_snoc _ _ (by simp)) (pend_upd (by rw [hpc]; rfl))
  | setLock o =>
    simp only [St.go, hpc]
    split
    · split
      · exact I.same rfl rfl rfl (calls_snoc _ _ (by simp)) (pend_upd (by rw [hpc]; rfl))
      · rename_i hd
        exact I.same (by simpa [FS.isDone] using hd) rfl rfl (calls_snoc _ _ (by simp)) (pend_upd (by rw [hpc]; rfl))
    · exact I
  | callingPre l =>
    rw [hpc] at ht
    have hl : s.lock = some t := ht
    cases l with
    | nil =>
      simp only [St.go, hpc]
      have : s.st = .pre := L.pre.2 (by rw [hl]; simp)
      exact I.finish L t (by rw [this]; rfl) rfl rfl (calls_snoc _ _ (by simp)) rfl
    | cons cb l =>
      simp only [St.go, hpc]
      exact I.same rfl rfl rfl rfl (pend_upd (by rw [hpc]; rfl))
  | callingDone l =>
    rw [hpc] at ht
    have hd : s.st.isDone = true := ht
    cases l with
    | nil => simp only [St.go, hpc]; exact I.same rfl rfl rfl rfl (pend_upd (by rw [hpc]; rfl))
    | cons n l =>
      simp only [St.go, hpc]
      have hn := I.fresh t n (by rw [hpc]; simp [pend])
      have hnd := I.each t
      rw [hpc] at hnd
      simp only [pend, List.nodup_cons] at hnd
      have hcalls : calls (s.log ++ [.called n s.view]) = calls s.log ++ [n] := by simp [calls]
      have hsub : ∀ u, ∀ m ∈ pend (upd s.pcs t (.callingDone l) u), m ∈ pend (s.pcs u) ∧ m ≠ n := by
        intro u m hm
        by_cases hu : u = t
        · subst hu
          rw [upd_same] at hm
          exact ⟨by rw [hpc]; exact List.mem_cons_of_mem _ hm, fun e => hnd.1 (e ▸ hm)⟩
        · rw [upd_other _ _ hu] at hm
          exact ⟨hm, fun e => I.apart u t hu m hm (by rw [hpc, e]; simp [pend])⟩
      constructor
      · dsimp only; rw [hd]; intro h; cases h
      · dsimp only; rw [hcalls, List.nodup_append]
        refine ⟨I.once, by simp, ?_⟩
        intro a ha b hb e
        simp only [List.mem_singleton] at hb
        exact hn.2 (hb ▸ e ▸ ha)
      · intro u
        by_cases hu : u = t
        · subst hu; simp only [upd_same, pend]; exact hnd.2
        · simp only [upd_other _ _ hu]; exact I.each u
      · intro u m hm
        dsimp only at hm ⊢
        obtain ⟨h1, h2⟩ := hsub u m hm
        obtain ⟨h3, h4⟩ := I.fresh u m h1
        refine ⟨h3, ?_⟩
        rw [hcalls]; simp [h4, h2]
      · intro u v huv m hm hm'
        exact I.apart u v huv m (hsub u m hm).1 (hsub v m hm').1
      · dsimp only; rw [hcalls]; intro m hm
        rcases List.mem_append.1 hm with h | h
        · exact I.old m h
        · simp only [List.mem_singleton] at h; exact h ▸ hn.1
      · intro _ m hm
        dsimp only at hm ⊢
        rw [hcalls]
        by_cases hmn : m = n
        · exact .inl (by simp [hmn])
        · rcases I.all hd m hm with h | ⟨u, h⟩
          · exact .inl (by simp [h])
          · refine .inr ⟨u, ?_⟩
            by_cases hu : u = t
            · subst hu; rw [hpc] at h; rw [upd_same]
              simp only [pend, List.mem_cons] at h ⊢
              exact h.resolve_left hmn
            · rw [upd_other _ _ hu]; exact h
  | resRead =>
    simp only [St.go, hpc]
    exact I.same rfl rfl rfl rfl (pend_upd (by rw [hpc]; split <;> rfl))
  | resNow => simp only [St.go, hpc]; exact I.same rfl rfl rfl (calls_snoc _ _ (by simp)) (pend_upd (by rw [hpc]; rfl))
  | resLock =>
    simp only [St.go, hpc]
    split
    · split
      · exact I.same rfl rfl rfl (calls_snoc _ _ (by simp)) (pend_upd (by rw [hpc]; rfl))
      · exact I.same rfl rfl rfl rfl (pend_upd (by rw [hpc]; rfl))
    · exact I
  | resWait => simpa only [St.go, hpc] using I
  | resWoken =>
    simp only [St.go, hpc]
    split
    · split <;> exact I.same rfl rfl rfl (calls_snoc _ _ (by simp)) (pend_upd (by rw [hpc]; rfl))
    · exact I
  | cancelLock =>
    simp only [St.go, hpc]
    split
    · rename_i hl
      split
      · exact I.same rfl rfl rfl (calls_snoc _ _ (by simp)) (pend_upd (by rw [hpc]; rfl))
      · rename_i h1
        split
        · exact I.same rfl rfl rfl (calls_snoc _ _ (by simp)) (pend_upd (by rw [hpc]; rfl))
        · rename_i h2
          have hd : s.st.isDone = false := by cases hs : s.st <;> simp_all [FS.isDone]
          exact I.finish L t hd rfl rfl (calls_snoc _ _ (by simp)) rfl
    · exact I
  | startLock =>
    simp only [St.go, hpc]
    split
    · refine I.same ?_ rfl rfl rfl (pend_upd (by rw [hpc]; rfl))
      dsimp only
      split
      · rename_i h; rw [h]; rfl
      · rfl
    · exact I
  | addPreLock cb =>
    simp only [St.go, hpc]
    split
    · split
      · exact I.same rfl rfl rfl rfl (pend_upd (by rw [hpc]; rfl))
      · exact I.same rfl rfl rfl (calls_snoc _ _ (by simp)) (pend_upd (by rw [hpc]; rfl))
    · exact I
  | addDoneLock =>
    simp only [St.go, hpc]
    split
    · split
      · rename_i hd
        have h0 : pend (s.pcs t) = [] := by rw [hpc]; rfl
        have hnew : ∀ u, u ≠ t → s.next ∉ pend (s.pcs u) := fun u _ h => Nat.lt_irrefl _ (I.fresh u _ h).1
        constructor
        · dsimp only; rw [hd]; intro h; cases h
        · exact I.once
        · intro u
          by_cases hu : u = t
          · subst hu; simp [upd_same, pend]
          · simp only [upd_other _ _ hu]; exact I.each u
        · intro u m hm
          dsimp only at hm ⊢
          by_cases hu : u = t
          · subst hu; rw [upd_same] at hm
            simp only [pend, List.mem_singleton] at hm
            subst hm
            exact ⟨Nat.lt_succ_self _, fun h => Nat.lt_irrefl _ (I.old _ h)⟩
          · rw [upd_other _ _ hu] at hm
            exact ⟨Nat.lt_succ_of_lt (I.fresh u m hm).1, (I.fresh u m hm).2⟩
        · intro u v huv m hm hm'
          dsimp only at hm hm'
          by_cases hu : u = t
          · subst hu; rw [upd_same] at hm; rw [upd_other _ _ (Ne.symm huv)] at hm'
            simp only [pend, List.mem_singleton] at hm
            subst hm
            exact hnew v (Ne.symm huv) hm'
          · rw [upd_other _ _ hu] at hm
            by_cases hv : v = t
            · subst hv; rw [upd_same] at hm'
              simp only [pend, List.mem_singleton] at hm'
              subst hm'
              exact hnew u hu hm
            · rw [upd_other _ _ hv] at hm'
              exact I.apart u v huv m hm hm'
        · intro m hm; exact Nat.lt_succ_of_lt (I.old m hm)
        · intro _ m hm
          dsimp only at hm ⊢
          by_cases hmn : m = s.next
          · exact .inr ⟨t, by rw [upd_same]; simp [pend, hmn]⟩
          · rcases I.all hd m (by omega) with h | ⟨u, h⟩
            · exact .inl h
            · refine .inr ⟨u, ?_⟩
              have hu : u ≠ t := by intro e; rw [e, h0] at h; cases h
              rw [upd_other _ _ hu]; exact h
      · rename_i hd
        have hd : s.st.isDone = false := by simpa using hd
        have h5 : ∀ u, pend (upd s.pcs t .idle u) = pend (s.pcs u) := pend_upd (by rw [hpc]; rfl)
        obtain ⟨hc, hr⟩ := I.before hd
        constructor
        · intro _; dsimp only; exact ⟨hc, by rw [hr, List.range_succ]⟩
        · exact I.once
        · intro u; dsimp only; rw [h5]; exact I.each u
        · intro u; dsimp only; rw [h5]; exact fun m hm => ⟨Nat.lt_succ_of_lt (I.fresh u m hm).1, (I.fresh u m hm).2⟩
        · intro u v; dsimp only; rw [h5, h5]; exact I.apart u v
        · intro m hm; exact Nat.lt_succ_of_lt (I.old m hm)
        · dsimp only; rw [hd]; intro h; cases h
    · exact I

theorem Cn.step {s : St V E} (L : Lk s) (I : Cn s) (a : Act V E) : Cn (Th.step s a) := by
  cases a with
  | go t => exact I.go L t
  | call t op =>
    rcases step_call s t op with h | ⟨h1, h⟩
    · rw [h]; exact I
    · rw [h]
      exact I.same rfl rfl rfl rfl (pend_upd (by rw [h1]; cases op <;> rfl))

theorem cn (none : V) (acts : List (Act V E)) : Cn (run (St.init none) acts) :=
  (run_ind (P := fun s => Lk s ∧ Cn s) ⟨Lk.init none, Cn.init none⟩ (fun _ a I => ⟨I.1.step a, I.2.step I.1 a⟩) acts).2

/-! ## What is logged -/

theorem givens_snoc (log : List (Ev V E)) (e : Ev V E) (h : ∀ t o, e ≠ .given t o) : givens (log ++ [e]) = givens log := by
  cases e <;> simp [givens] at *

theorem added_snoc (log : List (Ev V E)) (e : Ev V E) (h : ∀ cb, e ≠ .preAdded cb) : added (log ++ [e]) = added log := by
  cases e <;> simp [added] at *

theorem First.snoc {log a : List (Ev V E)} {t : Nat} {o : Except E V} (h : First log a t o) (e : Ev V E) (he : ∀ t o, e ≠ .given t o) : First (log ++ [e]) a t o := by
  obtain ⟨b, rfl, h1, h2⟩ := h
  exact ⟨b ++ [e], by simp, h1, by rw [givens_snoc _ _ he]; exact h2⟩

/-- what the log tells of the state -/
structure Hs (s : St V E) : Prop where
  new : s.st = .pending ∨ s.st = .running → givens s.log = [] ∧ .settled ∉ s.log ∧ .cancelled ∉ s.log ∧ s.pre = added s.log
  pre : s.st = .pre → (∃ a t o, First s.log a t o ∧ s.pre = added a) ∧ .settled ∉ s.log ∧ .cancelled ∉ s.log
  fin : s.st = .finished → (∃ a t o, First s.log a t o ∧ s.pre = added a) ∧ .settled ∈ s.log ∧ .cancelled ∉ s.log
  can : s.st = .cancelled → givens s.log = [] ∧ .settled ∉ s.log ∧ .cancelled ∈ s.log

theorem Hs.init (none : V) : Hs (St.init none : St V E) := by
  constructor <;> simp [St.init, givens, added]

/-- events that do not matter here -/
def quiet : Ev V E → Bool
  | .preAdded _ => false
  | .given _ _ => false
  | .settled => false
  | .cancelled => false
  | _ => true

theorem Hs.quiet {s s' : St V E} (I : Hs s) (h1 : s'.st = s.st) (h2 : s'.pre = s.pre) (h3 : s'.log = s.log ∨ ∃ e, quiet e = true ∧ s'.log = s.log ++ [e]) : Hs s' := by
  rcases h3 with h3 | ⟨e, he, h3⟩
  · constructor
    · rw [h1, h2, h3]; exact I.new
    · rw [h1, h2, h3]; exact I.pre
    · rw [h1, h2, h3]; exact I.fin
    · rw [h1, h3]; exact I.can
  · have g : ∀ t o, e ≠ .given t o := by rintro t o rfl; cases he
    have p : ∀ cb, e ≠ .preAdded cb := by rintro cb rfl; cases he
    have hs : e ≠ .settled := by rintro rfl; cases he
    have hc : e ≠ .cancelled := by rintro rfl; cases he
    constructor
    · rw [h1, h2, h3, givens_snoc _ _ g, added_snoc _ _ p]
      intro h
      obtain ⟨i1, i2, i3, i4⟩ := I.new h
      exact ⟨i1, by simp [i2, Ne.symm hs], by simp [i3, Ne.symm hc], i4⟩
    · rw [h1, h2, h3]
      intro h
      obtain ⟨⟨a, t, o, i1, i4⟩, i2, i3⟩ := I.pre h
      exact ⟨⟨a, t, o, i1.snoc e g, i4⟩, by simp [i2, Ne.symm hs], by simp [i3, Ne.symm hc]⟩
    · rw [h1, h2, h3]
      intro h
      obtain ⟨⟨a, t, o, i1, i4⟩, i2, i3⟩ := I.fin h
      exact ⟨⟨a, t, o, i1.snoc e g, i4⟩, by simp [i2], by simp [i3, Ne.symm hc]⟩
    · rw [h1, h3, givens_snoc _ _ g]
      intro h
      obtain ⟨i1, i2, i3⟩ := I.can h
      exact ⟨i1, by simp [i2, Ne.symm hs], by simp [i3]⟩

theorem not_done {st : FS} (h : ¬ st.isDone = true) (hp : st ≠ .pre) : st = .pending ∨ st = .running := by
  cases st <;> simp_all [FS.isDone]

theorem Hs.go {s : St V E} (L : Lk s) (I : Hs s) (t : Nat) : Hs (s.go t) := by
  have ht := L.at_ t
  cases hpc : s.pcs t with
  | idle => simpa only [St.go, hpc] using I
  | setRead o => simp only [St.go, hpc]; exact I.quiet rfl rfl (.inl rfl)
  | setLate o => simp only [St.go, hpc]; exact I.quiet rfl rfl (.inr ⟨_, rfl, rfl⟩)
  | setLock o =>
    simp only [St.go, hpc]
    split
    · rename_i hl
      split
      · exact I.quiet rfl rfl (.inr ⟨_, rfl, rfl⟩)
      · rename_i hd
        have hnp : s.st ≠ .pre := fun h => L.pre.1 h hl
        obtain ⟨i1, i2, i3, i4⟩ := I.new (not_done hd hnp)
        constructor
        · rintro (h | h) <;> cases h
        · exact fun _ => ⟨⟨s.log, t, o, ⟨[], rfl, i1, rfl⟩, i4⟩, by simp [i2], by simp [i3]⟩
        · intro h; cases h
        · intro h; cases h
    · exact I
  | callingPre l =>
    rw [hpc] at ht
    have hl : s.lock = some t := ht
    have hp : s.st = .pre := L.pre.2 (by rw [hl]; simp)
    cases l with
    | nil =>
      simp only [St.go, hpc]
      obtain ⟨⟨a, u, o, i1, i4⟩, i2, i3⟩ := I.pre hp
      constructor
      · rintro (h | h) <;> cases h
      · intro h; cases h
      · exact fun _ => ⟨⟨a, u, o, i1.snoc _ (by simp), i4⟩, by simp, by simp [i3]⟩
      · intro h; cases h
    | cons cb l => simp only [St.go, hpc]; exact I.quiet rfl rfl (.inl rfl)
  | callingDone l =>
    cases l with
    | nil => simp only [St.go, hpc]; exact I.quiet rfl rfl (.inl rfl)
    | cons n l => simp only [St.go, hpc]; exact I.quiet rfl rfl (.inr ⟨_, rfl, rfl⟩)
  | resRead => simp only [St.go, hpc]; exact I.quiet rfl rfl (.inl rfl)
  | resNow => simp only [St.go, hpc]; exact I.quiet rfl rfl (.inr ⟨_, rfl, rfl⟩)
  | resLock =>
    simp only [St.go, hpc]
    split
    · split
      · exact I.quiet rfl rfl (.inr ⟨_, rfl, rfl⟩)
      · exact I.quiet rfl rfl (.inl rfl)
    · exact I
  | resWait => simpa only [St.go, hpc] using I
  | resWoken =>
    simp only [St.go, hpc]
    split
    · split <;> exact I.quiet rfl rfl (.inr ⟨_, rfl, rfl⟩)
    · exact I
  | cancelLock =>
    simp only [St.go, hpc]
    split
    · rename_i hl
      split
      · exact I.quiet rfl rfl (.inr ⟨_, rfl, rfl⟩)
      · rename_i h1
        split
        · exact I.quiet rfl rfl (.inr ⟨_, rfl, rfl⟩)
        · rename_i h2
          have hnp : s.st ≠ .pre := fun h => L.pre.1 h hl
          have hd : s.st = .pending ∨ s.st = .running := by cases hs : s.st <;> simp_all
          obtain ⟨i1, i2, i3, i4⟩ := I.new hd
          constructor
          · rintro (h | h) <;> cases h
          · intro h; cases h
          · intro h; cases h
          · exact fun _ => ⟨by rw [givens_snoc _ _ (by simp)]; exact i1, by simp [i2], by simp⟩
    · exact I
  | startLock =>
    simp only [St.go, hpc]
    split
    · by_cases hp : s.st = .pending
      · simp only [hp, if_true]
        have := I.new (.inl hp)
        exact ⟨fun _ => this, (fun h => by cases h), (fun h => by cases h), (fun h => by cases h)⟩
      · simp only [hp, if_false]; exact I.quiet rfl rfl (.inl rfl)
    · exact I
  | addPreLock cb =>
    simp only [St.go, hpc]
    split
    · rename_i hl
      split
      · exact I.quiet rfl rfl (.inl rfl)
      · rename_i hd
        have hnp : s.st ≠ .pre := fun h => L.pre.1 h hl
        have hn := not_done hd hnp
        obtain ⟨i1, i2, i3, i4⟩ := I.new hn
        constructor
        · exact fun _ => ⟨by rw [givens_snoc _ _ (by simp)]; exact i1, by simp [i2], by simp [i3], by simp [i4, added]⟩
        · intro h; exact absurd h hnp
        · intro h; dsimp only at h; simp [h, FS.isDone] at hd
        · intro h; dsimp only at h; simp [h, FS.isDone] at hd
    · exact I
  | addDoneLock =>
    simp only [St.go, hpc]
    split
    · split <;> exact I.quiet rfl rfl (.inl rfl)
    · exact I

theorem Hs.step {s : St V E} (L : Lk s) (I : Hs s) (a : Act V E) : Hs (Th.step s a) := by
  cases a with
  | go t => exact I.go L t
  | call t op =>
    rcases step_call s t op with h | ⟨_, h⟩
    · rw [h]; exact I
    · rw [h]; exact I.quiet rfl rfl (.inl rfl)

/-- at most one event is logged by a step -/
theorem go_log (s : St V E) (t : Nat) : (s.go t).log = s.log ∨ ∃ e, (s.go t).log = s.log ++ [e] := by
  cases hpc : s.pcs t with
  | callingPre l => cases l <;> simp [St.go, hpc]
  | callingDone l => cases l <;> simp [St.go, hpc]
  | _ => simp only [St.go, hpc]; repeat' split
         all_goals simp

/-! ## One thread sets the outcome -/

/-- pcs of set_result and set_exception -/
def isSet : Pc V E → Bool
  | .setRead _ => true
  | .setLate _ => true
  | .setLock _ => true
  | .callingPre _ => true
  | _ => false

/-- with one setter: what the future holds is what was given, transformed by the callbacks called so far -/
structure On (w : Nat) (s : St V E) : Prop where
  sole : ∀ t, isSet (s.pcs t) = true → t = w
  never : ∀ t o, s.pcs t ≠ .setLate o
  keep : ∀ t cb, s.pcs t = .addPreLock cb → ∀ e, ∃ e', cb (.error e) = .error e'
  keeps : ∀ cb ∈ s.pre, ∀ e, ∃ e', cb (.error e) = .error e'
  new : s.st = .pending ∨ s.st = .running → ∃ v, s.out = .ok v
  pre : s.st = .pre → ∃ a t o d l, First s.log a t o ∧ s.pcs w = .callingPre l ∧ s.pre = d ++ l ∧ s.out = transformed o d
  fin : s.st = .finished → ∃ a t o, First s.log a t o ∧ s.out = transformed o s.pre

theorem On.init (w : Nat) (none : V) : On w (St.init none : St V E) := by
  constructor <;> simp [St.init, isSet]

theorem put_ok (v : V) (o : Except E V) : put (.ok v) o = o := by cases o <;> rfl

theorem put_cb (o : Except E V) (cb : Cb V E) (h : ∀ e, ∃ e', cb (.error e) = .error e') : put o (cb o) = cb o := by
  cases o with
  | ok v => exact put_ok _ _
  | error e => obtain ⟨e', he⟩ := h e; rw [he]; rfl

/-- a thread not calling pre-done callbacks moves, and neither the state nor the outcome nor the callbacks change -/
theorem On.move {w : Nat} {s s' : St V E} (I : On w s) (t : Nat) (p : Pc V E) (hp : ∀ l, s.pcs t ≠ .callingPre l) (h1 : s'.st = s.st) (h2 : s'.pre = s.pre)
    (h3 : s'.out = s.out) (h4 : s'.log = s.log ∨ ∃ e, quiet e = true ∧ s'.log = s.log ++ [e]) (h5 : s'.pcs = upd s.pcs t p)
    (hw : isSet p = true → t = w) (hn : ∀ o, p ≠ .setLate o) (hk : ∀ cb, p = .addPreLock cb → ∀ e, ∃ e', cb (.error e) = .error e') : On w s' := by
  have hF : ∀ a t o, First s.log a t o → First s'.log a t o := by
    intro a t o hf
    rcases h4 with h4 | ⟨e, he, h4⟩
    · rw [h4]; exact hf
    · rw [h4]; exact hf.snoc e (by rintro t o rfl; cases he)
  constructor
  · rw [h5]; exact upd_all (P := fun u (q : Pc V E) => isSet q = true → u = w) (fun u _ => I.sole u) hw
  · rw [h5]; exact upd_all (P := fun u (q : Pc V E) => ∀ o, q ≠ .setLate o) (fun u _ => I.never u) hn
  · rw [h5]; exact upd_all (P := fun u (q : Pc V E) => ∀ cb, q = .addPreLock cb → ∀ e, ∃ e', cb (.error e) = .error e') (fun u _ => I.keep u) hk
  · rw [h2]; exact I.keeps
  · rw [h1, h3]; exact I.new
  · rw [h1, h2, h3]; intro h
    obtain ⟨a, u, o, d, l, i1, i2, i3⟩ := I.pre h
    refine ⟨a, u, o, d, l, hF _ _ _ i1, ?_, i3⟩
    have : w ≠ t := fun e => hp l (e ▸ i2)
    rw [h5, upd_other _ _ this]; exact i2
  · rw [h1, h2, h3]; intro h
    obtain ⟨a, u, o, i1, i2⟩ := I.fin h
    exact ⟨a, u, o, hF _ _ _ i1, i2⟩

theorem isSet_wake (pcs : Nat → Pc V E) (u : Nat) : (isSet (wake pcs u) = true → isSet (pcs u) = true) ∧ (∀ o, wake pcs u = .setLate o → pcs u = .setLate o) ∧
    (∀ cb, wake pcs u = .addPreLock cb → pcs u = .addPreLock cb) := by
  unfold wake; cases pcs u <;> simp [isSet]

theorem On.go {w : Nat} {s : St V E} (L : Lk s) (H : Hs s) (I : On w s) (t : Nat) : On w (s.go t) := by
  have ht := L.at_ t
  cases hpc : s.pcs t with
  | idle => simpa only [St.go, hpc] using I
  | setRead o =>
    simp only [St.go, hpc]
    have hw : t = w := I.sole t (by rw [hpc]; rfl)
    have hnp : s.st ≠ .pre := by
      intro h
      obtain ⟨a, u, o', d, l, _, i2, _⟩ := I.pre h
      rw [← hw, hpc] at i2; cases i2
    rw [if_neg hnp]
    exact I.move t (.setLock o) (by simp [hpc]) rfl rfl rfl (.inl rfl) rfl (fun _ => hw) (by simp) (by simp)
  | setLate o => exact absurd hpc (I.never t o)
  | setLock o =>
    simp only [St.go, hpc]
    have hw : t = w := I.sole t (by rw [hpc]; rfl)
    split
    · rename_i hl
      split
      · exact I.move t .idle (by simp [hpc]) rfl rfl rfl (.inr ⟨_, rfl, rfl⟩) rfl (by simp [isSet]) (by simp) (by simp)
      · rename_i hd
        have hnp : s.st ≠ .pre := fun h => L.pre.1 h hl
        have hn := not_done hd hnp
        obtain ⟨v, hv⟩ := I.new hn
        obtain ⟨i1, _, _, i4⟩ := H.new hn
        constructor
        · exact upd_all (P := fun u (q : Pc V E) => isSet q = true → u = w) (fun u _ => I.sole u) (fun _ => hw)
        · exact upd_all (P := fun u (q : Pc V E) => ∀ o, q ≠ .setLate o) (fun u _ => I.never u) (by simp)
        · exact upd_all (P := fun u (q : Pc V E) => ∀ cb, q = .addPreLock cb → ∀ e, ∃ e', cb (.error e) = .error e') (fun u _ => I.keep u) (by simp)
        · exact I.keeps
        · rintro (h | h) <;> cases h
        · intro _
          exact ⟨s.log, t, o, [], s.pre, ⟨[], rfl, i1, rfl⟩, by rw [← hw]; simp, rfl, by dsimp only; rw [hv, put_ok]; rfl⟩
        · intro h; cases h
    · exact I
  | callingPre l =>
    rw [hpc] at ht
    have hl : s.lock = some t := ht
    have hp : s.st = .pre := L.pre.2 (by rw [hl]; simp)
    have hw : t = w := I.sole t (by rw [hpc]; rfl)
    obtain ⟨a, u, o, d, l', i1, i2, i3, i5⟩ := I.pre hp
    rw [← hw, hpc] at i2
    cases i2
    cases l with
    | nil =>
      simp only [St.go, hpc]
      constructor
      · exact upd_all (P := fun u (q : Pc V E) => isSet q = true → u = w) (fun u _ h => I.sole u ((isSet_wake s.pcs u).1 h)) (by simp [isSet])
      · exact upd_all (P := fun u (q : Pc V E) => ∀ o, q ≠ .setLate o) (fun u _ o h => I.never u o ((isSet_wake s.pcs u).2.1 o h)) (by simp)
      · exact upd_all (P := fun u (q : Pc V E) => ∀ cb, q = .addPreLock cb → ∀ e, ∃ e', cb (.error e) = .error e') (fun u _ cb h => I.keep u cb ((isSet_wake s.pcs u).2.2 cb h)) (by simp)
      · exact I.keeps
      · rintro (h | h) <;> cases h
      · intro h; cases h
      · intro _
        refine ⟨a, u, o, i1.snoc _ (by simp), ?_⟩
        dsimp only; rw [i5, i3, List.append_nil]
    | cons cb l =>
      simp only [St.go, hpc]
      have hcb := I.keeps cb (by rw [i3]; simp)
      constructor
      · exact upd_all (P := fun u (q : Pc V E) => isSet q = true → u = w) (fun u _ => I.sole u) (fun _ => hw)
      · exact upd_all (P := fun u (q : Pc V E) => ∀ o, q ≠ .setLate o) (fun u _ => I.never u) (by simp)
      · exact upd_all (P := fun u (q : Pc V E) => ∀ cb, q = .addPreLock cb → ∀ e, ∃ e', cb (.error e) = .error e') (fun u _ => I.keep u) (by simp)
      · exact I.keeps
      · rw [hp]; rintro (h | h) <;> cases h
      · intro _
        refine ⟨a, u, o, d ++ [cb], l, i1, by rw [← hw]; simp, by simp [i3], ?_⟩
        dsimp only
        rw [put_cb _ _ hcb, i5]
        simp [transformed]
      · rw [hp]; intro h; cases h
  | callingDone l =>
    cases l with
    | nil => simp only [St.go, hpc]; exact I.move t .idle (by simp [hpc]) rfl rfl rfl (.inl rfl) rfl (by simp [isSet]) (by simp) (by simp)
    | cons n l =>
      simp only [St.go, hpc]; exact I.move t (.callingDone l) (by simp [hpc]) rfl rfl rfl (.inr ⟨_, rfl, rfl⟩) rfl (by simp [isSet]) (by simp) (by simp)
  | resRead =>
    simp only [St.go, hpc]
    refine I.move t _ (by simp [hpc]) rfl rfl rfl (.inl rfl) rfl ?_ ?_ ?_ <;> split <;> simp [isSet]
  | resNow => simp only [St.go, hpc]; exact I.move t .idle (by simp [hpc]) rfl rfl rfl (.inr ⟨_, rfl, rfl⟩) rfl (by simp [isSet]) (by simp) (by simp)
  | resLock =>
    simp only [St.go, hpc]
    split
    · split
      · exact I.move t .idle (by simp [hpc]) rfl rfl rfl (.inr ⟨_, rfl, rfl⟩) rfl (by simp [isSet]) (by simp) (by simp)
      · exact I.move t .resWait (by simp [hpc]) rfl rfl rfl (.inl rfl) rfl (by simp [isSet]) (by simp) (by simp)
    · exact I
  | resWait => simpa only [St.go, hpc] using I
  | resWoken =>
    simp only [St.go, hpc]
    split
    · split <;> exact I.move t .idle (by simp [hpc]) rfl rfl rfl (.inr ⟨_, rfl, rfl⟩) rfl (by simp [isSet]) (by simp) (by simp)
    · exact I
  | cancelLock =>
    simp only [St.go, hpc]
    split
    · rename_i hl
      split
      · exact I.move t .idle (by simp [hpc]) rfl rfl rfl (.inr ⟨_, rfl, rfl⟩) rfl (by simp [isSet]) (by simp) (by simp)
      · split
        · exact I.move t .idle (by simp [hpc]) rfl rfl rfl (.inr ⟨_, rfl, rfl⟩) rfl (by simp [isSet]) (by simp) (by simp)
        · constructor
          · exact upd_all (P := fun u (q : Pc V E) => isSet q = true → u = w) (fun u _ h => I.sole u ((isSet_wake s.pcs u).1 h)) (by simp [isSet])
          · exact upd_all (P := fun u (q : Pc V E) => ∀ o, q ≠ .setLate o) (fun u _ o h => I.never u o ((isSet_wake s.pcs u).2.1 o h)) (by simp)
          · exact upd_all (P := fun u (q : Pc V E) => ∀ cb, q = .addPreLock cb → ∀ e, ∃ e', cb (.error e) = .error e') (fun u _ cb h => I.keep u cb ((isSet_wake s.pcs u).2.2 cb h)) (by simp)
          · exact I.keeps
          · rintro (h | h) <;> cases h
          · intro h; cases h
          · intro h; cases h
    · exact I
  | startLock =>
    simp only [St.go, hpc]
    split
    · by_cases hp : s.st = .pending
      · simp only [hp, if_true]
        constructor
        · exact upd_all (P := fun u (q : Pc V E) => isSet q = true → u = w) (fun u _ => I.sole u) (by simp [isSet])
        · exact upd_all (P := fun u (q : Pc V E) => ∀ o, q ≠ .setLate o) (fun u _ => I.never u) (by simp)
        · exact upd_all (P := fun u (q : Pc V E) => ∀ cb, q = .addPreLock cb → ∀ e, ∃ e', cb (.error e) = .error e') (fun u _ => I.keep u) (by simp)
        · exact I.keeps
        · exact fun _ => I.new (.inl hp)
        · intro h; cases h
        · intro h; cases h
      · simp only [hp, if_false]; exact I.move t .idle (by simp [hpc]) rfl rfl rfl (.inl rfl) rfl (by simp [isSet]) (by simp) (by simp)
    · exact I
  | addPreLock cb =>
    simp only [St.go, hpc]
    split
    · rename_i hl
      split
      · exact I.move t .idle (by simp [hpc]) rfl rfl rfl (.inl rfl) rfl (by simp [isSet]) (by simp) (by simp)
      · rename_i hd
        have hnp : s.st ≠ .pre := fun h => L.pre.1 h hl
        have hn := not_done hd hnp
        constructor
        · exact upd_all (P := fun u (q : Pc V E) => isSet q = true → u = w) (fun u _ => I.sole u) (by simp [isSet])
        · exact upd_all (P := fun u (q : Pc V E) => ∀ o, q ≠ .setLate o) (fun u _ => I.never u) (by simp)
        · exact upd_all (P := fun u (q : Pc V E) => ∀ cb, q = .addPreLock cb → ∀ e, ∃ e', cb (.error e) = .error e') (fun u _ => I.keep u) (by simp)
        · intro c hc
          rcases List.mem_append.1 hc with h | h
          · exact I.keeps c h
          · simp only [List.mem_singleton] at h
            subst h; exact I.keep t c hpc
        · exact fun _ => I.new hn
        · intro h; exact absurd h hnp
        · intro h; dsimp only at h; simp [h, FS.isDone] at hd
    · exact I
  | addDoneLock =>
    simp only [St.go, hpc]
    split
    · split
      · exact I.move t (.callingDone [s.next]) (by simp [hpc]) rfl rfl rfl (.inl rfl) rfl (by simp [isSet]) (by simp) (by simp)
      · exact I.move t .idle (by simp [hpc]) rfl rfl rfl (.inl rfl) rfl (by simp [isSet]) (by simp) (by simp)
    · exact I

theorem On.step {w : Nat} {s : St V E} (L : Lk s) (H : Hs s) (I : On w s) (a : Act V E) (h1 : OneSetter w [a]) (h2 : NoRecovery [a]) : On w (Th.step s a) := by
  cases a with
  | go t => exact I.go L H t
  | call t op =>
    rcases step_call s t op with h | ⟨hi, h⟩
    · rw [h]; exact I
    · rw [h]
      refine I.move t _ (by simp [hi]) rfl rfl rfl (.inl rfl) rfl ?_ ?_ ?_
      · cases op <;> simp [Op.entry, isSet]
        exact h1 t _ (List.mem_singleton.2 rfl)
      · cases op <;> simp [Op.entry]
      · cases op <;> simp [Op.entry]
        exact h2 t _ (List.mem_singleton.2 rfl)

/-! ## Properties -/

/-- induction over a schedule, from its end -/
theorem snoc_ind {α : Type} {P : List α → Prop} (h0 : P []) (h1 : ∀ l a, P l → P (l ++ [a])) (l : List α) : P l := by
  have : ∀ r : List α, P r.reverse := by
    intro r
    induction r with
    | nil => exact h0
    | cons a r ih => rw [List.reverse_cons]; exact h1 _ _ ih
  have := this l.reverse
  rwa [List.reverse_reverse] at this

theorem run_snoc (s : St V E) (acts : List (Act V E)) (a : Act V E) : run s (acts ++ [a]) = Th.step (run s acts) a := by simp [run]

theorem split_snoc {α : Type} {l a b : List α} {x e : α} (h : l ++ [x] = a ++ e :: b) : (b = [] ∧ l = a ∧ x = e) ∨ ∃ b', l = a ++ e :: b' := by
  rcases List.eq_nil_or_concat b with hb | ⟨b', y, hb⟩
  · subst hb
    obtain ⟨h1, h2⟩ := List.append_inj' h rfl
    exact .inl ⟨rfl, h1, by simpa using h2⟩
  · subst hb
    rw [List.concat_eq_append] at h
    have : l ++ [x] = (a ++ e :: b') ++ [y] := by rw [h]; simp
    exact .inr ⟨b', (List.append_inj' this rfl).1⟩

/-- every event was logged by some step -/
theorem log_ev (none : V) (acts : List (Act V E)) (a : List (Ev V E)) (e : Ev V E) (b : List (Ev V E)) (h : (run (St.init none) acts).log = a ++ e :: b) :
    ∃ p q t, acts = p ++ .go t :: q ∧ (run (St.init none) p).log = a ∧ ((run (St.init none) p).go t).log = a ++ [e] := by
  induction acts using snoc_ind generalizing b with
  | h0 => simp [run, St.init] at h
  | h1 l x ih =>
    rw [run_snoc] at h
    have old : (∃ b', (run (St.init none) l).log = a ++ e :: b') →
        ∃ p q t, l ++ [x] = p ++ .go t :: q ∧ (run (St.init none) p).log = a ∧ ((run (St.init none) p).go t).log = a ++ [e] := by
      rintro ⟨b', hb⟩
      obtain ⟨p, q, t, h1, h2⟩ := ih b' hb
      exact ⟨p, q ++ [x], t, by rw [h1]; simp, h2⟩
    cases x with
    | call t op =>
      refine old ⟨b, ?_⟩
      rcases step_call (run (St.init none) l) t op with h' | ⟨_, h'⟩ <;> rw [h'] at h <;> exact h
    | go t =>
      simp only [Th.step] at h
      rcases go_log (run (St.init none) l) t with h' | ⟨e', h'⟩
      · exact old ⟨b, by rw [h'] at h; exact h⟩
      · rw [h'] at h
        rcases split_snoc h with ⟨_, h2, h3⟩ | hb
        · exact ⟨l, [], t, rfl, h2, by rw [h', h2, h3]⟩
        · exact old hb

theorem returned_go {s : St V E} (L : Lk s) (t u : Nat) (r : Ret V E) (h : (s.go t).log = s.log ++ [.returned u r]) :
    (s.st = .pre ∧ r = present s.out) ∨ (s.st.isDone = true ∧ r = s.view) := by
  have ht := L.at_ t
  cases hpc : s.pcs t with
  | callingPre l => cases l <;> simp [St.go, hpc] at h
  | callingDone l => cases l <;> simp [St.go, hpc] at h
  | resNow =>
    simp only [St.go, hpc] at h
    simp only [List.append_cancel_left_eq, List.cons.injEq, Ev.returned.injEq, and_true] at h
    rw [hpc] at ht
    rcases ht with ht | ht
    · exact .inl ⟨ht, h.2.symm⟩
    · exact .inr ⟨by rw [ht]; rfl, by rw [← h.2]; simp [St.view, ht]⟩
  | resLock =>
    simp only [St.go, hpc] at h
    split at h
    · split at h
      · rename_i hd; simp at h; exact .inr ⟨hd, h.2.symm⟩
      · simp at h
    · simp at h
  | resWoken =>
    simp only [St.go, hpc] at h
    rw [hpc] at ht
    split at h
    · split at h
      · rename_i hd; simp at h; exact .inr ⟨hd, h.2.symm⟩
      · rename_i hd; exact absurd ht hd
    · simp at h
  | _ =>
    simp only [St.go, hpc] at h
    repeat' split at h
    all_goals simp at h

theorem called_go {s : St V E} (L : Lk s) (t n : Nat) (r : Ret V E) (h : (s.go t).log = s.log ++ [.called n r]) : s.st.isDone = true ∧ r = s.view := by
  have ht := L.at_ t
  cases hpc : s.pcs t with
  | callingPre l => cases l <;> simp [St.go, hpc] at h
  | callingDone l =>
    rw [hpc] at ht
    cases l with
    | nil => simp [St.go, hpc] at h
    | cons m l => simp [St.go, hpc] at h; exact ⟨ht, h.2.symm⟩
  | _ =>
    simp only [St.go, hpc] at h
    repeat' split at h
    all_goals simp at h

theorem refused_go {s : St V E} (t u : Nat) (h : (s.go t).log = s.log ++ [.refused u]) : s.st.isDone = true := by
  cases hpc : s.pcs t with
  | callingPre l => cases l <;> simp [St.go, hpc] at h
  | callingDone l => cases l <;> simp [St.go, hpc] at h
  | setLock o =>
    simp only [St.go, hpc] at h
    split at h
    · split at h
      · rename_i hd; exact hd
      · simp at h
    · simp at h
  | _ =>
    simp only [St.go, hpc] at h
    repeat' split at h
    all_goals simp at h

theorem hs (none : V) (acts : List (Act V E)) : Hs (run (St.init none) acts) :=
  (run_ind (P := fun s => Lk s ∧ Hs s) ⟨Lk.init none, Hs.init none⟩ (fun _ a I => ⟨I.1.step a, I.2.step I.1 a⟩) acts).2

theorem on (w : Nat) (none : V) (acts : List (Act V E)) (h1 : OneSetter w acts) (h2 : NoRecovery acts) : On w (run (St.init none) acts) := by
  induction acts using snoc_ind with
  | h0 => exact On.init w none
  | h1 l a ih =>
    rw [run_snoc]
    refine (ih (fun t o h => h1 t o (by simp [h])) (fun t cb h => h2 t cb (by simp [h]))).step (lk none l) (hs none l) a ?_ ?_
    · intro t o h; exact h1 t o (by simp at h; simp [h])
    · intro t cb h; exact h2 t cb (by simp at h; simp [h])

theorem First.givens {log a : List (Ev V E)} {t : Nat} {o : Except E V} (h : First log a t o) : givens log = [(t, o)] := by
  obtain ⟨b, e, f, g⟩ := h
  rw [e, show Th.givens (a ++ .given t o :: b) = Th.givens a ++ (t, o) :: Th.givens b by simp [Th.givens], f, g]; rfl

theorem first_eq {log a b : List (Ev V E)} {t u : Nat} {o o' : Except E V} (h : First log a t o) (h' : First log b u o') : o = o' := by
  have := h.givens
  rw [h'.givens] at this
  simp at this; exact this.2.symm

theorem done_iff {s : St V E} (H : Hs s) : s.st.isDone = true ↔ .settled ∈ s.log ∨ .cancelled ∈ s.log := by
  cases hst : s.st with
  | pending => simp [FS.isDone, (H.new (.inl hst)).2.1, (H.new (.inl hst)).2.2.1]
  | running => simp [FS.isDone, (H.new (.inr hst)).2.1, (H.new (.inr hst)).2.2.1]
  | pre => simp [FS.isDone, (H.pre hst).2.1, (H.pre hst).2.2]
  | finished => simp [FS.isDone, (H.fin hst).2.1]
  | cancelled => simp [FS.isDone, (H.can hst).2.2]

theorem run_append (s : St V E) (a b : List (Act V E)) : run s (a ++ b) = run (run s a) b := by simp [run]

theorem tells_present (o : Except E V) : Tells (present o) o := by
  constructor
  · intro v h; rw [h]; rfl
  · intro e h; rw [h]; rfl

/-- **C267 (result, partial).** If one thread sets the outcome, then in every interleaving a call of `result()` that ends raises CancelledError if the future was cancelled before, and otherwise tells the outcome that was set, transformed by pre-done callbacks, in the order
they were added: by all of them, if the future was done when the call ended.  Missing: calls that end before (see `C267_early_violates`); several threads that set (see `C267_overwritten_violates`, `C267_changes_violates`). -/
theorem C267_result_partial (w : Nat) (none : V) (acts : List (Act V E)) (h1 : OneSetter w acts) (h2 : NoRecovery acts) (a b : List (Ev V E)) (u : Nat) (r : Ret V E)
    (h : (run (St.init none) acts).log = a ++ .returned u r :: b) :
    (.cancelled ∈ a ∧ r = .cancelled) ∨
    ∃ a' t o d rest, First a a' t o ∧ added a' = d ++ rest ∧ Tells r (transformed o d) ∧ (.settled ∈ a → rest = []) := by
  obtain ⟨p, q, t, hp, hl, he⟩ := log_ev none acts a _ b h
  have O := on w none p (fun t o h => h1 t o (by rw [hp]; simp [h])) (fun t cb h => h2 t cb (by rw [hp]; simp [h]))
  have H := hs none p
  have L := lk none p
  generalize run (St.init none) p = s at O H L hl he
  subst hl
  rcases returned_go L t u r he with ⟨hs, hr⟩ | ⟨hd, hr⟩
  · obtain ⟨⟨a1, t1, o1, i1, i2⟩, i3, _⟩ := H.pre hs
    obtain ⟨a2, t2, o2, d, l, j1, _, j3, j4⟩ := O.pre hs
    refine .inr ⟨a1, t1, o1, d, l, i1, i2 ▸ j3, ?_, fun h => absurd h i3⟩
    have : o1 = o2 := first_eq i1 j1
    rw [hr, j4, this]
    exact tells_present _
  · cases hst : s.st with
    | pending => rw [hst] at hd; cases hd
    | running => rw [hst] at hd; cases hd
    | pre => rw [hst] at hd; cases hd
    | cancelled => exact .inl ⟨(H.can hst).2.2, by rw [hr]; simp [St.view, hst]⟩
    | finished =>
      obtain ⟨⟨a1, t1, o1, i1, i2⟩, _, _⟩ := H.fin hst
      obtain ⟨a2, t2, o2, j1, j4⟩ := O.fin hst
      refine .inr ⟨a1, t1, o1, added a1, [], i1, by simp, ?_, fun _ => rfl⟩
      have : o1 = o2 := first_eq i1 j1
      have hv : s.view = present s.out := by simp [St.view, hst]
      rw [hr, hv, j4, this, i2]
      exact tells_present _


/-- **C267 (done callbacks, partial).** ... and every done callback is called when the future is done, with the outcome all calls of `result()` then tell: that of a cancelled future, or the outcome that was set, transformed by all pre-done callbacks. -/
theorem C267_done_callbacks_partial (w : Nat) (none : V) (acts : List (Act V E)) (h1 : OneSetter w acts) (h2 : NoRecovery acts) (a b : List (Ev V E)) (n : Nat) (r : Ret V E)
    (h : (run (St.init none) acts).log = a ++ .called n r :: b) :
    (.cancelled ∈ a ∧ r = .cancelled) ∨ (.settled ∈ a ∧ ∃ a' t o, First a a' t o ∧ Tells r (transformed o (added a'))) := by
  obtain ⟨p, q, t, hp, hl, he⟩ := log_ev none acts a _ b h
  have O := on w none p (fun t o h => h1 t o (by rw [hp]; simp [h])) (fun t cb h => h2 t cb (by rw [hp]; simp [h]))
  have H := hs none p
  have L := lk none p
  generalize run (St.init none) p = s at O H L hl he
  subst hl
  obtain ⟨hd, hr⟩ := called_go L t n r he
  cases hst : s.st with
  | pending => rw [hst] at hd; cases hd
  | running => rw [hst] at hd; cases hd
  | pre => rw [hst] at hd; cases hd
  | cancelled => exact .inl ⟨(H.can hst).2.2, by rw [hr]; simp [St.view, hst]⟩
  | finished =>
    obtain ⟨⟨a1, t1, o1, i1, i2⟩, i3, _⟩ := H.fin hst
    obtain ⟨a2, t2, o2, j1, j4⟩ := O.fin hst
    refine .inr ⟨i3, a1, t1, o1, i1, ?_⟩
    have : o1 = o2 := first_eq i1 j1
    have hv : s.view = present s.out := by simp [St.view, hst]
    rw [hr, hv, j4, this, i2]
    exact tells_present _

/-- **C267 (one outcome).** In every interleaving, with any number of threads that set: at most one call sets the outcome of the future when it is not yet done, and none does after it was cancelled or became done; InvalidStateError is raised only if the future was done. -/
theorem C267_one_outcome (none : V) (acts : List (Act V E)) :
    (givens (run (St.init none) acts).log).length ≤ 1 ∧
    (∀ a t o b, (run (St.init none) acts).log = a ++ .given t o :: b → .settled ∉ a ∧ .cancelled ∉ a) ∧
    (∀ a t b, (run (St.init none) acts).log = a ++ .refused t :: b → .settled ∈ a ∨ .cancelled ∈ a) := by
  refine ⟨?_, ?_, ?_⟩
  · have H := hs none acts
    generalize run (St.init none) acts = s at H
    cases hst : s.st with
    | pending => rw [(H.new (.inl hst)).1]; simp
    | running => rw [(H.new (.inr hst)).1]; simp
    | pre => obtain ⟨⟨a, t, o, i, _⟩, _⟩ := H.pre hst; rw [i.givens]; simp
    | finished => obtain ⟨⟨a, t, o, i, _⟩, _⟩ := H.fin hst; rw [i.givens]; simp
    | cancelled => rw [(H.can hst).1]; simp
  · intro a t o b h
    obtain ⟨p, q, u, hp, hl, he⟩ := log_ev none acts a _ b h
    have H := hs none p
    have L := lk none p
    have H' := H.go L u
    generalize run (St.init none) p = s at H L H' hl he
    have g : ∃ x, givens (s.go u).log = givens s.log ++ [x] := ⟨(t, o), by rw [he, hl]; simp [givens]⟩
    obtain ⟨x, g⟩ := g
    cases hst : (s.go u).st with
    | pending => rw [(H'.new (.inl hst)).1] at g; simp at g
    | running => rw [(H'.new (.inr hst)).1] at g; simp at g
    | cancelled => rw [(H'.can hst).1] at g; simp at g
    | pre => have := (H'.pre hst).2; rw [he] at this; simpa using this
    | finished =>
      have h3 := H'.fin hst
      rw [he] at h3
      refine ⟨fun hm => ?_, by simpa using h3.2.2⟩
      rw [← hl] at hm
      cases hs : s.st with
      | pending => exact (H.new (.inl hs)).2.1 hm
      | running => exact (H.new (.inr hs)).2.1 hm
      | pre => exact (H.pre hs).2.1 hm
      | cancelled => exact (H.can hs).2.1 hm
      | finished =>
        obtain ⟨⟨_, _, _, i, _⟩, _⟩ := H.fin hs
        obtain ⟨⟨_, _, _, j, _⟩, _⟩ := H'.fin hst
        rw [i.givens, j.givens] at g; simp at g
  · intro a t b h
    obtain ⟨p, q, u, hp, hl, he⟩ := log_ev none acts a _ b h
    have H := hs none p
    generalize run (St.init none) p = s at H hl he
    subst hl
    have hd := refused_go u t he
    cases hst : s.st with
    | pending => rw [hst] at hd; cases hd
    | running => rw [hst] at hd; cases hd
    | pre => rw [hst] at hd; cases hd
    | finished => exact .inl (H.fin hst).2.1
    | cancelled => exact .inr (H.can hst).2.2

/-- a callback that adds 2 -/
def plus2 : Cb Nat Nat := fun o => o.map (· + 2)

/-- for examples: a thread makes a call and goes on for a number of steps -/
def does (t : Nat) (op : Op Nat Nat) (n : Nat) : List (Act Nat Nat) := .call t op :: List.replicate n (.go t)

theorem cancelReturned_go {s : St V E} (t u : Nat) (b : Bool) (h : (s.go t).log = s.log ++ [.cancelReturned u b]) :
    (b = true ∧ s.st = .cancelled) ∨ (b = false ∧ (s.st = .running ∨ s.st = .finished)) := by
  cases hpc : s.pcs t with
  | callingPre l => cases l <;> simp [St.go, hpc] at h
  | callingDone l => cases l <;> simp [St.go, hpc] at h
  | cancelLock =>
    simp only [St.go, hpc] at h
    split at h
    · split at h
      · rename_i hd; simp at h; exact .inr ⟨by simpa using h.2.symm, hd⟩
      · split at h
        · rename_i hd; simp at h; exact .inl ⟨by simpa using h.2.symm, hd⟩
        · simp at h
    · simp at h
  | _ =>
    simp only [St.go, hpc] at h
    repeat' split at h
    all_goals simp at h

/-- **C267 (cancel).** In every interleaving a call of `cancel()` that ends without having cancelled returns True if the future was cancelled before, and otherwise False. -/
theorem C267_cancel_returns (none : V) (acts : List (Act V E)) (a b : List (Ev V E)) (u : Nat) (r : Bool) (h : (run (St.init none) acts).log = a ++ .cancelReturned u r :: b) :
    r = true ↔ .cancelled ∈ a := by
  obtain ⟨p, q, t, hp, hl, he⟩ := log_ev none acts a _ b h
  have H := hs none p
  generalize run (St.init none) p = s at H hl he
  subst hl
  rcases cancelReturned_go t u r he with ⟨h1, h2⟩ | ⟨h1, h2 | h2⟩
  · exact ⟨fun _ => (H.can h2).2.2, fun _ => h1⟩
  · exact ⟨(fun h => by rw [h1] at h; cases h), fun h => absurd h (H.new (.inr h2)).2.2.1⟩
  · exact ⟨(fun h => by rw [h1] at h; cases h), fun h => absurd h (H.fin h2).2.2⟩

/-- a future that runs is not cancelled, nor is one that is done; one that was cancelled may be cancelled again -/
example : (run (St.init 0) (does 0 .start 1 ++ does 1 .cancel 1)).log = [.cancelReturned 1 false] ∧
    (run (St.init 0) (does 0 (.set (.ok 2)) 3 ++ does 1 .cancel 1)).log = [.given 0 (.ok 2), .settled, .cancelReturned 1 false] ∧
    (run (St.init 0) (does 0 .cancel 2 ++ does 1 .cancel 1)).log = [.cancelled, .cancelReturned 1 true] := ⟨rfl, rfl, rfl⟩

/-- **C267 violated.** "A future that allows its callback handlers to change its result before presenting it to the user": while the pre-done callbacks are called, another thread's `result()` returns at once with what was set; all later calls return what the callbacks made of it. -/
theorem C267_early_violates : ∃ acts : List (Act Nat Nat), OneSetter 0 acts ∧ NoRecovery acts ∧
    (run (St.init 0) acts).log.filterMap (fun | .returned t r => some (t, r) | _ => none) = [(1, .value 2), (2, .value 4)] := by
  refine ⟨does 0 (.addPre plus2) 1 ++ does 0 (.set (.ok 2)) 2 ++ does 1 .result 2 ++ [.go 0, .go 0] ++ does 2 .result 2, ?_, ?_, ?_⟩
  · intro t o h; simp [does] at h; exact h.1
  · intro t cb h; simp [does] at h; obtain ⟨_, rfl⟩ := h; exact fun e => ⟨e, rfl⟩
  · rfl

/-- **C267 violated.** "set_result raises InvalidStateError if the future is already set": while the pre-done callbacks are called, a second thread's `set_result` returns normally, and changes what the first one set, after the callback transformed it. -/
theorem C267_overwritten_violates : ∃ acts : List (Act Nat Nat), (∀ t, Ev.refused t ∉ (run (St.init 0) acts).log) ∧
    (run (St.init 0) acts).log.filterMap (fun | .given t _ => some t | .overwrote t _ => some t | _ => none) = [0, 1] ∧
    (run (St.init 0) acts).log.filterMap (fun | .returned t r => some (t, r) | _ => none) = [(2, .value 7)] := by
  refine ⟨does 0 (.addPre plus2) 1 ++ does 0 (.set (.ok 2)) 3 ++ does 1 (.set (.ok 7)) 2 ++ [.go 0] ++ does 2 .result 2, ?_, rfl, rfl⟩
  intro t h
  have : (run (St.init 0) (does 0 (.addPre plus2) 1 ++ does 0 (.set (.ok 2)) 3 ++ does 1 (.set (.ok 7)) 2 ++ [.go 0] ++ does 2 .result 2)).log =
    [.preAdded plus2, .given 0 (.ok 2), .overwrote 1 (.ok 7), .settled, .returned 2 (.value 7)] := rfl
  rw [this] at h
  simp at h

/-- **C267 violated.** ... and if it goes on only when the future is done, then the outcome of a future that is done changes: `result()` returns 2 first and 7 later. -/
theorem C267_changes_violates : ∃ acts : List (Act Nat Nat),
    (run (St.init 0) acts).log = [.given 0 (.ok 2), .settled, .returned 2 (.value 2), .overwrote 1 (.ok 7), .returned 2 (.value 7)] :=
  ⟨does 0 (.set (.ok 2)) 2 ++ does 1 (.set (.ok 7)) 1 ++ [.go 0] ++ does 2 .result 2 ++ [.go 1] ++ does 2 .result 2, rfl⟩

/-- **C268.** In every interleaving, with any number of threads that set the outcome, cancel and add callbacks: the done callbacks added so far being numbered from 0, none is called twice; none is called before the future is done;
and when it is done, every one was called, unless some thread is still in a call that calls it. -/
theorem C268_once (none : V) (acts : List (Act V E)) :
    (calls (run (St.init none) acts).log).Nodup ∧ (∀ n ∈ calls (run (St.init none) acts).log, n < (run (St.init none) acts).next) ∧
    (∀ a n r b, (run (St.init none) acts).log = a ++ .called n r :: b → .settled ∈ a ∨ .cancelled ∈ a) ∧
    (.settled ∈ (run (St.init none) acts).log ∨ .cancelled ∈ (run (St.init none) acts).log → ∀ n, n < (run (St.init none) acts).next →
      n ∈ calls (run (St.init none) acts).log ∨ ∃ t l, (run (St.init none) acts).pcs t = .callingDone l ∧ n ∈ l) := by
  have C := cn none acts
  refine ⟨C.once, C.old, ?_, ?_⟩
  · intro a n r b h
    obtain ⟨p, q, u, hp, hl, he⟩ := log_ev none acts a _ b h
    have H := hs none p
    have L := lk none p
    generalize run (St.init none) p = s at H L hl he
    subst hl
    have hd := (called_go L u n r he).1
    cases hst : s.st with
    | pending => rw [hst] at hd; cases hd
    | running => rw [hst] at hd; cases hd
    | pre => rw [hst] at hd; cases hd
    | finished => exact .inl (H.fin hst).2.1
    | cancelled => exact .inr (H.can hst).2.2
  · intro h n hn
    have hd : (run (St.init none) acts).st.isDone = true := (done_iff (hs none acts)).2 h
    rcases C.all hd n hn with h | ⟨t, h⟩
    · exact .inl h
    · refine .inr ⟨t, ?_⟩
      cases hpc : (run (St.init none) acts).pcs t with
      | callingDone l => rw [hpc] at h; exact ⟨l, rfl, h⟩
      | _ => rw [hpc] at h; cases h

/-- ... and each `add_done_callback` that takes the lock does add one: it is called at once if the future is done. -/
theorem C268_adds (none : V) (acts : List (Act V E)) (t : Nat) (h : (run (St.init none) acts).pcs t = .addDoneLock) (hl : (run (St.init none) acts).lock = Option.none) :
    ((run (St.init none) acts).go t).next = (run (St.init none) acts).next + 1 ∧
    (.settled ∈ (run (St.init none) acts).log ∨ .cancelled ∈ (run (St.init none) acts).log →
      ((run (St.init none) acts).go t).pcs t = .callingDone [(run (St.init none) acts).next]) := by
  have D := done_iff (hs none acts)
  generalize run (St.init none) acts = s at *
  simp only [St.go, h, hl, if_true]
  split
  · exact ⟨rfl, fun _ => by simp⟩
  · rename_i hd; exact ⟨rfl, fun h => absurd (D.2 h) hd⟩

/-- **C269.** In every interleaving no thread waits in `result()` for a future that is done or cancelled, and none raises TimeoutError. -/
theorem C269_no_waiting (none : V) (acts : List (Act V E)) :
    (.settled ∈ (run (St.init none) acts).log ∨ .cancelled ∈ (run (St.init none) acts).log → ∀ t, (run (St.init none) acts).pcs t ≠ .resWait) ∧
    ∀ t, Ev.returned t .timeout ∉ (run (St.init none) acts).log := by
  constructor
  · intro h t hp
    have := (lk none acts).at_ t
    rw [hp] at this
    have this : (run (St.init none) acts).st.isDone = false := this
    rw [(done_iff (hs none acts)).2 h] at this
    cases this
  · intro t h
    obtain ⟨a, b, h⟩ := List.append_of_mem h
    obtain ⟨p, q, u, hp, hl, he⟩ := log_ev none acts a _ b h
    have L := lk none p
    generalize run (St.init none) p = s at L hl he
    subst hl
    rcases returned_go L u t _ he with ⟨_, hr⟩ | ⟨_, hr⟩
    · cases ho : s.out <;> rw [ho] at hr <;> cases hr
    · unfold St.view at hr
      split at hr
      · cases hr
      · cases ho : s.out <;> rw [ho] at hr <;> cases hr

/-- **C269.** ... and once it is done, whoever is in `result()` returns within two of its own steps. -/
theorem C269_returns (none : V) (acts : List (Act V E)) (t : Nat)
    (hd : .settled ∈ (run (St.init none) acts).log ∨ .cancelled ∈ (run (St.init none) acts).log)
    (h : (run (St.init none) acts).pcs t = .resRead ∨ (run (St.init none) acts).pcs t = .resNow ∨ (run (St.init none) acts).pcs t = .resLock ∨
      (run (St.init none) acts).pcs t = .resWoken) :
    ∃ n r, n ≤ 2 ∧ (run (St.init none) (acts ++ List.replicate n (.go t))).pcs t = .idle ∧
      (run (St.init none) (acts ++ List.replicate n (.go t))).log = (run (St.init none) acts).log ++ [.returned t r] := by
  have hd := (done_iff (hs none acts)).2 hd
  have L := lk none acts
  simp only [run_append]
  generalize run (St.init none) acts = s at *
  have hnp : s.st ≠ .pre := by intro h; rw [h] at hd; cases hd
  have hl : s.lock = Option.none := by
    cases hl : s.lock with
    | none => rfl
    | some u => exact absurd (L.pre.2 (by rw [hl]; simp)) hnp
  rcases h with h | h | h | h
  · refine ⟨2, s.view, Nat.le_refl _, ?_, ?_⟩ <;> simp [run, List.replicate, Th.step, St.go, h, hnp, hl, hd, St.view]
  · refine ⟨1, present s.out, by omega, ?_, ?_⟩ <;> simp [run, List.replicate, Th.step, St.go, h]
  · refine ⟨1, s.view, by omega, ?_, ?_⟩ <;> simp [run, List.replicate, Th.step, St.go, h, hl, hd]
  · refine ⟨1, s.view, by omega, ?_, ?_⟩ <;> simp [run, List.replicate, Th.step, St.go, h, hl, hd]

/-- **C269.** Nobody can keep the future from becoming done: a thread that sets the outcome and takes the lock makes it done in as many steps as there are pre-done callbacks left, and one more. -/
theorem C269_becomes_done (s : St V E) (t : Nat) (l : List (Cb V E)) (h : s.pcs t = .callingPre l) :
    .settled ∈ (run s (List.replicate (l.length + 1) (.go t))).log := by
  induction l generalizing s with
  | nil => simp [run, List.replicate, Th.step, St.go, h]
  | cons cb l ih =>
    rw [List.length_cons, List.replicate_succ, show run s (.go t :: List.replicate (l.length + 1) (.go t)) = run (s.go t) (List.replicate (l.length + 1) (.go t)) from rfl]
    exact ih (s.go t) (by simp [St.go, h])

/-! ## Examples -/

/-- two threads wait, one sets a result with a callback that adds 2; a done callback is called once -/
def exActs : List (Act Nat Nat) :=
  does 1 .result 2 ++ does 2 .result 2 ++ does 0 (.addPre plus2) 1 ++ does 3 .addDone 1 ++ does 0 (.set (.ok 2)) 6 ++ [.go 1, .go 2] ++ does 3 .addDone 3 ++ does 4 (.set (.ok 9)) 2

example : (run (St.init 0) exActs).log = [.preAdded plus2, .given 0 (.ok 2), .settled, .called 0 (.value 4), .returned 1 (.value 4), .returned 2 (.value 4), .called 1 (.value 4), .refused 4] := rfl
example : (run (St.init 0) (does 1 .result 2)).pcs 1 = .resWait := rfl
example : OneSetter 0 (does 1 .result 2 ++ does 0 (.addPre plus2) 1 ++ does 0 (.set (.ok 2)) 6) ∧ NoRecovery (does 1 .result 2 ++ does 0 (.addPre plus2) 1 ++ does 0 (.set (.ok 2)) 6) := by
  constructor
  · intro t o h; simp [does] at h; exact h.1
  · intro t cb h; simp [does] at h; obtain ⟨_, rfl⟩ := h; exact fun e => ⟨e, rfl⟩
example : (run (St.init 0) (does 1 .result 2 ++ does 2 .cancel 2 ++ [.go 1])).log = ([.cancelled, .returned 1 .cancelled] : List (Ev Nat Nat)) := rfl
example : (run (St.init 0) (does 0 (.addPre plus2) 1 ++ does 0 (.set (.ok 2)) 2)).pcs 0 = .callingPre [plus2] := rfl
example : (run (St.init 0) (does 0 .cancel 2 ++ [.call 1 .addDone])).pcs 1 = (.addDoneLock : Pc Nat Nat) := rfl

end
end Verif.Futures.Th
