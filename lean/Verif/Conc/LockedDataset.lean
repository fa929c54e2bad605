import Verif.Conc.Monitor
/-!
# Model of LockedDataset (satella/coding/concurrent/locked_dataset.py), C65

Threads interleave between the statements of `__call__`, `__enter__` and `__exit__`.  A thread opens one `with` at a time; attributes are accessed one at a time, and which one makes no difference,
so an access is only its outcome.
-/
namespace Verif.LockedDataset
open Verif Verif.Conc

/-- the arguments for `acquire`: none given or `(True, -1)`, `(False, -1)`, or a timeout.  (Part of the model of `LockedDataset`, /repo/satella/coding/concurrent/locked_dataset.py:9-98.) -/
inductive Args where
  | forever
  | nonBlocking
  | timed
  deriving DecidableEq, Repr

/-- where a thread is: outside, past `__call__` (line 83), about to acquire (line 90), past `acquire` (line 92), in the body of the `with`, past `release` (line 97).  (Part of the model of `LockedDataset`, /repo/satella/coding/concurrent/locked_dataset.py:9-98.) -/
inductive Pc where
  | outside
  | called
  | acquiring (a : Args)
  | acquired
  | inside
  | released
  deriving DecidableEq, Repr

/-- what can be seen: an access by a thread, in the body of its `with` or not, that succeeded or raised ResourceNotLocked; a `with` that raised WouldWaitMore, and the arguments that this `with` was given.  (Part of the model of `LockedDataset`, /repo/satella/coding/concurrent/locked_dataset.py:9-98.) -/
inductive Ev where
  | access (t : Nat) (inBody ok : Bool)
  | wouldWait (t : Nat) (asked : Args)
  deriving DecidableEq, Repr

/-- `InternalDataset`, /repo/satella/coding/concurrent/locked_dataset.py:38-44: who holds the lock, `locked`, `args`; where the threads are; what each asked for in its last `with`; what was seen -/
structure St where
  holder : Option Nat
  locked : Bool
  args : Args
  pcs : Nat → Pc
  asked : Nat → Args
  log : List Ev

/-- a new dataset, /repo/satella/coding/concurrent/locked_dataset.py:41-47 -/
def St.init : St := ⟨none, false, .forever, fun _ => .outside, fun _ => .forever, []⟩

/-- a thread begins `with ds`, begins `with ds(...)`, goes on, sees its timeout end, accesses an attribute, ends the body of its `with`.  (Part of the model of `LockedDataset`, /repo/satella/coding/concurrent/locked_dataset.py:9-98.) -/
inductive Act where
  | enter (t : Nat)
  | callEnter (t : Nat) (a : Args)
  | go (t : Nat)
  | timeout (t : Nat)
  | access (t : Nat)
  | leave (t : Nat)
  deriving DecidableEq, Repr

/-- `with ds`: `__enter__` reads the arguments, /repo/satella/coding/concurrent/locked_dataset.py:87-88 -/
def St.enter (s : St) (t : Nat) : St :=
  match s.pcs t with
  | .outside => { s with pcs := upd s.pcs t (.acquiring s.args), asked := upd s.asked t .forever }
  | _ => s

/-- `ds(...)`, /repo/satella/coding/concurrent/locked_dataset.py:83-85 -/
def St.callEnter (s : St) (t : Nat) (a : Args) : St :=
  match s.pcs t with
  | .outside => { s with args := a, pcs := upd s.pcs t .called, asked := upd s.asked t a }
  | _ => s

/-- the statements of `__enter__` and `__exit__`, /repo/satella/coding/concurrent/locked_dataset.py:87-98 -/
def St.go (s : St) (t : Nat) : St :=
  match s.pcs t with
  | .called => { s with pcs := upd s.pcs t (.acquiring s.args) }
  | .acquiring a =>
    match s.holder with
    | none => { s with holder := some t, pcs := upd s.pcs t .acquired }
    | some _ =>
      match a with
      | .nonBlocking => { s with pcs := upd s.pcs t .outside, log := s.log ++ [.wouldWait t (s.asked t)] }
      | _ => s
  | .acquired => { s with locked := true, pcs := upd s.pcs t .inside }
  | .released => { s with locked := false, pcs := upd s.pcs t .outside }
  | _ => s

/-- the timeout of `acquire` is over, /repo/satella/coding/concurrent/locked_dataset.py:90-91 -/
def St.timeout (s : St) (t : Nat) : St :=
  match s.pcs t with
  | .acquiring .timed => { s with pcs := upd s.pcs t .outside, log := s.log ++ [.wouldWait t (s.asked t)] }
  | _ => s

/-- `__getattribute__` and `__setattr__`, /repo/satella/coding/concurrent/locked_dataset.py:67-81 -/
def St.access (s : St) (t : Nat) : St :=
  match s.pcs t with
  | .outside => { s with log := s.log ++ [.access t false s.locked] }
  | .inside => { s with log := s.log ++ [.access t true s.locked] }
  | _ => s

/-- the first statement of `__exit__`, /repo/satella/coding/concurrent/locked_dataset.py:96 -/
def St.leave (s : St) (t : Nat) : St :=
  match s.pcs t with
  | .inside => { s with holder := none, pcs := upd s.pcs t .released }
  | _ => s

/-- one step of a schedule, /repo/satella/coding/concurrent/locked_dataset.py:83-98 -/
def St.step (s : St) : Act → St
  | .enter t => s.enter t
  | .callEnter t a => s.callEnter t a
  | .go t => s.go t
  | .timeout t => s.timeout t
  | .access t => s.access t
  | .leave t => s.leave t

/-- a schedule.  (Part of the model of `LockedDataset`, /repo/satella/coding/concurrent/locked_dataset.py:9-98.) -/
def St.run (s : St) (as : List Act) : St := as.foldl St.step s

/-! ## Every schedule: at most one thread is in -/

/-- the thread holds the lock.  (Part of the model of `LockedDataset`, /repo/satella/coding/concurrent/locked_dataset.py:9-98.) -/
def Pc.holds : Pc → Bool
  | .acquired => true
  | .inside => true
  | _ => false

structure Inv (s : St) : Prop where
  holder : ∀ t, (s.pcs t).holds = true ↔ s.holder = some t

theorem inv_init : Inv St.init := ⟨by simp [St.init, Pc.holds]⟩

theorem inv_upd (s : St) (h : Inv s) (t : Nat) (p : Pc) (hp : p.holds = (s.pcs t).holds) (u : Nat) :
    (upd s.pcs t p u).holds = true ↔ s.holder = some u := by
  unfold upd
  split
  · rename_i e; subst e; rw [hp]; exact h.holder u
  · exact h.holder u

theorem inv_step (s : St) (a : Act) (h : Inv s) : Inv (s.step a) := by
  cases a with
  | enter t =>
    simp only [St.step, St.enter]
    split
    · rename_i hp
      exact ⟨inv_upd s h t _ (by rw [hp]; rfl)⟩
    · exact h
  | callEnter t a =>
    simp only [St.step, St.callEnter]
    split
    · rename_i hp
      exact ⟨inv_upd s h t _ (by rw [hp]; rfl)⟩
    · exact h
  | go t =>
    simp only [St.step, St.go]
    split
    · rename_i hp
      exact ⟨inv_upd s h t _ (by rw [hp]; rfl)⟩
    · rename_i a hp
      split
      · rename_i hn
        refine ⟨fun u => ?_⟩
        dsimp only [upd]
        split
        · rename_i e; subst e; simp [Pc.holds]
        · rename_i hne
          have : ¬ (s.pcs u).holds = true := by
            rw [h.holder, hn]; simp
          constructor
          · exact fun e => absurd e this
          · intro e
            injection e with e
            exact absurd e.symm hne
      · split
        · exact ⟨inv_upd s h t _ (by rw [hp]; rfl)⟩
        · exact h
    · rename_i hp
      exact ⟨inv_upd s h t _ (by rw [hp]; rfl)⟩
    · rename_i hp
      exact ⟨inv_upd s h t _ (by rw [hp]; rfl)⟩
    · exact h
  | timeout t =>
    simp only [St.step, St.timeout]
    split
    · rename_i hp
      exact ⟨inv_upd s h t _ (by rw [hp]; rfl)⟩
    · exact h
  | access t =>
    simp only [St.step, St.access]
    split
    · exact ⟨h.holder⟩
    · exact ⟨h.holder⟩
    · exact h
  | leave t =>
    simp only [St.step, St.leave]
    split
    · rename_i hp
      have ht : s.holder = some t := (h.holder t).1 (by rw [hp]; rfl)
      refine ⟨fun u => ?_⟩
      dsimp only [upd]
      split
      · simp [Pc.holds]
      · rename_i hne
        have : ¬ (s.pcs u).holds = true := by
          rw [h.holder, ht]
          intro e
          injection e with e
          exact hne e.symm
        simp [this]
    · exact h

theorem inv_run (as : List Act) (s : St) (h : Inv s) : Inv (s.run as) := by
  induction as generalizing s with
  | nil => exact h
  | cons a as ih => exact ih _ (inv_step s a h)

/-- **C65, mutual exclusion.** In no schedule are two threads in the body of a `with` at once. -/
theorem C65_exclusive (as : List Act) (t u : Nat) (ht : (St.init.run as).pcs t = .inside) (hu : (St.init.run as).pcs u = .inside) : t = u := by
  have h := inv_run as _ inv_init
  have h1 := (h.holder t).1 (by rw [ht]; rfl)
  have h2 := (h.holder u).1 (by rw [hu]; rfl)
  rw [h1] at h2
  injection h2

/-! ## Accesses -/

/-- no thread takes the lock while another is between giving it back and clearing `locked` -/
def Calm (s : St) (a : Act) : Prop :=
  match a with
  | .go t => (∃ x, s.pcs t = .acquiring x) → ∀ u, s.pcs u ≠ .released
  | _ => True

/-- the guard holds all along the schedule -/
def CalmAll : St → List Act → Prop
  | _, [] => True
  | s, a :: as => Calm s a ∧ CalmAll (s.step a) as

/-- `locked` says whether a thread is in; where a thread is past `release`, none holds the lock -/
structure Good (s : St) : Prop where
  inv : Inv s
  locked : s.locked = true ↔ ∃ t, s.pcs t = .inside ∨ s.pcs t = .released
  one : ∀ t u, s.pcs t = .released → (s.pcs u).holds = true ∨ s.pcs u = .released → t = u

theorem good_init : Good St.init := ⟨inv_init, by simp [St.init], by simp [St.init]⟩

/-- a step between places that matter to neither `locked` nor the lock -/
theorem good_upd (s : St) (h : Good s) (t : Nat) (p : Pc) (h1 : (s.pcs t).holds = false) (h2 : s.pcs t ≠ .released) (p1 : p.holds = false) (p2 : p ≠ .released) :
    (s.locked = true ↔ ∃ u, upd s.pcs t p u = .inside ∨ upd s.pcs t p u = .released) ∧
    (∀ x u, upd s.pcs t p x = .released → (upd s.pcs t p u).holds = true ∨ upd s.pcs t p u = .released → x = u) := by
  have hne : ∀ u, (upd s.pcs t p u = .inside ↔ s.pcs u = .inside) ∧ (upd s.pcs t p u = .released ↔ s.pcs u = .released) ∧
      ((upd s.pcs t p u).holds = true ↔ (s.pcs u).holds = true) := by
    intro u
    unfold upd
    split
    · rename_i e
      subst e
      have a1 : p ≠ .inside := by intro e; rw [e] at p1; cases p1
      have a2 : s.pcs u ≠ .inside := by intro e; rw [e] at h1; cases h1
      simp [a1, a2, p1, p2, h1, h2]
    · simp
  constructor
  · rw [h.locked]
    constructor
    · rintro ⟨u, hu⟩; exact ⟨u, by rw [(hne u).1, (hne u).2.1]; exact hu⟩
    · rintro ⟨u, hu⟩; exact ⟨u, by rw [(hne u).1, (hne u).2.1] at hu; exact hu⟩
  · intro x u hx hu
    rw [(hne x).2.1] at hx
    rw [(hne u).2.2, (hne u).2.1] at hu
    exact h.one x u hx hu

theorem good_step (s : St) (a : Act) (h : Good s) (ha : Calm s a) : Good (s.step a) := by
  have hi := inv_step s a h.inv
  cases a with
  | enter t =>
    simp only [St.step, St.enter] at hi ⊢
    split
    · rename_i hp
      have hg := good_upd s h t (.acquiring s.args) (by rw [hp]; rfl) (by rw [hp]; simp) rfl (by simp)
      exact ⟨by rw [hp] at hi; exact hi, hg.1, hg.2⟩
    · exact h
  | callEnter t a =>
    simp only [St.step, St.callEnter] at hi ⊢
    split
    · rename_i hp
      have hg := good_upd s h t .called (by rw [hp]; rfl) (by rw [hp]; simp) rfl (by simp)
      exact ⟨by rw [hp] at hi; exact hi, hg.1, hg.2⟩
    · exact h
  | go t =>
    simp only [St.step, St.go] at hi ⊢
    split
    · rename_i hp
      have hg := good_upd s h t (.acquiring s.args) (by rw [hp]; rfl) (by rw [hp]; simp) rfl (by simp)
      exact ⟨by rw [hp] at hi; exact hi, hg.1, hg.2⟩
    · rename_i a hp
      rw [hp] at hi
      dsimp only at hi
      split
      · rename_i hn
        rw [hn] at hi
        have hc := ha ⟨a, hp⟩
        refine ⟨hi, ?_, ?_⟩
        · dsimp only
          rw [h.locked]
          have hno : ∀ u, s.pcs u ≠ .inside := by
            intro u e
            have := (h.inv.holder u).1 (by rw [e]; rfl)
            rw [hn] at this
            cases this
          constructor
          · rintro ⟨u, hu | hu⟩
            · exact absurd hu (hno u)
            · exact absurd hu (hc u)
          · rintro ⟨u, hu⟩
            unfold upd at hu
            split at hu
            · simp at hu
            · rcases hu with hu | hu
              · exact absurd hu (hno u)
              · exact absurd hu (hc u)
        · intro x u hx
          dsimp only [upd] at hx
          split at hx
          · cases hx
          · exact absurd hx (hc x)
      · split
        · have hg := good_upd s h t .outside (by rw [hp]; rfl) (by rw [hp]; simp) rfl (by simp)
          exact ⟨⟨inv_upd s h.inv t _ (by rw [hp]; rfl)⟩, hg.1, hg.2⟩
        · exact h
    · rename_i hp
      rw [hp] at hi
      refine ⟨hi, ?_, ?_⟩
      · simp only [true_iff]
        exact ⟨t, Or.inl (by simp [upd])⟩
      · intro x u hx hu
        dsimp only [upd] at hx
        split at hx
        · cases hx
        · have := h.one x t hx (Or.inl (by rw [hp]; rfl))
          rename_i hne
          exact absurd this hne
    · rename_i hp
      rw [hp] at hi
      refine ⟨hi, ?_, ?_⟩
      · simp only [Bool.false_eq_true, false_iff]
        rintro ⟨u, hu⟩
        unfold upd at hu
        split at hu
        · simp at hu
        · rename_i hne
          exact hne (h.one t u hp (hu.imp (fun e => by rw [e]; rfl) id)).symm
      · intro x u hx _
        dsimp only [upd] at hx
        split at hx
        · cases hx
        · rename_i hne
          exact absurd (h.one t x hp (Or.inr hx)).symm hne
    · exact h
  | timeout t =>
    simp only [St.step, St.timeout] at hi ⊢
    split
    · rename_i hp
      have hg := good_upd s h t .outside (by rw [hp]; rfl) (by rw [hp]; simp) rfl (by simp)
      exact ⟨by rw [hp] at hi; exact hi, hg.1, hg.2⟩
    · exact h
  | access t =>
    simp only [St.step, St.access]
    split
    · exact ⟨⟨h.inv.holder⟩, h.locked, h.one⟩
    · exact ⟨⟨h.inv.holder⟩, h.locked, h.one⟩
    · exact h
  | leave t =>
    simp only [St.step, St.leave] at hi ⊢
    split
    · rename_i hp
      rw [hp] at hi
      have ht : s.holder = some t := (h.inv.holder t).1 (by rw [hp]; rfl)
      have only : ∀ u, (s.pcs u).holds = true → u = t := by
        intro u hu
        have := (h.inv.holder u).1 hu
        rw [ht] at this
        injection this with e
        exact e.symm
      have norel : ∀ u, s.pcs u ≠ .released := by
        intro u hu
        have := h.one u t hu (Or.inl (by rw [hp]; rfl))
        rw [this, hp] at hu
        cases hu
      refine ⟨hi, ?_, ?_⟩
      · dsimp only
        rw [h.locked]
        constructor
        · intro _; exact ⟨t, Or.inr (by simp [upd])⟩
        · intro _; exact ⟨t, Or.inl hp⟩
      · intro x u hx hu
        dsimp only [upd] at hx hu
        split at hx
        · rename_i e1
          split at hu
          · rename_i e2; rw [e1, e2]
          · rename_i hne
            rcases hu with hu | hu
            · exact absurd (only u hu) hne
            · exact absurd hu (norel u)
        · exact absurd hx (norel x)
    · exact h

/-- **C65, accesses** (partial: no thread takes the lock just while another is leaving). A thread in the body of its `with` succeeds; where no thread is in the body of a `with` or on its way out of one, an access raises -/
theorem C65_access_partial (as : List Act) (t : Nat) (h : CalmAll St.init as) :
    ((St.init.run as).pcs t = .inside → ((St.init.run as).step (.access t)).log = (St.init.run as).log ++ [.access t true true]) ∧
    ((St.init.run as).pcs t = .outside → (∀ u, (St.init.run as).pcs u ≠ .inside ∧ (St.init.run as).pcs u ≠ .released) →
      ((St.init.run as).step (.access t)).log = (St.init.run as).log ++ [.access t false false]) := by
  have hg : Good (St.init.run as) := by
    have : ∀ (l : List Act) (s : St), Good s → CalmAll s l → Good (s.run l) := by
      intro l
      induction l with
      | nil => exact fun s h _ => h
      | cons a l ih => exact fun s h hl => ih _ (good_step s a h hl.1) hl.2
    exact this as _ good_init h
  generalize St.init.run as = s at hg
  constructor
  · intro hp
    have : s.locked = true := hg.locked.2 ⟨t, Or.inl hp⟩
    simp [St.step, St.access, hp, this]
  · intro hp hn
    have : s.locked = false := by
      cases hl : s.locked with
      | false => rfl
      | true =>
        obtain ⟨u, hu | hu⟩ := hg.locked.1 hl
        · exact absurd hu (hn u).1
        · exact absurd hu (hn u).2
    simp [St.step, St.access, hp, this]

/-- **C65, violated by the order of the statements in `__exit__`**: a thread in the body of its `with` is told that no lock is held, since another thread, leaving, clears `locked` after giving the lock back. -/
theorem C65_access_violates : ∃ as, (St.init.run as).pcs 2 = .inside ∧ .access 2 true false ∈ ((St.init.run as).step (.access 2)).log :=
  ⟨[.enter 1, .go 1, .go 1, .enter 2, .leave 1, .go 2, .go 2, .go 1], by decide⟩

/-- **C65, violated by what an earlier `with` left behind**: `with ds`, which was given no timeout, raises WouldWaitMore, since an earlier `with ds(blocking=False)`, finished long ago, had asked for it. -/
theorem C65_stale_arguments_violates : ∃ as, .wouldWait 1 .forever ∈ (St.init.run as).log :=
  ⟨[.callEnter 1 .nonBlocking, .go 1, .go 1, .go 1, .leave 1, .go 1, .enter 2, .go 2, .go 2, .enter 1, .go 1], by decide⟩

/-- refused in between two that entered -/
example : (St.init.run [.enter 1, .go 1, .go 1, .access 1, .callEnter 2 .nonBlocking, .go 2, .go 2, .callEnter 3 .nonBlocking, .go 3, .go 3]).log =
    [.access 1 true true, .wouldWait 2 .nonBlocking, .wouldWait 3 .nonBlocking] := by decide

/-- **C65, giving up** (partial: as long as nothing was left behind, what a thread acquires with is what it asked for).  A thread whose time is over,
and one that does not want to wait when another is in the body, get WouldWaitMore and are outside; and a thread that gave no timeout goes on waiting. -/
theorem C65_refused_partial (as : List Act) (t u : Nat) :
    ((St.init.run as).pcs t = .acquiring .timed → ((St.init.run as).step (.timeout t)).pcs t = .outside ∧ .wouldWait t ((St.init.run as).asked t) ∈ ((St.init.run as).step (.timeout t)).log) ∧
    ((St.init.run as).pcs t = .acquiring .nonBlocking → (St.init.run as).pcs u = .inside →
      ((St.init.run as).step (.go t)).pcs t = .outside ∧ .wouldWait t ((St.init.run as).asked t) ∈ ((St.init.run as).step (.go t)).log) ∧
    ((St.init.run as).pcs t = .acquiring .forever → (St.init.run as).pcs u = .inside →
      (St.init.run as).step (.go t) = St.init.run as ∧ (St.init.run as).step (.timeout t) = St.init.run as) := by
  have hi := inv_run as _ inv_init
  generalize St.init.run as = s at hi ⊢
  have hh : s.pcs u = .inside → s.holder = some u := fun hu => (hi.holder u).1 (by rw [hu]; rfl)
  refine ⟨fun h => ?_, fun h hu => ?_, fun h hu => ?_⟩
  · simp [St.step, St.timeout, h, upd]
  · simp [St.step, St.go, h, hh hu, upd]
  · simp [St.step, St.go, St.timeout, h, hh hu]

/-- **C65, what was asked for** (used by `C65_refused_partial`): it is what the last `with` of the thread gave, nothing by `with ds`; and nothing else changes it. -/
theorem C65_asked_partial (s : St) (t : Nat) (h : s.pcs t = .outside) :
    (s.step (.enter t)).asked t = .forever ∧ (∀ a, (s.step (.callEnter t a)).asked t = a) ∧
    ∀ (s' : St) (a : Act), a ≠ .enter t → (∀ x, a ≠ .callEnter t x) → (s'.step a).asked t = s'.asked t := by
  refine ⟨by simp [St.step, St.enter, h, upd], fun a => by simp [St.step, St.callEnter, h, upd], ?_⟩
  intro s' a h1 h2
  cases a with
  | enter u =>
    have : t ≠ u := by rintro rfl; exact h1 rfl
    simp only [St.step, St.enter]; split <;> simp [upd, this]
  | callEnter u x =>
    have : t ≠ u := by rintro rfl; exact h2 x rfl
    simp only [St.step, St.callEnter]; split <;> simp [upd, this]
  | go u => simp only [St.step, St.go]; repeat' split <;> try rfl
  | timeout u => simp only [St.step, St.timeout]; repeat' split <;> try rfl
  | access u => simp only [St.step, St.access]; repeat' split <;> try rfl
  | leave u => simp only [St.step, St.leave]; repeat' split <;> try rfl

example : let s := St.init.run [.callEnter 1 .timed, .go 1, .enter 2, .go 2]
    s.pcs 1 = .acquiring .timed ∧ s.asked 1 = .timed := by decide
example : let s := St.init.run [.enter 2, .go 2, .go 2, .callEnter 1 .nonBlocking, .go 1]
    s.pcs 1 = .acquiring .nonBlocking ∧ s.pcs 2 = .inside := by decide

/-- **C65, waiting** (partial: every `with` so far was without arguments). A `with` that was given no timeout waits, it never raises WouldWaitMore. -/
theorem C65_plain_partial (as : List Act) (h : ∀ a ∈ as, ∀ t x, a ≠ .callEnter t x) (t : Nat) (x : Args) : .wouldWait t x ∉ (St.init.run as).log := by
  have key : ∀ (l : List Act) (s : St), (∀ a ∈ l, ∀ t x, a ≠ .callEnter t x) →
      (s.args = .forever ∧ (∀ u a, s.pcs u = .acquiring a → a = .forever) ∧ .wouldWait t x ∉ s.log) →
      .wouldWait t x ∉ (s.run l).log := by
    intro l
    induction l with
    | nil => exact fun s _ h => h.2.2
    | cons a l ih =>
      intro s hl hs
      refine ih (s.step a) (fun b hb => hl b (List.mem_cons_of_mem _ hb)) ?_
      obtain ⟨h1, h2, h3⟩ := hs
      have keep : ∀ u p, (∀ a, p = Pc.acquiring a → a = .forever) → ∀ w a, upd s.pcs u p w = .acquiring a → a = .forever := by
        intro u p hp w a hw
        unfold upd at hw
        split at hw
        · exact hp a hw
        · exact h2 w a hw
      cases a with
      | enter u =>
        simp only [St.step, St.enter]
        split
        · exact ⟨h1, keep u _ (by intro a e; injection e with e; rw [← e]; exact h1), h3⟩
        · exact ⟨h1, h2, h3⟩
      | callEnter u a => exact absurd rfl (hl _ (List.mem_cons_self ..) u a)
      | go u =>
        simp only [St.step, St.go]
        split
        · exact ⟨h1, keep u _ (by intro a e; injection e with e; rw [← e]; exact h1), h3⟩
        · rename_i a hp
          have := h2 u a hp
          subst this
          split
          · exact ⟨h1, keep u _ (by simp), h3⟩
          · exact ⟨h1, h2, h3⟩
        · exact ⟨h1, keep u _ (by simp), h3⟩
        · exact ⟨h1, keep u _ (by simp), h3⟩
        · exact ⟨h1, h2, h3⟩
      | timeout u =>
        simp only [St.step, St.timeout]
        split
        · rename_i hp
          have := h2 u _ hp
          cases this
        · exact ⟨h1, h2, h3⟩
      | access u =>
        simp only [St.step, St.access]
        split
        · exact ⟨h1, h2, by simpa using h3⟩
        · exact ⟨h1, h2, by simpa using h3⟩
        · exact ⟨h1, h2, h3⟩
      | leave u =>
        simp only [St.step, St.leave]
        split
        · exact ⟨h1, keep u _ (by simp), h3⟩
        · exact ⟨h1, h2, h3⟩
  exact key as _ h ⟨rfl, by simp [St.init], by simp [St.init]⟩

/-! Cases that meet the hypotheses -/

example : CalmAll St.init [.enter 1, .go 1, .go 1, .enter 2, .leave 1, .go 1, .go 2, .go 2] := by
  simp [CalmAll, Calm, St.step, St.enter, St.go, St.leave, St.init, upd]
  constructor
  · intro u
    split <;> simp
  · intro u
    split
    · simp
    · split
      · simp
      · simp_all
example : (St.init.run [.enter 1, .go 1, .go 1, .enter 2, .leave 1, .go 1, .go 2, .go 2]).pcs 2 = .inside := by decide
example : (St.init.run [.enter 1, .go 1, .enter 2, .go 2]).pcs 2 = .acquiring .forever := by decide

end Verif.LockedDataset
