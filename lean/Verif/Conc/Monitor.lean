import Verif.Py.Basic
/-!
# Model of satella/coding/concurrent/monitor.py and of AtomicNumber (satella/coding/concurrent/atomic.py)

Threads are numbered by `Nat` (any number of them).  A thread's program is a list of sections; a section is what runs between taking
the monitor's lock and giving it back.  A section is a list of small steps; between any two steps of a thread any other thread may
run.  A thread that waits for the lock does nothing when scheduled.
-/
namespace Verif.Conc
open Verif

/-- A small step of a section: from the shared object and the thread's local variables, their new values and whether an exception
was raised (then the rest of the section is skipped and the lock given back).  (Part of the model of `Monitor`, /repo/satella/coding/concurrent/monitor.py:10-167.) -/
abbrev Micro (σ lam : Type _) := σ → lam → σ × lam × Bool

/-- What runs under the lock: the body of a method with `@Monitor.synchronized`, /repo/satella/coding/concurrent/monitor.py:80-86, of
`with Monitor.acquire(x)` :118-141 or `with x` :36-42.  A method that uses `Monitor.release` (:88-116) is two sections. -/
abbrev Section (σ lam : Type _) := List (Micro σ lam)

/-- All threads: the shared object; the lock, `_monitor_lock`, /repo/satella/coding/concurrent/monitor.py:47, with the thread that
holds it; for each thread its local variables, what is left of its program and what is left of the section it is in; `log` records
the sections in the order in which the lock was taken (it has no influence). -/
structure Sys (σ lam : Type _) where
  shared : σ
  lock : Option Nat
  locals : Nat → lam
  prog : Nat → List (Section σ lam)
  inside : Nat → Option (Section σ lam)
  log : List (Nat × Section σ lam)

/-- change what a function gives for one thread.  (Part of the model of `Monitor`, /repo/satella/coding/concurrent/monitor.py:10-167.) -/
def upd {α : Type _} (f : Nat → α) (t : Nat) (x : α) : Nat → α := fun u => if u = t then x else f u

section
variable {σ lam : Type _}

/-- One step of thread `t`: `acquire` (blocks while the lock is held), a step of the section, or `release`,
/repo/satella/coding/concurrent/monitor.py:36-42,83-84 -/
def Sys.step (s : Sys σ lam) (t : Nat) : Sys σ lam :=
  match s.inside t with
  | none =>
    match s.prog t with
    | [] => s
    | sec :: rest =>
      match s.lock with
      | some _ => s
      | none => { s with lock := some t, prog := upd s.prog t rest, inside := upd s.inside t (some sec),
                         log := s.log ++ [(t, sec)] }
  | some [] => { s with lock := none, inside := upd s.inside t none }
  | some (m :: ms) =>
    let r := m s.shared (s.locals t)
    { s with shared := r.1, locals := upd s.locals t r.2.1,
             inside := upd s.inside t (some (if r.2.2 then [] else ms)) }

/-- A schedule: which thread runs at each moment.  (Part of the model of `Monitor`, /repo/satella/coding/concurrent/monitor.py:10-167.) -/
def Sys.run (s : Sys σ lam) : List Nat → Sys σ lam
  | [] => s
  | t :: ts => (s.step t).run ts

/-- The threads before any of them runs.  (Part of the model of `AtomicNumber`, /repo/satella/coding/concurrent/atomic.py:11-282.) -/
def Sys.init (v : σ) (l : Nat → lam) (p : Nat → List (Section σ lam)) : Sys σ lam :=
  { shared := v, lock := none, locals := l, prog := p, inside := fun _ => none, log := [] }

end

/-! ## AtomicNumber -/

/-- Uses of an AtomicNumber: `update f` is an in-place operator (`none`: the operator raised, as on division by zero), `read g` an
expression of its value, such as a comparison or `int()`.  (Part of the model of `AtomicNumber`, /repo/satella/coding/concurrent/atomic.py:11-282.) -/
inductive AOp (V : Type _) where
  | update (f : V → Option V)
  | read (g : V → V)

/-- local variables of a thread: the operand loaded, and the values its reads gave.  (Part of the model of `AtomicNumber`, /repo/satella/coding/concurrent/atomic.py:11-282.) -/
structure ALoc (V : Type _) where
  tmp : Option V
  reads : List V

/-- `self.value op= other` is a load and then a store (`__iadd__` and others,
/repo/satella/coding/concurrent/atomic.py:80-93,119-127,141-145,151-154,204-226); `self.value op other` is a load (:52-78,99-117,129-139,147-149,156-202,228-258).
The notification of waiting threads is not here (see Verif.Conc.Wait). -/
def AOp.section {V : Type _} : AOp V → Section V (ALoc V)
  | .update f =>
    [fun v l => (v, { l with tmp := some v }, false),
     fun v l =>
      match l.tmp.bind f with
      | some w => (w, { l with tmp := none }, false)
      | none => (v, { l with tmp := none }, true)]
  | .read g => [fun v l => (v, { l with reads := l.reads ++ [g v] }, false)]

end Verif.Conc
