import Verif.Conc.Monitor
/-!
# Comparing and waiting for AtomicNumbers (satella/coding/concurrent/atomic.py)
-/
namespace Verif.Conc
open Verif

/-! ## `a == b` takes both locks -/

/-- A step of a thread that uses several monitors.  (Part of the model of `AtomicNumber`, /repo/satella/coding/concurrent/atomic.py:11-282.) -/
inductive LInstr where
  | acquire (m : Nat)
  | release (m : Nat)
  deriving DecidableEq

/-- `a == b` for two AtomicNumbers: the monitor of the first (`@Monitor.synchronized`) and then that of the second (`Monitor.acquire(other)`);
/repo/satella/coding/concurrent/atomic.py:228-232.  The values compared do not matter here. -/
def eqProg (a b : Nat) : List LInstr := [.acquire a, .acquire b, .release b, .release a]

/-- `a == 3` for an AtomicNumber and a plain number, /repo/satella/coding/concurrent/atomic.py:228-229,233-234; any other use of one number. -/
def useProg (a : Nat) : List LInstr := [.acquire a, .release a]

/-- The locks of the monitors with their holders, and what is left of each thread's program.  (Part of the model of `Monitor`, /repo/satella/coding/concurrent/monitor.py:10-167.) -/
structure LSys where
  locks : Nat → Option Nat
  prog : Nat → List LInstr

/-- One step of a thread; `acquire` of a lock that is held blocks, also by the thread itself (the lock is not re-entrant,
/repo/satella/coding/concurrent/monitor.py:47) -/
def LSys.step (s : LSys) (t : Nat) : LSys :=
  match s.prog t with
  | [] => s
  | .acquire m :: rest =>
    match s.locks m with
    | none => { locks := upd s.locks m (some t), prog := upd s.prog t rest }
    | some _ => s
  | .release m :: rest => { locks := upd s.locks m none, prog := upd s.prog t rest }

/-- a schedule.  (Part of the model of `Monitor`, /repo/satella/coding/concurrent/monitor.py:10-167.) -/
def LSys.run (s : LSys) : List Nat → LSys
  | [] => s
  | t :: ts => (s.step t).run ts

/-! ## `wait_until_equal` -/

/-- Where the waiting thread is: about to compare; compared and not yet waiting; waiting on the condition; returned.  (Part of the model of `AtomicNumber`, /repo/satella/coding/concurrent/atomic.py:11-282.) -/
inductive WPc where
  | compare
  | goingToWait
  | waiting
  | returned
  deriving DecidableEq, Repr

/-- What happens: the waiting thread runs; another thread changes the number.  (Part of the model of `AtomicNumber`, /repo/satella/coding/concurrent/atomic.py:11-282.) -/
inductive WEv (V : Type _) where
  | run
  /-- an in-place operator that notifies: `+= -= *= /= //=`, /repo/satella/coding/concurrent/atomic.py:141-145,204-226 -/
  | update (w : V)
  /-- an in-place operator that does not: `&= |= ^= <<= >>= **=`, /repo/satella/coding/concurrent/atomic.py:80-93,119-127,151-154 -/
  | quietUpdate (w : V)

/-- `wait_until_equal` without a timeout, /repo/satella/coding/concurrent/atomic.py:268-272, and what the other threads do; a notification
reaches only a thread that is waiting (`threading.Condition`) -/
def wstep {V : Type _} [DecidableEq V] (target : V) (s : V × WPc) : WEv V → V × WPc
  | .run =>
    match s.2 with
    | .compare => (s.1, if s.1 = target then .returned else .goingToWait)
    | .goingToWait => (s.1, .waiting)
    | .waiting => s
    | .returned => s
  | .update w => (w, if s.2 = .waiting then .compare else s.2)
  | .quietUpdate w => (w, s.2)

/-- a schedule.  (Part of the model of `AtomicNumber`, /repo/satella/coding/concurrent/atomic.py:11-282.) -/
def wrun {V : Type _} [DecidableEq V] (target : V) (s : V × WPc) : List (WEv V) → V × WPc
  | [] => s
  | e :: es => wrun target (wstep target s e) es

/-- Where a thread in `wait_until_equal` with a timeout is: at the loop's test; about to compare; about to wait; waiting; about to make the last
check; returned; raised WouldWaitMore.  (Part of the model of `AtomicNumber`, /repo/satella/coding/concurrent/atomic.py:11-282.) -/
inductive TPc where
  | test
  | compare
  | goingToWait
  | waiting
  | lastCheck
  | returned
  | raised
  deriving DecidableEq, Repr

/-- What happens: the thread runs (`expired`: whether the timeout has expired by now); other threads change the number.  (Part of the model of `AtomicNumber`, /repo/satella/coding/concurrent/atomic.py:11-282.) -/
inductive TEv (V : Type _) where
  | run (expired : Bool)
  | update (w : V)
  | quietUpdate (w : V)

/-- `wait_until_equal` with a timeout, /repo/satella/coding/concurrent/atomic.py:273-282 -/
def tstep {V : Type _} [DecidableEq V] (target : V) (s : V × TPc) : TEv V → V × TPc
  | .run expired =>
    match s.2 with
    | .test => (s.1, if expired then .lastCheck else .compare)
    | .compare => (s.1, if s.1 = target then .lastCheck else .goingToWait)
    | .goingToWait => (s.1, .waiting)
    | .waiting => (s.1, if expired then .test else .waiting)
    | .lastCheck => (s.1, if s.1 ≠ target then .raised else .returned)
    | .returned => s
    | .raised => s
  | .update w => (w, if s.2 = .waiting then .test else s.2)
  | .quietUpdate w => (w, s.2)

/-- a schedule.  (Part of the model of `AtomicNumber`, /repo/satella/coding/concurrent/atomic.py:11-282.) -/
def trun {V : Type _} [DecidableEq V] (target : V) (s : V × TPc) : List (TEv V) → V × TPc
  | [] => s
  | e :: es => trun target (tstep target s e) es

end Verif.Conc
