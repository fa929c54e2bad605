import Verif.Conc.Monitor
/-!
# Model of CPManager (satella/coding/resources/cp_manager.py)

Threads are numbered; connections are numbered in the order they are created (`id()` of live objects is unique; that nothing is remembered of a
connection that is gone, so that a reused `id()` does no harm, is proved).  A call is made of the steps between which other threads may run; what runs under
the monitor without blocking is one step.  `teardown_connection` returns normally; `create_connection` may raise.  The user releases and fails only connections they
hold (a call that does not is ignored).
-/
namespace Verif.Pool
open Verif Conc

/-- Where a thread is.  (Part of the model of `CPManager`, /repo/satella/coding/resources/cp_manager.py:16-142.) -/
inductive Pc where
  | idle
  | acqGet
  | acqMon
  | acqCount (c : Nat)
  | relTest (c : Nat)
  | relPut (c : Nat)
  | killDel (c : Nat)
  | killTear (c : Nat)
  | failSet (c : Nat)
  | invEnter
  | invLoop
  | invGet
  | invTear (c : Nat)
  deriving DecidableEq, Repr

/-- What the user and the connections see.  (Part of the model of `CPManager`, /repo/satella/coding/resources/cp_manager.py:16-142.) -/
inductive Ev where
  | handed (t c : Nat)
  | released (t c : Nat)
  | torn (c : Nat)
  | raised (t : Nat) (e : Exc)
  deriving DecidableEq, Repr

/-- The pool, /repo/satella/coding/resources/cp_manager.py:42-51: the idle connections; the size limit of their queue (0: none); `max_number`; `max_cycle_no`; use counts; the
monitor; `terminating`; whether closed.  Then: the next connection to be created, the threads, what each holds, and what was seen. -/
structure St where
  q : List Nat
  cap : Nat
  maxNumber : Nat
  maxCycle : Nat
  times : Nat → Option Nat
  mon : Option Nat
  terminating : Bool
  closed : Bool
  next : Nat
  pc : Nat → Pc
  held : Nat → List Nat
  log : List Ev

/-- Calls.  (Part of the model of `Monitor`, /repo/satella/coding/concurrent/monitor.py:10-167.) -/
inductive Call where
  | acquire
  | release (c : Nat)
  | fail (c : Nat)
  | invalidate
  | close
  /-- assignment to the attribute `max_number` -/
  | setMax (n : Nat)
  /-- `with pool:` ; the `__enter__` is that of Monitor, /repo/satella/coding/concurrent/monitor.py:36-42 -/
  | enter
  | exit

/-- What happens: a thread makes a call, or runs (`ok`: whether `create_connection` succeeds, if it is called).  (Part of the model of `CPManager`, /repo/satella/coding/resources/cp_manager.py:16-142.) -/
inductive Event where
  | call (t : Nat) (c : Call)
  | run (t : Nat) (ok : Bool)

/-- set where a thread is.  (Part of the model of `CPManager`, /repo/satella/coding/resources/cp_manager.py:16-142.) -/
def St.goto (s : St) (t : Nat) (p : Pc) : St := { s with pc := upd s.pc t p }

/-- record what is seen.  (Part of the model of `CPManager`, /repo/satella/coding/resources/cp_manager.py:16-142.) -/
def St.note (s : St) (e : Ev) : St := { s with log := s.log ++ [e] }

/-- A call up to its first step.  (Part of the model of `CPManager`, /repo/satella/coding/resources/cp_manager.py:16-142.) -/
def St.call (s : St) (t : Nat) : Call → St
  -- /repo/satella/coding/resources/cp_manager.py:75-76
  | .acquire => if s.terminating then s.note (.raised t .runtimeError) else s.goto t .acqGet
  -- /repo/satella/coding/resources/cp_manager.py:93-99
  | .release c =>
    if c ∈ s.held t then ({ s with held := upd s.held t ((s.held t).erase c) }.note (.released t c)).goto t (.relTest c) else s
  -- /repo/satella/coding/resources/cp_manager.py:115-116
  | .fail c => if c ∈ s.held t then s.goto t (.failSet c) else s
  -- /repo/satella/coding/resources/cp_manager.py:58-59
  | .invalidate => s.goto t .invEnter
  -- /repo/satella/coding/resources/cp_manager.py:53-56, /repo/satella/coding/misc.py:100-119
  | .close => if s.closed then s else { s with closed := true, terminating := true }.goto t .invEnter
  | .setMax n => { s with maxNumber := n }
  | .enter => match s.mon with | none => { s with mon := some t } | some _ => s
  | .exit => if s.mon = some t then { s with mon := none } else s

/-- One step of a thread in the middle of a call.  (Part of the model of `CPManager`, /repo/satella/coding/resources/cp_manager.py:16-142.) -/
def St.run1 (s : St) (t : Nat) (ok : Bool) : St :=
  match s.pc t with
  | .idle => s
  -- :77-79
  | .acqGet =>
    match s.q with
    | [] => s.goto t .acqMon
    | c :: q => { s with q := q }.goto t (.acqCount c)
  -- :80-87
  | .acqMon =>
    match s.mon with
    | some _ => s
    | none =>
      if s.q.length ≥ s.maxNumber then
        match s.q with
        | [] => s
        | c :: q => { s with q := q }.goto t (.acqCount c)
      else if ok then { s with next := s.next + 1 }.goto t (.acqCount s.next)
      else (s.note (.raised t (.other 0))).goto t .idle
  -- :88-91
  | .acqCount c =>
    match s.mon with
    | some _ => s
    | none =>
      ({ s with times := upd s.times c (some ((s.times c).getD 0 + 1)), held := upd s.held t (c :: s.held t) }.note (.handed t c)).goto t .idle
  -- :100-103
  | .relTest c =>
    match s.times c with
    | none => (s.note (.raised t .keyError)).goto t .idle
    | some n => if n ≥ s.maxCycle then s.goto t (.killDel c) else s.goto t (.relPut c)
  -- :104-106
  | .relPut c =>
    if s.cap > 0 ∧ s.q.length ≥ s.cap then s.goto t (.killDel c) else { s with q := s.q ++ [c] }.goto t .idle
  -- :109-111
  | .killDel c =>
    match s.mon with
    | some _ => s
    | none =>
      match s.times c with
      | none => (s.note (.raised t .keyError)).goto t .idle
      | some _ => { s with times := upd s.times c none }.goto t (.killTear c)
  -- :113
  | .killTear c => (s.note (.torn c)).goto t .idle
  -- :122
  | .failSet c =>
    match s.mon with
    | some _ => s
    | none => { s with times := upd s.times c (some s.maxCycle) }.goto t .idle
  -- :58
  | .invEnter =>
    match s.mon with
    | some _ => s
    | none => { s with mon := some t }.goto t .invLoop
  -- :63
  | .invLoop => if s.q.length > 0 then s.goto t .invGet else { s with mon := none }.goto t .idle
  -- :64 (blocks while the queue is empty)
  | .invGet =>
    match s.q with
    | [] => s
    | c :: q => { s with q := q }.goto t (.invTear c)
  -- :65-66
  | .invTear c =>
    match s.times c with
    | none => ({ s with mon := none }.note (.torn c)).note (.raised t .keyError) |>.goto t .idle
    | some _ => ({ s with times := upd s.times c none }.note (.torn c)).goto t .invLoop

/-- One event; /repo/satella/coding/resources/cp_manager.py:53-122.  A thread in the middle of a call makes no other call. -/
def St.step (s : St) : Event → St
  | .call t c => if s.pc t = .idle then s.call t c else s
  | .run t ok => s.run1 t ok

/-- a schedule.  (Part of the model of `CPManager`, /repo/satella/coding/resources/cp_manager.py:16-142.) -/
def St.run (s : St) : List Event → St
  | [] => s
  | e :: es => (s.step e).run es

/-- A new pool, /repo/satella/coding/resources/cp_manager.py:42-51; `queue.Queue(n)` has no limit if n is not positive (0 here). -/
def St.init (maxNumber maxCycle : Nat) : St :=
  { q := [], cap := maxNumber, maxNumber := maxNumber, maxCycle := maxCycle, times := fun _ => none, mon := none,
    terminating := false, closed := false, next := 0, pc := fun _ => .idle, held := fun _ => [], log := [] }

end Verif.Pool
