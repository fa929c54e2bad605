import Verif.Conc.Monitor
/-!
# Model of PeekableQueue (satella/coding/concurrent/queue.py)

Threads are numbered.  What runs while `self.lock` is held is one step (C20 proves that this loses no behaviour); waiting on the
condition, and notifying it, are steps of their own, so that other threads run in between.  A notification wakes the threads that have waited
longest (`threading.Condition`) and reaches only threads that are waiting.  The events say which thread runs, and whether
by then the timeout of its call has expired.
-/
namespace Verif.PQueue
open Verif Conc

/-- Calls: `timed` if a timeout was given.  (Part of the model of `PeekableQueue`, /repo/satella/coding/concurrent/queue.py:12-117.) -/
inductive Op (α : Type _) where
  | put (x : α)
  | putMany (xs : List α)
  | get (timed : Bool)
  | peek (timed : Bool)

/-- Where a thread is in its current call.  (Part of the model of `PeekableQueue`, /repo/satella/coding/concurrent/queue.py:12-117.) -/
inductive Pc where
  | idle
  /-- items were put, the notification is still to come -/
  | toNotify (n : Nat)
  /-- the queue was empty; about to wait (`peek`, `timed`) -/
  | toWait (peek timed : Bool)
  | waiting (peek timed : Bool)
  | woken (peek timed : Bool)
  deriving DecidableEq, Repr

/-- What a thread's call gave.  (Part of the model of `PeekableQueue`, /repo/satella/coding/concurrent/queue.py:12-117.) -/
inductive Res (α : Type _) where
  | item (x : α)
  | empty
  deriving DecidableEq, Repr

/-- The queue, the threads waiting on the condition (the longest waiting first), the threads; and records of what happened: the items put
so far, in order; the items delivered by `get` so far, with the thread, in order; the items shown by `peek`, each with the number of items
delivered before; what each thread's calls gave.  (Part of the model of `PeekableQueue`, /repo/satella/coding/concurrent/queue.py:12-117.) -/
structure St (α : Type _) where
  queue : List α
  waiters : List Nat
  pc : Nat → Pc
  prog : Nat → List (Op α)
  results : Nat → List (Res α)
  putLog : List α
  getLog : List (Nat × α)
  peekLog : List (Nat × α)

section
variable {α : Type _}

/-- a call ends.  (Part of the model of `PeekableQueue`, /repo/satella/coding/concurrent/queue.py:12-117.) -/
def St.finish (s : St α) (t : Nat) (r : List (Res α)) : St α :=
  { s with pc := upd s.pc t .idle, results := upd s.results t (s.results t ++ r) }

/-- The section of `get` and `peek` under the lock: take or show the first item, or find the queue empty;
/repo/satella/coding/concurrent/queue.py:52-56,65-69,76-82,98,109 -/
def St.take (s : St α) (t : Nat) (peek timed : Bool) : St α :=
  match s.queue with
  | [] => { s with pc := upd s.pc t (.toWait peek timed) }
  | x :: xs =>
    if peek then { s with peekLog := s.peekLog ++ [(s.getLog.length, x)] }.finish t [.item x]
    else { s with queue := xs, getLog := s.getLog ++ [(t, x)] }.finish t [.item x]

/-- The section of `put` and `put_many` under the lock, /repo/satella/coding/concurrent/queue.py:30-31,40-44 -/
def St.add (s : St α) (t : Nat) (xs : List α) : St α :=
  { s with queue := s.queue ++ xs, putLog := s.putLog ++ xs, pc := upd s.pc t (.toNotify xs.length) }

/-- wake a waiting thread.  (Part of the model of `PeekableQueue`, /repo/satella/coding/concurrent/queue.py:12-117.) -/
def wake (pc : Nat → Pc) (u : Nat) : Nat → Pc :=
  match pc u with
  | .waiting p t => upd pc u (.woken p t)
  | _ => pc

/-- `notify(n)`, /repo/satella/coding/concurrent/queue.py:32,45 -/
def St.notify (s : St α) (t n : Nat) : St α :=
  ({ s with waiters := s.waiters.drop n, pc := (s.waiters.take n).foldl wake s.pc } : St α).finish t []

/-- One step of thread `t`; /repo/satella/coding/concurrent/queue.py:24-109 -/
def St.step (s : St α) (e : Nat × Bool) : St α :=
  let t := e.1
  let expired := e.2
  match s.pc t with
  | .idle =>
    match s.prog t with
    | [] => s
    | o :: rest =>
      let s1 := { s with prog := upd s.prog t rest }
      match o with
      | .put x => s1.add t [x]
      | .putMany xs => s1.add t xs
      | .get timed => s1.take t false timed
      | .peek timed => s1.take t true timed
  | .toNotify n => s.notify t n
  | .toWait p timed =>
    -- `while not measurement.timeouted` / else: Empty
    if timed && expired then s.finish t [.empty]
    else { s with waiters := s.waiters ++ [t], pc := upd s.pc t (.waiting p timed) }
  | .waiting _ timed =>
    -- WouldWaitMore is recast as Empty
    if timed && expired then ({ s with waiters := s.waiters.erase t } : St α).finish t [.empty] else s
  | .woken p timed => s.take t p timed

/-- A schedule.  (Part of the model of `PeekableQueue`, /repo/satella/coding/concurrent/queue.py:12-117.) -/
def St.run (s : St α) : List (Nat × Bool) → St α
  | [] => s
  | e :: es => (s.step e).run es

/-- Before anything runs.  (Part of the model of `PeekableQueue`, /repo/satella/coding/concurrent/queue.py:12-117.) -/
def St.init (p : Nat → List (Op α)) : St α :=
  { queue := [], waiters := [], pc := fun _ => .idle, prog := p, results := fun _ => [], putLog := [], getLog := [], peekLog := [] }

end
end Verif.PQueue
