import Verif.Conc.Monitor
/-!
# Model of satella/coding/concurrent/futures/collection.py and futures.py

Futures are numbered; a collection is the list of the numbers of its members (a future may be a member twice).  The futures of a collection are
`concurrent.futures.Future` (standard library, Python 3.8+): its methods are modelled as documented there.  Values and exceptions of
user code are arbitrary (`V`, `FErr.user`).  What a done callback does is not modelled, only that it is called.
-/
namespace Verif.Futures
open Verif Conc

/-- Exceptions met here.  (Part of the model of `FutureCollection`, /repo/satella/coding/concurrent/futures/collection.py:8-154.) -/
inductive FErr where
  | user (n : Nat)
  /-- `concurrent.futures.TimeoutError`, the same class as the builtin `TimeoutError` from Python 3.11 on -/
  | timeoutError
  | cancelledError
  | wouldWaitMore
  | invalidState
  | runtimeError
  | indexError
  | typeError
  deriving DecidableEq, Repr

/-- The state of a future.  (Part of the model of `FutureCollection`, /repo/satella/coding/concurrent/futures/collection.py:8-154.) -/
inductive FState (V : Type _) where
  | pending
  | running
  | cancelled
  | notified
  | value (v : V)
  | error (e : FErr)
  deriving DecidableEq, Repr

/-- The futures: states, done callbacks, and the calls of done callbacks made so far (callback, future).  (Part of the model of `FutureCollection`, /repo/satella/coding/concurrent/futures/collection.py:8-154.) -/
structure Store (V : Type _) where
  st : Nat → FState V
  cbs : Nat → List Nat
  calls : List (Nat × Nat)

section
variable {V : Type _}

/-- whether the future is cancelled.  (Part of the model of `FutureCollection`, /repo/satella/coding/concurrent/futures/collection.py:8-154.) -/
def FState.isCancelled : FState V → Bool
  | .cancelled => true
  | .notified => true
  | _ => false

/-- whether the future has an outcome or is cancelled.  (Part of the model of `FutureCollection`, /repo/satella/coding/concurrent/futures/collection.py:8-154.) -/
def FState.isDone : FState V → Bool
  | .pending => false
  | .running => false
  | _ => true

/-- a future completes: its state changes and its callbacks are called in order (`_invoke_callbacks`, standard library).  (Part of the model of `FutureCollection`, /repo/satella/coding/concurrent/futures/collection.py:8-154.) -/
def Store.complete (s : Store V) (i : Nat) (x : FState V) : Store V :=
  { s with st := upd s.st i x, calls := s.calls ++ (s.cbs i).map (fun c => (c, i)) }

/-- `Future.cancel` (standard library).  (Part of the model of `FutureCollection`, /repo/satella/coding/concurrent/futures/collection.py:8-154.) -/
def Store.cancel (s : Store V) (i : Nat) : Store V × Bool :=
  match s.st i with
  | .pending => (s.complete i .cancelled, true)
  | .cancelled => (s, true)
  | .notified => (s, true)
  | _ => (s, false)

/-- `Future.set_running_or_notify_cancel` (standard library).  (Part of the model of `FutureCollection`, /repo/satella/coding/concurrent/futures/collection.py:8-154.) -/
def Store.start (s : Store V) (i : Nat) : Store V × Except FErr Bool :=
  match s.st i with
  | .cancelled => ({ s with st := upd s.st i .notified }, .ok false)
  | .pending => ({ s with st := upd s.st i .running }, .ok true)
  | _ => (s, .error .runtimeError)

/-- `Future.set_result`, `Future.set_exception` (standard library).  (Part of the model of `FutureCollection`, /repo/satella/coding/concurrent/futures/collection.py:8-154.) -/
def Store.finish (s : Store V) (i : Nat) (x : FState V) : Store V × Except FErr Unit :=
  if (s.st i).isDone then (s, .error .invalidState) else (s.complete i x, .ok ())

/-- `Future.add_done_callback` (standard library): called at once if the future is done.  (Part of the model of `FutureCollection`, /repo/satella/coding/concurrent/futures/collection.py:8-154.) -/
def Store.addCallback (s : Store V) (i c : Nat) : Store V :=
  if (s.st i).isDone then { s with calls := s.calls ++ [(c, i)] }
  else { s with cbs := upd s.cbs i (s.cbs i ++ [c]) }

/-- `Future.result(timeout)` (standard library), given the state of the future when the waiting ended.  (Part of the model of `FutureCollection`, /repo/satella/coding/concurrent/futures/collection.py:8-154.) -/
def resultOf : FState V → Except FErr V
  | .value v => .ok v
  | .error e => .error e
  | .cancelled => .error .cancelledError
  | .notified => .error .cancelledError
  | _ => .error .timeoutError

/-- `Future.exception(timeout)` (standard library), given the state of the future when the waiting ended.  (Part of the model of `FutureCollection`, /repo/satella/coding/concurrent/futures/collection.py:8-154.) -/
def exceptionOf : FState V → Except FErr (Option FErr)
  | .value _ => .ok none
  | .error e => .ok (some e)
  | .cancelled => .error .cancelledError
  | .notified => .error .cancelledError
  | _ => .error .timeoutError

/-! ## FutureCollection -/

/-- `cancel`, /repo/satella/coding/concurrent/futures/collection.py:145-154: `all_cancelled and future.cancel()` -/
def cancelLoop (s : Store V) (allCancelled : Bool) : List Nat → Store V × Bool
  | [] => (s, allCancelled)
  | i :: is =>
    if allCancelled then cancelLoop (s.cancel i).1 (s.cancel i).2 is
    else cancelLoop s false is

/-- `cancel`, /repo/satella/coding/concurrent/futures/collection.py:151 -/
def cancelAll (s : Store V) (l : List Nat) : Store V × Bool := cancelLoop s true l

/-- `set_running_or_notify_cancel`, /repo/satella/coding/concurrent/futures/collection.py:63-66: `starting or future.set_running_or_notify_cancel()` -/
def startLoop (s : Store V) (starting : Bool) : List Nat → Store V × Except FErr Bool
  | [] => (s, .ok starting)
  | i :: is =>
    if starting then startLoop s true is
    else
      match s.start i with
      | (s', .ok b) => startLoop s' b is
      | (s', .error e) => (s', .error e)

/-- `set_running_or_notify_cancel`, /repo/satella/coding/concurrent/futures/collection.py:57-66 -/
def startAll (s : Store V) (l : List Nat) : Store V × Except FErr Bool := startLoop s false l

/-- `set_result` and `set_exception`, /repo/satella/coding/concurrent/futures/collection.py:89-105 -/
def finishAll (s : Store V) (x : FState V) : List Nat → Store V × Except FErr Unit
  | [] => (s, .ok ())
  | i :: is =>
    match s.finish i x with
    | (s', .ok ()) => finishAll s' x is
    | (s', .error e) => (s', .error e)

/-- `add_done_callback`, /repo/satella/coding/concurrent/futures/collection.py:41-55 -/
def addCallbackAll (s : Store V) (l : List Nat) (c : Nat) (onlyOne : Bool) : Store V × Except FErr Unit :=
  if onlyOne then
    match l with
    | [] => (s, .error .indexError)
    | i :: _ => (s.addCallback i c, .ok ())
  else (l.foldl (fun s i => s.addCallback i c) s, .ok ())

/-- The loop of `result`, /repo/satella/coding/concurrent/futures/collection.py:119; each member comes with the futures as they are when
waiting for it ended (other threads run meanwhile) -/
def resultLoop : List (Nat × Store V) → Except FErr (List V)
  | [] => .ok []
  | (i, s) :: rest =>
    match resultOf (s.st i) with
    | .error e => .error e
    | .ok v =>
      match resultLoop rest with
      | .error e => .error e
      | .ok vs => .ok (v :: vs)

/-- `except concurrent.futures.TimeoutError: raise WouldWaitMore`, /repo/satella/coding/concurrent/futures/collection.py:120-121,142-143 -/
def recast {α : Type _} : Except FErr α → Except FErr α
  | .ok a => .ok a
  | .error e => .error (if e = .timeoutError then .wouldWaitMore else e)

/-- `result`, /repo/satella/coding/concurrent/futures/collection.py:107-121 -/
def resultAll (w : List (Nat × Store V)) : Except FErr (List V) := recast (resultLoop w)

/-- The loop of `exception`, /repo/satella/coding/concurrent/futures/collection.py:137-141 -/
def exceptionLoop : List (Nat × Store V) → Except FErr (Option FErr)
  | [] => .ok none
  | (i, s) :: rest =>
    match exceptionOf (s.st i) with
    | .error e => .error e
    | .ok (some e) => .ok (some e)
    | .ok none => exceptionLoop rest

/-- `exception`, /repo/satella/coding/concurrent/futures/collection.py:123-143 -/
def exceptionAll (w : List (Nat × Store V)) : Except FErr (Option FErr) := recast (exceptionLoop w)

end

/-! ## The pre-done callbacks of satella's Future

The value a pre-done callback computes may depend on what the future presents at the moment.  A pre-done callback that adds pre-done
callbacks is not modelled; exceptions are truthy objects. -/

/-- What a pre-done callback does to the future it is given.  (Part of the model of `Future`, /repo/satella/coding/concurrent/futures/futures.py:22-173.) -/
inductive Act (V : Type _) where
  | setResult (v : V)
  | setException (e : FErr)
  | cancel

/-- The state of a Satella future: `_state`.  (Part of the model of `Future`, /repo/satella/coding/concurrent/futures/futures.py:22-173.) -/
inductive SState where
  | pending
  | running
  | preFinished
  | finished
  | cancelled
  deriving DecidableEq, Repr

/-- What the user sees of a completed future.  (Part of the model of `Future`, /repo/satella/coding/concurrent/futures/futures.py:22-173.) -/
inductive View (V : Type _) where
  | value (v : Option V)
  | error (e : FErr)
  | cancelled
  deriving DecidableEq, Repr

/-- A Satella future, /repo/satella/coding/concurrent/futures/futures.py:38-41: `_state`, `_result`, `_exception`, the pre-done callbacks, the done
callbacks, and the calls of done callbacks so far with what the future presented to them.  A pre-done callback is the list of what it does, as a function
of what the future presents; it may raise at the end, which is logged (:118-120). -/
structure Fut (V : Type _) where
  state : SState
  result : Option V
  exception : Option FErr
  pre : List (View V → List (Act V))
  cbs : List Nat
  calls : List (Nat × View V)

section
variable {V : Type _}

/-- What `result()` shows, /repo/satella/coding/concurrent/futures/futures.py:122-126 and `__get_result` of the standard library -/
def Fut.view (f : Fut V) : View V :=
  match f.state with
  | .cancelled => .cancelled
  | _ =>
    match f.exception with
    | some e => .error e
    | none => .value f.result

/-- `_invoke_callbacks` (standard library).  (Part of the model of `Future`, /repo/satella/coding/concurrent/futures/futures.py:22-173.) -/
def Fut.invoke (f : Fut V) : Fut V := { f with calls := f.calls ++ f.cbs.map (fun c => (c, f.view)) }

/-- What one action of a pre-done callback does: the branches for `PRE_FINISHED`, /repo/satella/coding/concurrent/futures/futures.py:139-140,159-161, and
`cancel` of the standard library, which does not know that state.  (After a `cancel` the setters raise InvalidStateError: nothing changes.) -/
def Fut.act (f : Fut V) : Act V → Fut V
  | .setResult v => if f.state = .preFinished then { f with result := some v } else f
  | .setException e => if f.state = .preFinished then { f with exception := some e, result := none } else f
  | .cancel => if f.state = .preFinished then { f with state := .cancelled }.invoke else f

/-- `_invoke_pre_callbacks`, /repo/satella/coding/concurrent/futures/futures.py:114-120 -/
def Fut.runPre (f : Fut V) (pre : List (View V → List (Act V))) : Fut V :=
  pre.foldl (fun f cb => (cb f.view).foldl Fut.act f) f

/-- the end of `set_result` and `set_exception`, /repo/satella/coding/concurrent/futures/futures.py:146-152,167-173 -/
def Fut.settle (f : Fut V) : Fut V :=
  let f1 := { f with state := .preFinished }
  { (f1.runPre f1.pre) with state := .finished }.invoke

/-- `set_result`, /repo/satella/coding/concurrent/futures/futures.py:134-152 (called from outside) -/
def Fut.setResult (f : Fut V) (v : V) : Fut V × Except FErr Unit :=
  if f.state = .cancelled ∨ f.state = .finished then (f, .error .invalidState)
  else ({ f with result := some v }.settle, .ok ())

/-- `set_exception`, /repo/satella/coding/concurrent/futures/futures.py:154-173 (called from outside) -/
def Fut.setException (f : Fut V) (e : FErr) : Fut V × Except FErr Unit :=
  if f.state = .cancelled ∨ f.state = .finished then (f, .error .invalidState)
  else ({ f with exception := some e }.settle, .ok ())

/-- `cancel` (standard library).  (Part of the model of `Future`, /repo/satella/coding/concurrent/futures/futures.py:22-173.) -/
def Fut.cancel (f : Fut V) : Fut V × Bool :=
  match f.state with
  | .pending => ({ f with state := .cancelled }.invoke, true)
  | .cancelled => (f, true)
  | _ => (f, false)

/-- `set_running_or_notify_cancel` (standard library), on a future not yet started.  (Part of the model of `Future`, /repo/satella/coding/concurrent/futures/futures.py:22-173.) -/
def Fut.start (f : Fut V) : Fut V :=
  if f.state = .pending then { f with state := .running } else f

/-- `exception(timeout)`, /repo/satella/coding/concurrent/futures/futures.py:128-132, on a completed future; the argument has no default,
so `exception()` raises TypeError -/
def Fut.exceptionCall (f : Fut V) (timeoutGiven : Bool) : Except FErr (Option FErr) :=
  if timeoutGiven then
    match f.state with
    | .cancelled => .error .cancelledError
    | _ => .ok f.exception
  else .error .typeError

/-- The callback `on_success` installs, /repo/satella/coding/concurrent/futures/futures.py:52-55: what the function is called with, if it is
called -/
def Fut.onSuccess (f : Fut V) : Option (Option V) :=
  match f.exception with
  | some _ => none
  | none => some f.result

/-- The callback `on_failure` installs, /repo/satella/coding/concurrent/futures/futures.py:68-71 -/
def Fut.onFailure (f : Fut V) : Option FErr := f.exception

/-- The callback `chain` installs, /repo/satella/coding/concurrent/futures/futures.py:85-90 -/
def Fut.chain (f : Fut V) : Sum FErr (Option V) :=
  match f.exception with
  | some e => .inl e
  | none => .inr f.result

/-- a new future with its callbacks, /repo/satella/coding/concurrent/futures/futures.py:38-41,95-107 -/
def Fut.new (pre : List (View V → List (Act V))) (cbs : List Nat) : Fut V :=
  { state := .pending, result := none, exception := none, pre := pre, cbs := cbs, calls := [] }

end
end Verif.Futures
