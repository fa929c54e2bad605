import Verif.Py.Basic
import Verif.Py.Dict
import Verif.Py.Run
/-!
# Model of satella/coding/concurrent/callablegroup.py

A CancellableCallback object is its number in `objs`, the list of the functions the objects wrap (its identity, on which `__eq__` and
`__hash__` depend).  A called function may add callbacks to the group and cancel callbacks before it returns or raises; what it
does may depend on all the calls made before.  A function that calls the group itself is not modelled.
-/
namespace Verif.Group
open Verif

/-- What a function does to the group while it runs.  (Part of the model of `CallableGroup`, /repo/satella/coding/concurrent/callablegroup.py:84-191.) -/
inductive Act (F : Type _) where
  | add (f : F) (oneShot : Bool)
  | addAgain (c : Nat) (oneShot : Bool)
  | cancel (c : Nat)

/-- What a called function does, and what it returns or raises.  (Part of the model of `CallableGroup`, /repo/satella/coding/concurrent/callablegroup.py:84-191.) -/
structure Out (F R : Type _) where
  acts : List (Act F)
  ret : Except Exc R

/-- The behaviour of the functions: given the calls made before (which function, arguments).  (Part of the model of `CallableGroup`, /repo/satella/coding/concurrent/callablegroup.py:84-191.) -/
abbrev Env (F A R : Type _) := List (F × A) → F → A → Out F R

/-- The group's dictionary, /repo/satella/coding/concurrent/callablegroup.py:104, the callback objects with their `cancelled`
flags (:35-36), and the calls made so far. -/
structure St (F A : Type _) where
  reg : List (Nat × Bool)
  objs : List F
  cancelled : List Nat
  trace : List (F × A)

/-- The group's switches, /repo/satella/coding/concurrent/callablegroup.py:105-106 -/
structure Cfg where
  gather : Bool
  swallow : Bool

/-- An element of the gathered results: `None` for a callback cancelled meanwhile, the value, or the exception swallowed.  (Part of the model of `CallableGroup`, /repo/satella/coding/concurrent/callablegroup.py:84-191.) -/
inductive Val (R : Type _) where
  | none
  | val (r : R)
  | exc (e : Exc)
  deriving DecidableEq, Repr

/-- What calling the group returns or raises.  (Part of the model of `CallableGroup`, /repo/satella/coding/concurrent/callablegroup.py:84-191.) -/
inductive Ret (R : Type _) where
  | none
  | results (l : List (Val R))
  | raised (e : Exc)
  deriving DecidableEq, Repr

section
variable {F A R : Type _}

/-- `add` of a callback object, /repo/satella/coding/concurrent/callablegroup.py:151-154 -/
def St.addObj (s : St F A) (c : Nat) (oneShot : Bool) : St F A :=
  if c ∈ s.reg.map (·.1) then s else { s with reg := s.reg ++ [(c, oneShot)] }

/-- `add` of a function: a new callback object wraps it, /repo/satella/coding/concurrent/callablegroup.py:149-154 -/
def St.add (s : St F A) (f : F) (oneShot : Bool) : St F A :=
  { s with objs := s.objs ++ [f] }.addObj s.objs.length oneShot

/-- `CancellableCallback.cancel`, /repo/satella/coding/concurrent/callablegroup.py:48-52 -/
def St.cancel (s : St F A) (c : Nat) : St F A := { s with cancelled := setAdd s.cancelled c }

/-- one action of a running function.  (Part of the model of `CallableGroup`, /repo/satella/coding/concurrent/callablegroup.py:84-191.) -/
def St.act (s : St F A) : Act F → St F A
  | .add f o => s.add f o
  | .addAgain c o => s.addObj c o
  | .cancel c => s.cancel c

/-- `has_cancelled_callbacks`, /repo/satella/coding/concurrent/callablegroup.py:108-118: whether some callback is true, that is, not
cancelled -/
def St.hasCancelled (s : St F A) : Bool := s.reg.any (fun x => decide (x.1 ∉ s.cancelled))

/-- `remove_cancelled`, /repo/satella/coding/concurrent/callablegroup.py:120-127 -/
def St.removeCancelled (s : St F A) : St F A := { s with reg := s.reg.filter (fun x => x.1 ∉ s.cancelled) }

/-- Calling one callback object, /repo/satella/coding/concurrent/callablegroup.py:44-46: the state, the object if its function was called, and
what it returned -/
def St.invoke (E : Env F A R) (s : St F A) (c : Nat) (a : A) : St F A × List Nat × Except Exc (Val R) :=
  if c ∈ s.cancelled then (s, [], .ok .none)
  else
    match s.objs[c]? with
    | none => (s, [], .ok .none)
    | some f =>
      let o := E s.trace f a
      (o.acts.foldl St.act { s with trace := s.trace ++ [(f, a)] }, [c],
        match o.ret with
        | .ok r => .ok (.val r)
        | .error e => .error e)

/-- The loop, /repo/satella/coding/concurrent/callablegroup.py:176-188: the state, the objects whose functions were called, the results, the
exception that ended it -/
def loop (E : Env F A R) (swallow : Bool) (a : A) :
    St F A → List (Nat × Bool) → St F A × List Nat × List (Val R) × Option Exc
  | s, [] => (s, [], [], none)
  | s, (c, oneShot) :: cs =>
    match s.invoke E c a with
    | (s1, called, .ok q) =>
      let s2 := if oneShot then s1 else s1.addObj c oneShot
      let r := loop E swallow a s2 cs
      (r.1, called ++ r.2.1, q :: r.2.2.1, r.2.2.2)
    | (s1, called, .error e) =>
      if swallow then
        let s2 := if oneShot then s1 else s1.addObj c oneShot
        let r := loop E swallow a s2 cs
        (r.1, called ++ r.2.1, .exc e :: r.2.2.1, r.2.2.2)
      else (s1, called, [], some e)

/-- `__call__` up to the loop, /repo/satella/coding/concurrent/callablegroup.py:168-169 -/
def St.clean (s : St F A) : St F A := if s.hasCancelled then s.removeCancelled else s

/-- `__call__`, /repo/satella/coding/concurrent/callablegroup.py:168-191 -/
def St.call (E : Env F A R) (C : Cfg) (s : St F A) (a : A) : St F A × List Nat × Ret R :=
  let s1 := s.clean
  let r := loop E C.swallow a { s1 with reg := [] } s1.reg
  (r.1, r.2.1,
    match r.2.2.2 with
    | some e => .raised e
    | none => if C.gather then .results r.2.2.1 else .none)

/-- Calls by the user.  (Part of the model of `CallNoOftenThan`, /repo/satella/coding/concurrent/callablegroup.py:194-215.) -/
inductive Op (F A : Type _) where
  | add (f : F) (oneShot : Bool)
  | addAgain (c : Nat) (oneShot : Bool)
  | cancel (c : Nat)
  | call (a : A)

/-- What they observe: the callback object returned by `add`; for a call, the callbacks whose functions were called, in order, and
what the group returned.  (Part of the model of `CallNoOftenThan`, /repo/satella/coding/concurrent/callablegroup.py:194-215.) -/
inductive Res (R : Type _) where
  | callback (c : Nat)
  | unit
  | call (called : List Nat) (ret : Ret R)
  deriving DecidableEq, Repr

/-- One call by the user.  (Part of the model of `CallNoOftenThan`, /repo/satella/coding/concurrent/callablegroup.py:194-215.) -/
def step (E : Env F A R) (C : Cfg) (s : St F A) : Op F A → St F A × Res R
  | .add f o => (s.add f o, .callback s.objs.length)
  | .addAgain c o => (s.addObj c o, .callback c)
  | .cancel c => (s.cancel c, .unit)
  | .call a => ((s.call E C a).1, .call (s.call E C a).2.1 (s.call E C a).2.2)

/-- a new group.  (Part of the model of `CallNoOftenThan`, /repo/satella/coding/concurrent/callablegroup.py:194-215.) -/
def St.init : St F A := { reg := [], objs := [], cancelled := [], trace := [] }

end

/-! ## CallNoOftenThan -/

/-- A call of a CallNoOftenThan: the clock when it begins, and when the function, if called, has returned or raised.  (Part of the model of `CallNoOftenThan`, /repo/satella/coding/concurrent/callablegroup.py:192-215.) -/
structure Timed where
  begins : Int
  ends : Int
  raises : Bool
  deriving DecidableEq, Repr

/-- `CallNoOftenThan.__call__`, /repo/satella/coding/concurrent/callablegroup.py:212-215: the new `last_called` and whether the function was called; if it raises, `last_called` is not set -/
def noOftenThan (interval : Int) (last : Int) (c : Timed) : Int × Bool :=
  if c.begins - last ≥ interval then (if c.raises then last else c.ends, true) else (last, false)

/-- which of the calls of a new object call the function, /repo/satella/coding/concurrent/callablegroup.py:207-215 -/
def noOftenThanRun (interval : Int) : Int → List Timed → List Bool
  | _, [] => []
  | last, c :: cs => (noOftenThan interval last c).2 :: noOftenThanRun interval (noOftenThan interval last c).1 cs

end Verif.Group
