import Verif.Py.Basic
import Verif.Py.Dict
import Verif.Py.Run
/-!
# Model of satella/coding/concurrent/id_allocator.py

Every method holds the monitor (`@Monitor.synchronized`), so each call is one step; a history of the model is the order in which the
threads get the lock.
-/
namespace Verif.Ids
open Verif

/-! ## SequentialIssuer -/

/-- Calls on a SequentialIssuer.  (Part of the model of `SequentialIssuer`, /repo/satella/coding/concurrent/id_allocator.py:8-50.) -/
inductive IOp where
  | issue
  | noLessThan (x : Int)

/-- `issue` and `no_less_than`; the state is `start`; the statement at :45 is never reached;
/repo/satella/coding/concurrent/id_allocator.py:22-50 -/
def istep (start : Int) : IOp → Int × Int
  | .issue => (start + 1, start)
  | .noLessThan x => if start > x then (start + 1, start) else (x + 1, x)

/-! ## IDAllocator -/

/-- Calls on an IDAllocator; `allocate i` pops the `i`th free identifier (`set.pop` removes an arbitrary one).  (Part of the model of `IDAllocator`, /repo/satella/coding/concurrent/id_allocator.py:53-141.) -/
inductive Op where
  | allocate (i : Nat)
  | markAllocated (x : Int)
  | markFree (x : Int)

/-- What a call returns.  (Part of the model of `IDAllocator`, /repo/satella/coding/concurrent/id_allocator.py:53-141.) -/
inductive Res where
  | id (x : Int)
  | unit
  | exc (e : Exc)
  deriving DecidableEq, Repr

/-- The attributes, /repo/satella/coding/concurrent/id_allocator.py:71-75 -/
structure St where
  allocated : List Int
  free : List Int
  bound : Int

/-- `range(a, b)`.  (Part of the model of `IDAllocator`, /repo/satella/coding/concurrent/id_allocator.py:53-141.) -/
def pyRange (a b : Int) : List Int := (List.range (b - a).toNat).map (fun i => a + Int.ofNat i)

/-- `self.top_limit`: `top_limit or math.inf`, /repo/satella/coding/concurrent/id_allocator.py:74; `none` is infinity -/
def limitOf : Option Int → Option Int
  | none => none
  | some t => if t = 0 then none else some t

/-- `x > self.top_limit` clips to the limit, /repo/satella/coding/concurrent/id_allocator.py:79-80 -/
def clip (limit : Option Int) (x : Int) : Int :=
  match limit with
  | none => x
  | some t => if x > t then t else x

/-- `x >= self.top_limit`, /repo/satella/coding/concurrent/id_allocator.py:130 -/
def overLimit : Option Int → Int → Bool
  | none, _ => false
  | some t, x => decide (x ≥ t)

/-- `_extend_the_bound_to`, /repo/satella/coding/concurrent/id_allocator.py:77-86 -/
def St.extend (limit : Option Int) (s : St) (x : Int) : St × Nat :=
  let x := clip limit x
  let r := pyRange s.bound x
  ({ s with free := r.foldl setAdd s.free, bound := x }, r.length)

/-- One call: `mark_as_free` :88-102, `allocate_int` :104-117, `mark_as_allocated` :119-141 (`set.remove` of a missing element is
KeyError); /repo/satella/coding/concurrent/id_allocator.py.  `top` is the constructor's `top_limit`. -/
def step (startAt : Int) (top : Option Int) (s : St) : Op → St × Res
  | .markFree x =>
    if x < startAt then (s, .exc .valueError)
    else if x - startAt ∉ s.allocated then (s, .exc .valueError)
    else ({ s with allocated := s.allocated.erase (x - startAt), free := setAdd s.free (x - startAt) }, .unit)
  | .allocate i =>
    let r := if s.free = [] then s.extend (limitOf top) (s.bound + 10) else (s, 1)
    if r.2 = 0 then (r.1, .exc .empty)
    else
      match r.1.free[i % r.1.free.length]? with
      | none => (r.1, .exc .keyError)
      | some x =>
        ({ r.1 with free := r.1.free.erase x, allocated := setAdd r.1.allocated x }, .id (x + startAt))
  | .markAllocated x =>
    if x < startAt then (s, .exc .valueError)
    else if overLimit (limitOf top) x then (s, .exc .valueError)
    else if x - startAt ≥ s.bound then
      let s1 := (s.extend (limitOf top) (x - startAt + 1)).1
      if x - startAt ∈ s1.free then
        ({ s1 with free := s1.free.erase (x - startAt), allocated := setAdd s1.allocated (x - startAt) }, .unit)
      else (s1, .exc .keyError)
    else if x - startAt ∈ s.allocated then (s, .exc .alreadyAllocated)
    else if x - startAt ∈ s.free then
      ({ s with free := s.free.erase (x - startAt), allocated := setAdd s.allocated (x - startAt) }, .unit)
    else (s, .exc .keyError)

/-- a new allocator, /repo/satella/coding/concurrent/id_allocator.py:69-75 -/
def St.init : St := { allocated := [], free := [], bound := 0 }

end Verif.Ids
