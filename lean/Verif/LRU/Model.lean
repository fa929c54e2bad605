import Verif.Py.Basic
import Verif.Py.Dict
import Verif.Py.Run
/-!
# Model of satella/coding/structures/lru.py

The `OrderedDict` maps every key to True, so it is the list of its keys, oldest first.
-/
namespace Verif.LRU
open Verif
variable {ι : Type _} [DecidableEq ι]

/-- Calls on an LRU, /repo/satella/coding/structures/lru.py:15-37. -/
inductive Op (ι : Type _) where
  | add (x : ι)
  | remove (x : ι)
  | markAsUsed (x : ι)
  | evict
  | contains (x : ι)
  | len

/-- What a call returns.  (Part of the model of `LRU`, /repo/satella/coding/structures/lru.py:7-37.) -/
inductive Res (ι : Type _) where
  | unit
  | val (x : ι)
  | bool (b : Bool)
  | nat (n : Nat)
  | exc (e : Exc)
  deriving DecidableEq, Repr

/-- `OrderedDict.__setitem__`: an existing key keeps its place, a new one goes last.
`LRU.add`, /repo/satella/coding/structures/lru.py:21-22 -/
def add (od : List ι) (x : ι) : List ι := if x ∈ od then od else od ++ [x]

/-- `del od[item]` on a present key, /repo/satella/coding/structures/lru.py:25 -/
def erase (od : List ι) (x : ι) : List ι := od.filter (fun y => decide (y ≠ x))

/-- `LRU.mark_as_used`, /repo/satella/coding/structures/lru.py:27-31 -/
def markAsUsed (od : List ι) (x : ι) : List ι :=
  if x ∉ od then od ++ [x] else erase od x ++ [x]

/-- `LRU.get_item_to_evict`, /repo/satella/coding/structures/lru.py:33-37: `popitem(False)`, `none` is KeyError. -/
def evict : List ι → Option (ι × List ι)
  | [] => none
  | x :: od => some (x, od)

/-- One call on an LRU: add :21-22, remove :24-25, mark_as_used :27-31, get_item_to_evict :33-37,
`in` :15-16, len :18-19; /repo/satella/coding/structures/lru.py -/
def step (od : List ι) : Op ι → List ι × Res ι
  | .add x => (add od x, .unit)
  | .remove x => if x ∈ od then (erase od x, .unit) else (od, .exc .keyError)
  | .markAsUsed x => (markAsUsed od x, .unit)
  | .evict =>
    match evict od with
    | none => (od, .exc .keyError)
    | some (x, od') => (od', .val x)
  | .contains x => (od, .bool (decide (x ∈ od)))
  | .len => (od, .nat od.length)

end Verif.LRU
