import Verif.Py.Basic
import Verif.Py.Dict
import Verif.Py.Run
/-!
# Model of satella/coding/deleters.py
-/
namespace Verif.Deleter
open Verif

section
variable {α : Type _}

/-- `DIR_FORWARD`, `DIR_BACKWARD`, /repo/satella/coding/deleters.py:83-84 -/
inductive Dir where
  | forward
  | backward
  deriving DecidableEq, Repr

/-- `l[i]` for a Python list: negative positions count from the end; `none` is IndexError.  (Part of the model of `ListDeleter`, /repo/satella/coding/deleters.py:87-238.) -/
def pyGet (l : List α) (i : Int) : Option α :=
  if 0 ≤ i then l[i.toNat]? else if -i ≤ l.length then l[((l.length : Int) + i).toNat]? else none

/-- The fields of a ListDeleter, /repo/satella/coding/deleters.py:130-138; the set of positions is a list. -/
structure LD (α : Type _) where
  xs : List α
  dir : Dir
  idx : Int
  marks : List Int
  removed : Bool

/-- where iteration starts, /repo/satella/coding/deleters.py:136,154 -/
def startIdx (d : Dir) (xs : List α) : Int := match d with | .forward => -1 | .backward => xs.length

/-- `ListDeleter.__init__`, /repo/satella/coding/deleters.py:132-138 -/
def LD.new (xs : List α) (d : Dir) : LD α := { xs := xs, dir := d, idx := startIdx d xs, marks := [], removed := false }

/-- calls of a ListDeleter.  (Part of the model of `ListDeleter`, /repo/satella/coding/deleters.py:87-238.) -/
inductive LOp where
  | iter
  | next
  | prev
  | value
  | delete
  deriving DecidableEq, Repr

/-- what they return.  (Part of the model of `ListDeleter`, /repo/satella/coding/deleters.py:87-238.) -/
inductive LRes (α : Type _) where
  | none
  | item (x : α)
  | raised (e : Exc)
  deriving DecidableEq, Repr

/-- an element, or an exception if there is none.  (Part of the model of `ListDeleter`, /repo/satella/coding/deleters.py:87-238.) -/
def LRes.ofOption (e : Exc) : Option α → LRes α
  | some x => .item x
  | Option.none => .raised e

/-- `list_to_process[current_index]`, with IndexError turned into `e`.  (Part of the model of `ListDeleter`, /repo/satella/coding/deleters.py:87-238.) -/
def LD.at (s : LD α) (e : Exc) : LRes α := .ofOption e (pyGet s.xs s.idx)

/-- `__next__`, /repo/satella/coding/deleters.py:158-167 -/
def LD.next (s : LD α) : LD α × LRes α :=
  if s.dir = .backward ∧ s.idx = -1 then (s, .raised .stopIteration)
  else if s.dir = .forward ∧ s.idx = s.xs.length then (s, .raised .stopIteration)
  else
    let s' := { s with idx := s.idx + (match s.dir with | .forward => 1 | .backward => -1) }
    (s', s'.at .stopIteration)

/-- `prev`, /repo/satella/coding/deleters.py:176-191 -/
def LD.prev (s : LD α) : LD α × LRes α :=
  if s.dir = .forward ∧ s.idx = -1 then (s, .raised .stopIteration)
  else if s.dir = .backward ∧ s.idx = s.xs.length then (s, .raised .stopIteration)
  else
    let s' := { s with idx := s.idx + (match s.dir with | .forward => -1 | .backward => 1) }
    (s', s'.at .stopIteration)

/-- One call: `__iter__` /repo/satella/coding/deleters.py:153-156, `value` :143-151, `delete` :193-194. -/
def LD.step (s : LD α) : LOp → LD α × LRes α
  | .iter => ({ s with idx := startIdx s.dir s.xs, marks := [] }, .none)
  | .next => s.next
  | .prev => s.prev
  | .value => (s, s.at .indexError)
  | .delete => ({ s with marks := setAdd s.marks s.idx }, .none)

/-- The loop of `remove_items`, /repo/satella/coding/deleters.py:222-226: over a copy of the list with its positions; `l` is the list itself -/
def removeLoop (marks : List Int) : List α → Nat → Nat → List α → List α
  | [], _, _, l => l
  | _ :: rest, i, delta, l =>
    if (i : Int) ∈ marks then removeLoop marks rest (i + 1) (delta + 1) (l.eraseIdx (i - delta))
    else removeLoop marks rest (i + 1) delta l

/-- `remove_items` and `__exit__`, /repo/satella/coding/deleters.py:217-231 -/
def LD.remove (s : LD α) : LD α :=
  if s.removed then s else { s with xs := removeLoop s.marks s.xs 0 0 s.xs, removed := true }

/-- `for x in ld: if <decide>: ld.delete()`; the decision may depend on the number of the turn.  Returns the elements met.  Not code of /repo: the caller's loop.  (Part of the model of `DictDeleter`, /repo/satella/coding/deleters.py:12-80.) -/
def forLoop (dec : Nat → α → Bool) : Nat → Nat → LD α → LD α × List α
  | 0, _, s => (s, [])
  | fuel + 1, k, s =>
    match s.next with
    | (s', .item x) =>
      let s'' := if dec k x then (s'.step .delete).1 else s'
      ((forLoop dec fuel (k + 1) s'').1, x :: (forLoop dec fuel (k + 1) s'').2)
    | (s', _) => (s', [])

end

section
variable {κ ν : Type _} [DecidableEq κ]

/-- The fields of a DictDeleter inside its context, /repo/satella/coding/deleters.py:40-46: the dictionary, what the current iterator has left (`none` before
`__iter__`), the current key, the set of keys to delete.  What mode (keys, values, items) it is in only changes the shape of what is returned: here always items.
The dictionary is not changed by others meanwhile. -/
structure DD (κ ν : Type _) where
  d : Dict κ ν
  it : Option (List (κ × ν))
  cur : Option κ
  marks : List κ

/-- calls of a DictDeleter.  (Part of the model of `DictDeleter`, /repo/satella/coding/deleters.py:12-80.) -/
inductive DOp where
  | iter
  | next
  | delete
  deriving DecidableEq, Repr

/-- what they return.  (Part of the model of `DictDeleter`, /repo/satella/coding/deleters.py:12-80.) -/
inductive DRes (κ ν : Type _) where
  | none
  | item (k : κ) (v : ν)
  | raised (e : Exc)

/-- `__init__` and `__enter__`, /repo/satella/coding/deleters.py:40-46 -/
def DD.new (d : Dict κ ν) : DD κ ν := { d := d, it := none, cur := none, marks := [] }

/-- `__iter__` :48-50, `__next__` :52-60, `delete` :74-75 of /repo/satella/coding/deleters.py; an attribute that has not been set raises AttributeError -/
def DD.step (s : DD κ ν) : DOp → DD κ ν × DRes κ ν
  | .iter => ({ s with it := some s.d }, .none)
  | .next =>
    match s.it with
    | none => (s, .raised .attributeError)
    | some [] => (s, .raised .stopIteration)
    | some ((k, v) :: rest) => ({ s with it := some rest, cur := some k }, .item k v)
  | .delete =>
    match s.cur with
    | none => (s, .raised .attributeError)
    | some k => ({ s with marks := setAdd s.marks k }, .none)

/-- `__exit__`, /repo/satella/coding/deleters.py:77-80; `order` is the order in which the set is iterated over -/
def exitLoop : List κ → Dict κ ν → Dict κ ν × Option Exc
  | [], d => (d, none)
  | k :: ks, d => if d.has k then exitLoop ks (d.del k) else (d, some .keyError)

end

end Verif.Deleter
