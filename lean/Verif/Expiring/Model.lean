import Verif.Heap.Model
import Verif.Py.Run
/-!
# Model of ExpiringEntryDict and SelfCleaningDefaultDict

/repo/satella/coding/structures/dictionaries/expiring.py.  Every call takes the reading `now` of `time_getter()`.
Each call (and each call of `cleanup` by the background thread) is one step: the methods that are not
under the Monitor are assumed not to be interrupted.  Keys are ordered (the heap compares
`(timestamp, key)` tuples) and not None (`put(ts, None)` takes its argument for an item).
-/
namespace Verif.Expiring
open Verif Verif.Heap

/-- Calls on an ExpiringEntryDict, /repo/satella/coding/structures/dictionaries/expiring.py:156-226. -/
inductive Op (K V : Type _) where
  | set (k : K) (v : V)
  | get (k : K)
  | contains (k : K)
  | del (k : K)
  | iter
  | len
  | cleanup

/-- What a call returns.  (Part of the model of `ExpiringEntryDict`, /repo/satella/coding/structures/dictionaries/expiring.py:139-226.) -/
inductive Res (K V : Type _) where
  | unit
  | val (v : V)
  | bool (b : Bool)
  | nat (n : Nat)
  | keys (l : List K)
  | exc (e : Exc)
  deriving DecidableEq, Repr

/-- `data` and `key_to_expiration_time`, /repo/satella/coding/structures/dictionaries/expiring.py:164-168 -/
structure St (K V : Type _) where
  data : Dict K V
  heap : TSHeap K

section
variable {K V : Type _} [PyLinOrd K] [DecidableEq K] (H : Heapq (Int × K)) (timeout : Int)

/-- `ExpiringEntryDict.__delitem__`, /repo/satella/coding/structures/dictionaries/expiring.py:223-226: the heap entry
goes first; `pop_item` raises ValueError for an unknown item. -/
def St.del (s : St K V) (k : K) : St K V × Option Exc :=
  match TSHeap.popItem H s.heap k with
  | (h, .exc e) => ({ s with heap := h }, some e)
  | (h, _) =>
    if Dict.has s.data k then ({ data := Dict.del s.data k, heap := h }, none)
    else ({ s with heap := h }, some .keyError)

/-- The loop of `ExpiringEntryDict.cleanup`, /repo/satella/coding/structures/dictionaries/expiring.py:206-207, interleaved with the generator
`pop_less_than` (heaps/time.py:262-265): an entry leaves the heap, then the dictionary; KeyError ends it.
The fuel is the number of heap entries, which is enough as each round pops one. -/
def cleanupLoop (now : Int) : Nat → St K V → St K V × Option Exc
  | 0, s => (s, none)
  | n + 1, s =>
    match s.heap.data.head? with
    | none => (s, none)
    | some top =>
      if top.1 ≥ now then (s, none)
      else
        match TSHeap.pop H s.heap with
        | (h, .entry _ k) =>
          if Dict.has s.data k then cleanupLoop now n { data := Dict.del s.data k, heap := h }
          else ({ s with heap := h }, some .keyError)
        | (h, .exc e) => ({ s with heap := h }, some e)
        | (h, _) => ({ s with heap := h }, none)

/-- `ExpiringEntryDict.cleanup`, /repo/satella/coding/structures/dictionaries/expiring.py:203-207 -/
def St.cleanup (s : St K V) (now : Int) : St K V × Option Exc := cleanupLoop H now s.heap.data.length s

/-- One call on an ExpiringEntryDict: `d[k] = v` :208-211, `d[k]` :213-220 (ValueError becomes KeyError; the entry
found expired leaves `data` but not the heap), `in` :177-188, `del` :223-226, iteration :198-200, `len` :156-158, cleanup :202-206;
/repo/satella/coding/structures/dictionaries/expiring.py -/
def step (s : St K V) : Op K V × Int → St K V × Res K V
  | (.set k v, now) =>
    match TSHeap.push H s.heap (now + timeout) k with
    | (h, .exc e) => ({ s with heap := h }, .exc e)
    | (h, _) => ({ data := Dict.set s.data k v, heap := h }, .unit)
  | (.get k, now) =>
    match Dict.get? s.heap.stamps k with
    | none => (s, .exc .keyError)
    | some ts =>
      if ts < now then
        -- `del self.data[item]` raises KeyError itself if the item is gone already
        ({ s with data := Dict.del s.data k }, .exc .keyError)
      else
        match Dict.get? s.data k with
        | none => (s, .exc .keyError)
        | some v => (s, .val v)
  | (.contains k, now) =>
    match Dict.get? s.heap.stamps k with
    | none => (s, .bool false)
    | some ts =>
      if ts < now then
        match St.del H s k with
        | (s', none) => (s', .bool false)
        | (s', some e) => (s', .exc e)
      else (s, .bool true)
  | (.del k, _) =>
    match St.del H s k with
    | (s', none) => (s', .unit)
    | (s', some e) => (s', .exc e)
  | (.iter, now) =>
    match St.cleanup H s now with
    | (s', none) => (s', .keys (Dict.keys s'.data))
    | (s', some e) => (s', .exc e)
  | (.len, now) =>
    match St.cleanup H s now with
    | (s', none) => (s', .nat s'.data.length)
    | (s', some e) => (s', .exc e)
  | (.cleanup, now) =>
    match St.cleanup H s now with
    | (s', none) => (s', .unit)
    | (s', some e) => (s', .exc e)

/-- a new ExpiringEntryDict without initial contents (with contents: the same followed by `set`s),
/repo/satella/coding/structures/dictionaries/expiring.py:160-175 -/
def St.init : St K V := { data := [], heap := TSHeap.init H }

end

/-! ## SelfCleaningDefaultDict -/

/-- Calls on a SelfCleaningDefaultDict, /repo/satella/coding/structures/dictionaries/expiring.py:84-136.  `update k f`
is `d[k]` followed by a change `f` of the returned object in place (`d[k].append(x)`). -/
inductive SOp (K V : Type _) where
  | set (k : K) (v : V)
  | get (k : K)
  | update (k : K) (f : V → V)
  | contains (k : K)
  | del (k : K)
  | iter
  | len
  | cleanup

section
variable {K V : Type _} [DecidableEq K] [DecidableEq V] (dflt : V) (bm : Bool)

/-- `SelfCleaningDefaultDict.__getitem__`, /repo/satella/coding/structures/dictionaries/expiring.py:109-119.
`bm` is `background_maintenance`. -/
def sget (data : Dict K V) (k : K) : Dict K V × V :=
  match Dict.get? data k with
  | some v => if v = dflt then (Dict.del data k, v) else (data, v)
  | none => if !bm then (Dict.set data k dflt, dflt) else (data, dflt)

/-- `SelfCleaningDefaultDict.__setitem__`, /repo/satella/coding/structures/dictionaries/expiring.py:121-129 -/
def sset (data : Dict K V) (k : K) (v : V) : Dict K V :=
  let data1 := if Dict.has data k then (if v = dflt then Dict.del data k else data) else data
  if v ≠ dflt then Dict.set data1 k v else data1

/-- One round of the loop of `SelfCleaningDefaultDict.cleanup`,
/repo/satella/coding/structures/dictionaries/expiring.py:135-136 -/
def scleanOne (d : Dict K V) (k : K) : Dict K V :=
  match Dict.get? d k with
  | some v => if v = dflt then Dict.del d k else d
  | none => d

/-- `SelfCleaningDefaultDict.cleanup`, /repo/satella/coding/structures/dictionaries/expiring.py:131-136 -/
def scleanup (data : Dict K V) : Dict K V := (Dict.keys data).foldl (scleanOne dflt) data

/-- One call on a SelfCleaningDefaultDict: assignment :121-129, lookup :109-119, `del` :105-107, `len` :84-86, cleanup :131-136;
iteration :101-103 calls the inherited abstract `__iter__`, which yields nothing;
`in` is inherited from Mapping: True unless a lookup raises KeyError;
/repo/satella/coding/structures/dictionaries/expiring.py -/
def sstep (data : Dict K V) : SOp K V → Dict K V × Res K V
  | .set k v => (sset dflt data k v, .unit)
  | .get k => let r := sget dflt bm data k; (r.1, .val r.2)
  | .update k f =>
    let r := sget dflt bm data k
    -- the object changed is the one stored, if it is still stored
    (if Dict.has r.1 k then Dict.set r.1 k (f r.2) else r.1, .unit)
  | .contains k => ((sget dflt bm data k).1, .bool true)
  | .del k => (if Dict.has data k then Dict.del data k else data, .unit)
  | .iter => (scleanup dflt data, .keys [])
  | .len => let d := scleanup dflt data; (d, .nat d.length)
  | .cleanup => (scleanup dflt data, .unit)

end
end Verif.Expiring
