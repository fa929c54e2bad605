import Verif.Py.Basic
import Verif.Py.Run
/-!
# Model of satella/coding/structures/syncable_droppable.py

Keys are integers (timestamps), one call at a time (for several threads see `Verif.Syncable.Threads`).  The user's DBStorage is an ordered store: `put`
inserts in key order, `iterate` is a snapshot in ascending order, `delete` removes a key.  The `on_change_*` notifications have no effect here.
-/
namespace Verif.Syncable
open Verif

/-- A data point, `KVTuple`, /repo/satella/coding/structures/syncable_droppable.py:10 -/
abbrev Pt (V : Type _) := Int × V

/-- `DBStorage.put`, the contract at /repo/satella/coding/structures/syncable_droppable.py:22-31 -/
def dbPut {V : Type _} (db : List (Pt V)) (x : Pt V) : List (Pt V) :=
  db.filter (fun y => y.1 < x.1) ++ [x] ++ db.filter (fun y => x.1 < y.1)

/-- `DBStorage.iterate`, the contract at /repo/satella/coding/structures/syncable_droppable.py:33-46 -/
def dbIterate {V : Type _} (db : List (Pt V)) : Option Int → List (Pt V)
  | none => db
  | some s => db.filter (fun y => s ≤ y.1)

/-- `DBStorage.delete`, the contract at /repo/satella/coding/structures/syncable_droppable.py:73-79 -/
def dbDelete {V : Type _} (db : List (Pt V)) (k : Int) : List (Pt V) := db.filter (fun y => y.1 ≠ k)

/-- The attributes, /repo/satella/coding/structures/syncable_droppable.py:117-123, and the contents of the database. -/
structure St (V : Type _) where
  mem : List (Pt V)
  db : List (Pt V)
  start : Option Int
  stop : Option Int
  synced : Option Int

/-- The calls.  (Part of the model of `SyncableDroppable`, /repo/satella/coding/structures/syncable_droppable.py:82-402.) -/
inductive Op (V : Type _) where
  | newData (k : Int) (v : V)
  | syncToDb
  | cleanupMemory
  | cleanupDb
  | archive (start stop : Int)
  | latest
  /-- `none` is `math.inf` -/
  | syncRequest (max : Option Nat)
  | syncedUpTo (k : Int)

/-- What a call returns; `none` is Python's None.  (Part of the model of `SyncableDroppable`, /repo/satella/coding/structures/syncable_droppable.py:82-402.) -/
inductive Res (V : Type _) where
  | unit
  | items (l : List (Pt V))
  | item (x : Pt V)
  | none
  | exc (e : Exc)
  deriving DecidableEq, Repr

section
variable {V : Type _} (spanMem spanDb : Int)

/-- `first_key_in_memory`, /repo/satella/coding/structures/syncable_droppable.py:397-402 -/
def St.firstKey (s : St V) : Option Int := s.mem.head?.map (·.1)

/-- `sync_to_db`, /repo/satella/coding/structures/syncable_droppable.py:152-159 -/
def St.syncToDb (s : St V) : St V := { s with db := s.mem.foldl dbPut s.db, mem := [] }

/-- The index at which the loop of `cleanup_keep_in_memory` breaks,
/repo/satella/coding/structures/syncable_droppable.py:263-265 -/
def breakIndex (cutoff : Int) : List (Pt V) → Option Nat
  | [] => none
  | x :: xs => if x.1 > cutoff then some 0 else (breakIndex cutoff xs).map (· + 1)

/-- `cleanup_keep_in_memory`, /repo/satella/coding/structures/syncable_droppable.py:254-273.
`stop_entry - span` with None is TypeError. -/
def St.cleanupMemory (s : St V) : St V × Res V :=
  match s.firstKey with
  | none => (s, .unit)
  | some _ =>
    match s.stop with
    | none => (s, .exc .typeError)
    | some stop =>
      match breakIndex (stop - spanMem) s.mem with
      | some i => ({ s with db := (s.mem.take i).foldl dbPut s.db, mem := s.mem.drop i }, .unit)
      | none => (s.syncToDb, .unit)

/-- The loop of `_cleanup_the_db`, /repo/satella/coding/structures/syncable_droppable.py:183-188: the database and the first
key kept, `none` if the loop ran to its end -/
def dbLoop (cutoff : Int) : List (Pt V) → List (Pt V) → List (Pt V) × Option Int
  | [], db => (db, none)
  | x :: xs, db => if x.1 < cutoff then dbLoop cutoff xs (dbDelete db x.1) else (db, some x.1)

/-- `_cleanup_the_db`, /repo/satella/coding/structures/syncable_droppable.py:172-201; called with `start` and `stop` not None -/
def St.cleanupTheDb (s : St V) (cutoff : Int) : St V × Bool :=
  match dbLoop cutoff (dbIterate s.db s.start) s.db with
  | (db, some k) => ({ s with db := db, start := some k }, false)
  | (db, none) =>
    match s.firstKey with
    | some f => ({ s with db := db, start := some f }, true)
    | none => ({ s with db := db, start := none, stop := none }, true)

/-- The branch of `cleanup_keep_in_db` for a series that is all in memory,
/repo/satella/coding/structures/syncable_droppable.py:284-289 -/
def St.cleanupAllInMemory (s : St V) (cutoff : Int) : St V :=
  let s1 := { s with mem := s.mem.filter (fun x => x.1 ≥ cutoff) }
  match s1.firstKey with
  | some f => { s1 with start := some f }
  | none => { s1 with start := none, stop := none }

/-- `cleanup_keep_in_db`, /repo/satella/coding/structures/syncable_droppable.py:275-293.  The recursive call comes after
`start_entry` became the first key in memory, so it takes the first branch; `fuel` bounds the recursion (2 is enough). -/
def St.cleanupDb : Nat → St V → St V × Res V
  | 0, s => (s, .exc .runtimeError)
  | n + 1, s =>
    match s.start, s.mem with
    | none, _ => (s, .unit)
    | some _, [] => (s, .unit)
    | some st, f :: _ =>
      match s.stop with
      | none => (s, .exc .typeError)
      | some stop =>
        if st = f.1 then (s.cleanupAllInMemory (stop - spanDb), .unit)
        else
          match s.cleanupTheDb (stop - spanDb) with
          | (s', false) => (s', .unit)
          | (s', true) => St.cleanupDb n s'

/-- The loops of `get_archive`: skip below `start`, stop above `stop`; whether the loop ran to the end;
/repo/satella/coding/structures/syncable_droppable.py:215-220,224-229 -/
def scan (start stop : Int) : List (Pt V) → List (Pt V) × Bool
  | [] => ([], true)
  | x :: xs =>
    if x.1 < start then scan start stop xs
    else if x.1 > stop then ([], false)
    else let r := scan start stop xs; (x :: r.1, r.2)

/-- `get_archive`, everything it yields, /repo/satella/coding/structures/syncable_droppable.py:203-234 -/
def St.archive (s : St V) (start stop : Int) : List (Pt V) :=
  match s.firstKey with
  | none => []
  | some f =>
    if f ≤ start then (scan start stop s.mem).1
    else
      let r := scan start stop (dbIterate s.db (some start))
      if r.2 then r.1 ++ (scan f stop s.mem).1 else r.1

/-- `get_latest_value`, /repo/satella/coding/structures/syncable_droppable.py:236-252 -/
def St.latest (s : St V) : Res V :=
  match s.stop with
  | none => .exc .valueError
  | some stop =>
    match s.mem.getLast? with
    | some x => .item x
    | none =>
      match dbIterate s.db (some stop) with
      | x :: _ => .item x
      | [] => .exc .stopIteration

/-- The memory loop of `__append_item`: the last value of `index`,
/repo/satella/coding/structures/syncable_droppable.py:340-345.  `full` is `len(data) >= maximum_entries`. -/
def appendIndex (full : Bool) (synced : Int) : Nat → List (Pt V) → Nat
  | i, [] => i - 1
  | i, x :: xs => if full || decide (x.1 > synced) then i else appendIndex full synced (i + 1) xs

/-- `l[:max]`, `none` for infinity.  (Part of the model of `SyncableDroppable`, /repo/satella/coding/structures/syncable_droppable.py:82-402.) -/
def takeMax {α : Type _} (max : Option Nat) (l : List α) : List α :=
  match max with
  | none => l
  | some n => l.take n

/-- `on_sync_request`, /repo/satella/coding/structures/syncable_droppable.py:370-387, with `_assert_correctness` :314-318
(`not start_entry`: None or 0; `data_in_memory[-1]` of an empty list is IndexError),
`_on_sync_request_synced_up_none` :320-333, `_on_sync_request_synced_up_is_not_none` :348-368
and `__append_item` :335-346 (None when the database alone has enough entries). -/
def St.syncRequest (s : St V) (max : Option Nat) : Res V :=
  if s.start = none ∨ s.start = some 0 then .exc .valueError
  else
    match s.mem.getLast? with
    | none => .exc .indexError
    | some l =>
      if s.synced = some l.1 then .exc .valueError
      else
        match s.synced with
        | none =>
          let data := dbIterate s.db none
          match max with
          | none => .items (data ++ s.mem)
          | some n => if data.length < n then .items (data ++ s.mem.take (n - data.length)) else .items data
        | some y =>
          match s.firstKey with
          | none => .exc .typeError
          | some f =>
            if f ≤ y then .items (takeMax max (s.mem.filter (fun x => y < x.1)))
            else
              let data := dbIterate s.db s.start
              match max with
              | none => .items (data ++ s.mem.take (appendIndex false y 0 s.mem))
              | some n =>
                if n ≤ data.length then .none
                else .items (data ++ s.mem.take (appendIndex false y 0 s.mem))

/-- One call; `on_new_data` :295-312, `on_synced_up_to` :389-395;
/repo/satella/coding/structures/syncable_droppable.py -/
def step (s : St V) : Op V → St V × Res V
  | .newData k v =>
    match s.stop with
    | some stop =>
      if k ≤ stop then (s, .exc .valueError)
      else ({ s with mem := s.mem ++ [(k, v)], stop := some k, start := some (s.start.getD k) }, .unit)
    | none => ({ s with mem := s.mem ++ [(k, v)], stop := some k, start := some (s.start.getD k) }, .unit)
  | .syncToDb => (s.syncToDb, .unit)
  | .cleanupMemory => s.cleanupMemory spanMem
  | .cleanupDb => St.cleanupDb spanDb 2 s
  | .archive a b => (s, .items (s.archive a b))
  | .latest => (s, s.latest)
  | .syncRequest m => (s, s.syncRequest m)
  | .syncedUpTo k => ({ s with synced := some k }, .unit)

/-- A SyncableDroppable over a database with contents `db`, told its first and last keys and how far it was
synchronized, /repo/satella/coding/structures/syncable_droppable.py:111-123 -/
def St.init (db : List (Pt V)) (synced : Option Int) : St V :=
  { mem := [], db := db, start := db.head?.map (·.1), stop := db.getLast?.map (·.1), synced := synced }

end
end Verif.Syncable
