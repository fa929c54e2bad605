import Verif.Py.Basic
import Verif.Py.Dict
import Verif.Py.Run
/-!
# Model of satella/coding/structures/dictionaries/writeback_cache.py

One client thread and an executor with `workers` workers.  `queue` holds the submitted
jobs nobody has taken yet (FIFO), `running` those a worker has taken but not carried out yet.  The events
`start` and `finish i` are the workers' moves and come in any order; a job acts on the storage when it finishes.  A lookup that
has to read the storage blocks the client until its `read` job finishes; meanwhile only worker events happen.
The storage is a map changed only by the write and delete methods (the class's "exclusive" assumption).
Not modelled: `get_queue_length` for other executors, the timeout of `sync`.
-/
namespace Verif.Writeback
open Verif

/-- A job given to the executor, /repo/satella/coding/structures/dictionaries/writeback_cache.py:91,115,122 -/
inductive Job (K V : Type _) where
  | write (k : K) (v : V)
  | delete (k : K)
  | read (k : K)

/-- the key a job is about.  (Part of the model of `ExclusiveWritebackCache`, /repo/satella/coding/structures/dictionaries/writeback_cache.py:11-123.) -/
def Job.key {K V : Type _} : Job K V → K
  | .write k _ => k
  | .delete k => k
  | .read k => k

/-- Constructor arguments, /repo/satella/coding/structures/dictionaries/writeback_cache.py:32-38 -/
structure Env where
  workers : Nat
  canDelete : Bool
  storeKeyErrors : Bool

/-- The cache's attributes (:39-51), the executor's queue, the storage, and the key the client waits for.  (Part of the model of `ExclusiveWritebackCache`, /repo/satella/coding/structures/dictionaries/writeback_cache.py:11-123.) -/
structure St (K V : Type _) where
  inCache : List K
  cache : Dict K V
  operations : Nat
  queue : List (Job K V)
  running : List (Job K V)
  storage : K → Option V
  waiting : Option K

/-- Client calls and worker events.  (Part of the model of `ExclusiveWritebackCache`, /repo/satella/coding/structures/dictionaries/writeback_cache.py:11-123.) -/
inductive Op (K V : Type _) where
  | get (k : K)
  | set (k : K) (v : V)
  | del (k : K)
  | sync
  | start
  | finish (i : Nat)

/-- What a call or event gives to the client; `pending` is a call still blocked, `idle` nothing.  (Part of the model of `ExclusiveWritebackCache`, /repo/satella/coding/structures/dictionaries/writeback_cache.py:11-123.) -/
inductive Res (V : Type _) where
  | unit
  | val (v : V)
  | exc (e : Exc)
  | pending
  | idle
  deriving DecidableEq, Repr

section
variable {K V : Type _} [DecidableEq K] (E : Env)

/-- What a job does to the storage: the user's write and delete methods. Outside /repo.  (Part of the model of `ExclusiveWritebackCache`, /repo/satella/coding/structures/dictionaries/writeback_cache.py:11-123.) -/
def Job.apply (st : K → Option V) : Job K V → (K → Option V)
  | .write k v => fun x => if x = k then some v else st x
  | .delete k => fun x => if x = k then none else st x
  | .read _ => st

/-- `_operate`, /repo/satella/coding/structures/dictionaries/writeback_cache.py:80-85 -/
def St.operate (s : St K V) : St K V :=
  if s.operations + 1 > 100 then { s with inCache := Dict.keys s.cache, operations := 0 }
  else { s with operations := s.operations + 1 }

/-- `executor.submit`: a job is queued; /repo/satella/coding/structures/dictionaries/writeback_cache.py:91,115,122 -/
def St.submit (s : St K V) (j : Job K V) : St K V := { s with queue := s.queue ++ [j] }

/-- The end of `__getitem__` when the read job is done,
/repo/satella/coding/structures/dictionaries/writeback_cache.py:91-100 -/
def St.readDone (s : St K V) (k : K) : St K V × Res V :=
  match s.storage k with
  | some v => ({ s with inCache := setAdd s.inCache k, cache := Dict.set s.cache k v, waiting := none }, .val v)
  | none =>
    ({ s with inCache := if E.storeKeyErrors then setAdd s.inCache k else s.inCache, waiting := none },
      .exc .keyError)

/-- A client call when the client is not blocked: lookup :87-105, deletion :107-116, assignment :118-123, `sync` :65-78 (which
returns only when the queue is empty and all workers are idle: otherwise still pending);
/repo/satella/coding/structures/dictionaries/writeback_cache.py -/
def St.client (s : St K V) : Op K V → St K V × Res V
  | .get k =>
    let s1 := s.operate
    if k ∉ s1.inCache then ({ s1.submit (.read k) with waiting := some k }, .pending)
    else
      match Dict.get? s1.cache k with
      | some v => (s1, .val v)
      | none => (s1, .exc .keyError)
  | .set k v =>
    let s1 := { s with cache := Dict.set s.cache k v, inCache := setAdd s.inCache k }
    ((s1.submit (.write k v)).operate, .unit)
  | .del k =>
    if !E.canDelete then (s, .exc .typeError)
    else
      let s1 := { s with inCache := if E.storeKeyErrors then setAdd s.inCache k else s.inCache,
                         cache := Dict.del s.cache k }
      ((s1.submit (.delete k)).operate, .unit)
  | .sync => if s.queue.isEmpty && s.running.isEmpty then (s, .unit) else (s, .pending)
  | _ => (s, .idle)

/-- One call or event.  `start`: a free worker takes the oldest job.  `finish i`: the worker holding job
`i` carries it out; a read wakes the client.  A blocked client makes no calls.
The executor is Python's ThreadPoolExecutor (FIFO queue), outside /repo; created at
/repo/satella/coding/structures/dictionaries/writeback_cache.py:39-42 -/
def step (s : St K V) : Op K V → St K V × Res V
  | .start =>
    match s.queue with
    | [] => (s, .idle)
    | j :: q =>
      if s.running.length < E.workers then ({ s with queue := q, running := s.running ++ [j] }, .idle)
      else (s, .idle)
  | .finish i =>
    match s.running[i]? with
    | none => (s, .idle)
    | some j =>
      let s1 := { s with running := s.running.eraseIdx i, storage := j.apply s.storage }
      match j with
      | .read k => St.readDone E s1 k
      | _ => (s1, .idle)
  | o => if s.waiting.isSome then (s, .idle) else St.client E s o

/-- a new cache over a storage, /repo/satella/coding/structures/dictionaries/writeback_cache.py:39-51 -/
def St.init (storage : K → Option V) : St K V :=
  { inCache := [], cache := [], operations := 0, queue := [], running := [], storage := storage, waiting := none }

end
end Verif.Writeback
