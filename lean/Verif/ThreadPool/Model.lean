import Verif.Py.Basic

/-!
# MetrifiedThreadPoolExecutor (satella/instrumentation/metrics/structures/threadpool.py), model

Every step is an action of one thread between two points at which another can intervene.  `shutdown` is that of
`concurrent.futures.ThreadPoolExecutor`: it sets the flag and puts the sentinel, with the lock.  What the tasks
do, and cancelling futures, is not modelled; the metrics do not raise, and the interpreter is not shut down.
-/
namespace Verif.ThreadPool

/-- a submitted function, by its number, and when it was submitted (`w.measure`), /repo/satella/instrumentation/metrics/structures/threadpool.py:141-143 -/
structure Task where
  id : Nat
  submitted : Nat
deriving DecidableEq

/-- what is in the work queue; `stop` is None, /repo/satella/instrumentation/metrics/structures/threadpool.py:33-34 -/
inductive Item where
  | task (t : Task)
  | stop
deriving DecidableEq

/-- where a worker is, /repo/satella/instrumentation/metrics/structures/threadpool.py:21-71 -/
inductive Pc where
  /-- in the initializer (:22-24) -/
  | init
  /-- the initializer raised; waits for the lock (:25-29, :174) -/
  | failed
  /-- drains the queue, with the lock (:178-185) -/
  | drain
  /-- at `work_queue.get` (:33) -/
  | get
  /-- has taken a task (:34) -/
  | got (t : Task)
  /-- executes it, since `start` (:41-42) -/
  | running (t : Task) (start : Nat)
  /-- has executed it, in the time `d` (:44) -/
  | ran (t : Task) (d : Nat)
  /-- has taken None (:56-66) -/
  | stopping
  /-- has returned after None (:67) -/
  | exited
  /-- has returned after the initializer failed (:30) -/
  | gaveUp
  /-- an exception ended the loop (:69-70) -/
  | died
deriving DecidableEq

/-- the thread has not returned.  A thread that has returned does not hold its weak reference any more, so that no None is put for it when the executor is collected, /repo/satella/instrumentation/metrics/structures/threadpool.py:157-168 -/
def Pc.lives : Pc → Bool
  | .exited => false
  | .gaveUp => false
  | .died => false
  | _ => true

/-- who holds `_shutdown_lock`, /repo/satella/instrumentation/metrics/structures/threadpool.py:129, :174 -/
inductive Lock where
  | free
  /-- in `submit`, between `put` and `_adjust_thread_count` (:143-144) -/
  | submitting
  | draining (i : Nat)
deriving DecidableEq

/-- the state, /repo/satella/instrumentation/metrics/structures/threadpool.py:90-109; `alive` is whether the executor is still referenced by the program, `sem` is `_idle_semaphore`.  The last fields record what was observed: tasks submitted, begun (with the time), ended (with the times), failed with BrokenThreadPool, and lost; and the values that the metrics were given. -/
structure St where
  max : Nat
  now : Nat
  queue : List Item
  pcs : List Pc
  sem : Nat
  shutdown : Bool
  broken : Bool
  alive : Bool
  lock : Lock
  submitted : List Task
  begun : List (Task × Nat)
  ended : List (Task × Nat × Nat)
  failed : List Task
  lost : List Task
  waits : List Nat
  execs : List Nat

/-- a new executor, /repo/satella/instrumentation/metrics/structures/threadpool.py:90-109 -/
def new (max : Nat) : St :=
  { max, now := 0, queue := [], pcs := [], sem := 0, shutdown := false, broken := false, alive := true, lock := .free,
    submitted := [], begun := [], ended := [], failed := [], lost := [], waits := [], execs := [] }

/-- what can happen, /repo/satella/instrumentation/metrics/structures/threadpool.py:21-71, :115-185 -/
inductive Act where
  | tick
  | submit
  | adjust
  | shutdown
  /-- the last reference to the executor is gone -/
  | collect
  | initOk (i : Nat)
  | initFail (i : Nat)
  /-- the next step of worker `i` -/
  | work (i : Nat)
deriving DecidableEq

/-- the next step of a worker, after the initializer, /repo/satella/instrumentation/metrics/structures/threadpool.py:25-71, :173-185; `none` if it waits -/
def work (s : St) (i : Nat) : Option St :=
  match s.pcs[i]? with
  | some .failed =>
    if s.alive then
      if s.lock = .free then some { s with lock := .draining i, broken := true, pcs := s.pcs.set i .drain } else none
    else some { s with pcs := s.pcs.set i .gaveUp }
  | some .drain =>
    match s.queue with
    | [] => some { s with lock := .free, pcs := s.pcs.set i .gaveUp }
    | .task t :: q => some { s with queue := q, failed := s.failed ++ [t] }
    | .stop :: q => some { s with queue := q }
  | some .get =>
    match s.queue with
    | [] => none
    | .task t :: q => some { s with queue := q, pcs := s.pcs.set i (.got t) }
    | .stop :: q =>
      if !s.alive || s.shutdown then some { s with queue := q, pcs := s.pcs.set i .stopping }
      else some { s with queue := q }
  | some (.got t) =>
    if s.alive then
      some { s with waits := s.waits ++ [s.now - t.submitted], begun := s.begun ++ [(t, s.now)], pcs := s.pcs.set i (.running t s.now) }
    else some { s with lost := s.lost ++ [t], pcs := s.pcs.set i .died }
  | some (.running t start) => some { s with ended := s.ended ++ [(t, start, s.now)], pcs := s.pcs.set i (.ran t (s.now - start)) }
  | some (.ran _ d) =>
    if s.alive then some { s with execs := s.execs ++ [d], sem := s.sem + 1, pcs := s.pcs.set i .get }
    else some { s with pcs := s.pcs.set i .died }
  | some .stopping => some { s with queue := s.queue ++ [.stop], pcs := s.pcs.set i .exited }
  | _ => none

/-- `_adjust_thread_count`, /repo/satella/instrumentation/metrics/structures/threadpool.py:150-172 -/
def adjust (s : St) : St :=
  if 0 < s.sem then { s with sem := s.sem - 1, lock := .free }
  else if s.pcs.length < s.max then { s with pcs := s.pcs ++ [.init], lock := .free }
  else { s with lock := .free }

/-- one action; `none` if it is not possible, /repo/satella/instrumentation/metrics/structures/threadpool.py:21-185.  `submit` is modelled up to `put` (:129-143), the rest is `adjust`. -/
def step (s : St) : Act → Option St
  | .tick => some { s with now := s.now + 1 }
  | .submit =>
    if s.lock = .free ∧ s.alive then
      if s.broken || s.shutdown then some s
      else
        let t : Task := ⟨s.submitted.length, s.now⟩
        some { s with queue := s.queue ++ [.task t], submitted := s.submitted ++ [t], lock := .submitting }
    else none
  | .adjust => if s.lock = .submitting then some (adjust s) else none
  | .shutdown => if s.lock = .free ∧ s.alive then some { s with shutdown := true, queue := s.queue ++ [.stop] } else none
  | .collect => if s.lock = .free ∧ s.alive then some { s with alive := false, queue := s.queue ++ List.replicate (s.pcs.filter Pc.lives).length .stop } else none
  | .initOk i => if s.pcs[i]? = some .init then some { s with pcs := s.pcs.set i .get } else none
  | .initFail i => if s.pcs[i]? = some .init then some { s with pcs := s.pcs.set i .failed } else none
  | .work i => work s i

/-- a schedule; actions that are not possible are skipped (an auxiliary of the model of /repo/satella/instrumentation/metrics/structures/threadpool.py:21-185) -/
def run (s : St) : List Act → St
  | [] => s
  | a :: l => run ((step s a).getD s) l

end Verif.ThreadPool
