import Verif.Py.Basic
/-!
# Model of sync_threadpool (satella/coding/concurrent/sync.py), C66

A pool of workers takes tasks from a queue, first in first out, as `ThreadPoolExecutor` does; a job runs until the schedule lets it end.  All workers of the pool have been started.  The caller's
clock is the schedule's: a `max_wait` may be over at any time.  `AtomicNumber` is C16, `measure` C56; the sleeps between the polls are left out.
-/
namespace Verif.SyncPool
open Verif

/-- what is in the queue of the pool: a job of the user, or `decrease_atm`.  (Part of the model of `sync_threadpool`, /repo/satella/coding/concurrent/sync.py:32-69.) -/
inductive Task where
  | job (j : Nat)
  | sentinel
  deriving DecidableEq, Repr

/-- what a worker is doing: nothing, a job, `decrease_atm` before the decrement, past it, waiting on the condition, notified.  (Part of the model of `sync_threadpool`, /repo/satella/coding/concurrent/sync.py:32-69.) -/
inductive Worker where
  | idle
  | job (j : Nat)
  | picked
  | counted
  | waiting
  | notified
  deriving DecidableEq, Repr

/-- where the caller of `sync_threadpool` is: it has submitted `k` tasks, polls the queue, waits for the number to be zero, is about to notify, waits for the futures, has returned, has raised WouldWaitMore.  (Part of the model of `sync_threadpool`, /repo/satella/coding/concurrent/sync.py:32-69.) -/
inductive Main where
  | submitting (k : Nat)
  | polling
  | counting
  | notifying
  | joining
  | returned
  | raised
  deriving DecidableEq, Repr

/-- the pool's queue and workers, `atm_n`, where the caller is; which jobs are finished; how many of the futures are done.  (Part of the model of `sync_threadpool`, /repo/satella/coding/concurrent/sync.py:32-69.) -/
structure St where
  queue : List Task
  workers : List Worker
  atm : Int
  main : Main
  finished : List Nat
  futures : Nat
  deriving DecidableEq, Repr

/-- the call of `sync_threadpool`, /repo/satella/coding/concurrent/sync.py:48-53, on a pool with these jobs in the queue and these workers -/
def St.call (jobs : List Nat) (workers : List Worker) : St :=
  ⟨jobs.map .job, workers, workers.length, .submitting 0, [], 0⟩

/-- a worker makes a step, the caller makes a step, the `max_wait` of the caller is over, somebody submits a job after `sync_threadpool` is through.  (Part of the model of `sync_threadpool`, /repo/satella/coding/concurrent/sync.py:32-69.) -/
inductive Act where
  | worker (w : Nat)
  | main
  | timeout
  | submit (j : Nat)
  deriving DecidableEq, Repr

/-- a worker of the pool; in `decrease_atm`, /repo/satella/coding/concurrent/sync.py:55-58 -/
def St.workerStep (s : St) (w : Nat) : St :=
  match s.workers[w]? with
  | some .idle =>
    match s.queue with
    | [] => s
    | .job j :: q => { s with queue := q, workers := s.workers.set w (.job j) }
    | .sentinel :: q => { s with queue := q, workers := s.workers.set w .picked }
  | some (.job j) => { s with workers := s.workers.set w .idle, finished := j :: s.finished }
  | some .picked => { s with atm := s.atm - 1, workers := s.workers.set w .counted }
  | some .counted => { s with workers := s.workers.set w .waiting }
  | some .waiting => s
  | some .notified => { s with workers := s.workers.set w .idle, futures := s.futures + 1 }
  | none => s

/-- `notify_all`: who waits is notified.  (Part of the model of `sync_threadpool`, /repo/satella/coding/concurrent/sync.py:32-69.) -/
def notify : Worker → Worker
  | .waiting => .notified
  | x => x

/-- the caller, /repo/satella/coding/concurrent/sync.py:60-70 and :13-19 -/
def St.mainStep (s : St) : St :=
  match s.main with
  | .submitting k => if k < s.workers.length then { s with queue := s.queue ++ [.sentinel], main := .submitting (k + 1) } else { s with main := .polling }
  | .polling => if s.queue = [] then { s with main := .counting } else s
  | .counting => if s.atm = 0 then { s with main := .notifying } else s
  | .notifying => { s with workers := s.workers.map notify, main := .joining }
  | .joining => if s.futures = s.workers.length then { s with main := .returned } else s
  | _ => s

/-- the `max_wait` is over, /repo/satella/coding/concurrent/sync.py:12-20: the futures are cancelled, which takes those not begun out of the queue, and /repo/satella/coding/concurrent/sync.py:23-30 -/
def St.timeoutStep (s : St) : St :=
  match s.main with
  | .polling => if s.queue = [] then s else { s with queue := s.queue.filter (· ≠ .sentinel), main := .raised }
  | .counting => { s with main := .raised }
  | _ => s

/-- one step of a schedule, /repo/satella/coding/concurrent/sync.py:33-70 -/
def St.step (s : St) : Act → St
  | .worker w => s.workerStep w
  | .main => s.mainStep
  | .timeout => s.timeoutStep
  | .submit j => if s.main = .returned ∨ s.main = .raised then { s with queue := s.queue ++ [.job j] } else s

/-- a schedule.  (Part of the model of `sync_threadpool`, /repo/satella/coding/concurrent/sync.py:32-69.) -/
def St.run (s : St) (as : List Act) : St := as.foldl St.step s

/-! ## Safety -/

/-- the worker has decremented the number and is not through with `decrease_atm`.  (Part of the model of `sync_threadpool`, /repo/satella/coding/concurrent/sync.py:32-69.) -/
def Worker.down : Worker → Bool
  | .counted => true
  | .waiting => true
  | .notified => true
  | _ => false

/-- the worker is in `decrease_atm`.  (Part of the model of `sync_threadpool`, /repo/satella/coding/concurrent/sync.py:32-69.) -/
def Worker.inSentinel : Worker → Bool
  | .picked => true
  | w => w.down

/-- the caller has not notified yet.  (Part of the model of `sync_threadpool`, /repo/satella/coding/concurrent/sync.py:32-69.) -/
def Main.before : Main → Bool
  | .submitting _ => true
  | .polling => true
  | .counting => true
  | .notifying => true
  | _ => false

/-- the job is waiting, running or finished -/
def St.has (s : St) (j : Nat) : Prop := .job j ∈ s.queue ∨ .job j ∈ s.workers ∨ j ∈ s.finished

/-- what is true until the caller notifies: the number counts the workers that are down, no future is done, and once a worker is in `decrease_atm` no job is in the queue -/
structure Inv (n : Nat) (jobs : List Nat) (s : St) : Prop where
  len : s.workers.length = n
  has : ∀ j ∈ jobs, s.has j
  atm : s.main.before = true → s.atm = n - s.workers.countP Worker.down
  quiet : s.main.before = true → s.futures = 0 ∧ .notified ∉ s.workers
  order : s.main.before = true → ∃ (js : List Nat) (k : Nat), s.queue = js.map Task.job ++ List.replicate k Task.sentinel ∧ ((∃ w ∈ s.workers, w.inSentinel = true) → js = [])
  done : s.main = .notifying ∨ s.main = .joining ∨ s.main = .returned → ∀ j ∈ jobs, j ∈ s.finished

theorem mem_set_cases {ws : List Worker} {i : Nat} {x y : Worker} (h : y ∈ ws.set i x) : y ∈ ws ∨ y = x :=
  List.mem_or_eq_of_mem_set h

theorem mem_set_of_ne {ws : List Worker} {i : Nat} {x y old : Worker} (hi : ws[i]? = some old) (h : y ∈ ws) (hne : y ≠ old) : y ∈ ws.set i x := by
  obtain ⟨k, hk, rfl⟩ := List.getElem_of_mem h
  have : k ≠ i := by
    intro e
    subst e
    rw [List.getElem?_eq_getElem hk] at hi
    injection hi with hi
    exact hne hi
  rw [List.mem_iff_getElem]
  refine ⟨k, by simpa using hk, ?_⟩
  rw [List.getElem_set_ne (fun e => this e.symm)]

theorem mem_set_self {ws : List Worker} {i : Nat} {x old : Worker} (hi : ws[i]? = some old) : x ∈ ws.set i x := by
  have hk : i < ws.length := by
    rw [List.getElem?_eq_some_iff] at hi
    exact hi.1
  rw [List.mem_iff_getElem]
  exact ⟨i, by simpa using hk, by simp⟩

theorem count_set {ws : List Worker} {i : Nat} {x old : Worker} (hi : ws[i]? = some old) :
    (ws.set i x).countP Worker.down + (if old.down then 1 else 0) = ws.countP Worker.down + (if x.down then 1 else 0) := by
  induction ws generalizing i with
  | nil => simp at hi
  | cons w ws ih =>
    cases i with
    | zero =>
      simp at hi
      subst hi
      rw [List.set_cons_zero, List.countP_cons, List.countP_cons]
      omega
    | succ i =>
      rw [List.set_cons_succ, List.countP_cons, List.countP_cons]
      have := ih (i := i) (by simpa using hi)
      omega

theorem inv_worker (n : Nat) (jobs : List Nat) (s : St) (w : Nat) (h : Inv n jobs s) : Inv n jobs (s.workerStep w) := by
  unfold St.workerStep
  split
  · rename_i hw
    split
    · exact h
    · rename_i j q hq
      refine ⟨by simpa using h.len, ?_, ?_, ?_, ?_, h.done⟩
      · intro i hi
        rcases h.has i hi with hm | hm | hm
        · rw [hq] at hm
          rcases List.mem_cons.1 hm with e | hm
          · cases e; exact Or.inr (Or.inl (mem_set_self hw))
          · exact Or.inl hm
        · exact Or.inr (Or.inl (mem_set_of_ne hw hm (by simp)))
        · exact Or.inr (Or.inr hm)
      · intro hb
        have := h.atm hb
        have hc := count_set (x := .job j) hw
        simp [Worker.down] at hc
        dsimp only
        rw [hc]
        exact this
      · intro hb
        refine ⟨(h.quiet hb).1, ?_⟩
        intro hm
        rcases mem_set_cases hm with hm | hm
        · exact (h.quiet hb).2 hm
        · cases hm
      · intro hb
        obtain ⟨js, k, h1, h2⟩ := h.order hb
        rw [hq] at h1
        cases js with
        | nil =>
          cases k with
          | zero => simp at h1
          | succ k => simp [List.replicate_succ] at h1
        | cons i js =>
          simp only [List.map_cons, List.cons_append, List.cons.injEq] at h1
          refine ⟨js, k, h1.2, ?_⟩
          rintro ⟨x, hx, hs⟩
          rcases mem_set_cases hx with hx | hx
          · exact absurd (h2 ⟨x, hx, hs⟩) (by simp)
          · rw [hx] at hs; simp [Worker.inSentinel, Worker.down] at hs
    · rename_i q hq
      refine ⟨by simpa using h.len, ?_, ?_, ?_, ?_, h.done⟩
      · intro i hi
        rcases h.has i hi with hm | hm | hm
        · rw [hq] at hm
          rcases List.mem_cons.1 hm with e | hm
          · cases e
          · exact Or.inl hm
        · exact Or.inr (Or.inl (mem_set_of_ne hw hm (by simp)))
        · exact Or.inr (Or.inr hm)
      · intro hb
        have := h.atm hb
        have hc := count_set (x := .picked) hw
        simp [Worker.down] at hc
        dsimp only
        rw [hc]
        exact this
      · intro hb
        refine ⟨(h.quiet hb).1, ?_⟩
        intro hm
        rcases mem_set_cases hm with hm | hm
        · exact (h.quiet hb).2 hm
        · cases hm
      · intro hb
        obtain ⟨js, k, h1, h2⟩ := h.order hb
        rw [hq] at h1
        cases js with
        | cons i js => simp at h1
        | nil =>
          cases k with
          | zero => simp at h1
          | succ k =>
            simp only [List.map_nil, List.nil_append, List.replicate_succ, List.cons.injEq, true_and] at h1
            exact ⟨[], k, by simpa using h1, fun _ => rfl⟩
  · rename_i j hw
    refine ⟨by simpa using h.len, ?_, ?_, ?_, ?_, ?_⟩
    · intro i hi
      rcases h.has i hi with hm | hm | hm
      · exact Or.inl hm
      · by_cases he : i = j
        · subst he; exact Or.inr (Or.inr (List.mem_cons_self ..))
        · exact Or.inr (Or.inl (mem_set_of_ne hw hm (by simpa using he)))
      · exact Or.inr (Or.inr (List.mem_cons_of_mem _ hm))
    · intro hb
      have := h.atm hb
      have hc := count_set (x := .idle) hw
      simp [Worker.down] at hc
      dsimp only
      rw [hc]
      exact this
    · intro hb
      refine ⟨(h.quiet hb).1, ?_⟩
      intro hm
      rcases mem_set_cases hm with hm | hm
      · exact (h.quiet hb).2 hm
      · cases hm
    · intro hb
      obtain ⟨js, k, h1, h2⟩ := h.order hb
      refine ⟨js, k, h1, ?_⟩
      rintro ⟨x, hx, hs⟩
      rcases mem_set_cases hx with hx | hx
      · exact h2 ⟨x, hx, hs⟩
      · rw [hx] at hs; simp [Worker.inSentinel, Worker.down] at hs
    · intro hd i hi
      exact List.mem_cons_of_mem _ (h.done hd i hi)
  · rename_i hw
    refine ⟨by simpa using h.len, ?_, ?_, ?_, ?_, h.done⟩
    · intro i hi
      rcases h.has i hi with hm | hm | hm
      · exact Or.inl hm
      · exact Or.inr (Or.inl (mem_set_of_ne hw hm (by simp)))
      · exact Or.inr (Or.inr hm)
    · intro hb
      have := h.atm hb
      have hc := count_set (x := .counted) hw
      simp [Worker.down] at hc
      dsimp only
      rw [hc, this]
      omega
    · intro hb
      refine ⟨(h.quiet hb).1, ?_⟩
      intro hm
      rcases mem_set_cases hm with hm | hm
      · exact (h.quiet hb).2 hm
      · cases hm
    · intro hb
      obtain ⟨js, k, h1, h2⟩ := h.order hb
      exact ⟨js, k, h1, fun _ => h2 ⟨.picked, List.mem_of_getElem? hw, rfl⟩⟩
  · rename_i hw
    refine ⟨by simpa using h.len, ?_, ?_, ?_, ?_, h.done⟩
    · intro i hi
      rcases h.has i hi with hm | hm | hm
      · exact Or.inl hm
      · exact Or.inr (Or.inl (mem_set_of_ne hw hm (by simp)))
      · exact Or.inr (Or.inr hm)
    · intro hb
      have := h.atm hb
      have hc := count_set (x := .waiting) hw
      simp [Worker.down] at hc
      dsimp only
      rw [hc]
      exact this
    · intro hb
      refine ⟨(h.quiet hb).1, ?_⟩
      intro hm
      rcases mem_set_cases hm with hm | hm
      · exact (h.quiet hb).2 hm
      · cases hm
    · intro hb
      obtain ⟨js, k, h1, h2⟩ := h.order hb
      exact ⟨js, k, h1, fun _ => h2 ⟨.counted, List.mem_of_getElem? hw, rfl⟩⟩
  · exact h
  · rename_i hw
    have nb : ¬ s.main.before = true := fun hb => (h.quiet hb).2 (List.mem_of_getElem? hw)
    refine ⟨by simpa using h.len, ?_, fun hb => absurd hb nb, fun hb => absurd hb nb, fun hb => absurd hb nb, h.done⟩
    intro i hi
    rcases h.has i hi with hm | hm | hm
    · exact Or.inl hm
    · exact Or.inr (Or.inl (mem_set_of_ne hw hm (by simp)))
    · exact Or.inr (Or.inr hm)
  · exact h

theorem inv_main (n : Nat) (hn : 0 < n) (jobs : List Nat) (s : St) (h : Inv n jobs s) : Inv n jobs s.mainStep := by
  unfold St.mainStep
  split
  · rename_i k hm
    have hb : s.main.before = true := by rw [hm]; rfl
    split
    · refine ⟨h.len, ?_, fun _ => h.atm hb, fun _ => h.quiet hb, ?_, by simp⟩
      · intro j hj
        rcases h.has j hj with x | x | x
        · exact Or.inl (List.mem_append_left _ x)
        · exact Or.inr (Or.inl x)
        · exact Or.inr (Or.inr x)
      · intro _
        obtain ⟨js, k, h1, h2⟩ := h.order hb
        refine ⟨js, k + 1, ?_, h2⟩
        dsimp only
        rw [h1, List.append_assoc, List.replicate_succ']
    · exact ⟨h.len, h.has, fun _ => h.atm hb, fun _ => h.quiet hb, fun _ => h.order hb, by simp⟩
  · rename_i hm
    have hb : s.main.before = true := by rw [hm]; rfl
    split
    · exact ⟨h.len, h.has, fun _ => h.atm hb, fun _ => h.quiet hb, fun _ => h.order hb, by simp⟩
    · exact h
  · rename_i hm
    have hb : s.main.before = true := by rw [hm]; rfl
    split
    · rename_i h0
      refine ⟨h.len, h.has, fun _ => h.atm hb, fun _ => h.quiet hb, fun _ => h.order hb, ?_⟩
      intro _ j hj
      have hc : s.workers.countP Worker.down = s.workers.length := by
        have := h.atm hb
        have := h.len
        omega
      rw [List.countP_eq_length] at hc
      rcases h.has j hj with x | x | x
      · obtain ⟨js, k, h1, h2⟩ := h.order hb
        have hw : ∃ w ∈ s.workers, w.inSentinel = true := by
          have hl := h.len
          have : 0 < s.workers.length := by omega
          refine ⟨s.workers[0], List.getElem_mem _, ?_⟩
          have := hc s.workers[0] (List.getElem_mem _)
          unfold Worker.inSentinel
          split
          · rfl
          · exact this
        rw [h1, h2 hw] at x
        simp at x
      · have := hc _ x
        simp [Worker.down] at this
      · exact x
    · exact h
  · rename_i hm
    refine ⟨by simpa using h.len, ?_, by simp [Main.before], by simp [Main.before], by simp [Main.before], fun _ => h.done (Or.inl hm)⟩
    intro j hj
    rcases h.has j hj with x | x | x
    · exact Or.inl x
    · exact Or.inr (Or.inl (List.mem_map.2 ⟨_, x, rfl⟩))
    · exact Or.inr (Or.inr x)
  · rename_i hm
    split
    · exact ⟨h.len, h.has, by simp [Main.before], by simp [Main.before], by simp [Main.before], fun _ => h.done (Or.inr (Or.inl hm))⟩
    · exact h
  · exact h

theorem inv_timeout (n : Nat) (jobs : List Nat) (s : St) (h : Inv n jobs s) : Inv n jobs s.timeoutStep := by
  unfold St.timeoutStep
  split
  · split
    · exact h
    · refine ⟨h.len, ?_, by simp [Main.before], by simp [Main.before], by simp [Main.before], by simp⟩
      intro j hj
      rcases h.has j hj with x | x | x
      · exact Or.inl (List.mem_filter.2 ⟨x, by simp⟩)
      · exact Or.inr (Or.inl x)
      · exact Or.inr (Or.inr x)
  · exact ⟨h.len, h.has, by simp [Main.before], by simp [Main.before], by simp [Main.before], by simp⟩
  · exact h

theorem inv_step (n : Nat) (hn : 0 < n) (jobs : List Nat) (s : St) (a : Act) (h : Inv n jobs s) : Inv n jobs (s.step a) := by
  cases a with
  | worker w => exact inv_worker n jobs s w h
  | main => exact inv_main n hn jobs s h
  | timeout => exact inv_timeout n jobs s h
  | submit j =>
    simp only [St.step]
    split
    · rename_i hm
      have nb : ¬ s.main.before = true := by rcases hm with e | e <;> rw [e] <;> simp [Main.before]
      refine ⟨h.len, ?_, fun hb => absurd hb nb, fun hb => absurd hb nb, fun hb => absurd hb nb, h.done⟩
      intro i hi
      rcases h.has i hi with x | x | x
      · exact Or.inl (List.mem_append_left _ x)
      · exact Or.inr (Or.inl x)
      · exact Or.inr (Or.inr x)
    · exact h

/-- the jobs the workers are running -/
def running (ws : List Worker) : List Nat := ws.filterMap (fun w => match w with | .job j => some j | _ => none)

theorem inv_call (jobs : List Nat) (ws : List Worker) (hw : ∀ w ∈ ws, w = .idle ∨ ∃ j, w = .job j) :
    Inv ws.length (jobs ++ running ws) (St.call jobs ws) := by
  have nodown : ws.countP Worker.down = 0 := by
    rw [List.countP_eq_zero]
    intro w hm
    rcases hw w hm with rfl | ⟨j, rfl⟩ <;> simp [Worker.down]
  refine ⟨rfl, ?_, ?_, ?_, ?_, by simp [St.call]⟩
  · intro j hj
    rcases List.mem_append.1 hj with hj | hj
    · exact Or.inl (List.mem_map.2 ⟨j, hj, rfl⟩)
    · right; left
      unfold running at hj
      rw [List.mem_filterMap] at hj
      obtain ⟨w, hm, he⟩ := hj
      split at he
      · injection he with he; subst he; exact hm
      · cases he
  · intro _
    show (ws.length : Int) = ws.length - ws.countP Worker.down
    rw [nodown]; simp
  · intro _
    refine ⟨rfl, ?_⟩
    intro hm
    rcases hw _ hm with e | ⟨j, e⟩ <;> cases e
  · intro _
    refine ⟨jobs, 0, by simp [St.call], ?_⟩
    rintro ⟨w, hm, hs⟩
    rcases hw w hm with rfl | ⟨j, rfl⟩ <;> simp [Worker.inSentinel, Worker.down] at hs

/-- **C66, safety.** Whatever the schedule, when `sync_threadpool` has returned, every job that was waiting or running when it was called is finished. -/
theorem C66_synced (jobs : List Nat) (ws : List Worker) (hne : ws ≠ []) (hw : ∀ w ∈ ws, w = .idle ∨ ∃ j, w = .job j) (as : List Act)
    (h : ((St.call jobs ws).run as).main = .returned) : ∀ j ∈ jobs ++ running ws, j ∈ ((St.call jobs ws).run as).finished := by
  have hn : 0 < ws.length := List.length_pos_iff.2 hne
  have : ∀ (l : List Act) (s : St), Inv ws.length (jobs ++ running ws) s → Inv ws.length (jobs ++ running ws) (s.run l) := by
    intro l
    induction l with
    | nil => exact fun s h => h
    | cons a l ih => exact fun s h => ih _ (inv_step _ hn _ s a h)
  exact (this as _ (inv_call jobs ws hw)).done (Or.inr (Or.inr h))

/-! ## Does it return? -/

/-- **C66, violated by a late worker**: a worker that has decremented the number but not begun to wait misses the notification; from then on no schedule lets `sync_threadpool` return, nor the worker take another task. -/
theorem C66_hangs_violates : ∃ as, ((St.call [] [.idle]).run as).main = .joining ∧
    ∀ bs, (((St.call [] [.idle]).run as).run bs).main = .joining ∧ (((St.call [] [.idle]).run as).run bs).workers = [.waiting] := by
  refine ⟨[.main, .main, .worker 0, .worker 0, .main, .main, .main, .worker 0], by decide, ?_⟩
  have h0 : (St.call [] [.idle]).run [.main, .main, .worker 0, .worker 0, .main, .main, .main, .worker 0] = ⟨[], [.waiting], 0, .joining, [], 0⟩ := by decide
  rw [h0]
  intro bs
  have key : ∀ (l : List Act), (⟨[], [.waiting], 0, .joining, [], 0⟩ : St).run l = ⟨[], [.waiting], 0, .joining, [], 0⟩ := by
    intro l
    induction l with
    | nil => rfl
    | cons a l ih =>
      have : (⟨[], [.waiting], 0, .joining, [], 0⟩ : St).step a = ⟨[], [.waiting], 0, .joining, [], 0⟩ := by
        cases a with
        | worker w => cases w <;> simp [St.step, St.workerStep]
        | main => decide
        | timeout => decide
        | submit j => simp [St.step]
      show (St.step _ a).run l = _
      rw [this]
      exact ih
  rw [key bs]
  exact ⟨rfl, rfl⟩

/-- **C66, violated by the timeout**: when `sync_threadpool` gives up with WouldWaitMore, the workers that were in `decrease_atm` are never notified: here one of two workers never takes a task again, whatever is submitted afterwards. -/
theorem C66_timeout_violates : ∃ as, ((St.call [7] [.idle, .idle]).run as).main = .raised ∧
    ∀ bs, (((St.call [7] [.idle, .idle]).run as).run bs).workers[1]? = some .waiting := by
  refine ⟨[.main, .main, .main, .worker 0, .worker 1, .worker 1, .worker 1, .timeout], by decide, ?_⟩
  have h0 : (St.call [7] [.idle, .idle]).run [.main, .main, .main, .worker 0, .worker 1, .worker 1, .worker 1, .timeout] =
      ⟨[], [.job 7, .waiting], 1, .raised, [], 0⟩ := by decide
  rw [h0]
  intro bs
  have key : ∀ (l : List Act) (s : St), s.main = .raised → s.workers[1]? = some .waiting → (s.run l).workers[1]? = some .waiting := by
    intro l
    induction l with
    | nil => exact fun s _ h => h
    | cons a l ih =>
      intro s hm hw
      have hset : ∀ w x, s.workers[w]? ≠ some .waiting → (s.workers.set w x)[1]? = some .waiting := by
        intro w x h
        by_cases hw1 : w = 1
        · subst hw1; exact absurd hw h
        · rw [List.getElem?_set_ne hw1]; exact hw
      have : (s.step a).main = .raised ∧ (s.step a).workers[1]? = some .waiting := by
        cases a with
        | worker w =>
          simp only [St.step, St.workerStep]
          split
          · rename_i h
            split
            · exact ⟨hm, hw⟩
            · exact ⟨hm, hset w _ (by rw [h]; simp)⟩
            · exact ⟨hm, hset w _ (by rw [h]; simp)⟩
          · rename_i h; exact ⟨hm, hset w _ (by rw [h]; simp)⟩
          · rename_i h; exact ⟨hm, hset w _ (by rw [h]; simp)⟩
          · rename_i h; exact ⟨hm, hset w _ (by rw [h]; simp)⟩
          · exact ⟨hm, hw⟩
          · rename_i h; exact ⟨hm, hset w _ (by rw [h]; simp)⟩
          · exact ⟨hm, hw⟩
        | main => simp [St.step, St.mainStep, hm, hw]
        | timeout => simp [St.step, St.timeoutStep, hm, hw]
        | submit j => simp [St.step, hm, hw]
      exact ih _ this.1 this.2
  exact key bs _ rfl rfl

/-- no worker is between the decrement and the wait when the caller notifies -/
def Prompt (s : St) : Act → Prop
  | .main => s.main = .notifying → .counted ∉ s.workers
  | _ => True

/-- the guard holds all along the schedule -/
def PromptAll : St → List Act → Prop
  | _, [] => True
  | s, a :: as => Prompt s a ∧ PromptAll (s.step a) as

/-- what is true in addition when the guard was kept: after the notification, a worker is either through or notified -/
structure Fine (n : Nat) (s : St) : Prop where
  len : s.workers.length = n
  atm : s.main.before = true → s.atm = n - s.workers.countP Worker.down
  quiet : s.main.before = true → s.futures = 0 ∧ .notified ∉ s.workers
  all : s.main = .notifying → ∀ w ∈ s.workers, w.down = true
  after : s.main = .joining → (∀ w ∈ s.workers, w = .notified ∨ w = .idle) ∧ s.queue = [] ∧ s.futures + s.workers.countP (· = .notified) = n
  empty : s.main = .counting ∨ s.main = .notifying → s.queue = []

theorem count_notified {ws : List Worker} {i : Nat} (hi : ws[i]? = some .notified) :
    (ws.set i .idle).countP (· = .notified) + 1 = ws.countP (· = .notified) := by
  induction ws generalizing i with
  | nil => simp at hi
  | cons w ws ih =>
    cases i with
    | zero =>
      simp at hi
      subst hi
      rw [List.set_cons_zero, List.countP_cons, List.countP_cons]
      simp
    | succ i =>
      rw [List.set_cons_succ, List.countP_cons, List.countP_cons]
      have := ih (i := i) (by simpa using hi)
      omega

theorem fine_step (n : Nat) (s : St) (a : Act) (h : Fine n s) (ha : Prompt s a) : Fine n (s.step a) := by
  cases a with
  | worker w =>
    simp only [St.step, St.workerStep]
    -- a change of one worker that is not notified, with the number kept in step
    have change : ∀ (old x : Worker) (q : List Task) (atm : Int) (fin : List Nat), s.workers[w]? = some old → old ≠ .notified → x ≠ .notified →
        (s.main.before = true → atm = n - (s.workers.set w x).countP Worker.down) →
        (old.down = true → x.down = true) → (old ≠ .idle ∨ s.queue ≠ []) → (s.queue = [] → q = []) →
        Fine n { s with workers := s.workers.set w x, atm := atm, queue := q, finished := fin } := by
      intro old x q atm fin hw ho hx hat hd hne hq
      refine ⟨by simpa using h.len, hat, ?_, ?_, ?_, fun hm => hq (h.empty hm)⟩
      · intro hb
        refine ⟨(h.quiet hb).1, fun hm => ?_⟩
        rcases mem_set_cases hm with hm | hm
        · exact (h.quiet hb).2 hm
        · exact hx hm.symm
      · intro hm y hy
        rcases mem_set_cases hy with hy | hy
        · exact h.all hm y hy
        · rw [hy]; exact hd (h.all hm old (List.mem_of_getElem? hw))
      · intro hm
        have hold := (h.after hm).1 old (List.mem_of_getElem? hw)
        rcases hold with e | e
        · exact absurd e ho
        · rcases hne with hne | hne
          · exact absurd e hne
          · exact absurd (h.after hm).2.1 hne
    split
    · rename_i hw
      split
      · exact h
      · rename_i j q hq
        refine change .idle (.job j) q s.atm s.finished hw (by simp) (by simp) ?_ (by simp [Worker.down]) (Or.inr (by rw [hq]; simp)) (by rw [hq]; simp)
        intro hb
        have hc := count_set (x := .job j) hw
        simp [Worker.down] at hc
        rw [hc]; exact h.atm hb
      · rename_i q hq
        refine change .idle .picked q s.atm s.finished hw (by simp) (by simp) ?_ (by simp [Worker.down]) (Or.inr (by rw [hq]; simp)) (by rw [hq]; simp)
        intro hb
        have hc := count_set (x := .picked) hw
        simp [Worker.down] at hc
        rw [hc]; exact h.atm hb
    · rename_i j hw
      refine change (.job j) .idle s.queue s.atm (j :: s.finished) hw (by simp) (by simp) ?_ (by simp [Worker.down]) (Or.inl (by simp)) id
      intro hb
      have hc := count_set (x := .idle) hw
      simp [Worker.down] at hc
      rw [hc]; exact h.atm hb
    · rename_i hw
      refine change .picked .counted s.queue (s.atm - 1) s.finished hw (by simp) (by simp) ?_ (by simp [Worker.down]) (Or.inl (by simp)) id
      intro hb
      have hc := count_set (x := .counted) hw
      simp [Worker.down] at hc
      rw [hc, h.atm hb]; omega
    · rename_i hw
      refine change .counted .waiting s.queue s.atm s.finished hw (by simp) (by simp) ?_ (by simp [Worker.down]) (Or.inl (by simp)) id
      intro hb
      have hc := count_set (x := .waiting) hw
      simp [Worker.down] at hc
      rw [hc]; exact h.atm hb
    · exact h
    · rename_i hw
      have nb : ¬ s.main.before = true := fun hb => (h.quiet hb).2 (List.mem_of_getElem? hw)
      have nn : ∀ m : Main, m.before = true → s.main ≠ m := fun m hm e => nb (by rw [e]; exact hm)
      refine ⟨by simpa using h.len, fun hb => absurd hb nb, fun hb => absurd hb nb, fun hm => absurd hm (nn .notifying rfl), ?_, ?_⟩
      · intro hm
        obtain ⟨h1, h2, h3⟩ := h.after hm
        refine ⟨?_, h2, ?_⟩
        · intro y hy
          rcases mem_set_cases hy with hy | hy
          · exact h1 y hy
          · exact Or.inr hy
        · have := count_notified hw
          dsimp only
          omega
      · rintro (hm | hm)
        · exact absurd hm (nn .counting rfl)
        · exact absurd hm (nn .notifying rfl)
    · exact h
  | main =>
    simp only [St.step, St.mainStep]
    split
    · rename_i k hm
      have hb : s.main.before = true := by rw [hm]; rfl
      split
      · exact ⟨h.len, fun _ => h.atm hb, fun _ => h.quiet hb, by simp, by simp, by simp⟩
      · exact ⟨h.len, fun _ => h.atm hb, fun _ => h.quiet hb, by simp, by simp, by simp⟩
    · rename_i hm
      have hb : s.main.before = true := by rw [hm]; rfl
      split
      · rename_i hq
        exact ⟨h.len, fun _ => h.atm hb, fun _ => h.quiet hb, by simp, by simp, fun _ => hq⟩
      · exact h
    · rename_i hm
      have hb : s.main.before = true := by rw [hm]; rfl
      split
      · rename_i h0
        refine ⟨h.len, fun _ => h.atm hb, fun _ => h.quiet hb, ?_, by simp, fun _ => h.empty (Or.inl hm)⟩
        intro _
        have hc : s.workers.countP Worker.down = s.workers.length := by
          have := h.atm hb
          have := h.len
          omega
        exact List.countP_eq_length.1 hc
      · exact h
    · rename_i hm
      have hb : s.main.before = true := by rw [hm]; rfl
      have hp := ha hm
      have allw : ∀ w ∈ s.workers, w = .waiting := by
        intro w hw
        have hd := h.all hm w hw
        have hn := (h.quiet hb).2
        cases w with
        | waiting => rfl
        | counted => exact absurd hw hp
        | notified => exact absurd hw hn
        | _ => simp [Worker.down] at hd
      have alln : ∀ w ∈ s.workers.map notify, w = .notified := by
        intro w hw
        obtain ⟨x, hx, rfl⟩ := List.mem_map.1 hw
        rw [allw x hx]; rfl
      refine ⟨by simpa using h.len, by simp [Main.before], by simp [Main.before], by simp, ?_, by simp⟩
      intro _
      refine ⟨fun w hw => Or.inl (alln w hw), h.empty (Or.inr hm), ?_⟩
      have hc : (s.workers.map notify).countP (· = .notified) = (s.workers.map notify).length := by
        rw [List.countP_eq_length]
        intro w hw
        simp [alln w hw]
      dsimp only
      rw [hc, (h.quiet hb).1]
      simpa using h.len
    · split
      · exact ⟨h.len, by simp [Main.before], by simp [Main.before], by simp, by simp, by simp⟩
      · exact h
    · exact h
  | timeout =>
    simp only [St.step, St.timeoutStep]
    split
    · split
      · exact h
      · exact ⟨h.len, by simp [Main.before], by simp [Main.before], by simp, by simp, by simp⟩
    · exact ⟨h.len, by simp [Main.before], by simp [Main.before], by simp, by simp, by simp⟩
    · exact h
  | submit j =>
    simp only [St.step]
    split
    · rename_i hm
      have nb : ¬ s.main.before = true := by rcases hm with e | e <;> rw [e] <;> simp [Main.before]
      refine ⟨h.len, fun hb => absurd hb nb, fun hb => absurd hb nb, ?_, ?_, ?_⟩
      · intro e; rcases hm with e' | e' <;> rw [e'] at e <;> cases e
      · intro e; rcases hm with e' | e' <;> rw [e'] at e <;> cases e
      · rintro (e | e) <;> rcases hm with e' | e' <;> rw [e'] at e <;> cases e
    · exact h

/-- **C66, progress** (partial: when the caller notifies, no worker is between its decrement and its wait). Once the caller has notified, it returns as soon as each worker has made one more step, and no worker is left in `decrease_atm`. -/
theorem C66_returns_partial (jobs : List Nat) (ws : List Worker) (hw : ∀ w ∈ ws, w = .idle ∨ ∃ j, w = .job j) (as : List Act)
    (hp : PromptAll (St.call jobs ws) as) (hm : ((St.call jobs ws).run as).main = .joining) :
    let s := ((((St.call jobs ws).run as).run ((List.range ws.length).map .worker)).step .main)
    s.main = .returned ∧ ∀ w ∈ s.workers, w = .idle := by
  have hf : Fine ws.length ((St.call jobs ws).run as) := by
    have : ∀ (l : List Act) (s : St), Fine ws.length s → PromptAll s l → Fine ws.length (s.run l) := by
      intro l
      induction l with
      | nil => exact fun s h _ => h
      | cons a l ih => exact fun s h hl => ih _ (fine_step _ s a h hl.1) hl.2
    refine this as _ ?_ hp
    have hi := inv_call jobs ws hw
    exact ⟨hi.len, hi.atm, hi.quiet, by simp [St.call], by simp [St.call], by simp [St.call]⟩
  generalize (St.call jobs ws).run as = s at hf hm
  -- running the workers `0 .. k-1` leaves them idle
  have key : ∀ k, k ≤ ws.length → let s' := s.run ((List.range k).map .worker)
      Fine ws.length s' ∧ s'.main = .joining ∧ ∀ i, i < k → s'.workers[i]? = some .idle := by
    intro k
    induction k with
    | zero => exact fun _ => ⟨hf, hm, by simp⟩
    | succ k ih =>
      intro hk
      have hrun : s.run ((List.range (k + 1)).map .worker) = (s.run ((List.range k).map .worker)).step (.worker k) := by
        unfold St.run
        rw [List.range_succ, List.map_append, List.foldl_append]
        rfl
      intro s'
      have hs' : s' = (s.run ((List.range k).map .worker)).step (.worker k) := hrun
      obtain ⟨i1, i2, i3⟩ := ih (by omega)
      rw [hs']
      generalize s.run ((List.range k).map .worker) = s1 at i1 i2 i3
      have hkl : k < s1.workers.length := by have := i1.len; omega
      refine ⟨fine_step _ s1 (.worker k) i1 trivial, ?_, ?_⟩
      · have hk' := (i1.after i2).1 s1.workers[k] (List.getElem_mem _)
        have hk2 : s1.workers[k]? = some s1.workers[k] := List.getElem?_eq_getElem hkl
        have hq := (i1.after i2).2.1
        rcases hk' with e | e <;> rw [e] at hk2 <;> simp [St.step, St.workerStep, hk2, hq, i2]
      · have hk' := (i1.after i2).1 s1.workers[k] (List.getElem_mem _)
        have hk2 : s1.workers[k]? = some s1.workers[k] := List.getElem?_eq_getElem hkl
        have hq := (i1.after i2).2.1
        intro i hi
        by_cases hik : i = k
        · subst hik
          rcases hk' with e | e <;> rw [e] at hk2
          · simp only [St.step, St.workerStep, hk2]
            rw [List.getElem?_set_self (by omega)]
          · simp [St.step, St.workerStep, hk2, hq]
        · have := i3 i (by omega)
          rcases hk' with e | e <;> rw [e] at hk2
          · simp only [St.step, St.workerStep, hk2]
            rw [List.getElem?_set_ne (fun e => hik e.symm)]
            exact this
          · simp [St.step, St.workerStep, hk2, hq, this]
  obtain ⟨i1, i2, i3⟩ := key ws.length (Nat.le_refl _)
  generalize s.run ((List.range ws.length).map .worker) = s1 at i1 i2 i3
  have hidle : ∀ w ∈ s1.workers, w = .idle := by
    intro w hw
    obtain ⟨k, hk, rfl⟩ := List.getElem_of_mem hw
    have := i3 k (by have := i1.len; omega)
    rw [List.getElem?_eq_getElem hk] at this
    injection this
  have hc : s1.workers.countP (· = .notified) = 0 := by
    rw [List.countP_eq_zero]
    intro w hw
    simp [hidle w hw]
  have hfut : s1.futures = s1.workers.length := by
    have := (i1.after i2).2.2
    have := i1.len
    omega
  show (s1.step .main).main = .returned ∧ ∀ w ∈ (s1.step .main).workers, w = .idle
  simp only [St.step, St.mainStep, i2, hfut, if_true]
  exact ⟨trivial, hidle⟩

/-! ## Progress until the notification -/

/-- how many steps a task in the queue still needs, at most -/
def Task.left : Task → Nat
  | .job _ => 2
  | .sentinel => 5

/-- how many steps a worker still needs with what it does, at most -/
def Worker.left : Worker → Nat
  | .idle => 0
  | .job _ => 1
  | .picked => 4
  | .counted => 3
  | .waiting => 2
  | .notified => 1

/-- how many steps the caller still needs, at most, with those of the tasks it will submit -/
def Main.left (n : Nat) : Main → Nat
  | .submitting k => (n - k) * 6 + 5
  | .polling => 4
  | .counting => 3
  | .notifying => 2
  | .joining => 1
  | .returned => 0
  | .raised => 0

/-- how many steps there still are, at most -/
def St.left (s : St) : Nat := (s.queue.map Task.left).sum + (s.workers.map Worker.left).sum + s.main.left s.workers.length

/-- a schedule in which each step changes something, and nobody submits jobs afterwards -/
def BusyAll : St → List Act → Prop
  | _, [] => True
  | s, a :: as => s.step a ≠ s ∧ (∀ j, a ≠ .submit j) ∧ BusyAll (s.step a) as

theorem sum_set {ws : List Worker} {i : Nat} {x old : Worker} (hi : ws[i]? = some old) :
    ((ws.set i x).map Worker.left).sum + old.left = (ws.map Worker.left).sum + x.left := by
  induction ws generalizing i with
  | nil => simp at hi
  | cons w ws ih =>
    cases i with
    | zero =>
      simp at hi
      subst hi
      simp only [List.set_cons_zero, List.map_cons, List.sum_cons]
      omega
    | succ i =>
      simp only [List.set_cons_succ, List.map_cons, List.sum_cons]
      have := ih (i := i) (by simpa using hi)
      omega

theorem sum_notify (ws : List Worker) : ((ws.map notify).map Worker.left).sum ≤ (ws.map Worker.left).sum := by
  induction ws with
  | nil => simp
  | cons w ws ih =>
    simp only [List.map_cons, List.sum_cons]
    have : (notify w).left ≤ w.left := by cases w <;> simp [notify, Worker.left]
    omega

theorem sum_filter (q : List Task) : ((q.filter (· ≠ .sentinel)).map Task.left).sum ≤ (q.map Task.left).sum := by
  induction q with
  | nil => simp
  | cons a q ih =>
    rw [List.filter_cons]
    split
    · simp only [List.map_cons, List.sum_cons]; omega
    · simp only [List.map_cons, List.sum_cons]; omega

theorem left_step (s : St) (a : Act) (h : s.step a ≠ s) (ha : ∀ j, a ≠ .submit j) : (s.step a).left < s.left := by
  cases a with
  | submit j => exact absurd rfl (ha j)
  | worker w =>
    simp only [St.step, St.workerStep] at h ⊢
    unfold St.left
    split at h
    · rename_i hw
      split at h
      · exact absurd rfl h
      · rename_i j q hq
        have := sum_set (x := .job j) hw
        simp [hq, Task.left, Worker.left] at this ⊢
        omega
      · rename_i q hq
        have := sum_set (x := .picked) hw
        simp [hq, Task.left, Worker.left] at this ⊢
        omega
    · rename_i j hw
      have := sum_set (x := .idle) hw
      simp [Worker.left] at this ⊢
      omega
    · rename_i hw
      have := sum_set (x := .counted) hw
      simp [Worker.left] at this ⊢
      omega
    · rename_i hw
      have := sum_set (x := .waiting) hw
      simp [Worker.left] at this ⊢
      omega
    · exact absurd rfl h
    · rename_i hw
      have := sum_set (x := .idle) hw
      simp [Worker.left] at this ⊢
      omega
    · exact absurd rfl h
  | main =>
    simp only [St.step, St.mainStep] at h ⊢
    unfold St.left
    split at h
    · rename_i k hm
      by_cases hk : k < s.workers.length
      · simp [hm, hk, Task.left, Main.left]
        omega
      · simp [hm, hk, Main.left]
    · rename_i hm
      by_cases hq : s.queue = []
      · simp [hm, hq, Main.left]
      · simp [hq] at h
    · rename_i hm
      by_cases hq : s.atm = 0
      · simp [hm, hq, Main.left]
      · simp [hq] at h
    · rename_i hm
      have := sum_notify s.workers
      simp only [hm, Main.left]
      omega
    · rename_i hm
      by_cases hq : s.futures = s.workers.length
      · simp [hm, hq, Main.left]
      · simp [hq] at h
    · exact absurd rfl h
  | timeout =>
    simp only [St.step, St.timeoutStep] at h ⊢
    unfold St.left
    split at h
    · rename_i hm
      by_cases hq : s.queue = []
      · simp [hq] at h
      · have := sum_filter s.queue
        simp only [hm, hq, if_false, Main.left]
        omega
    · rename_i hm
      simp [hm, Main.left]
    · exact absurd rfl h

/-- how many tasks the caller has submitted -/
def Main.submitted (n : Nat) : Main → Nat
  | .submitting k => k
  | _ => n

/-- until the notification, the tasks submitted are in the queue or with a worker each -/
structure Counted (n : Nat) (s : St) : Prop where
  count : s.main.before = true → s.queue.countP (· = .sentinel) + s.workers.countP Worker.inSentinel = s.main.submitted n
  bound : ∀ k, s.main = .submitting k → k ≤ n

theorem countIn_set {ws : List Worker} {i : Nat} {x old : Worker} (hi : ws[i]? = some old) :
    (ws.set i x).countP Worker.inSentinel + (if old.inSentinel then 1 else 0) = ws.countP Worker.inSentinel + (if x.inSentinel then 1 else 0) := by
  induction ws generalizing i with
  | nil => simp at hi
  | cons w ws ih =>
    cases i with
    | zero =>
      simp at hi
      subst hi
      rw [List.set_cons_zero, List.countP_cons, List.countP_cons]
      omega
    | succ i =>
      rw [List.set_cons_succ, List.countP_cons, List.countP_cons]
      have := ih (i := i) (by simpa using hi)
      omega

theorem counted_step (n : Nat) (jobs : List Nat) (s : St) (a : Act) (hi : Inv n jobs s) (h : Counted n s) : Counted n (s.step a) := by
  cases a with
  | submit j =>
    simp only [St.step]
    split
    · rename_i hm
      refine ⟨?_, h.bound⟩
      rcases hm with hm | hm <;> simp [hm, Main.before]
    · exact h
  | timeout =>
    simp only [St.step, St.timeoutStep]
    split
    · split
      · exact h
      · exact ⟨by simp [Main.before], by simp⟩
    · exact ⟨by simp [Main.before], by simp⟩
    · exact h
  | main =>
    simp only [St.step, St.mainStep]
    split
    · rename_i k hm
      have hc := h.count (by rw [hm]; rfl)
      rw [hm] at hc
      simp only [Main.submitted] at hc
      split
      · rename_i hk
        refine ⟨fun _ => ?_, ?_⟩
        · simp only [Main.submitted]
          rw [List.countP_append]
          simp
          omega
        · intro k' hk'
          injection hk' with hk'
          have := hi.len
          omega
      · rename_i hk
        have := h.bound k hm
        have := hi.len
        refine ⟨fun _ => ?_, by simp⟩
        simp only [Main.submitted]
        omega
    · rename_i hm
      have hc := h.count (by rw [hm]; rfl)
      rw [hm] at hc
      split
      · exact ⟨fun _ => hc, by simp⟩
      · exact h
    · rename_i hm
      have hc := h.count (by rw [hm]; rfl)
      rw [hm] at hc
      split
      · exact ⟨fun _ => hc, by simp⟩
      · exact h
    · exact ⟨by simp [Main.before], by simp⟩
    · split
      · exact ⟨by simp [Main.before], by simp⟩
      · exact h
    · exact h
  | worker w =>
    simp only [St.step, St.workerStep]
    split
    · rename_i hw
      split
      · exact h
      · rename_i j q hq
        refine ⟨fun hb => ?_, h.bound⟩
        have hc := h.count hb
        have := countIn_set (x := .job j) hw
        simp [hq, Worker.inSentinel, Worker.down] at hc this ⊢
        omega
      · rename_i q hq
        refine ⟨fun hb => ?_, h.bound⟩
        have hc := h.count hb
        have := countIn_set (x := .picked) hw
        simp [hq, Worker.inSentinel, Worker.down] at hc this ⊢
        omega
    · rename_i j hw
      refine ⟨fun hb => ?_, h.bound⟩
      have hc := h.count hb
      have := countIn_set (x := .idle) hw
      simp [Worker.inSentinel, Worker.down] at hc this ⊢
      omega
    · rename_i hw
      refine ⟨fun hb => ?_, h.bound⟩
      have hc := h.count hb
      have := countIn_set (x := .counted) hw
      simp [Worker.inSentinel, Worker.down] at hc this ⊢
      omega
    · rename_i hw
      refine ⟨fun hb => ?_, h.bound⟩
      have hc := h.count hb
      have := countIn_set (x := .waiting) hw
      simp [Worker.inSentinel, Worker.down] at hc this ⊢
      omega
    · exact h
    · rename_i hw
      refine ⟨fun hb => ?_, h.bound⟩
      exact absurd (List.mem_of_getElem? hw) (hi.quiet hb).2
    · exact h

theorem worker_moves (s : St) (w : Worker) (hw : w ∈ s.workers) (h1 : w ≠ .waiting) (h2 : w ≠ .idle ∨ s.queue ≠ []) : ∃ i, s.step (.worker i) ≠ s := by
  obtain ⟨i, hi, rfl⟩ := List.getElem_of_mem hw
  refine ⟨i, fun e => ?_⟩
  have hg : s.workers[i]? = some s.workers[i] := List.getElem?_eq_getElem hi
  have hl : ∀ x, (s.step (.worker i)).workers = s.workers.set i x → x ≠ s.workers[i] → False := by
    intro x hx hne
    rw [e] at hx
    have := congrArg (fun l : List Worker => l[i]?) hx
    simp only [List.getElem?_set_self hi, hg] at this
    injection this with this
    exact hne this.symm
  cases hc : s.workers[i] with
  | idle =>
    rw [hc] at hg h2
    rcases h2 with h2 | h2
    · exact h2 rfl
    · cases hq : s.queue with
      | nil => exact h2 hq
      | cons a q =>
        cases a with
        | job j => exact hl (.job j) (by simp [St.step, St.workerStep, hg, hq]) (by rw [hc]; simp)
        | sentinel => exact hl .picked (by simp [St.step, St.workerStep, hg, hq]) (by rw [hc]; simp)
  | job j => rw [hc] at hg; exact hl .idle (by simp [St.step, St.workerStep, hg]) (by rw [hc]; simp)
  | picked => rw [hc] at hg; exact hl .counted (by simp [St.step, St.workerStep, hg]) (by rw [hc]; simp)
  | counted => rw [hc] at hg; exact hl .waiting (by simp [St.step, St.workerStep, hg]) (by rw [hc]; simp)
  | waiting => exact h1 hc
  | notified => rw [hc] at hg; exact hl .idle (by simp [St.step, St.workerStep, hg]) (by rw [hc]; simp)

/-- **C66, no deadlock before the notification.** In every schedule only finitely many steps do anything, and as long as the caller has neither notified the workers nor given up, some step of it or of a worker does something: so unless a
  thread is kept from running for ever, the caller gets to notify. -/
theorem C66_progress (jobs : List Nat) (ws : List Worker) (hne : ws ≠ []) (hw : ∀ w ∈ ws, w = .idle ∨ ∃ j, w = .job j) (as : List Act) :
    let s := (St.call jobs ws).run as
    (∃ bound, ∀ bs, BusyAll s bs → bs.length ≤ bound) ∧
    (s.main.before = true → ∃ a, (a = .main ∨ ∃ w, a = .worker w) ∧ s.step a ≠ s) := by
  have hn : 0 < ws.length := List.length_pos_iff.2 hne
  have hi : Inv ws.length (jobs ++ running ws) ((St.call jobs ws).run as) ∧ Counted ws.length ((St.call jobs ws).run as) := by
    have : ∀ (l : List Act) (s : St), Inv ws.length (jobs ++ running ws) s → Counted ws.length s → Inv ws.length (jobs ++ running ws) (s.run l) ∧ Counted ws.length (s.run l) := by
      intro l
      induction l with
      | nil => exact fun s h1 h2 => ⟨h1, h2⟩
      | cons a l ih => exact fun s h1 h2 => ih _ (inv_step _ hn _ s a h1) (counted_step _ _ s a h1 h2)
    refine this as _ (inv_call jobs ws hw) ⟨fun _ => ?_, ?_⟩
    · have h1 : (jobs.map Task.job).countP (· = .sentinel) = 0 := by
        rw [List.countP_eq_zero]
        intro a ha
        obtain ⟨j, _, rfl⟩ := List.mem_map.1 ha
        simp
      have h2 : ws.countP Worker.inSentinel = 0 := by
        rw [List.countP_eq_zero]
        intro w hw'
        rcases hw w hw' with rfl | ⟨j, rfl⟩ <;> simp [Worker.inSentinel, Worker.down]
      show (jobs.map Task.job).countP (· = .sentinel) + ws.countP Worker.inSentinel = 0
      omega
    · intro k hk
      simp only [St.call] at hk
      injection hk with hk
      omega
  intro s
  change Inv ws.length (jobs ++ running ws) s ∧ Counted ws.length s at hi
  generalize s = s at hi
  obtain ⟨hi, hc⟩ := hi
  constructor
  · refine ⟨s.left, ?_⟩
    have key : ∀ (bs : List Act) (s : St), BusyAll s bs → bs.length ≤ s.left := by
      intro bs
      induction bs with
      | nil => intro s _; simp
      | cons b bs ih =>
        intro s hb
        have h1 := left_step s b hb.1 hb.2.1
        have h2 := ih _ hb.2.2
        simp only [List.length_cons]
        omega
    exact fun bs => key bs s
  · intro hb
    have hcount := hc.count hb
    have hmove : ∀ m, s.mainStep.main = m → m ≠ s.main → ∃ a, (a = Act.main ∨ ∃ w, a = Act.worker w) ∧ s.step a ≠ s := by
      intro m hm hne
      refine ⟨.main, Or.inl rfl, fun e => hne ?_⟩
      rw [← hm]
      exact congrArg St.main e
    have hworker : (∃ w ∈ s.workers, w ≠ .waiting ∧ (w ≠ .idle ∨ s.queue ≠ [])) → ∃ a, (a = Act.main ∨ ∃ w, a = Act.worker w) ∧ s.step a ≠ s := by
      rintro ⟨w, hw, h1, h2⟩
      obtain ⟨i, hi⟩ := worker_moves s w hw h1 h2
      exact ⟨.worker i, Or.inr ⟨i, rfl⟩, hi⟩
    have hlen := hi.len
    cases hm : s.main with
    | submitting k =>
      by_cases hk : k < s.workers.length
      · exact hmove (.submitting (k + 1)) (by simp [St.mainStep, hm, hk]) (by rw [hm]; simp)
      · exact hmove .polling (by simp [St.mainStep, hm, hk]) (by rw [hm]; simp)
    | polling =>
      by_cases hq : s.queue = []
      · exact hmove .counting (by simp [St.mainStep, hm, hq]) (by rw [hm]; simp)
      · refine hworker (Classical.byContradiction fun hno => hq ?_)
        have hall : ∀ w ∈ s.workers, w = .waiting := by
          intro w hw
          refine Classical.byContradiction fun hne => hno ⟨w, hw, hne, Or.inr hq⟩
        have hcp : s.workers.countP Worker.inSentinel = s.workers.length := by
          rw [List.countP_eq_length]
          intro w hw
          rw [hall w hw]; rfl
        rw [hm] at hcount
        simp only [Main.submitted] at hcount
        obtain ⟨js, k, hqe, hjs⟩ := hi.order hb
        have hpos : 0 < s.workers.length := by omega
        have : js = [] := hjs ⟨s.workers[0], List.getElem_mem _, by rw [hall _ (List.getElem_mem _)]; rfl⟩
        subst this
        rw [hqe] at hcount ⊢
        have : k = 0 := by
          have h0 : (List.replicate k Task.sentinel).countP (· = .sentinel) = k := by
            rw [List.countP_replicate]; simp
          simp only [List.map_nil, List.nil_append, h0] at hcount
          omega
        subst this
        rfl
    | counting =>
      by_cases h0 : s.atm = 0
      · exact hmove .notifying (by simp [St.mainStep, hm, h0]) (by rw [hm]; simp)
      · refine hworker (Classical.byContradiction fun hno => h0 ?_)
        have hat := hi.atm hb
        rw [hm] at hcount
        simp only [Main.submitted] at hcount
        have hnp : ∀ w ∈ s.workers, w = .waiting ∨ (w = .idle ∧ s.queue = []) := by
          intro w hw
          by_cases h1 : w = .waiting
          · exact Or.inl h1
          · refine Or.inr ⟨?_, ?_⟩
            · exact Classical.byContradiction fun h2 => hno ⟨w, hw, h1, Or.inl h2⟩
            · exact Classical.byContradiction fun h2 => hno ⟨w, hw, h1, Or.inr h2⟩
        have heq : s.workers.countP Worker.inSentinel = s.workers.countP Worker.down := by
          apply List.countP_congr
          intro w hw
          rcases hnp w hw with rfl | ⟨rfl, _⟩ <;> simp [Worker.inSentinel, Worker.down]
        have hz : s.queue.countP (· = .sentinel) = 0 := by
          by_cases hall : ∀ w ∈ s.workers, w = .waiting
          · have hcp : s.workers.countP Worker.inSentinel = s.workers.length := by
              rw [List.countP_eq_length]
              intro w hw
              rw [hall w hw]; rfl
            omega
          · have : ∃ w ∈ s.workers, w ≠ .waiting := by
              refine Classical.byContradiction fun hn2 => hall fun w hw => Classical.byContradiction fun h3 => hn2 ⟨w, hw, h3⟩
            obtain ⟨w, hw, h3⟩ := this
            rcases hnp w hw with h4 | ⟨_, h4⟩
            · exact absurd h4 h3
            · rw [h4]; rfl
        omega
    | notifying => exact hmove .joining (by simp [St.mainStep, hm]) (by rw [hm]; simp)
    | joining => rw [hm] at hb; cases hb
    | returned => rw [hm] at hb; cases hb
    | raised => rw [hm] at hb; cases hb

/-! Cases that meet the hypotheses -/

/-- two workers, one busy with job 9, job 7 waiting; the guard is kept and `sync_threadpool` returns -/
def exampleSchedule : List Act := [.main, .worker 0, .main, .worker 1, .worker 0, .main, .worker 0, .worker 0, .worker 0, .worker 1, .worker 1, .worker 1, .main, .main, .main]

example : ((St.call [7] [.idle, .job 9]).run exampleSchedule).main = .joining := by decide
example : PromptAll (St.call [7] [.idle, .job 9]) exampleSchedule := by
  simp [exampleSchedule, PromptAll, Prompt, St.step, St.workerStep, St.mainStep, St.call]
example : ((St.call [7] [.idle, .job 9]).run (exampleSchedule ++ [.worker 0, .worker 1, .main])).main = .returned := by decide

example : ((St.call [7] [.idle, .job 9]).run [.main, .worker 0]).main.before = true := by decide

end Verif.SyncPool
