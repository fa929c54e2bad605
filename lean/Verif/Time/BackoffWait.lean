import Verif.Time.Backoff
/-!
# Model of ExponentialBackoff.wait_until_available (satella/time/backoff.py), and C57

One thread waits, another one calls failed() and success(), in any order.  Every event carries what the clock shows.
Here time_until_next_check is one step: failed() and success() come before or after it, not between two of its readings.
What happens if they come between is C265 and C266, in Verif.Time.BackoffThreads.
-/
namespace Verif.Time
open Verif

/-- Where the waiting thread is: at the test of the loop (line 84); between finding out how long to wait and waiting (line 88); waiting until the time given, or until notified; over, at a time.  (Part of the model of `measure`, /repo/satella/time/measure.py:16-285.) -/
inductive WPc where
  | check
  | going (tn : Int)
  | waiting (deadline : Int)
  | notified
  | returned (t : Int)
  | raised (t : Int)
  deriving DecidableEq, Repr

/-- part of the model of `measure`, /repo/satella/time/measure.py:16-285 -/
structure WSt where
  eb : EB
  pc : WPc
  deriving DecidableEq, Repr

/-- what happens, at a time.  (Part of the model of `measure`, /repo/satella/time/measure.py:16-285.) -/
inductive WEv where
  | run (t : Int)
  | failed (t : Int)
  | success (t : Int)
  deriving DecidableEq, Repr

/-- is the waiting over? (`m.timeouted`, /repo/satella/time/measure.py:123-130) -/
def timedOut (timeout : Option Int) (t0 t : Int) : Bool :=
  match timeout with
  | none => false
  | some to => decide (t - t0 ≥ to)

/-- A step of the waiting thread, called at `t0`; /repo/satella/time/backoff.py:82-88.  All of `time_until_next_check`, /repo/satella/time/backoff.py:90-100, is done in one step, which simplifies.  Waiting on the condition (/repo/satella/coding/concurrent/thread.py:93-130) ends when notified or when its timeout is over. -/
def WSt.run1 (timeout : Option Int) (t0 : Int) (s : WSt) (t : Int) : WSt :=
  match s.pc with
  | .check =>
    if timedOut timeout t0 t then { s with pc := .raised t }
    else match s.eb.timeUntil t with
      | (eb, none) => { eb := eb, pc := .returned t }
      | (eb, some tn) => { eb := eb, pc := .going tn }
  | .going tn => { s with pc := .waiting (t + tn) }
  | .waiting d => if t ≥ d then { s with pc := .check } else s
  | .notified => { s with pc := .check }
  | .returned _ => s
  | .raised _ => s

/-- One event.  success() notifies after having reset everything, /repo/satella/time/backoff.py:121-128; here in one step, since the waiting thread looks only at `unavailable_until`. -/
def WSt.step (c : EBConf) (timeout : Option Int) (t0 : Int) (s : WSt) : WEv → WSt
  | .run t => s.run1 timeout t0 t
  | .failed t => { s with eb := s.eb.failed c t }
  | .success _ => { eb := s.eb.success, pc := match s.pc with | .waiting _ => .notified | p => p }

/-- all events.  (Part of the model of `ExponentialBackoff`, /repo/satella/time/backoff.py:10-178.) -/
def WSt.runAll (c : EBConf) (timeout : Option Int) (t0 : Int) (s : WSt) : List WEv → WSt
  | [] => s
  | e :: es => (s.step c timeout t0 e).runAll c timeout t0 es

/-! ## C57 -/

/-- what `wait_until_available` would be told at time `t` -/
def AvailableAt (eb : EB) (t : Int) : Prop := ∀ u, eb.until_ = some u → u < t

theorem runAll_append (c : EBConf) (timeout : Option Int) (t0 : Int) (a b : List WEv) : ∀ s : WSt, s.runAll c timeout t0 (a ++ b) = (s.runAll c timeout t0 a).runAll c timeout t0 b := by
  induction a with
  | nil => intro s; rfl
  | cons e es ih => intro s; simp only [List.cons_append, WSt.runAll, ih]

/-- **C57, returning and raising.** In every schedule in which failed() and success() do not come in the middle of time_until_next_check (C265, C266), wait_until_available returns only when, at that moment, the service is available (never failed, or succeeded since, or the wait after the last failure is over) and the timeout is not;
and raises WouldWaitMore only when the timeout is over. -/
theorem C57_safe_partial (c : EBConf) (timeout : Option Int) (t0 : Int) (eb : EB) (evs : List WEv) (e : WEv) :
    let s := WSt.runAll c timeout t0 ⟨eb, .check⟩ evs
    (∀ t, (s.step c timeout t0 e).pc = .returned t → s.pc ≠ .returned t → e = .run t ∧ AvailableAt s.eb t ∧ timedOut timeout t0 t = false) ∧
    (∀ t, (s.step c timeout t0 e).pc = .raised t → s.pc ≠ .raised t → e = .run t ∧ ∃ to, timeout = some to ∧ to ≤ t - t0) := by
  intro s
  generalize s = s
  obtain ⟨eb, pc⟩ := s
  cases e with
  | failed t => exact ⟨fun t h h2 => absurd h h2, fun t h h2 => absurd h h2⟩
  | success t =>
    simp only [WSt.step]
    cases pc <;> simp_all
  | run t =>
    simp only [WSt.step, WSt.run1]
    cases pc with
    | check =>
      simp only
      by_cases hto : timedOut timeout t0 t = true
      · rw [if_pos hto]
        refine ⟨by simp, ?_⟩
        rintro t' h _
        cases h
        refine ⟨rfl, ?_⟩
        unfold timedOut at hto
        cases timeout with
        | none => simp at hto
        | some to => exact ⟨to, rfl, by simpa using hto⟩
      · rw [if_neg hto]
        unfold EB.timeUntil
        cases hu : eb.until_ with
        | none =>
          refine ⟨?_, by simp⟩
          rintro t' h _
          cases h
          exact ⟨rfl, by simp [AvailableAt, hu], by simpa using hto⟩
        | some u =>
          simp only
          by_cases ht : t > u
          · rw [if_pos ht]
            refine ⟨?_, by simp⟩
            rintro t' h _
            cases h
            exact ⟨rfl, by simpa [AvailableAt, hu] using ht, by simpa using hto⟩
          · rw [if_neg ht]; simp
    | going tn => simp
    | waiting d => simp only; split <;> simp
    | notified => simp
    | returned t => simp
    | raised t => simp

/-- the object, after the calls of failed() and success() alone -/
def after (c : EBConf) (eb : EB) : List WEv → EB
  | [] => eb
  | .run _ :: es => after c eb es
  | .failed t :: es => after c (eb.failed c t) es
  | .success _ :: es => after c eb.success es

/-- **C57, what is available.** If failed() and success() do not come in the middle of time_until_next_check (C266): whatever the waiting thread does, and however many times the object was asked before, whether the service is available depends only on the calls of failed() and success(). -/
theorem C57_available_partial (c : EBConf) (timeout : Option Int) (t0 t : Int) (eb : EB) (evs : List WEv) (ht : ∀ t', WEv.run t' ∈ evs → t' ≤ t) :
    AvailableAt (WSt.runAll c timeout t0 ⟨eb, .check⟩ evs).eb t ↔ AvailableAt (after c eb evs) t := by
  have rel : ∀ (evs : List WEv) (s : WSt) (b : EB), (∀ t', WEv.run t' ∈ evs → t' ≤ t) → s.eb.counter = b.counter → s.eb.graceCounter = b.graceCounter →
      (s.eb.until_ = b.until_ ∨ (s.eb.until_ = none ∧ ∃ u, b.until_ = some u ∧ u < t)) →
      ((s.runAll c timeout t0 evs).eb.until_ = (after c b evs).until_ ∨ ((s.runAll c timeout t0 evs).eb.until_ = none ∧ ∃ u, (after c b evs).until_ = some u ∧ u < t)) := by
    intro evs
    induction evs with
    | nil => intro s b _ _ _ h; exact h
    | cons e es ih =>
      intro s b hle h1 h2 h3
      have hle' : ∀ t', WEv.run t' ∈ es → t' ≤ t := fun t' h => hle t' (List.mem_cons_of_mem _ h)
      cases e with
      | run t' =>
        have ht' := hle t' (List.mem_cons_self ..)
        apply ih (s.run1 timeout t0 t') b hle'
        all_goals
          simp only [WSt.run1]
          split
          any_goals assumption
          · split
            · assumption
            · simp only [EB.timeUntil]
              cases hu : s.eb.until_ with
              | none => simp_all
              | some u =>
                by_cases hg : t' > u
                · simp only [if_pos hg]
                  first
                    | assumption
                    | (right; refine ⟨trivial, u, ?_, by omega⟩; rcases h3 with h3 | h3 <;> simp_all)
                · simp only [if_neg hg]
                  first
                    | assumption
                    | simp_all
          · split <;> assumption
      | failed t' =>
        apply ih _ (b.failed c t') hle'
        all_goals
          simp only [WSt.step, EB.failed, h2]
          split
          · simp [h1]
          · simp only [h1] <;> exact h3
      | success t' =>
        apply ih _ b.success hle' <;> simp [WSt.step, EB.success]
  have := rel evs ⟨eb, .check⟩ eb ht rfl rfl (Or.inl rfl)
  simp only [AvailableAt]
  rcases this with h | ⟨h, u, hu, hlt⟩
  · rw [h]
  · rw [h, hu]; simp [hlt]

example : (∀ t', WEv.run t' ∈ [WEv.failed 0, .run 1, .run 4, .failed 5] → t' ≤ 6) ∧ ¬ AvailableAt (after ⟨2, 30, 0⟩ EB.init [.failed 0, .run 1, .run 4, .failed 5]) 6 := by
  refine ⟨by simp, ?_⟩
  simp [after, AvailableAt, EB.failed, EB.init]
  decide

/-- **C57, after a success.** Whatever has happened before, if the thread is waiting when success() is called, then it returns at its second step after it, unless the timeout is over or something failed meanwhile. -/
theorem C57_wakes (c : EBConf) (timeout : Option Int) (t0 : Int) (eb : EB) (evs : List WEv) (d t t1 t2 : Int)
    (h : (WSt.runAll c timeout t0 ⟨eb, .check⟩ evs).pc = .waiting d) (ht : timedOut timeout t0 t2 = false) :
    (WSt.runAll c timeout t0 ⟨eb, .check⟩ (evs ++ [.success t, .run t1, .run t2])).pc = .returned t2 := by
  rw [runAll_append]
  generalize WSt.runAll c timeout t0 ⟨eb, .check⟩ evs = s at h
  simp [WSt.runAll, WSt.step, h, WSt.run1, ht, EB.success, EB.timeUntil]

example : (WSt.runAll ⟨2, 30, 0⟩ none 0 ⟨EB.init, .check⟩ [.failed 0, .run 1, .run 1]).pc = .waiting 2 ∧ timedOut none 0 9 = false := by decide

/-- **C57, without a timeout.** If nothing else fails, then a thread which has begun to wait returns once it runs after the end of the wait. -/
theorem C57_returns (c : EBConf) (t0 : Int) (s : WSt) (d : Int) (u : Int) (hs : s.pc = .waiting d) (hu : s.eb.until_ = some u) (t1 t2 : Int) (h1 : d ≤ t1) (h2 : u < t2) :
    (s.runAll c none t0 [.run t1, .run t2]).pc = .returned t2 := by
  simp [WSt.runAll, WSt.step, hs, WSt.run1, h1, timedOut, EB.timeUntil, hu, h2]

example : (⟨⟨2, 0, some 2⟩, .waiting 2⟩ : WSt).pc = .waiting 2 ∧ (2 : Int) ≤ 2 ∧ (2 : Int) < 3 := by decide

/-- **C57 is violated**: wait_until_available(timeout) is documented to wait for no longer than `timeout`; it waits until the next check is due, however long that is, and then raises although the service is available. -/
theorem C57_timeout_violates (to wait : Int) (h0 : 0 < to) (h : to ≤ wait) :
    let c : EBConf := ⟨wait, wait, 0⟩
    -- failed at 0, waiting called at 0: at any time between the timeout and the end of the wait the thread is still waiting
    (∀ t, to ≤ t → t < wait → (WSt.runAll c (some to) 0 ⟨EB.init.failed c 0, .check⟩ [.run 0, .run 0, .run t]).pc = .waiting wait) ∧
    -- and then it raises, at a time when the service is available
    (WSt.runAll c (some to) 0 ⟨EB.init.failed c 0, .check⟩ [.run 0, .run 0, .run wait, .run (wait + 1)]).pc = .raised (wait + 1) ∧
    AvailableAt (EB.init.failed c 0) (wait + 1) := by
  have hn : ¬ (to ≤ 0) := by omega
  have hp : ¬ (wait < 0) := by omega
  refine ⟨?_, ?_, ?_⟩
  · intro t h1 h2
    have : ¬ wait ≤ t := by omega
    simp [WSt.runAll, WSt.step, WSt.run1, timedOut, EB.failed, EB.init, EB.timeUntil, hn, hp, this]
  · have : to ≤ wait + 1 := by omega
    simp [WSt.runAll, WSt.step, WSt.run1, timedOut, EB.failed, EB.init, EB.timeUntil, hn, hp, this]
  · intro u hu
    simp [EB.failed, EB.init] at hu
    omega

/-- **C57 is violated**: a success() between the moment at which the waiting thread has found out how long to wait and the moment at which it waits is missed, and the thread waits although the service is available. -/
theorem C57_missed_violates (wait : Int) (h : 0 < wait) :
    let c : EBConf := ⟨wait, wait, 0⟩
    let s := WSt.runAll c none 0 ⟨EB.init.failed c 0, .check⟩ [.run 0, .success 0, .run 0]
    s.eb.until_ = none ∧ ∀ t, t < wait → (s.runAll c none 0 [.run t]).pc = .waiting wait := by
  have hp : ¬ (wait < 0) := by omega
  simp [WSt.runAll, WSt.step, WSt.run1, timedOut, EB.failed, EB.init, EB.timeUntil, EB.success, hp]
  intro t ht
  rw [if_neg (by omega)]

end Verif.Time
