import Verif.Py.Basic
import Verif.Py.Run
/-!
# Model of satella/time/measure.py, and C56

Times are integers (the code takes floats).  Calls that look at the clock carry what it shows.  Not modelled: the decorator form, and measuring a future (which calls stop() when the future is done).
-/
namespace Verif.Time
open Verif

/-- the attributes, /repo/satella/time/measure.py:94-110 -/
structure Msr where
  startedOn : Int
  elapsed : Option Int
  stoppedOn : Option Int
  stopOnStop : Bool
  timeout : Option Int
  deriving DecidableEq, Repr

/-- `__init__`, /repo/satella/time/measure.py:94-110 -/
def Msr.init (stopOnStop : Bool) (adjust : Int) (createStopped : Bool) (timeout : Option Int) (t : Int) : Msr :=
  { startedOn := t + adjust, elapsed := if createStopped then some 0 else none, stoppedOn := if createStopped then some (t + adjust) else none,
    stopOnStop := stopOnStop, timeout := timeout }

/-- `start`, /repo/satella/time/measure.py:190-201.  It looks at the clock twice; what comes of the first time (line 198) is overwritten (line 200). -/
def Msr.start (m : Msr) (t : Int) : Msr × Option Exc :=
  if m.stopOnStop = false then (m, some .typeError)
  else match m.stoppedOn with
    | none => (m, some .typeError)
    | some _ => ({ m with startedOn := t, stoppedOn := none, elapsed := none }, none)

/-- `stop`, /repo/satella/time/measure.py:268-280 -/
def Msr.stop (m : Msr) (t : Int) : Msr × Option Exc :=
  if m.stopOnStop = false then (m, some .typeError)
  else match m.stoppedOn with
    | some _ => (m, some .typeError)
    | none => ({ m with stoppedOn := some t, elapsed := some (t - m.startedOn) }, none)

/-- `reset`, /repo/satella/time/measure.py:182-188 -/
def Msr.reset (m : Msr) (t : Int) : Msr := { m with stoppedOn := some t, startedOn := t, elapsed := some 0 }

/-- `get_time_elapsed`, /repo/satella/time/measure.py:211-217 -/
def Msr.get (m : Msr) (t : Int) : Int :=
  if m.stopOnStop = true then
    match m.elapsed with
    | some e => e
    | none => t - m.startedOn
  else t - m.startedOn

/-- calls.  (Part of the model of `measure`, /repo/satella/time/measure.py:16-285.) -/
inductive MOp where
  | start (t : Int)
  | stop (t : Int)
  | reset (t : Int)
  | adjust (d : Int)
  | get (t : Int)
  | timeouted (t : Int)
  | remaining (t : Int)
  | assertNot (t : Int)
  | stopped
  | enter (t : Int)
  | exit (t : Int)
  deriving DecidableEq, Repr

/-- what they return.  (Part of the model of `measure`, /repo/satella/time/measure.py:16-285.) -/
inductive MRes where
  | unit
  | int (d : Int)
  | none_
  | bool (b : Bool)
  | exc (e : Exc)
  deriving DecidableEq, Repr

/-- part of the model of `measure`, /repo/satella/time/measure.py:16-285 -/
def MRes.ofExc : Option Exc → MRes
  | none => .unit
  | some e => .exc e

/-- `timeouted`, /repo/satella/time/measure.py:123-130 -/
def Msr.timeouted (m : Msr) (t : Int) : Bool :=
  match m.timeout with
  | none => false
  | some to => decide (m.get t ≥ to)

/-- One call, /repo/satella/time/measure.py: `time_remaining` :112-121, `assert_not_timeouted` :132-141, `adjust` :207-209, `__enter__` :254-257, `stopped` :259-266, `__exit__` :282-285, others above.
WouldWaitMore is `other 1`. -/
def Msr.step (m : Msr) : MOp → Msr × MRes
  | .start t => ((m.start t).1, .ofExc (m.start t).2)
  | .stop t => ((m.stop t).1, .ofExc (m.stop t).2)
  | .reset t => (m.reset t, .unit)
  | .adjust d => ({ m with startedOn := m.startedOn + d }, .unit)
  | .get t => (m, .int (m.get t))
  | .timeouted t => (m, .bool (m.timeouted t))
  | .remaining t => (m, match m.timeout with
      | none => .none_
      | some to => .int (if to - m.get t < 0 then 0 else to - m.get t))
  | .assertNot t => (m, if m.timeouted t then .exc (.other 1) else .unit)
  | .stopped => (m, .bool m.stoppedOn.isSome)
  | .enter t => if m.elapsed.isSome = true ∧ m.stopOnStop = true then ((m.start t).1, .ofExc (m.start t).2) else (m, .unit)
  | .exit t => if m.stopOnStop then ((m.stop t).1, .ofExc (m.stop t).2) else (m, .unit)

/-! ## Specification -/

/-- A stopwatch: the time counted while it ran, up to the last stop, and since when it runs, if it does. -/
structure Watch where
  counted : Int
  since : Option Int

/-- what it shows at time `t` -/
def Watch.shows (w : Watch) (t : Int) : Int :=
  match w.since with
  | some s => w.counted + (t - s)
  | none => w.counted

/-- the documented behaviour: start resumes counting; reset sets it to 0 and stops it; adjust moves the beginning of the count -/
def Watch.Spec (timeout : Option Int) (w : Watch) : MOp → MRes → Watch → Prop
  | .start t, r, w' => (w.since = none ∧ r = .unit ∧ w' = { w with since := some t }) ∨ (w.since ≠ none ∧ r = .exc .typeError ∧ w' = w)
  | .stop t, r, w' => (w.since ≠ none ∧ r = .unit ∧ w' = ⟨w.shows t, none⟩) ∨ (w.since = none ∧ r = .exc .typeError ∧ w' = w)
  | .reset _, r, w' => r = .unit ∧ w' = ⟨0, none⟩
  | .adjust d, r, w' => r = .unit ∧ w' = (if w.since = none then w else { w with counted := w.counted - d })
  | .get t, r, w' => w' = w ∧ r = .int (w.shows t)
  | .timeouted t, r, w' => w' = w ∧ ∃ b, r = .bool b ∧ (b = true ↔ ∃ to, timeout = some to ∧ to ≤ w.shows t)
  | .remaining t, r, w' => w' = w ∧ ((timeout = none ∧ r = .none_) ∨ ∃ to, timeout = some to ∧ r = .int (max 0 (to - w.shows t)))
  | .assertNot t, r, w' => w' = w ∧ (r = .exc (.other 1) ∨ r = .unit) ∧ (r = .exc (.other 1) ↔ ∃ to, timeout = some to ∧ to ≤ w.shows t)
  | .stopped, r, w' => w' = w ∧ ∃ b, r = .bool b ∧ (b = true ↔ w.since = none)
  | .enter t, r, w' => r = .unit ∧ w' = (if w.since = none then { w with since := some t } else w)
  | .exit t, r, w' => (w.since ≠ none ∧ r = .unit ∧ w' = ⟨w.shows t, none⟩) ∨ (w.since = none ∧ r = .exc .typeError ∧ w' = w)

/-- a stopped measure is started only when it shows 0: when new, or after reset -/
def MGuard (m : Msr) : MOp → Prop
  | .start _ => m.elapsed = none ∨ m.elapsed = some 0
  | .enter _ => m.elapsed = none ∨ m.elapsed = some 0
  | _ => True

/-! ## C56 -/

/-- running since `startedOn`, or stopped with `elapsed` -/
def MRep (timeout : Option Int) (m : Msr) (w : Watch) : Prop :=
  m.stopOnStop = true ∧ m.timeout = timeout ∧
  ((∃ s, m.stoppedOn = none ∧ m.elapsed = none ∧ w.since = some s ∧ m.startedOn = s - w.counted) ∨
   (∃ s, m.stoppedOn = some s ∧ m.elapsed = some w.counted ∧ w.since = none))

theorem get_shows {timeout : Option Int} {m : Msr} {w : Watch} (h : MRep timeout m w) (t : Int) : m.get t = w.shows t := by
  obtain ⟨h1, _, ⟨s, h3, h4, h5, h6⟩ | ⟨s, h3, h4, h5⟩⟩ := h
  · simp only [Msr.get, h1, h4, Watch.shows, h5, h6, if_true]; omega
  · simp [Msr.get, h1, h4, Watch.shows, h5]

theorem start_running {m : Msr} (h1 : m.stopOnStop = true) (h3 : m.stoppedOn = none) (t : Int) : m.start t = (m, some .typeError) := by
  simp [Msr.start, h1, h3]

theorem start_stopped {m : Msr} (h1 : m.stopOnStop = true) {s : Int} (h3 : m.stoppedOn = some s) (t : Int) :
    m.start t = ({ m with startedOn := t, stoppedOn := none, elapsed := none }, none) := by
  simp [Msr.start, h1, h3]

theorem stop_running {m : Msr} (h1 : m.stopOnStop = true) (h3 : m.stoppedOn = none) (t : Int) :
    m.stop t = ({ m with stoppedOn := some t, elapsed := some (t - m.startedOn) }, none) := by
  simp [Msr.stop, h1, h3]

theorem stop_stopped {m : Msr} (h1 : m.stopOnStop = true) {s : Int} (h3 : m.stoppedOn = some s) (t : Int) : m.stop t = (m, some .typeError) := by
  simp [Msr.stop, h1, h3]

theorem stop_sim {timeout : Option Int} {m : Msr} {w : Watch} (h : MRep timeout m w) (t : Int) :
    ∃ w', ((w.since ≠ none ∧ MRes.ofExc (m.stop t).2 = .unit ∧ w' = ⟨w.shows t, none⟩) ∨ (w.since = none ∧ MRes.ofExc (m.stop t).2 = .exc .typeError ∧ w' = w)) ∧ MRep timeout (m.stop t).1 w' := by
  have hg := get_shows h t
  obtain ⟨h1, h2, ⟨s, h3, h4, h5, h6⟩ | ⟨s, h3, h4, h5⟩⟩ := h
  · rw [stop_running h1 h3]
    exact ⟨⟨w.shows t, none⟩, Or.inl ⟨by simp [h5], rfl, rfl⟩, h1, h2, Or.inr ⟨t, rfl, by simp [← hg, Msr.get, h1, h4], rfl⟩⟩
  · rw [stop_stopped h1 h3]
    exact ⟨w, Or.inr ⟨h5, rfl, rfl⟩, h1, h2, Or.inr ⟨s, h3, h4, h5⟩⟩

theorem msr_step_sim (timeout : Option Int) (m : Msr) (w : Watch) (o : MOp) (ho : MGuard m o) (h : MRep timeout m w) :
    ∃ w', w.Spec timeout o (m.step o).2 w' ∧ MRep timeout (m.step o).1 w' := by
  have hR := h
  have hg := get_shows h
  obtain ⟨h1, h2, h3⟩ := h
  have hto : ∀ t, m.timeouted t = true ↔ ∃ to, timeout = some to ∧ to ≤ w.shows t := by
    intro t
    simp only [Msr.timeouted, h2, hg]
    cases timeout <;> simp
  cases o with
  | start t =>
    rcases h3 with ⟨s, h3, h4, h5, h6⟩ | ⟨s, h3, h4, h5⟩
    · simp only [Msr.step, start_running h1 h3]
      exact ⟨w, Or.inr ⟨by simp [h5], rfl, rfl⟩, hR⟩
    · have hc : w.counted = 0 := by
        simp only [MGuard, h4] at ho
        simpa using ho
      simp only [Msr.step, start_stopped h1 h3]
      exact ⟨{ w with since := some t }, Or.inl ⟨h5, rfl, rfl⟩, h1, h2, Or.inl ⟨t, rfl, rfl, rfl, by simp [hc]⟩⟩
  | stop t => exact stop_sim hR t
  | reset t => exact ⟨_, ⟨rfl, rfl⟩, h1, h2, Or.inr ⟨t, rfl, rfl, rfl⟩⟩
  | adjust d =>
    refine ⟨_, ⟨rfl, rfl⟩, ?_⟩
    rcases h3 with ⟨s, h3, h4, h5, h6⟩ | ⟨s, h3, h4, h5⟩
    · rw [if_neg (by simp [h5])]
      exact ⟨h1, h2, Or.inl ⟨s, h3, h4, h5, by simp only [Msr.step, h6]; omega⟩⟩
    · rw [if_pos h5]
      exact ⟨h1, h2, Or.inr ⟨s, h3, h4, h5⟩⟩
  | get t => exact ⟨w, ⟨rfl, by simp [Msr.step, hg]⟩, hR⟩
  | timeouted t => exact ⟨w, ⟨rfl, _, rfl, hto t⟩, hR⟩
  | remaining t =>
    refine ⟨w, ⟨rfl, ?_⟩, hR⟩
    simp only [Msr.step, h2, hg]
    cases timeout with
    | none => simp
    | some to =>
      refine Or.inr ⟨to, rfl, ?_⟩
      simp only [MRes.int.injEq]
      split <;> omega
  | assertNot t =>
    refine ⟨w, ⟨rfl, ?_, ?_⟩, hR⟩
    · simp only [Msr.step]; split <;> simp
    · rw [← hto t]; simp only [Msr.step]; split <;> simp_all
  | stopped =>
    refine ⟨w, ⟨rfl, _, rfl, ?_⟩, hR⟩
    rcases h3 with ⟨s, h3, h4, h5, h6⟩ | ⟨s, h3, h4, h5⟩ <;> simp [h3, h5]
  | enter t =>
    rcases h3 with ⟨s, h3, h4, h5, h6⟩ | ⟨s, h3, h4, h5⟩
    · simp only [Msr.step, h4, Option.isSome_none, Bool.false_eq_true, false_and, if_false]
      exact ⟨w, ⟨rfl, by simp [h5]⟩, hR⟩
    · have hc : w.counted = 0 := by
        simp only [MGuard, h4] at ho
        simpa using ho
      have e : m.step (.enter t) = ({ m with startedOn := t, stoppedOn := none, elapsed := none }, .unit) := by
        simp only [Msr.step, start_stopped h1 h3, h4, h1, Option.isSome_some, and_self, if_true, MRes.ofExc]
      rw [e]
      exact ⟨{ w with since := some t }, ⟨rfl, by simp [h5]⟩, h1, h2, Or.inl ⟨t, rfl, rfl, rfl, by simp [hc]⟩⟩
  | exit t =>
    have := stop_sim hR t
    simp only [Msr.step, h1, if_true]
    exact this

/-- **C56 (partial).** For every history of calls on a measure that may be stopped, it is a stopwatch: it shows the time for which it has run (since it was made, or reset, plus adjustments), constant while stopped; it is timed out when
that reaches the timeout, and the time remaining is the difference, not below 0; starting a running one and stopping a stopped one raises TypeError.
Missing: start after stop is documented to resume counting; the histories here start a stopped measure only when it shows 0 (see `C56_resume_violates`). -/
theorem C56_stopwatch_partial (adjust : Int) (createStopped : Bool) (timeout : Option Int) (t : Int) (ops : List MOp)
    (h : AllSteps MGuard Msr.step (Msr.init true adjust createStopped timeout t) ops) :
    ∃ w', History (Watch.Spec timeout) (if createStopped then ⟨0, none⟩ else ⟨0, some (t + adjust)⟩) ops (runOps Msr.step (Msr.init true adjust createStopped timeout t) ops).2 w' := by
  have hi : MRep timeout (Msr.init true adjust createStopped timeout t) (if createStopped then ⟨0, none⟩ else ⟨0, some (t + adjust)⟩) := by
    cases createStopped with
    | true => exact ⟨rfl, rfl, Or.inr ⟨_, rfl, rfl, rfl⟩⟩
    | false => exact ⟨rfl, rfl, Or.inl ⟨t + adjust, rfl, rfl, rfl, by simp [Msr.init]⟩⟩
  obtain ⟨w', h1, _⟩ := history_of_sim' (MRep timeout) MGuard (msr_step_sim timeout) _ _ ops h hi
  exact ⟨w', h1⟩

example : AllSteps MGuard Msr.step (Msr.init true 0 true (some 5) 100) [.get 101, .start 102, .get 105, .stop 108, .timeouted 110, .reset 111, .enter 112, .remaining 114, .exit 115, .exit 116] := by
  simp [AllSteps, MGuard, Msr.step, Msr.init, Msr.start, Msr.stop, Msr.reset]

/-- when the count begins, after these calls: reset begins it anew, adjust moves it -/
def beganAt (b : Int) : List MOp → Int
  | [] => b
  | .adjust d :: os => beganAt (b + d) os
  | .reset t :: os => beganAt t os
  | _ :: os => beganAt b os

/-- **C56, stop_on_stop = False.** Such a measure never stops: after any calls it shows the time since it was made or last reset, plus adjustments; it is timed out when that reaches the timeout, and the time remaining is the difference, not below 0; start and stop raise TypeError. -/
theorem C56_never_stops (adjust : Int) (createStopped : Bool) (timeout : Option Int) (t : Int) (ops : List MOp) (t' : Int) :
    let m := (runOps Msr.step (Msr.init false adjust createStopped timeout t) ops).1
    let shown := t' - beganAt (t + adjust) ops
    (m.step (.get t')).2 = .int shown ∧
    (m.step (.timeouted t')).2 = .bool (match timeout with | none => false | some to => decide (to ≤ shown)) ∧
    (m.step (.remaining t')).2 = (match timeout with | none => .none_ | some to => .int (max 0 (to - shown))) ∧
    (m.step (.assertNot t')).2 = (match timeout with | none => .unit | some to => if to ≤ shown then .exc (.other 1) else .unit) ∧
    (m.step (.start t')).2 = .exc .typeError ∧ (m.step (.stop t')).2 = .exc .typeError ∧ (m.step (.enter t')).2 = .unit ∧ (m.step (.exit t')).2 = .unit := by
  have key : ∀ (m : Msr) (ops : List MOp), m.stopOnStop = false → (runOps Msr.step m ops).1.stopOnStop = false ∧ (runOps Msr.step m ops).1.timeout = m.timeout ∧ (runOps Msr.step m ops).1.startedOn = beganAt m.startedOn ops := by
    intro m ops
    induction ops generalizing m with
    | nil => intro h; exact ⟨h, rfl, rfl⟩
    | cons o os ih =>
      intro h
      simp only [runOps]
      have h1 : (m.step o).1.stopOnStop = false := by cases o <;> simp [Msr.step, Msr.start, Msr.stop, Msr.reset, h]
      have h2 : (m.step o).1.timeout = m.timeout := by cases o <;> simp [Msr.step, Msr.start, Msr.stop, Msr.reset, h]
      obtain ⟨a, b, c⟩ := ih _ h1
      refine ⟨a, b.trans h2, c.trans ?_⟩
      cases o <;> simp [Msr.step, Msr.start, Msr.stop, Msr.reset, h, beganAt]
  obtain ⟨h1, h2, h3⟩ := key (Msr.init false adjust createStopped timeout t) ops rfl
  intro m shown
  have g : m.get t' = shown := by simp only [Msr.get, m, h1, Bool.false_eq_true, if_false, h3]; rfl
  have h1 : m.stopOnStop = false := h1
  have h2 : m.timeout = timeout := h2
  refine ⟨by simp [Msr.step, g], ?_, ?_, ?_, by simp [Msr.step, Msr.start, h1, MRes.ofExc], by simp [Msr.step, Msr.stop, h1, MRes.ofExc], by simp [Msr.step, h1], by simp [Msr.step, h1]⟩
  · simp only [Msr.step, Msr.timeouted, h2, g]
  · simp only [Msr.step, h2, g]
    cases timeout with
    | none => rfl
    | some to => simp only [MRes.int.injEq]; split <;> omega
  · simp only [Msr.step, Msr.timeouted, h2, g]
    cases timeout with
    | none => simp
    | some to => simp

/-- Such a measure made at 100, moved by 2, reset at 110 and moved by 3, shows 7 at 120. -/
example : beganAt 100 [.get 101, .adjust 2, .stop 105, .reset 110, .start 111, .adjust 3] = 113 ∧
    ((runOps Msr.step (Msr.init false 0 false (some 7) 100) [.get 101, .adjust 2, .stop 105, .reset 110, .start 111, .adjust 3]).1.step (.get 120)).2 = .int 7 := by decide

/-- **C56 is violated**: a measure which ran for `d` seconds, was stopped and is started again shows 0, although start is documented to resume. -/
theorem C56_resume_violates (d : Int) : (runOps Msr.step (Msr.init true 0 false none 0) [.stop d, .get d, .start d, .get d]).2 = [.unit, .int d, .unit, .int 0] := by
  simp [runOps, Msr.step, Msr.init, Msr.stop, Msr.start, Msr.get, MRes.ofExc]

end Verif.Time
