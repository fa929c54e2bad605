import Verif.Futures.Props
/-!
# Model of WrappingFuture (satella/coding/concurrent/futures/futures.py:176-213), and C53

One source future, one wrapper, one thread that waits for the wrapper's result with no time limit, one done callback on the wrapper; the source is
completed, cancelled or started by other threads.  The source's state changes before its done callbacks run (standard library), and these are
separate events.  `cancel` of the wrapper is one event (a simplification).
-/
namespace Verif.Futures
open Verif Conc

/-- Where the waiting thread is.  (Part of the model of `WrappingFuture`, /repo/satella/coding/concurrent/futures/futures.py:176-213.) -/
inductive Waiter (V : Type _) where
  | idle
  | waiting
  | woken
  | got (r : Except FErr (Option V))

/-- The source's state; whether its done callback is due; the wrapper's own `_old_state` with its own result; how much of `__init__` has run; the
waiting thread; what the wrapper presented to its done callback at each call.  (Part of the model of `WrappingFuture`, /repo/satella/coding/concurrent/futures/futures.py:176-213.) -/
structure WF (V : Type _) where
  src : FState V
  due : Bool
  own : FState (Option V)
  phase : Nat
  waiter : Waiter V
  calls : List (Except FErr (Option V))

/-- What happens.  (Part of the model of `WrappingFuture`, /repo/satella/coding/concurrent/futures/futures.py:176-213.) -/
inductive WFEv (V : Type _) where
  /-- a part of the constructor -/
  | construct
  | srcStart
  | srcValue (v : V)
  | srcError (e : FErr)
  | srcCancel
  /-- the source's done callback runs -/
  | callback
  | wCancel
  /-- the waiting thread runs -/
  | wait

section
variable {V : Type _}

/-- what a state shows to `result()`.  (Part of the model of `WrappingFuture`, /repo/satella/coding/concurrent/futures/futures.py:176-213.) -/
def outcomeOf : FState (Option V) → Except FErr (Option V)
  | .value v => .ok v
  | .error e => .error e
  | .cancelled => .error .cancelledError
  | .notified => .error .cancelledError
  | _ => .error .timeoutError

/-- a source state seen through the wrapper.  (Part of the model of `WrappingFuture`, /repo/satella/coding/concurrent/futures/futures.py:176-213.) -/
def lift : FState V → FState (Option V)
  | .pending => .pending
  | .running => .running
  | .cancelled => .cancelled
  | .notified => .notified
  | .value v => .value (some v)
  | .error e => .error e

/-- The property `_state`, /repo/satella/coding/concurrent/futures/futures.py:191-196 -/
def WF.eff (s : WF V) : FState (Option V) :=
  match s.src with
  | .value _ => s.own
  | .error _ => s.own
  | x => lift x

/-- `notify_all`.  (Part of the model of `Future`, /repo/satella/coding/concurrent/futures/futures.py:22-173.) -/
def Waiter.notify : Waiter V → Waiter V
  | .waiting => .woken
  | w => w

/-- `set_result`/`set_exception` of the wrapper, /repo/satella/coding/concurrent/futures/futures.py:142-152,163-173, without pre-done callbacks; if the state does not
allow it, InvalidStateError is raised inside a callback and only logged -/
def WF.set (s : WF V) (x : FState (Option V)) : WF V :=
  if s.eff.isDone then s
  else { s with own := x, waiter := s.waiter.notify, calls := s.calls ++ [outcomeOf x] }

/-- `_on_future_completed`, /repo/satella/coding/concurrent/futures/futures.py:205-209; a cancelled source has neither result nor exception -/
def WF.onCompleted (s : WF V) : WF V :=
  match s.src with
  | .error e => s.set (.error e)
  | .value v => s.set (.value (some v))
  | _ => s.set (.value none)

/-- `_old_state = source_future._state`, /repo/satella/coding/concurrent/futures/futures.py:189: the own result stays as it was -/
def WF.copyState (s : WF V) : FState (Option V) :=
  match s.src with
  | .value _ | .error _ =>
    match s.own with
    | .value v => .value v
    | .error e => .error e
    | _ => .value none
  | x => lift x

/-- The section of `result()` under the lock (standard library): done, or wait; after waking, done or TimeoutError.  (Part of the model of `WrappingFuture`, /repo/satella/coding/concurrent/futures/futures.py:176-213.) -/
def WF.look (s : WF V) (again : Bool) : WF V :=
  if s.eff.isDone then { s with waiter := .got (outcomeOf s.eff) }
  else if again then { s with waiter := .got (.error .timeoutError) }
  else { s with waiter := .waiting }

/-- One event.  (Part of the model of `WrappingFuture`, /repo/satella/coding/concurrent/futures/futures.py:176-213.) -/
def WF.step (s : WF V) : WFEv V → WF V
  | .construct =>
    match s.phase with
    | 0 =>
      -- `add_done_callback`: called at once if the source is done
      if s.src.isDone then { s with phase := 1, due := false }.onCompleted else { s with phase := 1 }
    | 1 => { s with phase := 2, own := s.copyState }
    | _ => s
  | .srcStart => match s.src with
    | .pending => { s with src := .running }
    | .cancelled => { s with src := .notified }
    | _ => s
  | .srcValue v => if s.src.isDone then s else { s with src := .value v, due := true }
  | .srcError e => if s.src.isDone then s else { s with src := .error e, due := true }
  | .srcCancel => match s.src with
    | .pending => { s with src := .cancelled, due := true }
    | _ => s
  | .callback =>
    if s.due then
      let s1 := { s with due := false }
      if s.phase = 0 then s1 else s1.onCompleted
    else s
  | .wCancel =>
    if s.phase = 2 then
      let s1 := match s.eff with
        | .pending => { s with own := .cancelled, waiter := s.waiter.notify, calls := s.calls ++ [Except.error FErr.cancelledError] }
        | _ => s
      match s1.src with
      | .pending => { s1 with src := .cancelled, due := true }
      | _ => s1
    else s
  | .wait =>
    if s.phase = 2 then
      match s.waiter with
      | .idle => s.look false
      | .woken => s.look true
      | _ => s
    else s

/-- a schedule.  (Part of the model of `WrappingFuture`, /repo/satella/coding/concurrent/futures/futures.py:176-213.) -/
def WF.run (s : WF V) : List (WFEv V) → WF V
  | [] => s
  | e :: es => (s.step e).run es

/-- before the constructor runs.  (Part of the model of `WrappingFuture`, /repo/satella/coding/concurrent/futures/futures.py:176-213.) -/
def WF.init (src : FState V) : WF V :=
  { src := src, due := false, own := .pending, phase := 0, waiter := .idle, calls := [] }

/-! ## Spec -/

/-- The events for which a wrapper keeps its promise: nobody cancels; the constructor does not run its last statement between the completion of
the source and the run of the source's callbacks. -/
def QuietEv (s : WF V) : WFEv V → Prop
  | .srcCancel => False
  | .wCancel => False
  | .construct => s.phase = 1 → s.due = false
  | _ => True

/-- ... for all events of a schedule. -/
def Quiet (s : WF V) : List (WFEv V) → Prop
  | [] => True
  | e :: es => QuietEv s e ∧ Quiet (s.step e) es

/-- what the source's outcome is -/
def srcOutcome : FState V → Option (Except FErr (Option V))
  | .value v => some (.ok (some v))
  | .error e => some (.error e)
  | _ => none

/-! ## Proofs -/

/-- Holds throughout quiet schedules. -/
def WInv (s : WF V) : Prop :=
  s.src.isCancelled = false ∧ (s.due = true → s.src.isDone = true) ∧ (s.phase ≠ 2 → s.waiter = .idle) ∧
  ((s.phase = 0 ∧ s.own = .pending ∧ s.calls = [] ∧ s.waiter = .idle) ∨
   (s.phase ≠ 0 ∧ (s.src.isDone = false ∨ s.due = true) ∧ (s.own = .pending ∨ s.own = .running) ∧ s.calls = [] ∧ (s.waiter = .idle ∨ s.waiter = .waiting)) ∨
   (s.phase ≠ 0 ∧ s.src.isDone = true ∧ s.due = false ∧ s.own = lift s.src ∧ s.calls = [outcomeOf (lift s.src)] ∧
     (s.waiter = .idle ∨ s.waiter = .woken ∨ s.waiter = .got (outcomeOf (lift s.src)))))

theorem winv_step (s : WF V) (e : WFEv V) (hq : QuietEv s e) (h : WInv s) : WInv (s.step e) := by
  obtain ⟨src, due, own, phase, waiter, calls⟩ := s
  obtain ⟨h1, h2, h3, h4⟩ := h
  dsimp only at h1 h2 h3 h4
  cases e with
  | srcCancel => exact absurd hq (by simp [QuietEv])
  | wCancel => exact absurd hq (by simp [QuietEv])
  | srcStart =>
    rcases h4 with ⟨rfl, rfl, rfl, rfl⟩ | ⟨hp, hd, ho, rfl, hw⟩ | ⟨hp, hd, rfl, rfl, rfl, hw⟩ <;>
      cases src <;> simp_all [WF.step, WInv, FState.isCancelled, FState.isDone]
  | srcValue v =>
    rcases h4 with ⟨rfl, rfl, rfl, rfl⟩ | ⟨hp, hd, ho, rfl, hw⟩ | ⟨hp, hd, rfl, rfl, rfl, hw⟩ <;>
      cases src <;> simp_all [WF.step, WInv, FState.isCancelled, FState.isDone]
  | srcError v =>
    rcases h4 with ⟨rfl, rfl, rfl, rfl⟩ | ⟨hp, hd, ho, rfl, hw⟩ | ⟨hp, hd, rfl, rfl, rfl, hw⟩ <;>
      cases src <;> simp_all [WF.step, WInv, FState.isCancelled, FState.isDone]
  | callback =>
    cases due
    · simpa [WF.step, WInv] using ⟨h1, h3, by simpa using h4⟩
    · rcases h4 with ⟨rfl, rfl, rfl, rfl⟩ | ⟨hp, hd, ho, rfl, hw⟩ | ⟨hp, hd, h5, rfl, rfl, hw⟩
      · cases src <;> simp_all [WF.step, WInv, FState.isCancelled, FState.isDone]
      · cases src <;> rcases ho with rfl | rfl <;> rcases hw with rfl | rfl <;>
          simp_all [WF.step, WInv, FState.isCancelled, FState.isDone, WF.onCompleted, WF.set, WF.eff, lift, Waiter.notify, outcomeOf]
      · cases h5
  | construct =>
    rcases h4 with ⟨rfl, rfl, rfl, rfl⟩ | ⟨hp, hd, ho, rfl, hw⟩ | ⟨hp, hd, rfl, rfl, rfl, hw⟩
    · cases src <;>
        simp_all [WF.step, WInv, FState.isCancelled, FState.isDone, WF.onCompleted, WF.set, WF.eff, lift, Waiter.notify, outcomeOf]
    · match phase, hp with
      | 1, _ =>
        have hdue : due = false := hq rfl
        subst hdue
        have hw' : waiter = .idle := h3 (by simp)
        subst hw'
        cases src <;> simp_all [WF.step, WInv, FState.isCancelled, FState.isDone, WF.copyState, lift]
      | n + 2, _ =>
        simpa [WF.step, WInv] using ⟨h1, h2, by simpa using h3, hd, ho, hw⟩
    · match phase, hp with
      | 1, _ =>
        have hw' : waiter = .idle := h3 (by simp)
        subst hw'
        cases src <;> simp_all [WF.step, WInv, FState.isCancelled, FState.isDone, WF.copyState, lift]
      | n + 2, _ =>
        simpa [WF.step, WInv] using ⟨h1, by simpa using h3, hd, hw⟩
  | wait =>
    by_cases hp2 : phase = 2
    · subst hp2
      rcases h4 with ⟨h0, _⟩ | ⟨hp, hd, ho, rfl, hw⟩ | ⟨hp, hd, rfl, rfl, rfl, hw⟩
      · cases h0
      · cases src <;> rcases ho with rfl | rfl <;> rcases hw with rfl | rfl <;>
          simp_all [WF.step, WInv, FState.isCancelled, FState.isDone, WF.look, WF.eff, lift, outcomeOf]
      · cases src <;> rcases hw with rfl | rfl | rfl <;>
          simp_all [WF.step, WInv, FState.isCancelled, FState.isDone, WF.look, WF.eff, lift, outcomeOf]
    · have : WF.step ⟨src, due, own, phase, waiter, calls⟩ (.wait : WFEv V) = ⟨src, due, own, phase, waiter, calls⟩ := by
        simp [WF.step, hp2]
      rw [this]
      exact ⟨h1, h2, h3, h4⟩

theorem winv_run (s : WF V) (es : List (WFEv V)) (hq : Quiet s es) (h : WInv s) : WInv (s.run es) := by
  induction es generalizing s with
  | nil => exact h
  | cons e es ih => exact ih _ hq.2 (winv_step s e hq.1 h)

theorem lift_outcome (x : FState V) (h1 : x.isDone = true) (h2 : x.isCancelled = false) :
    srcOutcome x = some (outcomeOf (lift x)) := by
  cases x <;> simp_all [FState.isDone, FState.isCancelled, srcOutcome, lift, outcomeOf]

/-- **C53 (partial).** A source in any state but cancelled is wrapped; it is started and completed, its callbacks run, a thread waits for the wrapper's result, in any
order.  Then: what the waiting thread gets is the outcome of the source; once the source is done and its callbacks have run, the waiting thread is not left
waiting and gets the outcome when it goes on, `result()` shows the source's outcome, and the wrapper's done callback was called exactly once, with that; before that the wrapper is not done, and running while the source is.  Missing: cancellation (see
`C53_source_cancelled_violates`, `C53_cancel_violates`) and one race of the constructor (see `C53_constructor_violates`). -/
theorem C53_wrapping_partial (src : FState V) (hs : src.isCancelled = false) (es : List (WFEv V)) (hq : Quiet (WF.init src) es) :
    let s := (WF.init src).run es
    (∀ r, s.waiter = .got r → srcOutcome s.src = some r) ∧
    (s.src.isDone = true → s.due = false → s.phase = 2 →
      s.waiter ≠ .waiting ∧ (∃ r, (s.step .wait).waiter = .got r ∧ srcOutcome s.src = some r) ∧ srcOutcome s.src = some (outcomeOf s.eff) ∧ s.calls = [outcomeOf s.eff]) ∧
    (s.src.isDone = false → s.eff.isDone = false ∧ (s.eff = .running ↔ s.src = .running)) := by
  intro s
  have h : WInv s := winv_run _ es hq ⟨hs, by simp [WF.init], by simp [WF.init], Or.inl ⟨rfl, rfl, rfl, rfl⟩⟩
  obtain ⟨h1, h2, h3, h4⟩ := h
  refine ⟨fun r hr => ?_, fun hd hdue hp => ?_, fun hd => ?_⟩
  · rcases h4 with ⟨_, _, _, hw⟩ | ⟨_, _, _, _, hw⟩ | ⟨_, hd, _, _, _, hw⟩
    · rw [hr] at hw; cases hw
    · rw [hr] at hw; rcases hw with hw | hw <;> cases hw
    · rw [hr] at hw
      rcases hw with hw | hw | hw
      · cases hw
      · cases hw
      · rw [lift_outcome _ hd h1]
        injection hw with hw; rw [hw]
  · rcases h4 with ⟨h0, _⟩ | ⟨_, h5, _⟩ | ⟨_, _, _, ho, hc, hw⟩
    · rw [h0] at hp; cases hp
    · rcases h5 with h5 | h5
      · rw [hd] at h5; cases h5
      · rw [hdue] at h5; cases h5
    · have he : s.eff = lift s.src := by
        unfold WF.eff
        cases hx : s.src <;> rw [hx] at ho <;> simp [ho]
      rw [he]
      have hl := lift_outcome _ hd h1
      have hdl : (lift s.src).isDone = true := by
        revert hd; cases s.src <;> simp [lift, FState.isDone]
      refine ⟨?_, ⟨_, ?_, hl⟩, hl, hc⟩
      · rcases hw with hw | hw | hw <;> rw [hw] <;> simp
      · rcases hw with hw | hw | hw <;> simp [WF.step, hp, hw, WF.look, he, hdl]
  · unfold WF.eff
    cases hx : s.src <;> rw [hx] at hd <;> simp_all [lift, FState.isDone]

example : let es : List (WFEv Nat) := [.srcStart, .construct, .construct, .wait, .srcValue 5, .callback, .wait]
    Quiet (WF.init .pending) es ∧ ((WF.init .pending).run es).waiter = .got (.ok (some 5)) := by
  simp [Quiet, QuietEv, WF.run, WF.step, WF.init, WF.look, WF.eff, lift, WF.copyState, WF.onCompleted, WF.set, FState.isDone, Waiter.notify, outcomeOf]

/-- **C53 violated.** Cancelling the source directly: the thread waiting for the wrapper's result waits for ever (no event wakes it), and the wrapper's done
callback is never called. -/
theorem C53_source_cancelled_violates :
    ∃ es : List (WFEv Nat), let s := (WF.init .pending).run es
      s.src = .cancelled ∧ s.due = false ∧ ∀ es', (s.run es').waiter = .waiting ∧ (s.run es').calls = [] := by
  refine ⟨[.construct, .construct, .wait, .srcCancel, .callback], rfl, rfl, ?_⟩
  have key : ∀ (es' : List (WFEv Nat)) (s : WF Nat), (s.src = .cancelled ∨ s.src = .notified) → s.due = false → s.phase = 2 → s.waiter = .waiting → s.calls = [] →
      (s.run es').waiter = .waiting ∧ (s.run es').calls = [] := by
    intro es'
    induction es' with
    | nil => intro s _ _ _ h4 h5; exact ⟨h4, h5⟩
    | cons e es' ih =>
      intro s h1 h2 h3 h4 h5
      apply ih <;> rcases h1 with h1 | h1 <;> cases e <;> simp [WF.step, h1, h2, h3, h4, h5, FState.isDone, WF.eff, lift]
  intro es'
  exact key es' _ (Or.inl rfl) rfl rfl rfl rfl

/-- **C53 (partial), cancelled sources.** In every history: whoever asks for the result after the source was cancelled, and the wrapper was made, gets CancelledError at once. -/
theorem C53_cancelled_partial (src : FState V) (es : List (WFEv V)) :
    let s := (WF.init src).run es
    (s.src = .cancelled ∨ s.src = .notified) → s.phase = 2 → s.waiter = .idle → (s.step .wait).waiter = .got (.error .cancelledError) := by
  intro s h hp hw
  rcases h with h | h <;> simp [WF.step, hp, hw, WF.look, WF.eff, h, lift, FState.isDone, outcomeOf]

example : let s := (WF.init (.pending : FState Nat)).run [.construct, .construct, .srcCancel, .srcStart]
    s.src = .notified ∧ s.phase = 2 ∧ s.waiter = .idle := ⟨rfl, rfl, rfl⟩

/-- **C53 violated.** `cancel()` of the wrapper between the completion of the source and its callbacks returns False (the source cannot be cancelled), yet the wrapper is
cancelled: `result()` raises CancelledError and the source's result is lost. -/
theorem C53_cancel_violates :
    ∃ es : List (WFEv Nat), let s := (WF.init .pending).run es
      s.src = .value 5 ∧ s.due = false ∧ s.calls = [.error .cancelledError] ∧ outcomeOf s.eff = .error .cancelledError :=
  ⟨[.construct, .construct, .srcValue 5, .wCancel, .callback], rfl, rfl, rfl, rfl⟩

/-- **C53 violated.** The source completes after the wrapper's constructor registered its callback, and the constructor ends before that callback runs: the
wrapper presents None instead of the result, and its done callbacks are never called. -/
theorem C53_constructor_violates :
    ∃ es : List (WFEv Nat), let s := (WF.init .pending).run es
      s.src = .value 5 ∧ s.due = false ∧ s.phase = 2 ∧ outcomeOf s.eff = .ok none ∧ s.calls = [] :=
  ⟨[.construct, .srcValue 5, .construct, .callback], rfl, rfl, rfl, rfl, rfl⟩

end
end Verif.Futures
