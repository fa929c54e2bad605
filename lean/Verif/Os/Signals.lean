import Verif.Py.Basic

/-!
# Sleeping in spite of interrupts, and hanging until a signal

Model of `satella/time/misc.py` (`sleep`) and `satella/os/signals.py` (`hang_until_sig`).

Time is rational and passes only where the environment says: between the readings of the clock and in
`time.sleep`. What the environment does during one round of the loop is a value of `Ev`; a run of `sleep` is given a
list of them. The string form of the interval (`parse_time_string`) is a separate property.
-/

namespace Verif.Signals

/-- What happens in one round of the loop at /repo/satella/time/misc.py:28-33: `d1` passes before the clock is read in the
condition (line 28), `d2` between that and the second reading (line 30). `intr` says that KeyboardInterrupt is raised
in `time.sleep`, after `slept`; if it is not, `time.sleep` takes what it was asked for and `slept` more. `outside` says
that KeyboardInterrupt is raised between the check and `try`. -/
structure Ev where
  d1 : Rat
  d2 : Rat
  slept : Rat
  intr : Bool
  outside : Bool
deriving DecidableEq, Repr

/-- How `sleep` ends (/repo/satella/time/misc.py:24-34): it returns a boolean, or an exception leaves it; `running` is when
the environment given has no more rounds. -/
inductive Out where
  | returned (b : Bool)
  | valueError
  | keyboardInterrupt
  | running
deriving DecidableEq, Repr

/-- /repo/satella/time/misc.py:27-34, the loop of `sleep` with `y` the interval, `el` the time since the beginning of
measuring. Gives how it ended and the time elapsed. `time.sleep` of a negative number is
ValueError. -/
def sleepLoop (y : Rat) (abort : Bool) (el : Rat) : List Ev → Out × Rat
  | [] => (.running, el)
  | e :: rest =>
    let t1 := el + e.d1
    if t1 < y then
      if e.outside then (.keyboardInterrupt, t1)
      else
        let t2 := t1 + e.d2
        if y - t2 < 0 then (.valueError, t2)
        else
          if e.intr then
            if abort then (.returned false, t2 + e.slept) else sleepLoop y abort (t2 + e.slept) rest
          else sleepLoop y abort (t2 + (y - t2) + e.slept) rest
    else (.returned true, t1)

/-- /repo/satella/time/misc.py:10-34, `sleep` (the interval already a number). -/
def sleep (y : Rat) (abort : Bool) (env : List Ev) : Out × Rat :=
  if y < 0 then (.returned false, 0) else sleepLoop y abort 0 env

/-! ## Specification -/

/-- Time does not go back. -/
def Ev.forward (e : Ev) : Prop := 0 ≤ e.d1 ∧ 0 ≤ e.d2 ∧ 0 ≤ e.slept

/-! ## Proofs -/

theorem sleepLoop_true (y : Rat) (abort : Bool) (env : List Ev) : ∀ el t, sleepLoop y abort el env = (.returned true, t) → y ≤ t := by
  induction env with
  | nil => intro el t h; simp [sleepLoop] at h
  | cons e rest ih =>
    intro el t h
    simp only [sleepLoop] at h
    split at h
    · split at h
      · simp at h
      · split at h
        · simp at h
        · split at h
          · split at h
            · simp at h
            · exact ih _ _ h
          · exact ih _ _ h
    · rename_i hn
      simp only [Prod.mk.injEq, true_and] at h
      grind

theorem sleepLoop_false (y : Rat) (abort : Bool) (env : List Ev) : ∀ el t, sleepLoop y abort el env = (.returned false, t) → abort = true ∧ ∃ e ∈ env, e.intr = true := by
  induction env with
  | nil => intro el t h; simp [sleepLoop] at h
  | cons e rest ih =>
    intro el t h
    simp only [sleepLoop] at h
    split at h
    · split at h
      · simp at h
      · split at h
        · simp at h
        · split at h
          · rename_i hi
            split at h
            · rename_i ha
              exact ⟨ha, e, by simp, hi⟩
            · obtain ⟨a, e', he', hi'⟩ := ih _ _ h
              exact ⟨a, e', by simp [he'], hi'⟩
          · obtain ⟨a, e', he', hi'⟩ := ih _ _ h
            exact ⟨a, e', by simp [he'], hi'⟩
    · simp at h

/-- **C161 sleeping for at least the interval.** A `sleep` that returns True took at least the interval, whatever
interrupts and delays there were. -/
theorem C161_at_least (y : Rat) (abort : Bool) (env : List Ev) (t : Rat) (h : sleep y abort env = (.returned true, t)) : 0 ≤ y ∧ y ≤ t := by
  simp only [sleep] at h
  split at h
  · simp at h
  · exact ⟨by grind, sleepLoop_true y abort env _ _ h⟩

/-- **C161 when False is returned.** It returns False at once for a negative interval, and otherwise only if aborting
was asked for and there was an interrupt; without aborting interrupts never end it. -/
theorem C161_returns_False (y : Rat) (abort : Bool) (env : List Ev) (t : Rat) (h : sleep y abort env = (.returned false, t)) :
    (y < 0 ∧ t = 0) ∨ (0 ≤ y ∧ abort = true ∧ ∃ e ∈ env, e.intr = true) := by
  simp only [sleep] at h
  split at h
  · rename_i hy
    simp only [Prod.mk.injEq, true_and] at h
    exact Or.inl ⟨hy, h.symm⟩
  · exact Or.inr ⟨by grind, sleepLoop_false y abort env _ _ h⟩

/-- **C161 negative intervals.** -/
theorem C161_negative (y : Rat) (abort : Bool) (env : List Ev) (hy : y < 0) : sleep y abort env = (.returned false, 0) := by
  simp [sleep, hy]

/-- **C161 the first interrupt aborts.** If aborting was asked for, an interrupt in the first `time.sleep` ends the
call with False. -/
theorem C161_aborts (y : Rat) (e : Ev) (rest : List Ev) (hy : 0 ≤ y) (h1 : e.d1 + e.d2 ≤ y) (h1' : e.d1 < y) (ho : e.outside = false) (hi : e.intr = true) :
    sleep y true (e :: rest) = (.returned false, e.d1 + e.d2 + e.slept) := by
  have h0 : ¬ (y < 0) := by grind
  have h2 : (0 : Rat) + e.d1 < y := by grind
  have h3 : ¬ (y - (0 + e.d1 + e.d2) < 0) := by grind
  simp only [sleep, h0, if_false, sleepLoop, h2, if_true, ho, Bool.false_eq_true, h3, hi]
  simp only [Prod.mk.injEq, true_and]
  grind

theorem sleepLoop_ends (y : Rat) (abort : Bool) (pre : List Ev) (e e' : Ev) (post : List Ev) (ha : abort = false)
    (hpre : ∀ x ∈ pre, x.intr = true ∧ x.outside = false ∧ x.d2 = 0 ∧ 0 ≤ x.d1 ∧ 0 ≤ x.slept)
    (he : e.intr = false ∧ e.outside = false ∧ e.d2 = 0 ∧ 0 ≤ e.d1 ∧ 0 ≤ e.slept) (he' : 0 ≤ e'.d1) :
    ∀ el, 0 ≤ el → ∃ t, y ≤ t ∧ sleepLoop y abort el (pre ++ e :: e' :: post) = (.returned true, t) := by
  subst ha
  obtain ⟨hei, heo, he2, he1, hes⟩ := he
  induction pre with
  | nil =>
    intro el hel
    simp only [List.nil_append, sleepLoop, hei, heo, Bool.false_eq_true, if_false]
    by_cases h1 : el + e.d1 < y
    · have h2 : ¬ (y - (el + e.d1 + e.d2) < 0) := by grind
      have h4 : ¬ (el + e.d1 + e.d2 + (y - (el + e.d1 + e.d2)) + e.slept + e'.d1 < y) := by grind
      simp only [h1, if_true, h2, if_false, h4]
      exact ⟨_, by grind, rfl⟩
    · simp only [h1, if_false]
      exact ⟨el + e.d1, by grind, rfl⟩
  | cons x rest ih =>
    intro el hel
    obtain ⟨hxi, hxo, hx2, hx1, hxs⟩ := hpre x (by simp)
    simp only [List.cons_append, sleepLoop, hxi, hxo, Bool.false_eq_true, if_false, if_true]
    by_cases h1 : el + x.d1 < y
    · have h2 : ¬ (y - (el + x.d1 + x.d2) < 0) := by grind
      simp only [h1, if_true, h2, if_false]
      exact ih (fun z hz => hpre z (by simp [hz])) _ (by grind)
    · simp only [h1, if_false]
      exact ⟨el + x.d1, by grind, rfl⟩

/-- **C161 it ends.** If the clock shows no time between the check and `time.sleep`, then however many interrupts there
were inside `time.sleep`, the first `time.sleep` that is not interrupted ends the call with True. -/
theorem C161_ends (y : Rat) (pre : List Ev) (e e' : Ev) (post : List Ev) (hy : 0 ≤ y)
    (hpre : ∀ x ∈ pre, x.intr = true ∧ x.outside = false ∧ x.d2 = 0 ∧ 0 ≤ x.d1 ∧ 0 ≤ x.slept)
    (he : e.intr = false ∧ e.outside = false ∧ e.d2 = 0 ∧ 0 ≤ e.d1 ∧ 0 ≤ e.slept) (he' : 0 ≤ e'.d1) :
    ∃ t, y ≤ t ∧ sleep y false (pre ++ e :: e' :: post) = (.returned true, t) := by
  have h0 : ¬ (y < 0) := by grind
  simp only [sleep, h0, if_false]
  exact sleepLoop_ends y false pre e e' post rfl hpre he he' 0 (by grind)

/-- A case of C161: an interrupt after one second, then the remaining second, with little delays. -/
example : sleep 2 false [⟨0, 0, 1, true, false⟩, ⟨1/10, 0, 1/10, false, false⟩, ⟨0, 0, 0, false, false⟩] = (.returned true, 21/10) := by decide +kernel
example : sleep 2 true [⟨0, 0, 1, true, false⟩] = (.returned false, 1) := by decide +kernel
example : ∃ t, (2 : Rat) ≤ t ∧ sleep 2 false ([⟨0, 0, 1, true, false⟩] ++ ⟨0, 0, 1/10, false, false⟩ :: ⟨0, 0, 0, false, false⟩ :: []) = (.returned true, t) :=
  C161_ends 2 _ _ _ _ (by decide) (by decide +kernel) (by decide +kernel) (by decide +kernel)

/-- **C162 (violated) always sleeping for the interval.** The documentation says the sleep always is for the interval.
The clock is read twice, so if it passes the end between the two readings, `time.sleep` is given a negative number and
ValueError leaves the call: for every interval there is such a timing, with no interrupts at all. -/
theorem C162_race_violates (y : Rat) (hy : 0 < y) (abort : Bool) : ∃ e : Ev, e.forward ∧ e.intr = false ∧ e.outside = false ∧ ∀ rest, (sleep y abort (e :: rest)).1 = .valueError := by
  refine ⟨⟨0, y + 1, 0, false, false⟩, ⟨Rat.le_refl, by grind, Rat.le_refl⟩, rfl, rfl, fun rest => ?_⟩
  have h0 : ¬ (y < 0) := by grind
  have h1 : (0 : Rat) + 0 < y := by grind
  have h2 : y - (0 + 0 + (y + 1)) < 0 := by grind
  simp only [sleep, h0, if_false, sleepLoop, h1, if_true, Bool.false_eq_true, h2]

/-- **C162 (violated) interrupts outside `time.sleep`.** An interrupt that arrives between the check and `time.sleep`
leaves the call, although it "won't be interrupted by KeyboardInterrupt". -/
theorem C162_interrupt_violates (y : Rat) (hy : 0 < y) (abort : Bool) : ∃ e : Ev, e.forward ∧ ∀ rest, (sleep y abort (e :: rest)).1 = .keyboardInterrupt := by
  refine ⟨⟨0, 0, 0, false, true⟩, ⟨by decide, by decide, by decide⟩, fun rest => ?_⟩
  have h0 : ¬ (y < 0) := by grind
  have h1 : (0 : Rat) + 0 < y := by grind
  simp only [sleep, h0, if_false, sleepLoop, h1, if_true]

/-- **C162 (partial) no exceptions leave a sleep whose interrupts fall inside `time.sleep` and whose clock does not pass
the end between the readings.** Missing: both conditions, which the caller cannot ensure. -/
theorem C162_no_exceptions_partial (y : Rat) (abort : Bool) (env : List Ev) (h : ∀ e ∈ env, e.outside = false ∧ e.d2 = 0) :
    (sleep y abort env).1 ≠ .valueError ∧ (sleep y abort env).1 ≠ .keyboardInterrupt := by
  simp only [sleep]
  split
  · simp
  · generalize (0 : Rat) = el
    induction env generalizing el with
    | nil => simp [sleepLoop]
    | cons e rest ih =>
      obtain ⟨ho, h2⟩ := h e (by simp)
      have ihr := fun el => ih (fun x hx => h x (by simp [hx])) el
      simp only [sleepLoop, ho, Bool.false_eq_true, if_false]
      split
      · split
        · grind
        · split
          · split
            · simp
            · exact ihr _
          · exact ihr _
      · simp

/-! ## Hanging until a signal -/

/-- Handlers of signals: that of /repo/satella/os/signals.py:9-11, the default action (the process is ended), the default
handler of SIGINT (raises KeyboardInterrupt) and handlers of the user. -/
inductive Handler where
  | ours
  | dfl
  | raiseInt
  | user (n : Nat)
deriving DecidableEq, Repr

/-- `signal.SIGTERM`, used at /repo/satella/os/signals.py:30 and 34. -/
def SIGTERM : Nat := 15
/-- `signal.SIGINT`, named at /repo/satella/os/signals.py:17. -/
def SIGINT : Nat := 2

/-- The process: its handlers and the flag `end` of /repo/satella/os/signals.py:6. -/
structure Proc where
  handlers : Nat → Handler
  fin : Bool

/-- `signal.signal` as called at /repo/satella/os/signals.py:34,37,43,45. -/
def setHandler (h : Nat → Handler) (s : Nat) (x : Handler) : Nat → Handler := fun k => if k = s then x else h k

/-- /repo/satella/os/signals.py:35-37, the handlers installed and those that were there. -/
def install (h : Nat → Handler) : List Nat → (Nat → Handler) × List Handler
  | [] => (h, [])
  | s :: rest =>
    let r := install (setHandler h s .ours) rest
    (r.1, h s :: r.2)

/-- /repo/satella/os/signals.py:44-45, restoring. -/
def restore (h : Nat → Handler) : List Nat → List Handler → (Nat → Handler)
  | s :: rest, x :: olds => restore (setHandler h s x) rest olds
  | _, _ => h

/-- What happens in one poll (/repo/satella/os/signals.py:39-40): a signal, or nothing, arrives while `time.sleep` runs; or
an exception leaves `sleep` (see C162). One signal per poll; more signals within one sleep are polls of their own, since
only the flag is changed. -/
inductive Poll where
  | quiet
  | signal (s : Nat)
  | sleepRaises
deriving DecidableEq, Repr

/-- How the call ended: `hanging` is when nothing more happens. -/
inductive End where
  | returned
  | raised
  | killed
  | hanging
deriving DecidableEq, Repr

/-- /repo/satella/os/signals.py:39-40, the polling loop. The handler of a signal is run; the default one of SIGINT raises
KeyboardInterrupt within `time.sleep`, which `sleep(…, True)` turns to False (/repo/satella/time/misc.py:31-33), that is not
looked at. Gives the end, the flag and what was not used up. -/
def pollLoop (h : Nat → Handler) (fin : Bool) : List Poll → End × Bool × List Poll
  | [] => (if fin then .returned else .hanging, fin, [])
  | p :: rest =>
    if fin then (.returned, fin, p :: rest)
    else match p with
      | .quiet => pollLoop h fin rest
      | .sleepRaises => (.raised, fin, rest)
      | .signal s => match h s with
        | .ours => pollLoop h true rest
        | .raiseInt => pollLoop h fin rest
        | .user _ => pollLoop h fin rest
        | .dfl => (.killed, fin, rest)

/-- /repo/satella/os/signals.py:14-47, `hang_until_sig`. -/
def hang (p : Proc) (extra : List Nat) (polls : List Poll) : End × Proc × List Poll :=
  let h1 := setHandler p.handlers SIGTERM .ours
  let (h2, olds) := install h1 extra
  match pollLoop h2 p.fin polls with
  | (.returned, _, rest) => (.returned, ⟨restore (setHandler h2 SIGTERM (p.handlers SIGTERM)) extra olds, false⟩, rest)
  | (e, fin, rest) => (e, ⟨h2, fin⟩, rest)

/-! ### Proofs -/

theorem install_handlers (extra : List Nat) : ∀ h k, (install h extra).1 k = if k ∈ extra then .ours else h k := by
  induction extra with
  | nil => simp [install]
  | cons s rest ih =>
    intro h k
    simp only [install, ih, setHandler, List.mem_cons]
    by_cases h1 : k ∈ rest <;> by_cases h2 : k = s <;> simp [h1, h2]

theorem install_olds (extra : List Nat) : ∀ h, extra.Nodup → (install h extra).2 = extra.map h := by
  induction extra with
  | nil => simp [install]
  | cons s rest ih =>
    intro h hn
    obtain ⟨h1, h2⟩ := List.nodup_cons.mp hn
    simp only [install, List.map_cons, ih _ h2]
    congr 1
    apply List.map_congr_left
    intro a ha
    have : a ≠ s := fun e => h1 (e ▸ ha)
    simp [setHandler, this]

theorem restore_map (extra : List Nat) (old : Nat → Handler) : ∀ h, extra.Nodup → ∀ k, restore h extra (extra.map old) k = if k ∈ extra then old k else h k := by
  induction extra with
  | nil => simp [restore]
  | cons s rest ih =>
    intro h hn k
    obtain ⟨h1, h2⟩ := List.nodup_cons.mp hn
    simp only [List.map_cons, restore, ih _ h2, setHandler, List.mem_cons]
    by_cases h3 : k ∈ rest
    · simp [h3]
    · by_cases h4 : k = s <;> simp [h3, h4]

theorem pollLoop_fin (h : Nat → Handler) (polls : List Poll) : pollLoop h true polls = (.returned, true, polls) := by
  cases polls <;> simp [pollLoop]

/-- A signal is listened to by a call with the extra signals given. -/
def Listened (extra : List Nat) (s : Nat) : Prop := s = SIGTERM ∨ s ∈ extra

/-- A poll that neither releases the call nor ends the process, with the handlers there were before the call: quiet,
or a signal that is not listened to and has a handler of the user or raises KeyboardInterrupt. -/
def Harmless (p : Proc) (extra : List Nat) (x : Poll) : Prop :=
  x = .quiet ∨ ∃ s, x = .signal s ∧ ¬ Listened extra s ∧ p.handlers s ≠ .dfl ∧ p.handlers s ≠ .ours

theorem during (p : Proc) (extra : List Nat) (s : Nat) :
    (install (setHandler p.handlers SIGTERM .ours) extra).1 s = if s = SIGTERM ∨ s ∈ extra then .ours else p.handlers s := by
  rw [install_handlers]
  by_cases h1 : s ∈ extra <;> by_cases h2 : s = SIGTERM <;> simp [h1, h2, setHandler]

theorem pollLoop_harmless (p : Proc) (extra : List Nat) (pre : List Poll) (hp : ∀ x ∈ pre, Harmless p extra x) (rest : List Poll) :
    pollLoop (install (setHandler p.handlers SIGTERM .ours) extra).1 false (pre ++ rest) = pollLoop (install (setHandler p.handlers SIGTERM .ours) extra).1 false rest := by
  induction pre with
  | nil => simp
  | cons x xs ih =>
    have ih := ih (fun y hy => hp y (by simp [hy]))
    rcases hp x (by simp) with rfl | ⟨s, rfl, hl, hd, ho⟩
    · simpa [pollLoop] using ih
    · have hd' := during p extra s
      rw [if_neg (show ¬ (s = SIGTERM ∨ s ∈ extra) from hl)] at hd'
      simp only [List.cons_append, pollLoop, Bool.false_eq_true, if_false, hd']
      cases hh : p.handlers s with
      | ours => exact absurd hh ho
      | dfl => exact absurd hh hd
      | raiseInt => exact ih
      | user n => exact ih

/-- No signal has the handler of the module before the call and the flag is off: so it is in a process in which
`hang_until_sig` is not running and all earlier calls restored the handlers. -/
def Clean (p : Proc) : Prop := p.fin = false ∧ ∀ s, p.handlers s ≠ .ours

/-- **C163 released by a signal.** Whatever happened before that neither ends the process nor is a signal to listen to,
SIGTERM or an extra signal releases the call after the sleep in which it arrived. -/
theorem C163_released (p : Proc) (hp : Clean p) (extra : List Nat) (pre : List Poll) (hpre : ∀ x ∈ pre, Harmless p extra x) (s : Nat) (hs : s = SIGTERM ∨ s ∈ extra) (rest : List Poll) :
    (hang p extra (pre ++ .signal s :: rest)).1 = .returned ∧ (hang p extra (pre ++ .signal s :: rest)).2.2 = rest := by
  have h := pollLoop_harmless p extra pre hpre (.signal s :: rest)
  have hd := during p extra s
  rw [if_pos hs] at hd
  simp only [hang, hp.1, h, pollLoop, Bool.false_eq_true, if_false, hd, pollLoop_fin]
  exact ⟨trivial, trivial⟩

theorem pollLoop_returned (h : Nat → Handler) (polls : List Poll) (hr : (pollLoop h false polls).1 = .returned) : ∃ s, h s = .ours ∧ Poll.signal s ∈ polls := by
  induction polls with
  | nil => simp [pollLoop] at hr
  | cons x rest ih =>
    cases x with
    | quiet =>
      simp only [pollLoop, Bool.false_eq_true, if_false] at hr
      obtain ⟨s, h1, h2⟩ := ih hr
      exact ⟨s, h1, by simp [h2]⟩
    | sleepRaises => simp [pollLoop] at hr
    | signal s =>
      simp only [pollLoop, Bool.false_eq_true, if_false] at hr
      cases hh : h s with
      | ours => exact ⟨s, hh, by simp⟩
      | dfl => simp [hh] at hr
      | raiseInt =>
        simp only [hh] at hr
        obtain ⟨s, h1, h2⟩ := ih hr
        exact ⟨s, h1, by simp [h2]⟩
      | user n =>
        simp only [hh] at hr
        obtain ⟨s, h1, h2⟩ := ih hr
        exact ⟨s, h1, by simp [h2]⟩

/-- **C163 not released otherwise.** A call that returned got SIGTERM or an extra signal. -/
theorem C163_only_then (p : Proc) (hp : Clean p) (extra : List Nat) (polls : List Poll) (hr : (hang p extra polls).1 = .returned) :
    ∃ s, (s = SIGTERM ∨ s ∈ extra) ∧ Poll.signal s ∈ polls := by
  have hr' : (pollLoop (install (setHandler p.handlers SIGTERM .ours) extra).1 false polls).1 = .returned := by
    simp only [hang, hp.1] at hr
    split at hr
    · rename_i heq
      rw [heq]
    · rename_i heq
      rw [heq]; exact hr
  obtain ⟨s, h1, h2⟩ := pollLoop_returned _ polls hr'
  rw [during] at h1
  split at h1
  · rename_i hs
    exact ⟨s, hs, h2⟩
  · exact absurd h1 (hp.2 s)

/-- **C163 as it was before.** After a call that returned, with extra signals that are different and not SIGTERM, all
handlers are those that were before and the flag is off, so that the next call hangs again. -/
theorem C163_restored (p : Proc) (extra : List Nat) (hn : (SIGTERM :: extra).Nodup) (polls : List Poll) (hr : (hang p extra polls).1 = .returned) :
    (∀ s, (hang p extra polls).2.1.handlers s = p.handlers s) ∧ (hang p extra polls).2.1.fin = false := by
  obtain ⟨h1, h2⟩ := List.nodup_cons.mp hn
  simp only [hang] at hr ⊢
  split at hr
  · refine ⟨fun s => ?_, rfl⟩
    simp only [install_olds _ _ h2]
    rw [restore_map extra _ _ h2]
    by_cases hs : s ∈ extra
    · have : s ≠ SIGTERM := fun e => h1 (e ▸ hs)
      simp [hs, setHandler, this]
    · simp only [hs, if_false, setHandler, install_handlers]
      by_cases h3 : s = SIGTERM <;> simp [h3]
  · rename_i hne heq
    exact (hne hr).elim

/-- **C163 the next call.** So a call after a call that returned is again as in a process where none was made. -/
theorem C163_clean (p : Proc) (hp : Clean p) (extra : List Nat) (hn : (SIGTERM :: extra).Nodup) (polls : List Poll) (hr : (hang p extra polls).1 = .returned) : Clean (hang p extra polls).2.1 := by
  obtain ⟨h1, h2⟩ := C163_restored p extra hn polls hr
  exact ⟨h2, fun s => by rw [h1]; exact hp.2 s⟩

/-- A process with usual handlers: for SIGINT KeyboardInterrupt is raised, for SIGHUP there is a handler of the user. -/
def usual : Proc := ⟨fun s => if s = SIGINT then .raiseInt else if s = 1 then .user 0 else .dfl, false⟩

/-- A case of C163: SIGINT and SIGHUP do not release it, signal 10, an extra one, does. -/
example : Clean usual ∧ (SIGTERM :: [10, 12]).Nodup ∧ (∀ x ∈ [Poll.quiet, .signal SIGINT, .signal 1], Harmless usual [10, 12] x) ∧
    (hang usual [10, 12] ([.quiet, .signal SIGINT, .signal 1] ++ .signal 10 :: [.signal 3])).1 = .returned := by
  refine ⟨⟨rfl, fun s => ?_⟩, by decide, ?_, by decide⟩
  · simp only [usual]; split
    · simp
    · split <;> simp
  · intro x hx
    simp only [List.mem_cons, List.not_mem_nil, or_false] at hx
    rcases hx with rfl | rfl | rfl
    · exact Or.inl rfl
    · exact Or.inr ⟨_, rfl, by simp [Listened, SIGINT, SIGTERM], by decide, by decide⟩
    · exact Or.inr ⟨_, rfl, by simp [Listened, SIGTERM], by decide, by decide⟩

/-- **C164 (violated) released by SIGINT.** The call is documented to hang until SIGTERM or SIGINT. Nothing is done
about SIGINT: it cuts short one sleep, and the call hangs however many times the signal comes. -/
theorem C164_sigint_violates (n : Nat) : (hang usual [] (List.replicate n (.signal SIGINT))).1 = .hanging := by
  simp only [hang, install]
  suffices h : pollLoop (setHandler usual.handlers SIGTERM .ours) usual.fin (List.replicate n (.signal SIGINT)) = (.hanging, false, []) by rw [h]
  induction n with
  | zero => rfl
  | succ n ih =>
    rw [List.replicate_succ]
    simp only [pollLoop]
    exact ih

/-- **C164 (violated) handlers restored.** If SIGTERM is among the extra signals, or a signal is there twice, the
handler of the module stays installed after the call. The next such signal sets the flag, and so the next call
returns at once, with no signal at all. -/
theorem C164_twice_violates : (hang usual [SIGTERM] [.signal SIGTERM]).1 = .returned ∧ (hang usual [SIGTERM] [.signal SIGTERM]).2.1.handlers SIGTERM = .ours ∧
    (hang usual [10, 10] [.signal 10]).2.1.handlers 10 = .ours ∧
    (hang { (hang usual [10, 10] [.signal 10]).2.1 with fin := true } [] [.quiet]).1 = .returned := by decide

/-- **C164 (violated) handlers restored when an exception leaves the call.** An interrupt outside `time.sleep`, or
ValueError from `sleep` (C162), leaves the handlers installed. -/
theorem C164_exception_violates (p : Proc) (hp : p.fin = false) (extra : List Nat) (rest : List Poll) :
    (hang p extra (.sleepRaises :: rest)).1 = .raised ∧ ∀ s, (s = SIGTERM ∨ s ∈ extra) → (hang p extra (.sleepRaises :: rest)).2.1.handlers s = .ours := by
  simp only [hang, hp, pollLoop, Bool.false_eq_true, if_false]
  refine ⟨trivial, fun s hs => ?_⟩
  rw [during, if_pos hs]

/-- **C164 (partial) SIGINT as an extra signal.** SIGINT releases the call and everything is restored if it is among the
extra signals, they are different and none is SIGTERM. Missing: SIGINT without being asked for, repeated signals and
exceptions. -/
theorem C164_sigint_partial (p : Proc) (hp : Clean p) (extra : List Nat) (hi : SIGINT ∈ extra) (hn : (SIGTERM :: extra).Nodup) (pre : List Poll) (hpre : ∀ x ∈ pre, Harmless p extra x) (rest : List Poll) :
    (hang p extra (pre ++ .signal SIGINT :: rest)).1 = .returned ∧ ∀ s, (hang p extra (pre ++ .signal SIGINT :: rest)).2.1.handlers s = p.handlers s := by
  have h := (C163_released p hp extra pre hpre SIGINT (Or.inr hi) rest).1
  exact ⟨h, (C163_restored p extra hn _ h).1⟩

end Verif.Signals
