/-!
# Model of call_in_separate_thread and run_as_future (satella/coding/concurrent), C78

One call of a decorated function: the future that is returned, and the thread that runs the function.  Any number of other threads may try to cancel the future at any time.
The function's outcome is a parameter.  Python's `Future` is modelled with its five states.  Not modelled: others setting the result of the future.
-/
namespace Verif.Conc.ThreadFuture

/-- what the function does.  (Part of the model of `call_in_separate_thread`, /repo/satella/coding/concurrent/thread.py:16-71.) -/
inductive Out where
  | value (v : Nat)
  /-- raises an `Exception` -/
  | exc (e : Nat)
  /-- raises a `BaseException` that is no `Exception` -/
  | base (e : Nat)
  deriving DecidableEq, Repr

/-- a `concurrent.futures.Future`.  (Part of the model of `call_in_separate_thread`, /repo/satella/coding/concurrent/thread.py:16-71.) -/
inductive Fut where
  | pending
  | running
  | cancelled
  /-- `CANCELLED_AND_NOTIFIED` -/
  | notified
  | finished (o : Out)
  deriving DecidableEq, Repr

/-- where the thread is.  (Part of the model of `call_in_separate_thread`, /repo/satella/coding/concurrent/thread.py:16-71.) -/
inductive Pc where
  /-- it has not begun to run -/
  | fresh
  /-- `time.sleep(delay)` -/
  | delaying
  /-- in the function -/
  | calling
  /-- about to call `set_result` or `set_exception` -/
  | setting (o : Out)
  | ended
  /-- ended by an exception -/
  | died
  deriving DecidableEq, Repr

/-- which decorator.  (Part of the model of `call_in_separate_thread`, /repo/satella/coding/concurrent/thread.py:16-71.) -/
inductive Kind where
  | callInSeparateThread (delay : Bool)
  | runAsFuture
  deriving DecidableEq, Repr

/-- part of the model of `call_in_separate_thread`, /repo/satella/coding/concurrent/thread.py:16-71 -/
structure St where
  fut : Fut
  pc : Pc
  /-- how often the function was called -/
  calls : Nat
  /-- the results of the calls of `cancel()` -/
  cancels : List Bool
  deriving DecidableEq, Repr

/-- when the decorated function has returned the future: /repo/satella/coding/concurrent/thread.py:44-48, 63-65, or /repo/satella/coding/concurrent/functions.py:29-30, 38-39 -/
def St.init : Kind → St
  | .callInSeparateThread _ => ⟨.pending, .fresh, 0, []⟩
  | .runAsFuture => ⟨.running, .fresh, 0, []⟩

/-- part of the model of `call_in_separate_thread`, /repo/satella/coding/concurrent/thread.py:16-71 -/
inductive Act where
  /-- a step of the thread -/
  | thread
  /-- somebody calls `cancel()` -/
  | cancel
  deriving DecidableEq, Repr

/-- a step of the thread: `run`, /repo/satella/coding/concurrent/thread.py:52-61, or `separate_target`, /repo/satella/coding/concurrent/functions.py:32-36 -/
def St.thread (k : Kind) (fn : Out) (s : St) : St :=
  match s.pc with
  | .fresh =>
    match k with
    | .callInSeparateThread delay =>
      match s.fut with
      | .pending => { s with fut := .running, pc := if delay then .delaying else .calling }
      | .cancelled => { s with fut := .notified, pc := .ended }
      | _ => { s with pc := .died }
    | .runAsFuture => { s with pc := .calling }
  | .delaying => { s with pc := .calling }
  | .calling =>
    match fn with
    | .base _ => { s with calls := s.calls + 1, pc := .died }
    | o => { s with calls := s.calls + 1, pc := .setting o }
  | .setting o => { s with fut := .finished o, pc := .ended }
  | .ended => s
  | .died => s

/-- `Future.cancel()`.  (Part of the model of `call_in_separate_thread`, /repo/satella/coding/concurrent/thread.py:16-71.) -/
def St.cancel (s : St) : St :=
  match s.fut with
  | .pending => { s with fut := .cancelled, cancels := s.cancels ++ [true] }
  | .cancelled => { s with cancels := s.cancels ++ [true] }
  | .notified => { s with cancels := s.cancels ++ [true] }
  | _ => { s with cancels := s.cancels ++ [false] }

/-- one action.  (Part of the model of `call_in_separate_thread`, /repo/satella/coding/concurrent/thread.py:16-71.) -/
def St.step (k : Kind) (fn : Out) (s : St) : Act → St
  | .thread => s.thread k fn
  | .cancel => s.cancel

/-- a schedule.  (Part of the model of `call_in_separate_thread`, /repo/satella/coding/concurrent/thread.py:16-71.) -/
def St.run (k : Kind) (fn : Out) (s : St) (as : List Act) : St := as.foldl (St.step k fn) s

/-! ## Specification -/

/-- What holds after every schedule. -/
structure Ok (fn : Out) (s : St) : Prop where
  /-- the function is called at most once -/
  once : s.calls ≤ 1
  /-- if `cancel()` gave True, the function was not called and the future is cancelled; all calls of `cancel()` gave True -/
  cancelled : true ∈ s.cancels → s.calls = 0 ∧ (s.fut = .cancelled ∨ s.fut = .notified) ∧ false ∉ s.cancels
  /-- a future that is cancelled was cancelled by somebody -/
  only : s.fut = .cancelled ∨ s.fut = .notified → true ∈ s.cancels
  /-- what the future holds is what the function did -/
  result : ∀ o, s.fut = .finished o → o = fn ∧ s.calls = 1
  /-- a thread that has ended has resolved the future -/
  resolved : s.pc = .ended → s.fut = .notified ∨ s.fut = .finished fn

/-! ## Proofs -/

/-- the invariant -/
structure Inv (k : Kind) (fn : Out) (s : St) : Prop where
  fresh : s.pc = .fresh → s.calls = 0 ∧ ((∃ d, k = .callInSeparateThread d) ∧ (s.fut = .pending ∨ s.fut = .cancelled) ∨ k = .runAsFuture ∧ s.fut = .running)
  delaying : s.pc = .delaying → s.calls = 0 ∧ s.fut = .running
  calling : s.pc = .calling → s.calls = 0 ∧ s.fut = .running
  setting : ∀ o, s.pc = .setting o → s.calls = 1 ∧ s.fut = .running ∧ o = fn
  ended : s.pc = .ended → (s.fut = .notified ∧ s.calls = 0) ∨ (s.fut = .finished fn ∧ s.calls = 1)
  died : s.pc = .died → (∃ e, fn = .base e) ∧ s.fut = .running ∧ s.calls = 1
  yes : true ∈ s.cancels ↔ s.fut = .cancelled ∨ s.fut = .notified
  no : false ∈ s.cancels → s.fut ≠ .pending ∧ s.fut ≠ .cancelled ∧ s.fut ≠ .notified

theorem inv_init (k : Kind) (fn : Out) : Inv k fn (St.init k) := by
  cases k <;> constructor <;> simp [St.init]

theorem inv_step (k : Kind) (fn : Out) (s : St) (a : Act) (h : Inv k fn s) : Inv k fn (s.step k fn a) := by
  obtain ⟨h1, h2, h3, h4, h5, h6, h7, h8⟩ := h
  obtain ⟨fut, pc, calls, cancels⟩ := s
  simp only at *
  cases a with
  | cancel =>
    simp only [St.step, St.cancel]
    cases fut <;> constructor <;> simp_all
  | thread =>
    simp only [St.step, St.thread]
    cases pc with
    | fresh =>
      obtain ⟨hc, hf⟩ := h1 rfl
      subst hc
      rcases hf with ⟨⟨d, e⟩, hf⟩ | ⟨e, hf⟩
      · subst e
        rcases hf with hf | hf <;> subst hf
        · cases d <;> constructor <;> simp_all
        · constructor <;> simp_all
      · subst e hf
        constructor <;> simp_all
    | delaying =>
      obtain ⟨hc, hf⟩ := h2 rfl
      subst hc hf
      constructor <;> simp_all
    | calling =>
      obtain ⟨hc, hf⟩ := h3 rfl
      subst hc hf
      cases fn <;> constructor <;> simp_all
    | setting o =>
      obtain ⟨hc, hf, ho⟩ := h4 o rfl
      subst hc hf ho
      constructor <;> simp_all
    | ended => exact ⟨h1, h2, h3, h4, h5, h6, h7, h8⟩
    | died => exact ⟨h1, h2, h3, h4, h5, h6, h7, h8⟩

theorem inv_run (k : Kind) (fn : Out) (as : List Act) (s : St) (h : Inv k fn s) : Inv k fn (s.run k fn as) := by
  induction as generalizing s with
  | nil => exact h
  | cons a as ih => exact ih _ (inv_step k fn s a h)

theorem ok_of_inv (k : Kind) (fn : Out) (s : St) (h : Inv k fn s) : Ok fn s := by
  obtain ⟨h1, h2, h3, h4, h5, h6, h7, h8⟩ := h
  obtain ⟨fut, pc, calls, cancels⟩ := s
  simp only at *
  constructor
  · show calls ≤ 1
    cases pc <;> simp_all <;> rcases h5 with h | h <;> omega
  · intro ht
    have hf := h7.1 ht
    refine ⟨?_, hf, ?_⟩
    · show calls = 0
      cases pc with
      | ended => rcases h5 rfl with ⟨_, h⟩ | ⟨h, _⟩ <;> simp_all
      | _ => simp_all
    · intro hn
      obtain ⟨_, a, b⟩ := h8 hn
      rcases hf with hf | hf
      · exact a hf
      · exact b hf
  · exact h7.2
  · intro o ho
    simp only at ho
    subst ho
    cases pc with
    | fresh => simp_all
    | ended =>
      rcases h5 rfl with ⟨h, _⟩ | ⟨h, hc⟩
      · cases h
      · injection h with h
        exact ⟨h, hc⟩
    | delaying => simp_all
    | calling => simp_all
    | setting o' => have := (h4 o' rfl).2.1; cases this
    | died => have := (h6 rfl).2.1; cases this
  · intro he
    rcases h5 he with ⟨h, _⟩ | ⟨h, _⟩
    · exact Or.inl h
    · exact Or.inr h

/-- **C78.** Whatever the schedule: the function is called at most once; if some `cancel()` gave True it is never called, and the future stays cancelled; what the future holds is what the function returned or raised; and a thread that has ended has resolved the future. -/
theorem C78_future (k : Kind) (fn : Out) (as : List Act) : Ok fn ((St.init k).run k fn as) := ok_of_inv k fn _ (inv_run k fn as _ (inv_init k fn))

/-- **C78, answers of cancel()**: each call of `cancel()` is answered, whatever the schedule; (that all are True if one is, is part of `C78_future`). -/
theorem C78_answers (k : Kind) (fn : Out) (as : List Act) : ((St.init k).run k fn as).cancels.length = as.count .cancel := by
  have key : ∀ as (s : St), (s.run k fn as).cancels.length = s.cancels.length + List.count .cancel as := by
    intro as
    induction as with
    | nil => intro s; rfl
    | cons a as ih =>
      intro s
      have hs : (s.step k fn a).cancels.length = s.cancels.length + List.count .cancel [a] := by
        obtain ⟨fut, pc, calls, cancels⟩ := s
        cases a with
        | cancel => cases fut <;> simp [St.step, St.cancel]
        | thread => cases pc <;> cases k <;> cases fut <;> cases fn <;> simp [St.step, St.thread]
      have := ih (s.step k fn a)
      rw [show s.run k fn (a :: as) = (s.step k fn a).run k fn as from rfl, this, hs, ← List.singleton_append (l := as), List.count_append]
      omega
  have h0 : (St.init k).cancels = [] := by cases k <;> rfl
  rw [key, h0]
  simp

/-- how many steps the thread has left, at most -/
def left : Pc → Nat
  | .fresh => 4
  | .delaying => 3
  | .calling => 2
  | .setting _ => 1
  | _ => 0

theorem left_thread (k : Kind) (fn : Out) (s : St) (h : Inv k fn s) (hb : ∀ e, fn ≠ .base e) : left (s.thread k fn).pc < left s.pc ∨ s.pc = .ended := by
  obtain ⟨h1, h2, h3, h4, h5, h6, h7, h8⟩ := h
  obtain ⟨fut, pc, calls, cancels⟩ := s
  simp only at *
  unfold St.thread
  cases pc with
  | fresh =>
    obtain ⟨_, hf⟩ := h1 rfl
    rcases hf with ⟨⟨d, e⟩, hf⟩ | ⟨e, hf⟩
    · subst e
      rcases hf with hf | hf <;> subst hf
      · cases d <;> simp [left]
      · simp [left]
    · subst e; simp [left]
  | delaying => simp [left]
  | calling => cases fn <;> simp_all [left]
  | setting o => simp [left]
  | ended => exact Or.inr rfl
  | died =>
    obtain ⟨⟨e, he⟩, _⟩ := h6 rfl
    exact absurd he (hb e)

theorem cancel_pc (s : St) : s.cancel.pc = s.pc := by
  unfold St.cancel
  split <;> rfl

/-- **C78, the future is resolved** (partial: the function does not raise a BaseException that is no Exception): once the thread has made four steps, whatever others do in between, the future is done: it is cancelled, or has the function's result. -/
theorem C78_resolved_partial (k : Kind) (fn : Out) (hb : ∀ e, fn ≠ .base e) (as : List Act) (h : 4 ≤ as.count .thread) :
    ((St.init k).run k fn as).fut = .notified ∨ ((St.init k).run k fn as).fut = .finished fn := by
  have key : ∀ as s, Inv k fn s → left s.pc ≤ List.count .thread as → s.pc ≠ .died → (s.run k fn as).pc = .ended := by
    intro as
    induction as with
    | nil =>
      intro s hi hl hd
      simp only [List.count_nil] at hl
      show s.pc = .ended
      cases hp : s.pc <;> simp_all [left]
    | cons a as ih =>
      intro s hi hl hd
      have hi' := inv_step k fn s a hi
      have hd' : (s.step k fn a).pc ≠ .died := by
        intro e
        obtain ⟨⟨e', he⟩, _⟩ := hi'.died e
        exact hb e' he
      refine ih _ hi' ?_ hd'
      cases a with
      | cancel =>
        simp only [St.step, cancel_pc]
        simpa using hl
      | thread =>
        rw [List.count_cons_self] at hl
        rcases left_thread k fn s hi hb with h | h
        · simp only [St.step]; omega
        · simp only [St.step, St.thread, h, left]; omega
  have he := key as (St.init k) (inv_init k fn) (by cases k <;> simpa [St.init, left] using h) (by cases k <;> simp [St.init])
  exact (C78_future k fn as).resolved he

/-- **C78, violated by BaseExceptions** (SystemExit in the function, for example): the thread is dead, and whatever happens later the future is running, so that waiting for it never ends. -/
theorem C78_base_violates (k : Kind) (e : Nat) : ∃ as, ∀ more, ((St.init k).run k (.base e) (as ++ more)).pc = .died ∧ ((St.init k).run k (.base e) (as ++ more)).fut = .running := by
  have key : ∀ (more : List Act) (s : St), s.pc = .died → s.fut = .running → (s.run k (.base e) more).pc = .died ∧ (s.run k (.base e) more).fut = .running := by
    intro more
    induction more with
    | nil => intro s h1 h2; exact ⟨h1, h2⟩
    | cons a more ih =>
      intro s h1 h2
      refine ih _ ?_ ?_ <;> cases a <;> simp [St.step, St.thread, St.cancel, h1, h2]
  refine ⟨[.thread, .thread, .thread], ?_⟩
  intro more
  unfold St.run
  rw [List.foldl_append]
  refine key more _ ?_ ?_
  · cases k with
    | runAsFuture => rfl
    | callInSeparateThread d => cases d <;> rfl
  · cases k with
    | runAsFuture => rfl
    | callInSeparateThread d => cases d <;> rfl

/-! Cases that meet the hypotheses -/

/-- **C78, the delay.** If a delay is asked for, the function is not called before the thread, having started, has slept; if none is, and nobody cancels, the first thing the started thread does is to call it. -/
theorem C78_delay (fn : Out) (as : List Act) :
    (as.count .thread ≤ 2 → ((St.init (.callInSeparateThread true)).run (.callInSeparateThread true) fn as).calls = 0) ∧
    (2 ≤ as.count .thread → .cancel ∉ as → ((St.init (.callInSeparateThread false)).run (.callInSeparateThread false) fn as).calls = 1) := by
  constructor
  · let rank : St → Nat := fun s => if 0 < s.calls then 3 else match s.pc with
      | .delaying => 1
      | .calling => 2
      | _ => 0
    have key : ∀ as (s : St), rank (s.run (.callInSeparateThread true) fn as) ≤ rank s + List.count .thread as := by
      intro as
      induction as with
      | nil => intro s; exact Nat.le_refl _
      | cons a as ih =>
        intro s
        refine Nat.le_trans (ih _) ?_
        have : rank (s.step (.callInSeparateThread true) fn a) ≤ rank s + List.count .thread [a] := by
          rcases s with ⟨fut, pc, calls, cancels⟩
          cases a with
          | cancel => cases fut <;> simp [rank, St.step, St.cancel]
          | thread =>
            by_cases hc : 0 < calls
            · have : ∀ t, rank t ≤ 3 := by intro t; simp only [rank]; split <;> (try split) <;> omega
              have e : rank ⟨fut, pc, calls, cancels⟩ = 3 := by simp [rank, hc]
              rw [e]; exact Nat.le_trans (this _) (by omega)
            · cases pc <;> cases fut <;> cases fn <;> simp [rank, St.step, St.thread, hc]
        simp only [List.count_cons, List.count_nil] at *
        omega
    intro h
    have h1 := key as (St.init (.callInSeparateThread true))
    have h2 : rank (St.init (.callInSeparateThread true)) = 0 := rfl
    rw [h2] at h1
    generalize (St.init (.callInSeparateThread true)).run (.callInSeparateThread true) fn as = r at h1
    by_cases hc : 0 < r.calls
    · simp only [rank, if_pos hc] at h1; omega
    · omega
  · intro h hc
    have done : ∀ as (s : St), .cancel ∉ as → s.calls = 1 → (s.pc = .ended ∨ s.pc = .died ∨ ∃ o, s.pc = .setting o) → (s.run (.callInSeparateThread false) fn as).calls = 1 := by
      intro as
      induction as with
      | nil => intro s _ h _; exact h
      | cons a as ih =>
        intro s hn h hp
        refine ih _ (fun h => hn (by simp [h])) ?_ ?_
        all_goals
          cases a with
          | cancel => simp at hn
          | thread => rcases hp with hp | hp | ⟨o, hp⟩ <;> simp [St.step, St.thread, hp, h]
    match as, h, hc with
    | .cancel :: _, _, hc => simp at hc
    | .thread :: .cancel :: _, _, hc => simp at hc
    | .thread :: .thread :: rest, _, hc =>
      refine done rest _ (fun h => hc (by simp [h])) ?_ ?_ <;> cases fn <;> simp [St.step, St.thread, St.init]

example : ((St.init (.callInSeparateThread true)).run (.callInSeparateThread true) (.value 7) [.thread, .cancel, .thread, .thread, .thread]) = ⟨.finished (.value 7), .ended, 1, [false]⟩ := by decide
example : ((St.init (.callInSeparateThread true)).run (.callInSeparateThread true) (.exc 7) [.cancel, .thread, .cancel, .thread]) = ⟨.notified, .ended, 0, [true, true]⟩ := by decide
example : 4 ≤ ([.thread, .cancel, .thread, .thread, .thread] : List Act).count .thread ∧ ∀ e, Out.value 7 ≠ .base e := by simp

end Verif.Conc.ThreadFuture
