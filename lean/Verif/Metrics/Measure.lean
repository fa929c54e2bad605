import Verif.Py.Run

/-!
# Measuring calls (satella/instrumentation/metrics/metric_types/measurable_mixin.py), C123, C124

`handle` of the metric is assumed to return; what it gets is recorded.  Readings of `value_getter` are part of the events.
-/
namespace Verif.Measure

open Verif

variable {V : Type}

/-! ## Model of the decorator, the context manager and measure_future -/

/-- how a call ends: by returning, with an Exception, or with another BaseException; /repo/satella/instrumentation/metrics/metric_types/measurable_mixin.py:84-87 -/
inductive Out (V : Type) where
  | ret (v : V)
  | exc (e : Nat)
  | base (e : Nat)
deriving DecidableEq

/-- what is used to measure: `@metric.measure()`, `with metric.measure()` or `metric.measure_future`; /repo/satella/instrumentation/metrics/metric_types/measurable_mixin.py:16, :79, :121 -/
inductive Kind where
  | decorator
  | context
  | future
deriving DecidableEq

/-- something measured begins or ends, with the reading of `value_getter` at that moment; `c` tells calls apart.  /repo/satella/instrumentation/metrics/metric_types/measurable_mixin.py:31-34, :82-89, :122, :129 -/
inductive Ev (V : Type) where
  | start (c : Nat) (t : Int)
  | stop (c : Nat) (o : Out V) (t : Int)

/-- whether the value is handled at the end: lines 86-93 for the decorator, where only an Exception is told apart; 126-130 for the context manager; 33-34 for a future.  /repo/satella/instrumentation/metrics/metric_types/measurable_mixin.py:86-93, :126-130 -/
def counted (k : Kind) (incl : Bool) (o : Out V) : Bool :=
  match k, o with
  | .decorator, .exc _ => incl
  | .decorator, _ => true
  | .context, .ret _ => true
  | .context, _ => incl
  | .future, _ => true

/-- the places that hold the value at the start; /repo/satella/instrumentation/metrics/metric_types/measurable_mixin.py:31, :82, :122 -/
abbrev St := Nat → Option Int

/-- one event.  `slot c` is the place that holds the value at the start of the call `c`: a local variable of the call for the decorator (82), an attribute of the object returned by `measure()` for the context manager (122), an attribute of the future (31).  Gives, at the end, what the caller gets, and what is handled.  /repo/satella/instrumentation/metrics/metric_types/measurable_mixin.py:31-36, :81-96, :121-132 -/
def step (k : Kind) (incl : Bool) (slot : Nat → Nat) (s : St) : Ev V → St × Option (Out V × List Int)
  | .start c t => (fun j => if j = slot c then some t else s j, none)
  | .stop c o t =>
    match s (slot c) with
    | some t0 => (s, some (o, if counted k incl o then [t - t0] else []))
    | none => (s, some (.exc 0, []))

/-! ## Specification -/

/-- `open_` are the calls that run; a call begins once and then ends once -/
def Calls : List Nat → List (Ev V) → Prop
  | _, [] => True
  | op, .start c _ :: evs => c ∉ op ∧ Calls (c :: op) evs
  | op, .stop c _ _ :: evs => c ∈ op ∧ Calls (op.filter (· ≠ c)) evs

/-- no two calls that run at the same time have the same place -/
def Apart (slot : Nat → Nat) : List Nat → List (Ev V) → Prop
  | _, [] => True
  | op, .start c _ :: evs => (∀ d ∈ op, slot d ≠ slot c) ∧ Apart slot (c :: op) evs
  | op, .stop c _ _ :: evs => Apart slot (op.filter (· ≠ c)) evs

/-- the reading at the last start of `c` -/
def lastStart (c : Nat) : List (Ev V) → Option Int
  | [] => none
  | .start d t :: evs => if d = c then some t else lastStart c evs
  | .stop _ _ _ :: evs => lastStart c evs

/-- what should be handled at the end of a call, given the reading at its start -/
def due (incl : Bool) (start : Option Int) (o : Out V) (t : Int) : List Int :=
  match start, o with
  | some t0, .ret _ => [t - t0]
  | some t0, _ => if incl then [t - t0] else []
  | none, _ => []

/-- what should happen at each event: the caller gets what the call gives; at the end the difference of the readings at the end and at the start of this call is handled once, unless it raised and exceptions are not included.  `before` are the earlier events, the latest first. -/
def expected (incl : Bool) : List (Ev V) → List (Ev V) → List (Option (Out V × List Int))
  | _, [] => []
  | before, .start c t :: evs => none :: expected incl (.start c t :: before) evs
  | before, .stop c o t :: evs =>
    some (o, due incl (lastStart c before) o t) :: expected incl (.stop c o t :: before) evs

/-- the events for which the decorator and futures do so: exceptions are included, or those raised are told apart -/
def Told (k : Kind) (incl : Bool) : Ev V → Prop
  | .start _ _ => True
  | .stop _ o _ =>
    match k with
    | .decorator => incl = true ∨ ∀ e, o ≠ .base e
    | .context => True
    | .future => incl = true

/-! ## Proofs -/

theorem counted_spec {k : Kind} {incl : Bool} {c : Nat} {o : Out V} {t : Int} (h : Told k incl (.stop c o t)) (t0 : Int) :
    (if counted k incl o then [t - t0] else []) = due incl (some t0) o t := by
  cases k with
  | decorator =>
    cases o with
    | ret v => rfl
    | exc e => rfl
    | base e =>
      rcases h with h | h
      · simp [counted, due, h]
      · exact absurd rfl (h e)
  | context => cases o <;> rfl
  | future =>
    have h' : incl = true := h
    cases o <;> simp [counted, due, h']

theorem run_expected (k : Kind) (incl : Bool) (slot : Nat → Nat) (evs : List (Ev V)) :
    ∀ (s : St) (op : List Nat) (before : List (Ev V)), Calls op evs → Apart slot op evs → (∀ e ∈ evs, Told k incl e) →
      (∀ c ∈ op, s (slot c) = lastStart c before ∧ (lastStart c before).isSome = true) → (∀ c ∈ op, ∀ d ∈ op, slot c = slot d → c = d) →
      (runOps (step k incl slot) s evs).2 = expected incl before evs := by
  induction evs with
  | nil => intros; rfl
  | cons e evs ih =>
    intro s op before hc ha ht hs hi
    cases e with
    | start c t =>
      obtain ⟨hc1, hc2⟩ := hc
      obtain ⟨ha1, ha2⟩ := ha
      simp only [runOps, expected, step, List.cons.injEq, true_and]
      refine ih _ (c :: op) (.start c t :: before) hc2 ha2 (fun e he => ht e (by simp [he])) ?_ ?_
      · intro d hd
        rcases List.mem_cons.1 hd with rfl | hd
        · simp [lastStart]
        · have : d ≠ c := fun e => hc1 (e ▸ hd)
          simp only [lastStart, if_neg (ha1 d hd), if_neg (Ne.symm this)]
          exact hs d hd
      · intro a ha b hb e
        rcases List.mem_cons.1 ha with rfl | ha' <;> rcases List.mem_cons.1 hb with rfl | hb'
        · rfl
        · exact absurd e.symm (ha1 b hb')
        · exact absurd e (ha1 a ha')
        · exact hi a ha' b hb' e
    | stop c o t =>
      obtain ⟨hc1, hc2⟩ := hc
      obtain ⟨h1, h2⟩ := hs c hc1
      obtain ⟨t0, ht0⟩ := Option.isSome_iff_exists.1 h2
      have hst : s (slot c) = some t0 := by rw [h1, ht0]
      have hcount := counted_spec (ht (.stop c o t) (by simp)) t0
      simp only [runOps, expected, step, hst, ht0]
      rw [hcount]
      refine congrArg _ ?_
      refine ih s (op.filter (· ≠ c)) (.stop c o t :: before) hc2 ha (fun e he => ht e (by simp [he])) ?_ ?_
      · intro d hd
        simp only [lastStart]
        exact hs d (List.mem_filter.1 hd).1
      · intro a ha b hb e
        exact hi a (List.mem_filter.1 ha).1 b (List.mem_filter.1 hb).1 e

/-- **C123, a measured function**: however calls overlap, recursively or in threads, each gives what the function gives, and at its end the difference of the value at its own end and at its own start is handled once; if exceptions are not included, this is so for calls that return or raise Exceptions, and the latter are not handled. -/
theorem C123_decorator (incl : Bool) (evs : List (Ev V)) (hc : Calls [] evs) (ht : incl = true ∨ ∀ c o t, .stop c o t ∈ evs → ∀ e, o ≠ .base e) :
    (runOps (step .decorator incl id) (fun _ => none) evs).2 = expected incl [] evs := by
  refine run_expected .decorator incl id evs _ [] [] hc ?_ ?_ (by simp) (by simp)
  · have key : ∀ (evs : List (Ev V)) (op : List Nat), Calls op evs → Apart id op evs := by
      intro evs
      induction evs with
      | nil => intros; trivial
      | cons e evs ih =>
        intro op h
        cases e with
        | start c t => exact ⟨fun d hd e => h.1 (show c ∈ op from (show d = c from e) ▸ hd), ih _ h.2⟩
        | stop c o t => exact ih _ h.2
    exact key evs [] hc
  · intro e he
    cases e with
    | start c t => trivial
    | stop c o t =>
      rcases ht with h | h
      · exact Or.inl h
      · exact Or.inr (h c o t he)

/-- **C123, `with`**: with `metric.measure()` objects that are not in use twice at the same time, each block gives what it gives without it, and the difference is handled once at its end; if exceptions are not included, exactly if it did not raise. -/
theorem C123_context (incl : Bool) (obj : Nat → Nat) (evs : List (Ev V)) (hc : Calls [] evs) (ha : Apart obj [] evs) :
    (runOps (step .context incl obj) (fun _ => none) evs).2 = expected incl [] evs :=
  run_expected .context incl obj evs _ [] [] hc ha (fun e _ => by cases e <;> trivial) (by simp) (by simp)

/-- **C123, futures**: for futures each measured once, the difference between completion and the call of measure_future is handled once, whether or not the future raises. -/
theorem C123_future (incl : Bool) (fut : Nat → Nat) (evs : List (Ev V)) (hc : Calls [] evs) (ha : Apart fut [] evs) :
    (runOps (step .future incl fut) (fun _ => none) evs).2 = expected true [] evs := by
  have e : (step .future incl fut : St → Ev V → _) = step .future true fut := by
    funext s ev
    cases ev <;> simp [step, counted]
  rw [e]
  exact run_expected .future true fut evs _ [] [] hc ha (fun e _ => by cases e <;> simp [Told]) (by simp) (by simp)

/-- two overlapping calls, the second of which raises -/
def someEvents : List (Ev Nat) := [.start 0 10, .start 1 11, .stop 0 (.ret 5) 14, .stop 1 (.exc 2) 18]
example : Calls [] someEvents := by simp [someEvents, Calls]
example : (false = true) ∨ ∀ c o t, Ev.stop c o t ∈ someEvents → ∀ e, o ≠ .base e :=
  Or.inr (by intro c o t h e ho; subst ho; simp [someEvents] at h)
example : expected false [] someEvents = [none, none, some (.ret 5, [4]), some (.exc 2, [])] := by decide
example : expected true [] someEvents = [none, none, some (.ret 5, [4]), some (.exc 2, [7])] := by decide
example : Apart id [] someEvents := by simp [someEvents, Apart]

/-! ## Model of a measured generator -/

/-- what can be done to a generator: `next()`/`send`, `throw` and `close`; /repo/satella/instrumentation/metrics/metric_types/measurable_mixin.py:103 -/
inductive Msg (V : Type) where
  | send (v : Option V)
  | throw (e : Nat)
  | close

/-- what a generator does: yields, returns a value, raises an Exception or another BaseException; or, to `close`, is closed.  /repo/satella/instrumentation/metrics/metric_types/measurable_mixin.py:103-104 -/
inductive Gout (V : Type) where
  | yields (v : V)
  | returns (v : Option V)
  | raises (e : Nat)
  | raisesBase (e : Nat)
  | closed
deriving DecidableEq

/-- whether the generator has ended by this -/
def Gout.ends : Gout V → Bool
  | .yields _ => false
  | _ => true

/-- a generator that runs: its state, and what it does to a message.  Any generator function makes one; /repo/satella/instrumentation/metrics/metric_types/measurable_mixin.py:103 -/
structure Gen (σ V : Type) where
  init : σ
  resume : σ → Msg V → σ × Gout V

/-- the measured generator: not started; within `yield from`; or ended.  /repo/satella/instrumentation/metrics/metric_types/measurable_mixin.py:99-114 -/
inductive GSt (σ : Type) where
  | fresh
  | running (t0 : Int) (s : σ)
  | ended

/-- the end of inner_generator: an Exception is told apart, everything is raised again; the returned value is dropped.  `t` is the reading at the end.  /repo/satella/instrumentation/metrics/metric_types/measurable_mixin.py:103-114 -/
def finish (incl : Bool) (t0 t : Int) : Gout V → Gout V × List Int
  | .yields v => (.yields v, [])
  | .returns _ => (.returns none, [t - t0])
  | .raises e => (.raises e, if incl then [t - t0] else [])
  | .raisesBase e => (.raisesBase e, [t - t0])
  | .closed => (.closed, [t - t0])

/-- a message to the measured generator, with the readings at its start, if it starts, and end, if it ends.  A generator that was not started is closed, and raises what is thrown, without running (Python).  /repo/satella/instrumentation/metrics/metric_types/measurable_mixin.py:98-114 -/
def gstep {σ : Type} (incl : Bool) (G : Gen σ V) (s : GSt σ) (m : Msg V × Int × Int) : GSt σ × Gout V × List Int :=
  match s with
  | .ended =>
    match m.1 with
    | .send _ => (.ended, .returns none, [])
    | .throw e => (.ended, .raises e, [])
    | .close => (.ended, .closed, [])
  | .fresh =>
    match m.1 with
    | .send v =>
      let r := G.resume G.init (.send v)
      (if r.2.ends then .ended else .running m.2.1 r.1, finish incl m.2.1 m.2.2 r.2)
    | .throw e => (.ended, .raises e, [])
    | .close => (.ended, .closed, [])
  | .running t0 x =>
    let r := G.resume x m.1
    (if r.2.ends then .ended else .running t0 r.1, finish incl t0 m.2.2 r.2)

/-- the generator itself, without measuring: the rules of Python for one not started and for one that ended; /repo/satella/instrumentation/metrics/metric_types/measurable_mixin.py:116-117 -/
def pstep {σ : Type} (G : Gen σ V) (s : Option (Bool × σ)) (m : Msg V) : Option (Bool × σ) × Gout V :=
  match s with
  | none =>
    match m with
    | .send _ => (none, .returns none)
    | .throw e => (none, .raises e)
    | .close => (none, .closed)
  | some (false, x) =>
    match m with
    | .send v => let r := G.resume x (.send v); (if r.2.ends then none else some (true, r.1), r.2)
    | .throw e => (none, .raises e)
    | .close => (none, .closed)
  | some (true, x) => let r := G.resume x m; (if r.2.ends then none else some (true, r.1), r.2)

/-- the value of a return dropped -/
def noValue : Gout V → Gout V
  | .returns _ => .returns none
  | o => o

/-- **C123, a measured generator yields the same**: for every sequence of messages it yields and raises what the generator does, and returns when it does (but see C124 for the value returned). -/
theorem C123_generator_same {σ : Type} (incl : Bool) (G : Gen σ V) (ms : List (Msg V × Int × Int)) :
    (runOps (gstep incl G) .fresh ms).2.map (·.1) = (runOps (pstep G) (some (false, G.init)) (ms.map (·.1))).2.map noValue := by
  have hfin : ∀ (t0 t : Int) (o : Gout V), (finish incl t0 t o).1 = noValue o := by
    intro t0 t o; cases o <;> rfl
  have key : ∀ (ms : List (Msg V × Int × Int)) (s : GSt σ) (p : Option (Bool × σ)),
      (s = .fresh ∧ p = some (false, G.init) ∨ (∃ t0 x, s = .running t0 x ∧ p = some (true, x)) ∨ (s = .ended ∧ p = none)) →
      (runOps (gstep incl G) s ms).2.map (·.1) = (runOps (pstep G) p (ms.map (·.1))).2.map noValue := by
    intro ms
    induction ms with
    | nil => intros; rfl
    | cons m ms ih =>
      intro s p h
      obtain ⟨m, t, t'⟩ := m
      simp only [runOps, List.map_cons]
      rcases h with ⟨rfl, rfl⟩ | ⟨t0, x, rfl, rfl⟩ | ⟨rfl, rfl⟩
      · cases m with
        | send v =>
          simp only [gstep, pstep, hfin]
          congr 1
          refine ih _ _ ?_
          generalize G.resume G.init (.send v) = r
          by_cases he : r.2.ends = true
          · simp [he]
          · simp [he]
        | throw e => exact congrArg _ (ih _ _ (Or.inr (Or.inr ⟨rfl, rfl⟩)))
        | close => exact congrArg _ (ih _ _ (Or.inr (Or.inr ⟨rfl, rfl⟩)))
      · simp only [gstep, pstep, hfin]
        congr 1
        refine ih _ _ ?_
        generalize G.resume x m = r
        by_cases he : r.2.ends = true
        · simp [he]
        · simp [he]
      · cases m <;> exact congrArg _ (ih _ _ (Or.inr (Or.inr ⟨rfl, rfl⟩)))
  exact key ms .fresh _ (Or.inl ⟨rfl, rfl⟩)

/-- **C123, a measured generator is measured once**: if the first message is a `next`, then what is handled in all is the difference between the first message that ends it and the first message, if there is one; it is not handled if the generator raised an Exception and exceptions are not included. -/
theorem C123_generator_once {σ : Type} (incl : Bool) (G : Gen σ V) (v : Option V) (t t' : Int) (ms : List (Msg V × Int × Int)) :
    let outs := (runOps (gstep incl G) .fresh ((.send v, t, t') :: ms)).2
    (outs.flatMap (·.2) = match (((.send v, t, t') :: ms).zip (outs.map (·.1))).find? (fun x => x.2.ends) with
      | none => []
      | some ((_, _, t1), .raises _) => if incl then [t1 - t] else []
      | some ((_, _, t1), _) => [t1 - t]) := by
  have hended : ∀ ms : List (Msg V × Int × Int), (runOps (gstep incl G) .ended ms).2.flatMap (·.2) = [] := by
    intro ms
    induction ms with
    | nil => rfl
    | cons m ms ih =>
      obtain ⟨m, t⟩ := m
      cases m <;> (simp only [runOps, gstep, List.flatMap_cons]; rw [ih]; rfl)
  have hrun : ∀ (ms : List (Msg V × Int × Int)) (x : σ),
      (runOps (gstep incl G) (.running t x) ms).2.flatMap (·.2) = match (ms.zip ((runOps (gstep incl G) (.running t x) ms).2.map (·.1))).find? (fun x => x.2.ends) with
        | none => []
        | some ((_, _, t1), .raises _) => if incl then [t1 - t] else []
        | some ((_, _, t1), _) => [t1 - t] := by
    intro ms
    induction ms with
    | nil => intro x; rfl
    | cons m ms ih =>
      intro x
      obtain ⟨m, a, b⟩ := m
      simp only [runOps, gstep, List.flatMap_cons, List.map_cons, List.zip_cons_cons, List.find?_cons]
      generalize G.resume x m = r
      obtain ⟨x', o⟩ := r
      cases o <;> simp [Gout.ends, finish, hended]
      exact ih x'
  dsimp only
  simp only [runOps, gstep, List.flatMap_cons, List.map_cons, List.zip_cons_cons, List.find?_cons]
  generalize G.resume G.init (.send v) = r
  obtain ⟨x', o⟩ := r
  cases o <;> simp [Gout.ends, finish, hended]
  exact hrun ms x'

/-- **C123, a generator that was not resumed is not measured**: if the first message closes it or throws into it, nothing is handled, whatever follows. -/
theorem C123_generator_never {σ : Type} (incl : Bool) (G : Gen σ V) (m : Msg V) (hm : ∀ v, m ≠ .send v) (t t' : Int) (ms : List (Msg V × Int × Int)) :
    ∀ o ∈ (runOps (gstep incl G) .fresh ((m, t, t') :: ms)).2, o.2 = [] := by
  have hended : ∀ ms : List (Msg V × Int × Int), ∀ o ∈ (runOps (gstep incl G) .ended ms).2, o.2 = [] := by
    intro ms
    induction ms with
    | nil => intro o ho; simp [runOps] at ho
    | cons m ms ih =>
      obtain ⟨m, t⟩ := m
      intro o ho
      cases m <;>
      · simp only [runOps, gstep, List.mem_cons] at ho
        rcases ho with rfl | ho
        · rfl
        · exact ih o ho
  intro o ho
  cases m with
  | send v => exact absurd rfl (hm v)
  | throw e =>
    simp only [runOps, gstep, List.mem_cons] at ho
    rcases ho with rfl | ho
    · rfl
    · exact hended ms o ho
  | close =>
    simp only [runOps, gstep, List.mem_cons] at ho
    rcases ho with rfl | ho
    · rfl
    · exact hended ms o ho

/-- yields 1, then returns 9 -/
def someGen : Gen Bool Nat := { init := false, resume := fun s _ => if s then (true, .returns (some 9)) else (true, .yields 1) }
example : (runOps (gstep true someGen) .fresh [(.send none, 3, 3), (.send none, 5, 5)]).2 = [(.yields 1, []), (.returns none, [2])] := by decide

/-! ## C124: where measuring differs -/

/-- **C124 (violation), a generator's value**: the value returned by a measured generator is lost. -/
theorem C124_generator_value_violates : ∃ (G : Gen Bool Nat) (ms : List (Msg Nat × Int × Int)), (runOps (gstep true G) .fresh ms).2.map (·.1) ≠ (runOps (pstep G) (some (false, G.init)) (ms.map (·.1))).2 :=
  ⟨someGen, [(.send none, 3, 3), (.send none, 5, 5)], by decide⟩

/-- **C124 (violation), `with`**: if the same `measure()` object is used twice at the same time, the first block is measured from the start of the second. -/
theorem C124_context_overlap_violates : ∃ (obj : Nat → Nat) (evs : List (Ev Nat)), Calls [] evs ∧ (runOps (step .context true obj) (fun _ => none) evs).2 ≠ expected true [] evs :=
  ⟨fun _ => 0, [.start 0 10, .start 1 15, .stop 1 (.ret 0) 16, .stop 0 (.ret 0) 20], by simp [Calls], by decide⟩

/-- **C124 (violation), futures**: if two metrics measure the same future, both measure from the second call. -/
theorem C124_future_twice_violates : ∃ (fut : Nat → Nat) (evs : List (Ev Nat)), Calls [] evs ∧ (runOps (step .future true fut) (fun _ => none) evs).2 ≠ expected true [] evs :=
  ⟨fun _ => 0, [.start 0 10, .start 1 15, .stop 0 (.ret 0) 20, .stop 1 (.ret 0) 20], by simp [Calls], by decide⟩

/-- **C124 (violation), exceptions left out**: with include_exceptions=False a function that raises KeyboardInterrupt or another BaseException that is not an Exception is measured all the same. -/
theorem C124_base_exception_violates : ∃ evs : List (Ev Nat), Calls [] evs ∧ (runOps (step .decorator false id) (fun _ => none) evs).2 ≠ expected false [] evs :=
  ⟨[.start 0 10, .stop 0 (.base 1) 12], by simp [Calls], by decide⟩

/-- **C124 (partial)**: all kinds measure as they should if no two calls that run at the same time have the same `measure()` object or future, and exceptions are included. -/
theorem C124_measure_partial (k : Kind) (slot : Nat → Nat) (evs : List (Ev V)) (hc : Calls [] evs) (ha : Apart slot [] evs) :
    (runOps (step k true slot) (fun _ => none) evs).2 = expected true [] evs :=
  run_expected k true slot evs _ [] [] hc ha (fun e _ => by cases e <;> cases k <;> simp [Told]) (by simp) (by simp)

end Verif.Measure
