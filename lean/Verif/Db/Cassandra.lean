/-!
# Helpers for Cassandra

`/repo/satella/cassandra/parallel.py` and `/repo/satella/cassandra/future.py`.  The driver is modelled by the calls made to it.
-/
namespace Verif.Cassandra

section
variable {Q A R : Type}

/-- What is done to the cursor and its futures.  (Part of the model of `parallel_for`, /repo/satella/cassandra/parallel.py:7-54.) -/
inductive Ev (Q A : Type) where
  /-- `execute_async(query)` or `execute_async(query, args)` -/
  | execute (q : Q) (a : Option A)
  /-- `result()` of the future that was given for the call of this number -/
  | wait (n : Nat)
  deriving Repr, DecidableEq

/-- The query given: one, or many.  (Part of the model of `parallel_for`, /repo/satella/cassandra/parallel.py:7-54.) -/
inductive Query (Q : Type) where
  | one (q : Q)
  | many (qs : List Q)

/-- `zip(query, arguments)`, where one query is repeated, `/repo/satella/cassandra/parallel.py:45-49`. -/
def pairs : Query Q → List (Option A) → List (Q × Option A)
  | .one q, as => as.map (fun a => (q, a))
  | .many qs, as => qs.zip as

/-- Where the generator is.  (Part of the model of `parallel_for`, /repo/satella/cassandra/parallel.py:7-54.) -/
inductive Gen where
  | created
  /-- waits are to be made, from this number up to that -/
  | at (n total : Nat)
  | ended
  deriving Repr, DecidableEq

/-- What `next` gives.  (Part of the model of `parallel_for`, /repo/satella/cassandra/parallel.py:7-54.) -/
inductive Next (R : Type) where
  | yielded (r : R)
  | raised (e : Nat)
  | stop
  deriving Repr, DecidableEq

/-- The loop `/repo/satella/cassandra/parallel.py:53-54`, until it yields, raises or ends. -/
def resume (outcome : Nat → Except Nat R) (n total : Nat) : Gen × List (Ev Q A) × Next R :=
  if n < total then
    match outcome n with
    | .ok r => (.at (n + 1) total, [.wait n], .yielded r)
    | .error e => (.ended, [.wait n], .raised e)
  else (.ended, [], .stop)

/-- `next` of the generator, `/repo/satella/cassandra/parallel.py:38-54`.  `outcome` is what the futures end with. -/
def next (query : Query Q) (args : List (Option A)) (outcome : Nat → Except Nat R) : Gen → Gen × List (Ev Q A) × Next R
  | .created =>
    let ps := pairs query args
    let r := resume outcome 0 ps.length
    (r.1, ps.map (fun p => .execute p.1 p.2) ++ r.2.1, r.2.2)
  | .at n total => resume outcome n total
  | .ended => (.ended, [], .stop)

/-- So many calls of `next` (of the generator at `/repo/satella/cassandra/parallel.py:38-54`): what was done, and what was given. -/
def nexts (query : Query Q) (args : List (Option A)) (outcome : Nat → Except Nat R) : Nat → Gen → List (Ev Q A) × List (Next R)
  | 0, _ => ([], [])
  | k + 1, g =>
    let r := next query args outcome g
    let s := nexts query args outcome k r.1
    (r.2.1 ++ s.1, r.2.2 :: s.2)

/-! ### Specification -/

/-- The calls that should be made: for each argument, and the query, or the query at its place, as long
as there are both. -/
inductive Submitted : Query Q → List (Option A) → List (Ev Q A) → Prop
  | one_nil {q} : Submitted (.one q) [] []
  | one_cons {q a as l} : Submitted (.one q) as l → Submitted (.one q) (a :: as) (.execute q a :: l)
  | no_queries {as} : Submitted (.many []) as []
  | no_arguments {qs} : Submitted (.many qs) [] []
  | many_cons {q qs a as l} : Submitted (.many qs) as l → Submitted (.many (q :: qs)) (a :: as) (.execute q a :: l)

/-- What is given by calls of `next`, when the futures end with these outcomes: results in order, up to the
first failure, which is raised; then nothing. -/
inductive Gives : List (Except Nat R) → List (Next R) → Prop
  | enough {os} : Gives os []
  | ok {r os l} : Gives os l → Gives (.ok r :: os) (.yielded r :: l)
  | error {e os k} : Gives (.error e :: os) (.raised e :: List.replicate k .stop)
  | stop {k} : Gives [] (List.replicate k .stop)

/-! ### Properties -/

theorem pairs_submitted (query : Query Q) (args : List (Option A)) : Submitted query args ((pairs query args).map (fun p => .execute p.1 p.2)) := by
  cases query with
  | one q =>
    induction args with
    | nil => exact .one_nil
    | cons a as ih => exact .one_cons ih
  | many qs =>
    induction qs generalizing args with
    | nil => simp only [pairs, List.zip_nil_left, List.map_nil]; exact .no_queries
    | cons q qs ih =>
      cases args with
      | nil => simp only [pairs, List.zip_nil_right, List.map_nil]; exact .no_arguments
      | cons a as => exact .many_cons (ih as)

theorem nexts_ended (query : Query Q) (args : List (Option A)) (outcome : Nat → Except Nat R) (k : Nat) :
    nexts query args outcome k .ended = ([], List.replicate k .stop) := by
  induction k with
  | zero => rfl
  | succ k ih => simp only [nexts, next, ih, List.nil_append, List.replicate_succ]

/-- The futures from one on. -/
def tail (outcome : Nat → Except Nat R) (n : Nat) : Nat → List (Except Nat R)
  | 0 => []
  | m + 1 => outcome n :: tail outcome (n + 1) m

theorem nexts_at (query : Query Q) (args : List (Option A)) (outcome : Nat → Except Nat R) (k : Nat) : ∀ n m,
    Gives (tail outcome n m) (nexts query args outcome k (.at n (n + m))).2 ∧
    ∃ j ≤ m, (nexts query args outcome k (.at n (n + m))).1 = (List.range' n j).map .wait := by
  induction k with
  | zero => intro n m; exact ⟨.enough, 0, Nat.zero_le _, rfl⟩
  | succ k ih =>
    intro n m
    cases m with
    | zero =>
      simp only [nexts, next, resume, Nat.add_zero, Nat.lt_irrefl, ↓reduceIte, nexts_ended, tail]
      exact ⟨.stop (k := k + 1), 0, Nat.le_refl _, rfl⟩
    | succ m =>
      simp only [nexts, next, resume, tail]
      rw [if_pos (by omega)]
      cases ho : outcome n with
      | ok r =>
        have := ih (n + 1) m
        rw [show n + 1 + m = n + (m + 1) by omega] at this
        obtain ⟨h1, j, hj, h2⟩ := this
        refine ⟨.ok h1, j + 1, by omega, ?_⟩
        simp only [h2, List.range'_succ, List.map_cons]; rfl
      | error e =>
        simp only [nexts_ended]
        exact ⟨.error, 1, by omega, rfl⟩

/-- **C211 (parallel queries: nothing before)** Nothing is sent until the first result is asked for. -/
theorem C211_lazy (query : Query Q) (args : List (Option A)) (outcome : Nat → Except Nat R) : (nexts query args outcome 0 .created).1 = [] := rfl

/-- **C211 (parallel queries)** As soon as the first result is asked for all queries are sent, each once, in
order, before any result is waited for; afterwards nothing is sent. The results come in the order of the arguments, up to the first failure,
which is raised; and are waited for in order, none twice. -/
theorem C211_parallel (query : Query Q) (args : List (Option A)) (outcome : Nat → Except Nat R) (k : Nat) :
    ∃ sent, Submitted query args sent ∧
      Gives ((List.range sent.length).map outcome) (nexts query args outcome (k + 1) .created).2 ∧
      ∃ j ≤ sent.length, (nexts query args outcome (k + 1) .created).1 = sent ++ (List.range j).map .wait := by
  refine ⟨(pairs query args).map (fun p => .execute p.1 p.2), pairs_submitted query args, ?_⟩
  have ht : ∀ m n, tail outcome n m = (List.range' n m).map outcome := by
    intro m
    induction m with
    | zero => intro n; rfl
    | succ m ih => intro n; rw [tail, ih, List.range'_succ, List.map_cons]
  have key := nexts_at query args outcome (k + 1) 0 (pairs query args).length
  rw [ht, Nat.zero_add] at key
  obtain ⟨h1, j, hj, h2⟩ := key
  have e : ∀ (k : Nat), nexts query args outcome (k + 1) .created =
      ((pairs query args).map (fun p => .execute p.1 p.2) ++ (nexts query args outcome (k + 1) (.at 0 (pairs query args).length)).1, (nexts query args outcome (k + 1) (.at 0 (pairs query args).length)).2) := by
    intro k; simp only [nexts, next, List.append_assoc]
  rw [e, List.length_map]
  refine ⟨?_, j, hj, ?_⟩
  · rw [List.range_eq_range']; exact h1
  · rw [h2, List.range_eq_range']

end

/-! ## Futures -/

section
variable {V : Type}

/-- A Python future that is running, or is done.  (Part of the model of `wrap_future`, /repo/satella/cassandra/future.py:6-23.) -/
inductive Fut (V : Type) where
  | running
  | result (v : V)
  | exception (e : Nat)
  deriving Repr, DecidableEq

/-- The driver's future: its outcome; how many of the handlers have been added (the one for results
is the first); the Python future; and how many times a handler was called when the future was done already.  (Part of the model of `wrap_future`, /repo/satella/cassandra/future.py:6-23.) -/
structure St (V : Type) where
  outcome : Option (Except Nat V) := none
  added : Nat := 0
  fut : Fut V := .running
  invalid : Nat := 0

/-- What can happen: the next line of `wrap_future` runs; the driver's future ends; somebody cancels the
Python future.  (Part of the model of `wrap_future`, /repo/satella/cassandra/future.py:6-23.) -/
inductive Act (V : Type) where
  | add
  | finish (o : Except Nat V)
  | cancel

/-- `set_result` and `set_exception` of the standard library: InvalidStateError if done.  (Part of the model of `wrap_future`, /repo/satella/cassandra/future.py:6-23.) -/
def set (s : St V) (f : Fut V) : St V :=
  match s.fut with
  | .running => { s with fut := f }
  | _ => { s with invalid := s.invalid + 1 }

/-- One step.  A handler that is added when the driver's future has ended with an outcome of its kind is
called at once, otherwise when it ends.  A future that is running cannot be cancelled.  `/repo/satella/cassandra/future.py:19-23`; the driver's future
ends once (there are no further pages). -/
def step (s : St V) : Act V → St V
  | .add =>
    match s.added, s.outcome with
    | 0, some (.ok v) => set { s with added := 1 } (.result v)
    | 0, _ => { s with added := 1 }
    | 1, some (.error e) => set { s with added := 2 } (.exception e)
    | 1, _ => { s with added := 2 }
    | _, _ => s
  | .finish o =>
    match s.outcome with
    | some _ => s
    | none =>
      match o with
      | .ok v => if 1 ≤ s.added then set { s with outcome := some o } (.result v) else { s with outcome := some o }
      | .error e => if 2 ≤ s.added then set { s with outcome := some o } (.exception e) else { s with outcome := some o }
  | .cancel => s

/-- Steps in any order (of `wrap_future` and the driver, `/repo/satella/cassandra/future.py:19-23`). -/
def run (l : List (Act V)) : St V := l.foldl step {}

/-- What the driver's future ends with: the first ending counts. -/
def ending : List (Act V) → Option (Except Nat V)
  | [] => none
  | .finish o :: _ => some o
  | _ :: l => ending l

/-- How often another line of `wrap_future` runs. -/
def lines : List (Act V) → Nat
  | [] => 0
  | .add :: l => lines l + 1
  | _ :: l => lines l

/-- The future as it should be. -/
def Good (s : St V) : Prop :=
  s.added ≤ 2 ∧ s.invalid = 0 ∧
  match s.outcome with
  | none => s.fut = .running
  | some (.ok v) => s.fut = if 1 ≤ s.added then .result v else .running
  | some (.error e) => s.fut = if 2 ≤ s.added then .exception e else .running

theorem good_step (s : St V) (a : Act V) (h : Good s) : Good (step s a) := by
  obtain ⟨o, n, f, i⟩ := s
  obtain ⟨h1, h2, h3⟩ := h
  simp only at h1 h2 h3
  subst h2
  have hn : n = 0 ∨ n = 1 ∨ n = 2 := by omega
  cases a with
  | cancel => exact ⟨h1, rfl, h3⟩
  | add =>
    rcases hn with rfl | rfl | rfl <;> rcases o with _ | (e | v) <;> simp at h3 <;> subst h3 <;> simp [step, set, Good]
  | finish o' =>
    rcases hn with rfl | rfl | rfl <;> rcases o with _ | (e | v) <;> simp at h3 <;> subst h3 <;> cases o' <;> simp [step, set, Good]

theorem step_outcome (s : St V) (a : Act V) : (step s a).outcome = (match s.outcome with | some o => some o | none => (match a with | .finish o => some o | _ => none)) ∧
    (s.added ≤ 2 → (step s a).added = (match a with | .add => min 2 (s.added + 1) | _ => s.added)) := by
  obtain ⟨o, n, f, i⟩ := s
  have key : n ≤ 2 → n = 0 ∨ n = 1 ∨ n = 2 := by omega
  constructor
  · cases a with
    | cancel => cases o <;> rfl
    | add =>
      rcases n with _ | _ | n <;> rcases o with _ | (e | v) <;> cases f <;> simp [step, set]
    | finish o' =>
      rcases o with _ | (e | v)
      · cases o' <;> simp only [step] <;> split <;> cases f <;> rfl
      · rfl
      · rfl
  · intro hn
    cases a with
    | cancel => rfl
    | add =>
      rcases key hn with rfl | rfl | rfl <;> rcases o with _ | (e | v) <;> cases f <;> simp [step, set]
    | finish o' =>
      rcases o with _ | (e | v)
      · cases o' <;> simp only [step] <;> split <;> cases f <;> rfl
      · rfl
      · rfl

theorem run_state (l : List (Act V)) : ∀ s : St V, Good s →
    Good (l.foldl step s) ∧ (l.foldl step s).outcome = (match s.outcome with | some o => some o | none => ending l) ∧ (l.foldl step s).added = min 2 (s.added + lines l) := by
  induction l with
  | nil =>
    intro s h
    refine ⟨h, ?_, ?_⟩
    · cases ho : s.outcome <;> simp [ending, ho]
    · have := h.1; simp only [List.foldl_nil, lines]; omega
  | cons a l ih =>
    intro s h
    obtain ⟨h1, h2, h3⟩ := ih (step s a) (good_step s a h)
    refine ⟨h1, ?_, ?_⟩
    · rw [List.foldl_cons, h2, (step_outcome s a).1]
      cases s.outcome <;> cases a <;> rfl
    · rw [List.foldl_cons, h3, (step_outcome s a).2 h.1]
      have := h.1
      cases a <;> simp only [lines] <;> omega

/-- **C211 (Cassandra futures)** In whatever order the driver's future ends, the handlers are added and
the Python future is cancelled: once the call has returned and the driver's future has ended, the Python future has the same
outcome. Before the driver's future ends it is running, and it is never set twice. -/
theorem C211_wrapped (l : List (Act V)) :
    (run l).invalid = 0 ∧
    (ending l = none → (run l).fut = .running) ∧
    (2 ≤ lines l → ∀ v, ending l = some (.ok v) → (run l).fut = .result v) ∧
    (2 ≤ lines l → ∀ e, ending l = some (.error e) → (run l).fut = .exception e) := by
  obtain ⟨⟨_, h2, h3⟩, h4, h5⟩ := run_state l {} ⟨by simp, rfl, rfl⟩
  simp only [Nat.zero_add] at h5
  have h4 : (run l).outcome = ending l := h4
  have h3 : (match (run l).outcome with | none => (run l).fut = .running | some (.ok v) => (run l).fut = if 1 ≤ (run l).added then .result v else .running | some (.error e) => (run l).fut = if 2 ≤ (run l).added then .exception e else .running) := h3
  have h5 : (run l).added = min 2 (lines l) := h5
  rw [h4] at h3
  refine ⟨h2, ?_, ?_, ?_⟩
  · intro h; simpa only [h] using h3
  · intro hl v hv
    simp only [hv] at h3
    rw [h3, if_pos (by omega)]
  · intro hl e he
    simp only [he] at h3
    rw [h3, if_pos (by omega)]

end

/-! ## Examples -/

example : (nexts (Query.one "q") [some 1, none] (fun n => if n = 0 then .ok 10 else .error 5) 4 .created) =
    ([.execute "q" (some 1), .execute "q" none, .wait 0, .wait 1], [.yielded 10, .raised 5, .stop, .stop]) := rfl
example : (nexts (Query.many ["p", "q"]) [some 1, none, some 3] (fun n => Except.ok n) 1 .created) =
    ([.execute "p" (some 1), .execute "q" none, .wait 0], [Next.yielded 0]) := rfl
example : (run [.add, .finish (.error 3), .cancel, .add] : St Nat).fut = .exception 3 := rfl
example : ending ([.add, .finish (.error 3), .cancel, .add] : List (Act Nat)) = some (.error 3) ∧ lines ([.add, .finish (.error 3), .cancel, .add] : List (Act Nat)) = 2 := ⟨rfl, rfl⟩

end Verif.Cassandra
