/-!
# Model of queue_get and loop_while (satella/coding/decorators/flow_control.py), C85

The queue is thread-safe; several threads execute the decorated method.  Items are numbers.
-/
namespace Verif.Flow

/-- what the method does with an item: returns a value, raises the exception that means an empty queue, or raises another one.  (Part of the model of `queue_get`, /repo/satella/coding/decorators/flow_control.py:25-98.) -/
inductive FunRes where
  | ret (v : Nat)
  | empty
  | raises (e : Nat)
  deriving DecidableEq, Repr

/-- what the caller sees.  (Part of the model of `queue_get`, /repo/satella/coding/decorators/flow_control.py:25-98.) -/
inductive Ans where
  | ret (v : Nat)
  | none_
  | raises (e : Nat)
  deriving DecidableEq, Repr

/-- what happens: the method is executed with an item, the method for an empty queue is executed, a call ends.  (Part of the model of `queue_get`, /repo/satella/coding/decorators/flow_control.py:25-98.) -/
inductive Ev where
  | ran (t x : Nat)
  | onEmpty (t : Nat)
  | done (t : Nat) (a : Ans)
  deriving DecidableEq, Repr

/-- the queue, the items that threads have taken but not given to the method yet, and what happened; ghost: what was put into the queue and what was taken.  (Part of the model of `queue_get`, /repo/satella/coding/decorators/flow_control.py:25-98.) -/
structure St where
  queue : List Nat
  held : List (Nat × Nat)
  log : List Ev
  puts : List Nat
  takes : List Nat
  deriving DecidableEq, Repr

/-- part of the model of `queue_get`, /repo/satella/coding/decorators/flow_control.py:25-98 -/
def St.init : St := ⟨[], [], [], [], []⟩

/-- something puts an item; a thread calls the decorated method and gets an item or the timeout; the thread goes on with its item.  (Part of the model of `queue_get`, /repo/satella/coding/decorators/flow_control.py:25-98.) -/
inductive Act where
  | put (x : Nat)
  | take (t : Nat)
  | run (t : Nat)
  deriving DecidableEq, Repr

/-- the item of a thread.  (Part of the model of `queue_get`, /repo/satella/coding/decorators/flow_control.py:25-98.) -/
def itemOf (held : List (Nat × Nat)) (t : Nat) : Option Nat := (held.find? (fun p => p.1 == t)).map Prod.snd

/-- `item = queue_get_method(que, timeout)`, /repo/satella/coding/decorators/flow_control.py:84-86, and if this raises then the `except` clause, :88-94 -/
def St.take (s : St) (t : Nat) : St :=
  match itemOf s.held t with
  | some _ => s
  | none =>
    match s.queue with
    | [] => { s with log := s.log ++ [.onEmpty t, .done t .none_] }
    | x :: q => { s with queue := q, held := (t, x) :: s.held, takes := s.takes ++ [x] }

/-- `return fun(self, item)`, /repo/satella/coding/decorators/flow_control.py:87, which is in the `try` block too: the same `except` clause, :88-94 -/
def St.exec (fn : Nat → FunRes) (s : St) (t : Nat) : St :=
  match itemOf s.held t with
  | none => s
  | some x =>
    match fn x with
    | .ret v => { s with held := s.held.erase (t, x), log := s.log ++ [.ran t x, .done t (.ret v)] }
    | .empty => { s with held := s.held.erase (t, x), log := s.log ++ [.ran t x, .onEmpty t, .done t .none_] }
    | .raises e => { s with held := s.held.erase (t, x), log := s.log ++ [.ran t x, .done t (.raises e)] }

/-- one step.  (Part of the model of `queue_get`, /repo/satella/coding/decorators/flow_control.py:25-98.) -/
def St.step (fn : Nat → FunRes) (s : St) : Act → St
  | .put x => { s with queue := s.queue ++ [x], puts := s.puts ++ [x] }
  | .take t => s.take t
  | .run t => s.exec fn t

/-- part of the model of `queue_get`, /repo/satella/coding/decorators/flow_control.py:25-98 -/
def St.run (fn : Nat → FunRes) (s : St) (as : List Act) : St := as.foldl (St.step fn) s

/-! ## Specification -/

/-- the items that the method was executed with -/
def ran : List Ev → List Nat := List.filterMap (fun e => match e with | .ran _ x => some x | _ => none)

/-- how often the method for an empty queue was executed -/
def empties : List Ev → Nat := List.countP (fun e => match e with | .onEmpty _ => true | _ => false)

/-- a call that finds no item -/
def timeout1 (s : St) : Act → Nat
  | .take t => if itemOf s.held t = none ∧ s.queue = [] then 1 else 0
  | _ => 0

/-- how often a call found no item, in the schedule -/
def timeouts (fn : Nat → FunRes) : St → List Act → Nat
  | _, [] => 0
  | s, a :: as => timeout1 s a + timeouts fn (s.step fn a) as

/-- every call that had an item gave what the method gave with it -/
def Passes (fn : Nat → FunRes) : List Ev → Prop
  | log => ∀ l t x r, log = l ++ .ran t x :: r →
      match fn x with
      | .ret v => r.head? = some (.done t (.ret v))
      | .raises e => r.head? = some (.done t (.raises e))
      | .empty => True

/-! ## Proofs -/

theorem itemOf_mem {held : List (Nat × Nat)} {t x : Nat} (h : itemOf held t = some x) : (t, x) ∈ held := by
  unfold itemOf at h
  cases hf : held.find? (fun p => p.1 == t) with
  | none => rw [hf] at h; cases h
  | some p =>
    rw [hf] at h
    injection h with h
    have h1 := List.find?_some hf
    have h2 := List.mem_of_find?_eq_some hf
    obtain ⟨a, b⟩ := p
    have : a = t := by simpa using h1
    subst this
    dsimp only at h
    subst h
    exact h2

theorem ran_append (l m : List Ev) : ran (l ++ m) = ran l ++ ran m := List.filterMap_append ..

theorem count_map_erase (x : Nat) (held : List (Nat × Nat)) (p : Nat × Nat) (h : p ∈ held) :
    (held.map Prod.snd).count x = ((held.erase p).map Prod.snd).count x + (if p.2 = x then 1 else 0) := by
  have h1 := List.Perm.count_eq ((List.perm_cons_erase h).map Prod.snd) x
  rw [h1, List.map_cons, List.count_cons]
  by_cases h2 : p.2 = x <;> simp [h2]

/-- nothing is lost and nothing is doubled -/
structure Inv (s : St) : Prop where
  fifo : s.takes ++ s.queue = s.puts
  count : ∀ x, s.takes.count x = (s.held.map Prod.snd).count x + (ran s.log).count x

theorem inv_step (fn : Nat → FunRes) (s : St) (a : Act) (h : Inv s) : Inv (s.step fn a) := by
  cases a with
  | put x =>
    refine ⟨?_, h.count⟩
    show s.takes ++ (s.queue ++ [x]) = s.puts ++ [x]
    rw [← h.fifo, List.append_assoc]
  | take t =>
    simp only [St.step, St.take]
    split
    · exact h
    · split
      · refine ⟨h.fifo, fun x => ?_⟩
        dsimp only
        rw [ran_append, List.count_append, h.count]
        show _ = _ + (_ + 0)
        omega
      · rename_i x q hq
        refine ⟨?_, fun y => ?_⟩
        · have := h.fifo
          rw [hq] at this
          dsimp only
          rw [← this]; simp
        · dsimp only
          rw [List.count_append, h.count, List.map_cons, List.count_singleton, List.count_cons]
          by_cases e : x = y <;> simp [e] <;> omega
  | run t =>
    simp only [St.step, St.exec]
    split
    · exact h
    · rename_i x hx
      have hm := itemOf_mem hx
      have key : ∀ l : List Ev, ran l = [x] → Inv { s with held := s.held.erase (t, x), log := s.log ++ l } := by
        intro l hl
        refine ⟨h.fifo, fun y => ?_⟩
        dsimp only
        rw [ran_append, List.count_append, h.count, count_map_erase y s.held (t, x) hm, hl, List.count_singleton]
        by_cases e : x = y <;> simp [e] <;> omega
      split
      · exact key _ rfl
      · exact key _ rfl
      · exact key _ rfl

theorem inv_run (fn : Nat → FunRes) (as : List Act) : ∀ s, Inv s → Inv (s.run fn as) := by
  induction as with
  | nil => intro s h; exact h
  | cons a as ih => intro s h; exact ih _ (inv_step fn s a h)

theorem inv_init : Inv St.init := ⟨rfl, fun _ => rfl⟩

/-- **C85, items**: however many threads execute the decorated method, and whatever the method does, it is executed exactly once with every item that was taken, and the items are taken in the order they were put: none is lost and none
  is given twice. -/
theorem C85_items (fn : Nat → FunRes) (as : List Act) :
    (St.init.run fn as).takes ++ (St.init.run fn as).queue = (St.init.run fn as).puts ∧
    ∀ x, (St.init.run fn as).takes.count x = ((St.init.run fn as).held.map Prod.snd).count x + (ran (St.init.run fn as).log).count x :=
  ⟨(inv_run fn as _ inv_init).fifo, (inv_run fn as _ inv_init).count⟩

theorem empties_append (l m : List Ev) : empties (l ++ m) = empties l + empties m := List.countP_append ..

theorem empties_run (fn : Nat → FunRes) (hf : ∀ x, fn x ≠ .empty) (as : List Act) : ∀ s, empties (s.run fn as).log = empties s.log + timeouts fn s as := by
  induction as with
  | nil => intro s; rfl
  | cons a as ih =>
    intro s
    have hstep : empties (s.step fn a).log = empties s.log + timeout1 s a := by
      unfold timeout1
      cases a with
      | put x => rfl
      | take t =>
        simp only [St.step, St.take]
        cases hi : itemOf s.held t with
        | some x => simp
        | none =>
          cases hq : s.queue with
          | nil => dsimp only; rw [empties_append]; simp [empties]
          | cons x q => simp
      | run t =>
        simp only [St.step, St.exec]
        cases hi : itemOf s.held t with
        | none => rfl
        | some x =>
          dsimp only
          cases hx : fn x with
          | ret v => dsimp only; rw [empties_append]; rfl
          | empty => exact absurd hx (hf x)
          | raises e => dsimp only; rw [empties_append]; rfl
    have := ih (s.step fn a)
    show empties ((s.step fn a).run fn as).log = _
    rw [this, hstep, timeouts, Nat.add_assoc]

/-- **C85, empty queue** (partial: the method itself does not raise the exception that means an empty queue). The method for an empty queue is executed exactly as often as a call found no item. -/
theorem C85_empty_partial (fn : Nat → FunRes) (hf : ∀ x, fn x ≠ .empty) (as : List Act) :
    empties (St.init.run fn as).log = timeouts fn St.init as := by
  rw [empties_run fn hf]; simp [empties, St.init]

theorem passes_append (fn : Nat → FunRes) (log m : List Ev) (h : Passes fn log) (hlog : ∀ t x, log.getLast? ≠ some (.ran t x))
    (hm : Passes fn m) : Passes fn (log ++ m) := by
  intro l t x r he
  rcases List.append_eq_append_iff.1 he with ⟨k, h1, h2⟩ | ⟨k, h1, h2⟩
  · exact hm k t x r h2
  · cases k with
    | nil => exact hm [] t x r (by simpa using h2.symm)
    | cons e k =>
      injection h2 with h2 h3
      subst h2
      have hh := h l t x k h1
      cases k with
      | nil =>
        exfalso
        apply hlog t x
        rw [h1, List.getLast?_append]
        simp
      | cons e' k =>
        rw [h3]
        cases hx : fn x <;> rw [hx] at hh <;> first | exact trivial | simpa using hh

theorem passes_run (fn : Nat → FunRes) (as : List Act) : ∀ s : St, Passes fn s.log → (∀ t x, s.log.getLast? ≠ some (.ran t x)) →
    Passes fn (s.run fn as).log ∧ ∀ t x, (s.run fn as).log.getLast? ≠ some (.ran t x) := by
  induction as with
  | nil => intro s h1 h2; exact ⟨h1, h2⟩
  | cons a as ih =>
    intro s h1 h2
    have key : ∀ m : List Ev, Passes fn m → (∀ t x, m.getLast? ≠ some (.ran t x)) → m ≠ [] →
        Passes fn (s.log ++ m) ∧ ∀ t x, (s.log ++ m).getLast? ≠ some (.ran t x) := by
      intro m hm hml hne
      refine ⟨passes_append fn s.log m h1 h2 hm, fun t x => ?_⟩
      rw [List.getLast?_append]
      cases hl : m.getLast? with
      | none => exact absurd (List.getLast?_eq_none_iff.1 hl) hne
      | some e => have := hml t x; rw [hl] at this; simpa using this
    have one : ∀ (t x : Nat) (e : Ev) (rest : List Ev), (∀ e' ∈ e :: rest, ∀ u y, e' ≠ .ran u y) →
        (match fn x with | .ret v => some e = some (.done t (.ret v)) | .raises er => some e = some (.done t (.raises er)) | .empty => True) →
        Passes fn (.ran t x :: e :: rest) := by
      intro t x e rest hno hx l u y r he
      cases l with
      | nil =>
        injection he with he1 he2
        injection he1 with he1 he3
        subst he1 he3 he2
        exact hx
      | cons b l =>
        injection he with _ he
        exfalso
        exact hno (.ran u y) (by rw [he]; simp) u y rfl
    have hstep : Passes fn (s.step fn a).log ∧ ∀ t x, (s.step fn a).log.getLast? ≠ some (.ran t x) := by
      cases a with
      | put x => exact ⟨h1, h2⟩
      | take t =>
        simp only [St.step, St.take]
        split
        · exact ⟨h1, h2⟩
        · split
          · refine key _ ?_ (by simp) (by simp)
            intro l u y r he
            exfalso
            have : Ev.ran u y ∈ [Ev.onEmpty t, Ev.done t .none_] := by rw [he]; simp
            simp at this
          · exact ⟨h1, h2⟩
      | run t =>
        simp only [St.step, St.exec]
        split
        · exact ⟨h1, h2⟩
        · rename_i x hx
          split
          · rename_i v hv
            exact key _ (one t x _ [] (by simp) (by rw [hv])) (by simp) (by simp)
          · rename_i hv
            exact key _ (one t x _ _ (by simp) (by rw [hv]; trivial)) (by simp) (by simp)
          · rename_i e hv
            exact key _ (one t x _ [] (by simp) (by rw [hv])) (by simp) (by simp)
    exact ih _ hstep.1 hstep.2

/-- **C85, results**: a call that had an item gives what the method gave with it, or raises what it raised, if that does not mean an empty queue. -/
theorem C85_results (fn : Nat → FunRes) (as : List Act) : Passes fn (St.init.run fn as).log := by
  refine (passes_run fn as St.init ?_ (by simp [St.init])).1
  intro l t x r h
  cases l <;> cases h

/-- **C85, violated if the method itself raises the exception that means an empty queue** (because it looks into another queue, say): the exception is swallowed, the call gives None, and the method for an empty queue is executed
  although there was an item, which is lost. -/
theorem C85_empty_violates (fn : Nat → FunRes) (x : Nat) (h : fn x = .empty) :
    (St.init.run fn [.put x, .take 1, .run 1]).log = [.ran 1 x, .onEmpty 1, .done 1 .none_] ∧ timeouts fn St.init [.put x, .take 1, .run 1] = 0 := by
  constructor
  · simp [St.run, St.step, St.take, St.exec, St.init, itemOf, h]
  · simp [timeouts, timeout1, St.step, St.init, itemOf]

/-! ## loop_while -/

/-- the loop, /repo/satella/coding/decorators/flow_control.py:131-137: `body` changes the state of the world, or raises (`none`).  The result is the state at the end and whether an exception came out; `none` if there is not enough fuel. -/
def loopWhile {σ : Type} (pred : σ → Bool) (body : σ → σ × Bool) : Nat → σ → Option (σ × Bool)
  | 0, _ => none
  | fuel + 1, s =>
    if pred s then
      match body s with
      | (s', true) => loopWhile pred body fuel s'
      | (s', false) => some (s', false)
    else some (s, true)

/-- the state after `k` executions -/
def after {σ : Type} (body : σ → σ × Bool) : Nat → σ → σ
  | 0, s => s
  | k + 1, s => after body k (body s).1

/-- **C85, loop_while**: the loop ends normally in a state exactly if this is reached by some number of executions of the function, none of which raised, before each of which the predicate held, and the predicate does not hold at the
  end. -/
theorem C85_loop_while {σ : Type} (pred : σ → Bool) (body : σ → σ × Bool) (s s' : σ) :
    (∃ fuel, loopWhile pred body fuel s = some (s', true)) ↔
      ∃ k, s' = after body k s ∧ pred s' = false ∧ ∀ j, j < k → pred (after body j s) = true ∧ (body (after body j s)).2 = true := by
  constructor
  · rintro ⟨fuel, h⟩
    induction fuel generalizing s with
    | zero => cases h
    | succ fuel ih =>
      unfold loopWhile at h
      cases hp : pred s with
      | false =>
        rw [hp] at h
        injection h with h
        injection h with h _
        subst h
        exact ⟨0, rfl, hp, by intro j hj; omega⟩
      | true =>
        rw [hp, if_pos rfl] at h
        obtain ⟨s1, b, hb⟩ : ∃ s1 b, body s = (s1, b) := ⟨_, _, rfl⟩
        rw [hb] at h
        cases b with
        | false => injection h with h; injection h with _ h; cases h
        | true =>
          obtain ⟨k, h1, h2, h3⟩ := ih s1 h
          refine ⟨k + 1, by rw [after, hb]; exact h1, h2, ?_⟩
          intro j hj
          cases j with
          | zero => exact ⟨hp, by rw [after, hb]⟩
          | succ j => rw [after, hb]; exact h3 j (by omega)
  · rintro ⟨k, h1, h2, h3⟩
    refine ⟨k + 1, ?_⟩
    induction k generalizing s with
    | zero =>
      rw [after] at h1
      subst h1
      rw [loopWhile, h2]; rfl
    | succ k ih =>
      obtain ⟨hp, hb⟩ := h3 0 (by omega)
      simp only [after] at hp hb h1
      rw [loopWhile, hp, if_pos rfl]
      obtain ⟨s1, b, he⟩ : ∃ s1 b, body s = (s1, b) := ⟨_, _, rfl⟩
      rw [he] at hb h1 ⊢
      dsimp only at hb
      subst hb
      refine ih s1 h1 ?_
      intro j hj
      have := h3 (j + 1) (by omega)
      rw [after, he] at this
      exact this

/-- **C85, loop_while, exceptions**: an exception ends the loop, and comes out, exactly if the function raises it after some number of executions, before each of which the predicate held. -/
theorem C85_loop_raises {σ : Type} (pred : σ → Bool) (body : σ → σ × Bool) (s s' : σ) :
    (∃ fuel, loopWhile pred body fuel s = some (s', false)) ↔
      ∃ k, s' = after body (k + 1) s ∧ (body (after body k s)).2 = false ∧ pred (after body k s) = true ∧
        ∀ j, j < k → pred (after body j s) = true ∧ (body (after body j s)).2 = true := by
  constructor
  · rintro ⟨fuel, h⟩
    induction fuel generalizing s with
    | zero => cases h
    | succ fuel ih =>
      unfold loopWhile at h
      cases hp : pred s with
      | false =>
        rw [hp] at h
        injection h with h
        injection h with _ h
        cases h
      | true =>
        rw [hp, if_pos rfl] at h
        obtain ⟨s1, b, hb⟩ : ∃ s1 b, body s = (s1, b) := ⟨_, _, rfl⟩
        rw [hb] at h
        cases b with
        | false =>
          injection h with h
          injection h with h _
          subst h
          refine ⟨0, by rw [after, after, hb], by rw [after, hb], hp, by intro j hj; omega⟩
        | true =>
          obtain ⟨k, h1, h2, h3, h4⟩ := ih s1 h
          refine ⟨k + 1, by rw [after, hb]; exact h1, by rw [after, hb]; exact h2, by rw [after, hb]; exact h3, ?_⟩
          intro j hj
          cases j with
          | zero => exact ⟨hp, by rw [after, hb]⟩
          | succ j => rw [after, hb]; exact h4 j (by omega)
  · rintro ⟨k, h1, h2, h3, h4⟩
    refine ⟨k + 1, ?_⟩
    induction k generalizing s with
    | zero =>
      rw [after] at h2 h3
      rw [after, after] at h1
      rw [loopWhile, h3, if_pos rfl]
      obtain ⟨s1, b, he⟩ : ∃ s1 b, body s = (s1, b) := ⟨_, _, rfl⟩
      rw [he] at h2 h1 ⊢
      dsimp only at h2 h1
      subst h2 h1
      rfl
    | succ k ih =>
      obtain ⟨hp, hb⟩ := h4 0 (by omega)
      simp only [after] at hp hb h1 h2 h3
      rw [loopWhile, hp, if_pos rfl]
      obtain ⟨s1, b, he⟩ : ∃ s1 b, body s = (s1, b) := ⟨_, _, rfl⟩
      rw [he] at hb h1 h2 h3 ⊢
      dsimp only at hb
      subst hb
      refine ih s1 h1 h2 h3 ?_
      intro j hj
      have := h4 (j + 1) (by omega)
      rw [after, he] at this
      exact this

/-! Cases that meet the hypotheses -/

/-- two threads, three items, one timeout -/
def exampleSchedule : List Act := [.take 1, .put 10, .put 11, .take 1, .take 2, .run 2, .put 12, .run 1, .take 1]

def exampleFun : Nat → FunRes := fun x => if x = 11 then .raises 7 else .ret (x * 2)

example : ∀ x, exampleFun x ≠ .empty := by intro x; unfold exampleFun; split <;> simp
example : (St.init.run exampleFun exampleSchedule).log = [.onEmpty 1, .done 1 .none_, .ran 2 11, .done 2 (.raises 7), .ran 1 10, .done 1 (.ret 20)] := by decide
example : (St.init.run exampleFun exampleSchedule).held = [(1, 12)] := by decide
example : loopWhile (· < 3) (fun n => (n + 1, true)) 5 0 = some (3, true) := by decide
example : loopWhile (· < 3) (fun n => (n + 1, n != 1)) 5 0 = some (2, false) := by decide

end Verif.Flow
