/-!
# Model of parallel_execute and parallel_construct (satella/coding/concurrent), C79

The calls are numbered in the order of their arguments; what each does is a parameter, and they end in any order.  Tracing is not modelled.
-/
namespace Verif.Conc.Parallel

/-- what a call does.  (Part of the model of `parallel_execute`, /repo/satella/coding/concurrent/functions.py:44-65.) -/
inductive Out where
  | value (v : Nat)
  /-- the function returns None -/
  | none_
  /-- raises an `Exception` -/
  | exc (e : Nat)
  /-- raises a `BaseException` that is no `Exception` -/
  | base (e : Nat)
  deriving DecidableEq, Repr

/-! ## parallel_execute -/

/-- the futures that have ended, what was yielded, and the exception that ended the generator.  (Part of the model of `parallel_execute`, /repo/satella/coding/concurrent/functions.py:44-65.) -/
structure St where
  ended : List Nat
  yielded : List Out
  raised : Option Out
  deriving DecidableEq, Repr

/-- part of the model of `parallel_execute`, /repo/satella/coding/concurrent/functions.py:44-65 -/
inductive Act where
  /-- the call ends -/
  | ends (i : Nat)
  /-- the consumer asks for the next value -/
  | next
  deriving DecidableEq, Repr

/-- the loop of `parallel_execute`, /repo/satella/coding/concurrent/functions.py:61-65, one action; `future.result()` waits until the call has ended -/
def St.step (outs : List Out) (s : St) : Act → St
  | .ends i => { s with ended := i :: s.ended }
  | .next =>
    match s.raised with
    | some _ => s
    | none =>
      match outs[s.yielded.length]? with
      | none => s
      | some o =>
        if s.yielded.length ∈ s.ended then
          match o with
          | .base e => { s with raised := some (.base e) }
          | o => { s with yielded := s.yielded ++ [o] }
        else s

/-- a schedule; all calls have been made at the first `next`, /repo/satella/coding/concurrent/functions.py:60 -/
def run (outs : List Out) (as : List Act) : St := as.foldl (St.step outs) ⟨[], [], none⟩

/-! ## parallel_construct -/

/-- `thread_pool.map` gives the results in the order of the arguments and raises the first exception; the loop, /repo/satella/coding/concurrent/list_processor.py:40-44 -/
def construct : List Out → List Nat → Except Out (List Nat)
  | [], acc => .ok acc
  | .value v :: l, acc => construct l (acc ++ [v])
  | .none_ :: l, acc => construct l acc
  | .exc e :: _, _ => .error (.exc e)
  | .base e :: _, _ => .error (.base e)

/-! ## Proofs -/

/-- no call raises a BaseException that is no Exception -/
def NoBase (outs : List Out) : Prop := ∀ e, Out.base e ∉ outs

theorem take_succ (l : List Out) (n : Nat) (x : Out) (h : l[n]? = some x) : l.take (n + 1) = l.take n ++ [x] := by
  rw [List.take_add_one, h]
  rfl

/-- the invariant -/
def Inv (outs : List Out) (s : St) : Prop :=
  s.yielded = outs.take s.yielded.length ∧ (∀ i, i < s.yielded.length → i ∈ s.ended) ∧ (∀ o, s.raised = some o → ∃ e, o = .base e ∧ outs[s.yielded.length]? = some o)

theorem inv_step (outs : List Out) (s : St) (a : Act) (h : Inv outs s) : Inv outs (s.step outs a) := by
  obtain ⟨h1, h2, h3⟩ := h
  cases a with
  | ends i => exact ⟨h1, fun j hj => List.mem_cons_of_mem _ (h2 j hj), h3⟩
  | next =>
    simp only [St.step]
    cases hr : s.raised with
    | some o => exact ⟨h1, h2, h3⟩
    | none =>
      simp only
      cases ho : outs[s.yielded.length]? with
      | none => exact ⟨h1, h2, h3⟩
      | some o =>
        simp only
        by_cases hm : s.yielded.length ∈ s.ended
        · rw [if_pos hm]
          have grow : Inv outs { s with yielded := s.yielded ++ [o] } := by
            refine ⟨?_, ?_, ?_⟩
            · show s.yielded ++ [o] = outs.take (s.yielded ++ [o]).length
              rw [List.length_append, List.length_singleton, take_succ outs _ o ho, ← h1]
            · intro i hi
              simp only [List.length_append, List.length_singleton] at hi
              by_cases e : i = s.yielded.length
              · rw [e]; exact hm
              · exact h2 i (by omega)
            · intro o' ho'
              rw [hr] at ho'
              cases ho'
          cases o with
          | base e =>
            refine ⟨h1, h2, ?_⟩
            intro o' ho'
            simp only at ho'
            injection ho' with ho'
            subst ho'
            exact ⟨e, rfl, ho⟩
          | value v => rw [hr] at grow; exact grow
          | none_ => rw [hr] at grow; exact grow
          | exc e => rw [hr] at grow; exact grow
        · rw [if_neg hm]
          exact ⟨h1, h2, h3⟩

theorem inv_run (outs : List Out) (as : List Act) : Inv outs (run outs as) := by
  have : ∀ (as : List Act) (s : St), Inv outs s → Inv outs (as.foldl (St.step outs) s) := by
    intro as
    induction as with
    | nil => intro s h; exact h
    | cons a as ih => intro s h; exact ih _ (inv_step outs s a h)
  exact this as _ ⟨rfl, by simp, by simp⟩

/-- **C79.** In whatever order the calls end, what `parallel_execute` has yielded is, in the order of the arguments, the value or the exception of each of the first calls, all of which have ended. -/
theorem C79_execute (outs : List Out) (as : List Act) : ∃ n, (run outs as).yielded = outs.take n ∧ n ≤ outs.length ∧ ∀ i, i < n → i ∈ (run outs as).ended := by
  obtain ⟨h1, h2, _⟩ := inv_run outs as
  refine ⟨(run outs as).yielded.length, h1, ?_, h2⟩
  have := congrArg List.length h1
  rw [List.length_take] at this
  omega

theorem foldl_next (outs : List Out) (hb : NoBase outs) : ∀ (n : Nat) (s : St), Inv outs s → (∀ i, i < outs.length → i ∈ s.ended) → s.raised = none →
    ((List.replicate n Act.next).foldl (St.step outs) s).yielded = outs.take (s.yielded.length + n) := by
  intro n
  induction n with
  | zero => intro s h _ _; exact h.1
  | succ n ih =>
    intro s h he hr
    rw [List.replicate_succ, List.foldl_cons]
    cases ho : outs[s.yielded.length]? with
    | none =>
      have : s.step outs .next = s := by simp [St.step, hr, ho]
      rw [this, ih s h he hr]
      rw [List.getElem?_eq_none_iff] at ho
      rw [List.take_of_length_le (by omega), List.take_of_length_le (by omega)]
    | some o =>
      have hlt : s.yielded.length < outs.length := by
        obtain ⟨hlt, _⟩ := List.getElem?_eq_some_iff.1 ho
        exact hlt
      have hm := he _ hlt
      have hs : s.step outs .next = { s with yielded := s.yielded ++ [o] } := by
        cases o with
        | base e => exact absurd (List.mem_of_getElem? ho) (hb e)
        | _ => simp [St.step, hr, ho, hm]
      have hi := inv_step outs s .next h
      rw [hs] at hi ⊢
      rw [ih _ hi he hr]
      simp only [List.length_append, List.length_singleton]
      rw [show s.yielded.length + 1 + n = s.yielded.length + (n + 1) by omega]

/-- **C79, it gives everything** (partial: no call raises a BaseException that is no Exception): when all calls have ended, asking often enough gives all of the values and exceptions, in order, and nothing is raised. -/
theorem C79_all_partial (outs : List Out) (hb : NoBase outs) (as : List Act) (he : ∀ i, i < outs.length → i ∈ (run outs as).ended) :
    (run outs (as ++ List.replicate outs.length .next)).yielded = outs := by
  have hi := inv_run outs as
  have hr : (run outs as).raised = none := by
    cases h : (run outs as).raised with
    | none => rfl
    | some o =>
      obtain ⟨e, he, ho⟩ := hi.2.2 o h
      subst he
      exact absurd (List.mem_of_getElem? ho) (hb e)
  have := foldl_next outs hb outs.length (run outs as) hi he hr
  unfold run at this ⊢
  rw [List.foldl_append, this]
  exact List.take_of_length_le (by omega)

/-- **C79, violated by BaseExceptions**: the generator raises it, and never gives the values of the calls that come later. -/
theorem C79_base_violates (e : Nat) (rest : List Out) (as : List Act) : (run (.base e :: rest) as).yielded = [] := by
  have : ∀ (as : List Act) (s : St), s.yielded = [] → (as.foldl (St.step (.base e :: rest)) s).yielded = [] := by
    intro as
    induction as with
    | nil => intro s h; exact h
    | cons a as ih =>
      intro s h
      refine ih _ ?_
      cases a with
      | ends i => exact h
      | next =>
        simp only [St.step]
        cases s.raised with
        | some o => exact h
        | none =>
          simp only [h, List.length_nil, List.getElem?_cons_zero]
          split
          · rfl
          · exact h
  exact this as _ rfl

/-- the value, if there is one -/
def Out.val : Out → Option Nat
  | .value v => some v
  | _ => none

/-- raises -/
def Out.raises : Out → Bool
  | .exc _ | .base _ => true
  | _ => false

/-- **C79, parallel_construct**: it raises exactly if some call does, and then what the first of these raised, in the order of the arguments; otherwise it gives the results that are not None, in that order. -/
theorem C79_construct (outs : List Out) : construct outs [] = match outs.find? Out.raises with
    | some o => .error o
    | none => .ok (outs.filterMap Out.val) := by
  have : ∀ acc, construct outs acc = match outs.find? Out.raises with
      | some o => .error o
      | none => .ok (acc ++ outs.filterMap Out.val) := by
    induction outs with
    | nil => intro acc; simp [construct]
    | cons o outs ih =>
      intro acc
      cases o with
      | value v => rw [List.find?_cons_of_neg (by simp [Out.raises]), List.filterMap_cons_some (f := Out.val) (a := .value v) (b := v) rfl]; simp [construct, ih]
      | none_ => rw [List.find?_cons_of_neg (by simp [Out.raises]), List.filterMap_cons_none rfl]; simp [construct, ih]
      | exc e => rw [List.find?_cons_of_pos (by simp [Out.raises])]; rfl
      | base e => rw [List.find?_cons_of_pos (by simp [Out.raises])]; rfl
  simpa using this []

/-! Cases that meet the hypotheses -/

example : (run [.value 1, .exc 2, .none_] [.next, .ends 2, .ends 0, .next, .next, .ends 1, .next, .next, .next]).yielded = [.value 1, .exc 2, .none_] := by decide
example : NoBase [.value 1, .exc 2] ∧ ∀ i, i < 2 → i ∈ (run [.value 1, .exc 2] [.ends 1, .next, .ends 0]).ended := by
  constructor
  · simp [NoBase]
  · decide
example : construct [.value 1, .none_, .value 0] [] = .ok [1, 0] ∧ construct [.value 1, .exc 5, .base 6] [] = .error (.exc 5) := ⟨rfl, rfl⟩

end Verif.Conc.Parallel
