import Verif.Futures.Spec
import Verif.Conc.MonitorProps
/-!
# C22, C51, C52
-/
namespace Verif.Futures
open Verif Conc

section
variable {V : Type _}

/-! ## cancel -/

theorem cancelLoop_false (s : Store V) (l : List Nat) : cancelLoop s false l = (s, false) := by
  induction l with
  | nil => rfl
  | cons i is ih => simp [cancelLoop, ih]

theorem cancel_st (s : Store V) (i j : Nat) :
    (j = i ∧ s.st i = .pending ∧ (s.cancel i).1.st j = .cancelled) ∨
    (¬ (j = i ∧ s.st i = .pending) ∧ (s.cancel i).1.st j = s.st j) := by
  unfold Store.cancel
  cases h : s.st i <;> simp [Store.complete, upd]
  by_cases hj : j = i <;> simp [hj]

theorem cancel_ret (s : Store V) (i : Nat) :
    (s.cancel i).2 = true ↔ (((s.cancel i).1).st i).isCancelled = true := by
  unfold Store.cancel
  cases h : s.st i <;> simp [Store.complete, upd, FState.isCancelled, h]

theorem cancel_keeps (s : Store V) (i j : Nat) (h : (s.st j).isCancelled = true) :
    ((s.cancel i).1.st j).isCancelled = true := by
  rcases cancel_st s i j with h1 | h1
  · rw [h1.2.2]; rfl
  · rw [h1.2]; exact h

theorem cancelLoop_keeps (s : Store V) (b : Bool) (l : List Nat) (j : Nat) (h : (s.st j).isCancelled = true) :
    ((cancelLoop s b l).1.st j).isCancelled = true := by
  induction l generalizing s b with
  | nil => exact h
  | cons i is ih =>
    unfold cancelLoop
    cases b
    · exact ih s false h
    · exact ih _ _ (cancel_keeps s i j h)

theorem cancelLoop_only (s : Store V) (b : Bool) (l : List Nat) (j : Nat)
    (h : ((s.st j).isCancelled = false ∧ s.st j ≠ .pending)) : (cancelLoop s b l).1.st j = s.st j := by
  induction l generalizing s b with
  | nil => rfl
  | cons i is ih =>
    unfold cancelLoop
    cases b
    · exact ih s false h
    · have h1 : (s.cancel i).1.st j = s.st j := by
        rcases cancel_st s i j with h1 | h1
        · rw [h1.1] at h; exact absurd h1.2.1 h.2
        · exact h1.2
      have := ih (s.cancel i).1 (s.cancel i).2 (by rw [h1]; exact h)
      simp only [if_true]
      rw [this, h1]

/-- **C22, cancel reports.** For every collection, in whatever states its members are, `cancel()` returns True exactly if all members
are cancelled when it returns. -/
theorem C22_cancel_reports (s : Store V) (l : List Nat) :
    (cancelAll s l).2 = true ↔ ∀ i ∈ l, ((cancelAll s l).1.st i).isCancelled = true := by
  unfold cancelAll
  induction l generalizing s with
  | nil => simp [cancelLoop]
  | cons i is ih =>
    simp only [cancelLoop, if_true]
    cases h : (s.cancel i).2 with
    | true =>
      rw [ih]
      have hi := cancelLoop_keeps (s.cancel i).1 true is i ((cancel_ret s i).1 h)
      simp [hi]
    | false =>
      rw [cancelLoop_false]
      simp only [Bool.false_eq_true, false_iff]
      intro hc
      have := (cancel_ret s i).2 (hc i (by simp))
      simp [h] at this

/-- **C22, cancel reaches (partial).** Cancelling reaches the members up to the first one that is running or finished: these end
cancelled, and their done callbacks are called; no other future is touched.  Missing: the members after it (see
`C22_cancel_violates`). -/
theorem C22_cancel_partial (s : Store V) (l : List Nat) :
    (∀ i ∈ l.takeWhile (fun i => (s.st i).canCancel),
        ((cancelAll s l).1.st i).isCancelled = true) ∧
    (∀ j, j ∉ l → (cancelAll s l).1.st j = s.st j) ∧
    (∀ j, (s.st j).isCancelled = false → s.st j ≠ .pending → (cancelAll s l).1.st j = s.st j) := by
  refine ⟨?_, ?_, fun j h1 h2 => cancelLoop_only s true l j ⟨h1, h2⟩⟩
  · unfold cancelAll
    induction l generalizing s with
    | nil => simp
    | cons i is ih =>
      intro j hj
      rw [List.takeWhile_cons] at hj
      split at hj
      · rename_i hc
        have hret : (s.cancel i).2 = true := by
          unfold Store.cancel
          cases hs : s.st i <;> simp_all [FState.canCancel]
        simp only [cancelLoop, if_true, hret]
        rcases List.mem_cons.1 hj with rfl | hj
        · exact cancelLoop_keeps _ _ _ _ ((cancel_ret s j).1 hret)
        · refine ih (s.cancel i).1 j ?_
          have : ∀ k, ((s.cancel i).1.st k).canCancel = (s.st k).canCancel := by
            intro k
            rcases cancel_st s i k with h1 | h1
            · rw [h1.2.2, h1.1, h1.2.1]; rfl
            · rw [h1.2]
          simp only [this]
          exact hj
      · simp at hj
  · intro j hj
    unfold cancelAll
    generalize true = b
    induction l generalizing s b with
    | nil => rfl
    | cons i is ih =>
      simp only [List.mem_cons, not_or] at hj
      unfold cancelLoop
      cases b
      · exact ih s hj.2 false
      · simp only [if_true]
        rw [ih _ hj.2]
        rcases cancel_st s i j with h1 | h1
        · exact absurd h1.1 hj.1
        · exact h1.2

/-- The hypotheses are met by, and the conclusion is not empty for: pending, cancelled, running, pending members. -/
def exStore : Store Nat :=
  { st := fun i => match i with | 0 => .pending | 1 => .cancelled | 2 => .running | _ => .pending, cbs := fun i => [i + 10], calls := [] }

example : (cancelAll exStore [0, 1, 2, 3]).1.st 0 = .cancelled ∧ (cancelAll exStore [0, 1, 2, 3]).2 = false := by decide

/-- **C22 violated.** "cancel() attempts to cancel every member": a running member keeps the members after it from being cancelled, although
they could be. -/
theorem C22_cancel_violates :
    ∃ (s : Store Nat) (l : List Nat) (i : Nat), i ∈ l ∧ s.st i = .pending ∧ (cancelAll s l).1.st i = .pending :=
  ⟨exStore, [0, 1, 2, 3], 3, by decide⟩

/-! ## set_running_or_notify_cancel -/

theorem startLoop_true (s : Store V) (l : List Nat) : startLoop s true l = (s, .ok true) := by
  induction l with
  | nil => rfl
  | cons i is ih => simp [startLoop, ih]

/-- **C22, starting reports.** If `set_running_or_notify_cancel()` returns, it returns True exactly if some member was not cancelled. -/
theorem C22_start_reports (s : Store V) (l : List Nat) (b : Bool) (h : (startAll s l).2 = .ok b) :
    b = true ↔ ∃ i ∈ l, (s.st i).isCancelled = false := by
  unfold startAll at h
  induction l generalizing s with
  | nil => simp_all [startLoop]
  | cons i is ih =>
    unfold startLoop Store.start at h
    cases hs : s.st i <;> simp only [hs, Bool.false_eq_true, if_false, startLoop_true] at h
    · simp only [Except.ok.injEq] at h
      exact ⟨fun _ => ⟨i, by simp, by simp [hs, FState.isCancelled]⟩, fun _ => h.symm⟩
    · simp at h
    · rw [ih _ h]
      have hk : ∀ k, ((upd s.st i FState.notified) k).isCancelled = (s.st k).isCancelled := by
        intro k; unfold upd; split
        · rename_i hk; subst hk; rw [hs]; rfl
        · rfl
      have hi : (s.st i).isCancelled = true := by rw [hs]; rfl
      simp [hk, hi]
    all_goals simp at h

/-- **C22, starting reaches (partial).** Members cancelled before the first one that is not are notified, and that one runs; no other
future is touched.  Missing: the members after it (see `C22_start_violates`). -/
theorem C22_start_partial (s : Store V) (a b : List Nat) (i : Nat) (ha : ∀ j ∈ a, s.st j = .cancelled) (hn : a.Nodup)
    (hi : s.st i = .pending) :
    (startAll s (a ++ i :: b)).2 = .ok true ∧
    ∀ j, (startAll s (a ++ i :: b)).1.st j =
      if j = i then .running else if j ∈ a then .notified else s.st j := by
  unfold startAll
  induction a generalizing s with
  | nil =>
    simp only [List.nil_append, startLoop, Store.start, hi, Bool.false_eq_true, if_false, startLoop_true, true_and]
    intro j; simp [upd]
  | cons k ks ih =>
    have hk : s.st k = .cancelled := ha k (by simp)
    have hki : k ≠ i := by rintro rfl; rw [hk] at hi; cases hi
    rw [List.nodup_cons] at hn
    have h1 : ∀ j ∈ ks, (upd s.st k FState.notified) j = FState.cancelled := by
      intro j hj
      rw [upd_other]
      · exact ha j (by simp [hj])
      · rintro rfl; exact hn.1 hj
    have := ih { s with st := upd s.st k .notified } h1 hn.2 (by rw [← hi]; exact upd_other _ _ (Ne.symm hki))
    simp only [List.cons_append, startLoop, Store.start, hk, Bool.false_eq_true, if_false]
    refine ⟨this.1, fun j => ?_⟩
    rw [this.2]
    simp only [upd, List.mem_cons]
    by_cases hji : j = i <;> by_cases hjk : j ∈ ks <;> by_cases hkk : j = k <;> simp_all

example := C22_start_partial (V := Nat)
  { st := fun i => if i < 2 then .cancelled else .pending, cbs := fun _ => [], calls := [] } [0, 1] [3] 2 (by decide) (by decide) rfl

/-- **C22 violated.** "set_running_or_notify_cancel reaches every member": only the first pending member runs. -/
theorem C22_start_violates :
    ∃ (s : Store Nat) (l : List Nat) (i : Nat), i ∈ l ∧ (startAll s l).2 = .ok true ∧ s.st i = .pending ∧
      (startAll s l).1.st i = .pending :=
  ⟨{ st := fun _ => .pending, cbs := fun _ => [], calls := [] }, [0, 1], 1, by decide, rfl, rfl, rfl⟩

/-! ## set_result, set_exception -/

/-- **C22, set_result (partial).** If no member is done, `set_result(v)` and `set_exception(e)` give every member that outcome, call every
member's done callbacks in order, and touch no other future.  Missing: members after one that is done (see `C22_set_result_violates`). -/
theorem C22_set_result_partial (s : Store V) (x : FState V) (l : List Nat) (hn : l.Nodup)
    (h : ∀ i ∈ l, (s.st i).isDone = false) :
    (finishAll s x l).2 = .ok () ∧ (∀ i ∈ l, (finishAll s x l).1.st i = x) ∧
    (∀ j, j ∉ l → (finishAll s x l).1.st j = s.st j) ∧
    (finishAll s x l).1.calls = s.calls ++ l.flatMap (fun i => (s.cbs i).map (fun c => (c, i))) := by
  induction l generalizing s with
  | nil => simp [finishAll]
  | cons i is ih =>
    rw [List.nodup_cons] at hn
    have hi := h i (by simp)
    have hs : ∀ j ∈ is, ((s.complete i x).st j).isDone = false := by
      intro j hj
      simp only [Store.complete]
      rw [upd_other]
      · exact h j (by simp [hj])
      · rintro rfl; exact hn.1 hj
    obtain ⟨h1, h2, h3, h4⟩ := ih (s.complete i x) hn.2 hs
    simp only [finishAll, Store.finish, hi, Bool.false_eq_true, if_false]
    refine ⟨h1, ?_, ?_, ?_⟩
    · intro j hj
      rcases List.mem_cons.1 hj with rfl | hj
      · rw [h3 _ hn.1]; simp [Store.complete, upd]
      · exact h2 j hj
    · intro j hj
      simp only [List.mem_cons, not_or] at hj
      rw [h3 j hj.2]
      simp [Store.complete, upd, hj.1]
    · rw [h4]; simp [Store.complete]

/-- ... and if some member is done, it raises InvalidStateError, so the caller knows. -/
theorem C22_set_result_raises (s : Store V) (x : FState V) (l : List Nat) (i : Nat) (hi : i ∈ l)
    (h : (s.st i).isDone = true) : (finishAll s x l).2 = .error .invalidState := by
  induction l generalizing s with
  | nil => simp at hi
  | cons j js ih =>
    unfold finishAll Store.finish
    cases hj : (s.st j).isDone with
    | true => simp
    | false =>
      simp only [Bool.false_eq_true, if_false]
      have hne : i ≠ j := by rintro rfl; rw [h] at hj; cases hj
      refine ih (s.complete j x) (by simpa [hne] using hi) ?_
      simp only [Store.complete]
      rw [upd_other _ _ hne]; exact h

example := C22_set_result_partial (V := Nat) exStore (.value 7) [0, 2, 3] (by decide) (by decide)
example : (finishAll exStore (.value 7) [0, 2, 3]).1.calls = [(10, 0), (12, 2), (13, 3)] := by decide

/-- **C22 violated.** "set_result reaches every member": the members after a cancelled one never get the result. -/
theorem C22_set_result_violates :
    ∃ (s : Store Nat) (l : List Nat) (i : Nat), i ∈ l ∧ s.st i = .pending ∧ l.Nodup ∧ (finishAll s (.value 7) l).1.st i = .pending :=
  ⟨exStore, [0, 1, 3], 3, by decide⟩

/-! ## add_done_callback -/

theorem addCallback_fold (s : Store V) (l : List Nat) (c : Nat) :
    (l.foldl (fun s i => s.addCallback i c) s).st = s.st := by
  induction l generalizing s with
  | nil => rfl
  | cons i is ih =>
    rw [List.foldl_cons, ih]
    unfold Store.addCallback; split <;> rfl

/-- **C22, callbacks.** `add_done_callback(cb)` on a collection of members not yet done, followed by `set_result`: the callback is called
exactly once for each member, in order, after the callbacks added before. -/
theorem C22_callback (s : Store V) (l : List Nat) (c : Nat) (x : FState V) (hn : l.Nodup)
    (h : ∀ i ∈ l, (s.st i).isDone = false) :
    (finishAll (addCallbackAll s l c false).1 x l).1.calls =
      s.calls ++ l.flatMap (fun i => (s.cbs i).map (fun c => (c, i)) ++ [(c, i)]) := by
  have key : ∀ (l : List Nat) (s : Store V), l.Nodup → (∀ i ∈ l, (s.st i).isDone = false) →
      (l.foldl (fun s i => s.addCallback i c) s).calls = s.calls ∧
      ∀ j, (l.foldl (fun s i => s.addCallback i c) s).cbs j = if j ∈ l then s.cbs j ++ [c] else s.cbs j := by
    intro l
    induction l with
    | nil => intro s _ _; simp
    | cons i is ih =>
      intro s hn h
      rw [List.nodup_cons] at hn
      have h1 : s.addCallback i c = { s with cbs := upd s.cbs i (s.cbs i ++ [c]) } := by
        unfold Store.addCallback; rw [if_neg (by simp [h i (by simp)])]
      rw [List.foldl_cons, h1]
      obtain ⟨h2, h3⟩ := ih { s with cbs := upd s.cbs i (s.cbs i ++ [c]) } hn.2 (fun j hj => h j (by simp [hj]))
      refine ⟨h2, fun j => ?_⟩
      rw [h3]
      simp only [upd, List.mem_cons]
      by_cases hji : j = i
      · subst hji; simp [hn.1]
      · simp [hji]
  obtain ⟨k1, k2⟩ := key l s hn h
  have e : (addCallbackAll s l c false).1 = l.foldl (fun s i => s.addCallback i c) s := rfl
  rw [e, (C22_set_result_partial _ x l hn (by rw [addCallback_fold]; exact h)).2.2.2, k1]
  congr 1
  have : ∀ l' : List Nat, (∀ i ∈ l', i ∈ l) →
      l'.flatMap (fun i => ((l.foldl (fun s i => s.addCallback i c) s).cbs i).map (fun c => (c, i)))
      = l'.flatMap (fun i => (s.cbs i).map (fun c => (c, i)) ++ [(c, i)]) := by
    intro l' hl
    induction l' with
    | nil => rfl
    | cons a as ih =>
      rw [List.flatMap_cons, List.flatMap_cons, ih (fun i hi => hl i (by simp [hi])), k2, if_pos (hl a (by simp))]
      simp
  exact this l (fun i hi => hi)

/-- **C22, callbacks of members that are done.** `add_done_callback(cb)` calls the callback at once for each member that is done, in order, after what was called before; and only for those. -/
theorem C22_callback_done (s : Store V) (l : List Nat) (c : Nat) :
    (addCallbackAll s l c false).2 = .ok () ∧ (addCallbackAll s l c false).1.st = s.st ∧
      (addCallbackAll s l c false).1.calls = s.calls ++ (l.filter (fun i => (s.st i).isDone)).map (fun i => (c, i)) := by
  refine ⟨rfl, addCallback_fold s l c, ?_⟩
  show (l.foldl (fun s i => s.addCallback i c) s).calls = _
  induction l generalizing s with
  | nil => simp
  | cons i is ih =>
    rw [List.foldl_cons, ih, List.filter_cons]
    by_cases hd : (s.st i).isDone = true
    · have e : s.addCallback i c = { s with calls := s.calls ++ [(c, i)] } := by unfold Store.addCallback; rw [if_pos hd]
      rw [e, if_pos hd]; simp
    · have e : s.addCallback i c = { s with cbs := upd s.cbs i (s.cbs i ++ [c]) } := by unfold Store.addCallback; rw [if_neg hd]
      rw [e, if_neg hd]

/-- **C22, a callback of one member.** `add_done_callback(cb, only_one=True)` raises IndexError and does nothing if there are no members.  Otherwise the callback is called for one member only: at once if it is done, or else when it ends, and for no other
member when that ends. -/
theorem C22_callback_only_one (s : Store V) (l : List Nat) (c : Nat) :
    (l = [] → addCallbackAll s l c true = (s, .error .indexError)) ∧
    (l ≠ [] → ∃ i ∈ l, (addCallbackAll s l c true).2 = .ok () ∧ (addCallbackAll s l c true).1.st = s.st ∧
      ((s.st i).isDone = true → (addCallbackAll s l c true).1.calls = s.calls ++ [(c, i)] ∧ (addCallbackAll s l c true).1.cbs = s.cbs) ∧
      ((s.st i).isDone = false → (addCallbackAll s l c true).1.calls = s.calls ∧ (addCallbackAll s l c true).1.cbs i = s.cbs i ++ [c] ∧
        (∀ j, j ≠ i → (addCallbackAll s l c true).1.cbs j = s.cbs j) ∧
        ∀ x, (finishAll (addCallbackAll s l c true).1 x [i]).1.calls = (finishAll s x [i]).1.calls ++ [(c, i)])) := by
  constructor
  · rintro rfl; rfl
  · intro hl
    cases l with
    | nil => exact absurd rfl hl
    | cons i is =>
      refine ⟨i, by simp, rfl, addCallback_fold s [i] c, fun h => ?_, fun h => ?_⟩
      · have e : (addCallbackAll s (i :: is) c true).1 = { s with calls := s.calls ++ [(c, i)] } := by
          show s.addCallback i c = _; unfold Store.addCallback; rw [if_pos h]
        rw [e]; exact ⟨rfl, rfl⟩
      · have e : (addCallbackAll s (i :: is) c true).1 = { s with cbs := upd s.cbs i (s.cbs i ++ [c]) } := by
          show s.addCallback i c = _; unfold Store.addCallback; rw [if_neg (by simp [h])]
        rw [e]
        refine ⟨rfl, by simp [upd], fun j hj => by simp [upd, hj], fun x => ?_⟩
        rw [(C22_set_result_partial _ x [i] (by simp) (by simpa using h)).2.2.2, (C22_set_result_partial s x [i] (by simp) (by simpa using h)).2.2.2]
        simp [upd]

example : (addCallbackAll exStore [0, 1, 2, 3] 99 true).1.calls = [] ∧ (addCallbackAll exStore [1, 0] 99 true).1.calls = [(99, 1)] := by decide
example : (addCallbackAll exStore [0, 1, 2, 3] 99 false).1.calls = [(99, 1)] := by decide
example := C22_callback (V := Nat) exStore [0, 2, 3] 99 (.value 7) (by decide) (by decide)

/-! ## result, exception -/

theorem resultLoop_ok (w : List (Nat × Store V)) (vs : List V) :
    resultLoop w = .ok vs ↔ w.map (fun x => x.2.st x.1) = vs.map .value := by
  induction w generalizing vs with
  | nil => cases vs <;> simp [resultLoop]
  | cons x rest ih =>
    obtain ⟨i, s⟩ := x
    cases hs : s.st i <;> cases vs <;> simp [resultLoop, resultOf, hs]
    · cases hr : resultLoop rest <;> simp
    · rename_i v v' vs
      cases hr : resultLoop rest with
      | error e =>
        simp only [reduceCtorEq, false_iff, not_and]
        intro _ hc
        rw [(ih vs).2 hc] at hr; cases hr
      | ok us =>
        have := ih us
        rw [hr] at this
        have h2 := this.1 rfl
        simp only [Except.ok.injEq, List.cons.injEq, h2]
        constructor
        · rintro ⟨rfl, rfl⟩; exact ⟨rfl, rfl⟩
        · rintro ⟨rfl, h3⟩
          refine ⟨rfl, ?_⟩
          have hinj : ∀ (a b : List V), a.map FState.value = b.map FState.value → a = b := by
            intro a
            induction a with
            | nil => intro b hb; cases b <;> simp_all
            | cons x xs ih => intro b hb; cases b with
              | nil => simp at hb
              | cons y ys => simp only [List.map_cons, List.cons.injEq, FState.value.injEq] at hb; rw [hb.1, ih ys hb.2]
          exact hinj _ _ h3

theorem waits_mem {last : Store V} {w : List (Nat × Store V)} (h : Waits last w) : ∀ x ∈ w, Evolves x.2 last := by
  induction w with
  | nil => simp
  | cons y rest ih =>
    intro x hx
    rcases List.mem_cons.1 hx with rfl | hx
    · exact h.1
    · exact ih h.2.2 x hx

theorem resultLoop_error (w : List (Nat × Store V)) (e : FErr) (h : resultLoop w = .error e) :
    ∃ a x b, w = a ++ x :: b ∧ (∃ vs : List V, a.map (fun x => x.2.st x.1) = vs.map FState.value) ∧
      resultOf (x.2.st x.1) = .error e := by
  induction w with
  | nil => simp [resultLoop] at h
  | cons y rest ih =>
    obtain ⟨i, s⟩ := y
    unfold resultLoop at h
    cases hr : resultOf (s.st i) with
    | error e' =>
      rw [hr] at h
      simp only [Except.error.injEq] at h
      subst h
      exact ⟨[], (i, s), rest, rfl, ⟨[], rfl⟩, hr⟩
    | ok v =>
      rw [hr] at h
      cases hl : resultLoop rest with
      | ok vs => rw [hl] at h; cases h
      | error e' =>
        rw [hl] at h
        simp only [Except.error.injEq] at h
        subst h
        obtain ⟨a, x, b, h1, ⟨vs, h2⟩, h3⟩ := ih hl
        refine ⟨(i, s) :: a, x, b, by simp [h1], ⟨v :: vs, ?_⟩, h3⟩
        have : s.st i = .value v := by
          cases hs : s.st i <;> rw [hs] at hr <;> simp_all [resultOf]
        simp [h2, this]

/-- **C22, result.** However the members change while the call waits for them one after another: if `result()` returns a list, it has
the result of every member, in order, and all members have finished with these results. -/
theorem C22_result (last : Store V) (w : List (Nat × Store V)) (hw : Waits last w) (vs : List V)
    (h : resultAll w = .ok vs) : w.map (fun x => last.st x.1) = vs.map .value := by
  have h1 : resultLoop w = .ok vs := by
    unfold resultAll recast at h
    cases hl : resultLoop w <;> rw [hl] at h <;> simp_all
  rw [resultLoop_ok] at h1
  have hm := waits_mem hw
  clear hw h
  induction w generalizing vs with
  | nil => exact h1
  | cons x rest ih =>
    cases vs with
    | nil => simp at h1
    | cons v vs =>
      simp only [List.map_cons, List.cons.injEq] at h1 ⊢
      exact ⟨((hm x (by simp)) x.1).1 v h1.1, ih vs h1.2 (fun y hy => hm y (by simp [hy]))⟩

/-- ... and it does return that list if every wait ended with the member's result. -/
theorem C22_result_returns (w : List (Nat × Store V)) (vs : List V)
    (h : w.map (fun x => x.2.st x.1) = vs.map .value) : resultAll w = .ok vs := by
  unfold resultAll
  rw [(resultLoop_ok w vs).2 h]; rfl

/-- **C22, result raises (partial).** If `result()` raises an exception other than WouldWaitMore, then it is what the first member that did not succeed ended
with: its exception, or CancelledError if it was cancelled.  If it raises WouldWaitMore, then some member was not done in time — or failed with
TimeoutError itself (see `C22_result_violates`), or with WouldWaitMore. -/
theorem C22_result_raises_partial (last : Store V) (w : List (Nat × Store V)) (hw : Waits last w) (e : FErr)
    (h : resultAll w = .error e) :
    ∃ a x b, w = a ++ x :: b ∧ (∃ vs : List V, a.map (fun x => last.st x.1) = vs.map FState.value) ∧
      (e ≠ .wouldWaitMore →
        last.st x.1 = .error e ∨ ((last.st x.1).isCancelled = true ∧ e = .cancelledError)) ∧
      (e = .wouldWaitMore → (x.2.st x.1).isDone = false ∨ last.st x.1 = .error .timeoutError ∨ last.st x.1 = .error .wouldWaitMore) := by
  have hm := waits_mem hw
  unfold resultAll recast at h
  cases hl : resultLoop w with
  | ok vs => rw [hl] at h; cases h
  | error e' =>
    rw [hl] at h
    obtain ⟨a, x, b, h1, ⟨vs, h2⟩, h3⟩ := resultLoop_error w e' hl
    have hx := hm x (by simp [h1]) x.1
    simp only [Except.error.injEq] at h
    refine ⟨a, x, b, h1, ⟨vs, ?_⟩, ?_, ?_⟩
    · have hma : ∀ y ∈ a, Evolves y.2 last := fun y hy => hm y (by simp [h1, hy])
      clear h1
      induction a generalizing vs with
      | nil => exact h2
      | cons y rest ih =>
        cases vs with
        | nil => simp at h2
        | cons v vs =>
          simp only [List.map_cons, List.cons.injEq] at h2 ⊢
          exact ⟨((hma y (by simp)) y.1).1 v h2.1, ih vs h2.2 (fun y hy => hma y (by simp [hy]))⟩
    · intro hne
      have hte : e' ≠ .timeoutError := by rintro rfl; simp at h; exact hne h.symm
      rw [if_neg hte] at h
      subst h
      cases hs : x.2.st x.1 <;> rw [hs] at h3 <;> simp [resultOf] at h3
      · exact absurd h3.symm hte
      · exact absurd h3.symm hte
      · exact Or.inr ⟨hx.2.2 (by rw [hs]; rfl), h3.symm⟩
      · exact Or.inr ⟨hx.2.2 (by rw [hs]; rfl), h3.symm⟩
      · exact Or.inl (hx.2.1 _ (by rw [hs, h3]))
    · intro hw
      subst hw
      cases hs : x.2.st x.1 <;> rw [hs] at h3 <;> simp [resultOf] at h3
      · exact Or.inl rfl
      · exact Or.inl rfl
      · subst h3; simp at h
      · subst h3; simp at h
      · subst h3
        rename_i e''
        by_cases ht : e'' = .timeoutError
        · subst ht; exact Or.inr (Or.inl (hx.2.1 _ hs))
        · rw [if_neg ht] at h; subst h; exact Or.inr (Or.inr (hx.2.1 _ hs))

/-- **C22, no time limit.** With no timeout given, and no member failing with TimeoutError or WouldWaitMore itself, `result()` never
raises WouldWaitMore. -/
theorem C22_result_no_limit (last : Store V) (w : List (Nat × Store V)) (hw : Waits last w) (hn : NoLimit w)
    (h1 : ∀ x ∈ w, last.st x.1 ≠ .error .timeoutError) (h2 : ∀ x ∈ w, last.st x.1 ≠ .error .wouldWaitMore) :
    resultAll w ≠ .error .wouldWaitMore := by
  intro h
  obtain ⟨a, x, b, e1, _, _, e4⟩ := C22_result_raises_partial last w hw _ h
  have hx : x ∈ w := by simp [e1]
  rcases e4 rfl with h3 | h3 | h3
  · rw [hn x hx] at h3; cases h3
  · exact h1 x hx h3
  · exact h2 x hx h3

def exLast : Store Nat :=
  { st := fun i => match i with | 0 => .value 5 | 1 => .error (.user 3) | _ => .running, cbs := fun _ => [], calls := [] }

example : Waits exLast [(0, { exLast with st := upd exLast.st 1 .running }), (1, exLast)] ∧ NoLimit [(0, { exLast with st := upd exLast.st 1 .running }), (1, exLast)] := by
  refine ⟨⟨?_, ?_, ?_, by simp, trivial⟩, by simp [NoLimit, exLast, upd, FState.isDone]⟩
  · intro i; simp only [upd]; split <;> simp_all
    simp [FState.isCancelled]
  · intro x hx i; simp only [List.mem_singleton] at hx; subst hx; simp only [upd]; split <;> simp_all
    simp [FState.isCancelled]
  · exact fun i => ⟨fun _ h => h, fun _ h => h, fun h => h⟩

/-- **C22 violated.** A member that failed with TimeoutError makes `result()` raise WouldWaitMore, although every member is done. -/
theorem C22_result_violates :
    ∃ (w : List (Nat × Store Nat)) (last : Store Nat), Waits last w ∧ NoLimit w ∧ resultAll w = .error .wouldWaitMore :=
  let s : Store Nat := { st := fun _ => .error .timeoutError, cbs := fun _ => [], calls := [] }
  ⟨[(0, s)], s, ⟨fun _ => ⟨fun _ h => h, fun _ h => h, fun h => h⟩, by simp, trivial⟩, by simp [NoLimit, s, FState.isDone], rfl⟩

/-- **C22, exception.** If `exception()` returns None, all members have finished without an exception; if it returns an exception, that is the
exception of the first member that has one, and all before it have finished without. -/
theorem C22_exception (last : Store V) (w : List (Nat × Store V)) (hw : Waits last w) :
    (exceptionAll w = .ok none → ∃ vs : List V, w.map (fun x => last.st x.1) = vs.map .value) ∧
    (∀ e, exceptionAll w = .ok (some e) → ∃ a x b, w = a ++ x :: b ∧
      (∃ vs : List V, a.map (fun x => last.st x.1) = vs.map FState.value) ∧ last.st x.1 = .error e) := by
  have hm := waits_mem hw
  clear hw
  have key : ∀ r, exceptionAll w = .ok r → exceptionLoop w = .ok r := by
    intro r h
    unfold exceptionAll recast at h
    cases hl : exceptionLoop w <;> rw [hl] at h <;> simp_all
  refine ⟨fun h => ?_, fun e h => ?_⟩
  · replace h := key _ h
    clear key
    induction w with
    | nil => exact ⟨[], rfl⟩
    | cons x rest ih =>
      obtain ⟨i, s⟩ := x
      unfold exceptionLoop at h
      cases hs : s.st i <;> rw [hs] at h <;> simp [exceptionOf] at h
      rename_i v
      obtain ⟨vs, hvs⟩ := ih (fun y hy => hm y (by simp [hy])) h
      exact ⟨v :: vs, by simp [hvs]; exact (hm (i, s) (by simp) i).1 v hs⟩
  · replace h := key _ h
    clear key
    induction w with
    | nil => simp [exceptionLoop] at h
    | cons x rest ih =>
      obtain ⟨i, s⟩ := x
      unfold exceptionLoop at h
      cases hs : s.st i <;> rw [hs] at h <;> simp [exceptionOf] at h
      · rename_i v
        obtain ⟨a, x, b, h1, ⟨vs, h2⟩, h3⟩ := ih (fun y hy => hm y (by simp [hy])) h
        exact ⟨(i, s) :: a, x, b, by simp [h1], ⟨v :: vs, by simp [h2]; exact (hm (i, s) (by simp) i).1 v hs⟩, h3⟩
      · exact ⟨[], (i, s), rest, rfl, ⟨[], rfl⟩, (hm (i, s) (by simp) i).2.1 e (by rw [hs, h])⟩

/-- **C22, exception raises.** If `exception()` raises, then all members before some member have finished without an exception, and that member was
cancelled, and CancelledError is raised, or was not done in time, and WouldWaitMore is raised.  Nothing else is raised. -/
theorem C22_exception_raises (last : Store V) (w : List (Nat × Store V)) (hw : Waits last w) (e : FErr) (h : exceptionAll w = .error e) :
    ∃ a x b, w = a ++ x :: b ∧ (∃ vs : List V, a.map (fun x => last.st x.1) = vs.map FState.value) ∧
      (((last.st x.1).isCancelled = true ∧ e = .cancelledError) ∨ ((x.2.st x.1).isDone = false ∧ e = .wouldWaitMore)) := by
  have hm := waits_mem hw
  clear hw
  have key : ∃ e', exceptionLoop w = .error e' ∧ e = if e' = .timeoutError then .wouldWaitMore else e' := by
    unfold exceptionAll recast at h
    cases hl : exceptionLoop w with
    | ok r => rw [hl] at h; cases h
    | error e' => rw [hl] at h; exact ⟨e', rfl, by simpa using h.symm⟩
  obtain ⟨e', hl, he⟩ := key
  clear h
  induction w with
  | nil => simp [exceptionLoop] at hl
  | cons x rest ih =>
    obtain ⟨i, s⟩ := x
    have hx := hm (i, s) (by simp) i
    unfold exceptionLoop at hl
    cases hs : s.st i <;> rw [hs] at hl <;> simp [exceptionOf] at hl
    · subst hl; exact ⟨[], (i, s), rest, rfl, ⟨[], rfl⟩, .inr ⟨by simp [hs, FState.isDone], by simpa using he⟩⟩
    · subst hl; exact ⟨[], (i, s), rest, rfl, ⟨[], rfl⟩, .inr ⟨by simp [hs, FState.isDone], by simpa using he⟩⟩
    · subst hl; exact ⟨[], (i, s), rest, rfl, ⟨[], rfl⟩, .inl ⟨hx.2.2 (by rw [hs]; rfl), by simpa using he⟩⟩
    · subst hl; exact ⟨[], (i, s), rest, rfl, ⟨[], rfl⟩, .inl ⟨hx.2.2 (by rw [hs]; rfl), by simpa using he⟩⟩
    · rename_i v
      obtain ⟨a, x, b, h1, ⟨vs, h2⟩, h3⟩ := ih (fun y hy => hm y (by simp [hy])) hl
      exact ⟨(i, s) :: a, x, b, by simp [h1], ⟨v :: vs, by simp [h2]; exact hx.1 v hs⟩, h3⟩

/-- both members are done, the second one cancelled -/
example : let s : Store Nat := { st := fun i => if i = 0 then .value 5 else .notified, cbs := fun _ => [], calls := [] }
    Waits s [(0, s), (1, s)] ∧ exceptionAll [(0, s), (1, s)] = .error .cancelledError := by
  refine ⟨⟨fun i => ⟨fun _ h => h, fun _ h => h, fun h => h⟩, ?_, fun i => ⟨fun _ h => h, fun _ h => h, fun h => h⟩, by simp, trivial⟩, rfl⟩
  intro x hx i; simp only [List.mem_singleton] at hx; subst hx; exact ⟨fun _ h => h, fun _ h => h, fun h => h⟩

/-! ## C51: pre-done callbacks -/

theorem act_clean (f : Fut V) (acts : List (Act V)) (hs : f.state = .preFinished)
    (hc : CleanActs f.view acts) :
    (acts.foldl Fut.act f).state = .preFinished ∧ (acts.foldl Fut.act f).view = acts.foldl expectAct f.view ∧
    (acts.foldl Fut.act f).calls = f.calls ∧ (acts.foldl Fut.act f).cbs = f.cbs := by
  induction acts generalizing f with
  | nil => exact ⟨hs, rfl, rfl, rfl⟩
  | cons a as ih =>
    rw [List.foldl_cons, List.foldl_cons]
    cases a with
    | setResult v =>
      simp only [CleanActs] at hc
      have he : f.exception = none := by
        cases h : f.exception with
        | none => rfl
        | some e => exact absurd (by simp [Fut.view, hs, h]) (hc.1 e)
      have h1 : f.act (.setResult v) = { f with result := some v } := by simp [Fut.act, hs]
      have h2 : ({ f with result := some v } : Fut V).view = .value (some v) := by simp [Fut.view, hs, he]
      have := ih { f with result := some v } hs (by rw [h2]; exact hc.2)
      rw [h1]
      rw [h2] at this
      exact this
    | setException e =>
      simp only [CleanActs] at hc
      have h1 : f.act (.setException e) = { f with exception := some e, result := none } := by simp [Fut.act, hs]
      have h2 : ({ f with exception := some e, result := none } : Fut V).view = .error e := by simp [Fut.view, hs]
      have := ih { f with exception := some e, result := none } hs (by rw [h2]; exact hc)
      rw [h1]
      rw [h2] at this
      exact this
    | cancel => exact absurd hc (by simp [CleanActs])

theorem runPre_clean (f : Fut V) (pre : List (View V → List (Act V))) (hs : f.state = .preFinished)
    (hc : CleanPre f.view pre) :
    (f.runPre pre).state = .preFinished ∧ (f.runPre pre).view = expectPre f.view pre ∧
    (f.runPre pre).calls = f.calls ∧ (f.runPre pre).cbs = f.cbs := by
  induction pre generalizing f with
  | nil => exact ⟨hs, rfl, rfl, rfl⟩
  | cons cb cbs ih =>
    obtain ⟨h1, h2⟩ := hc
    obtain ⟨a1, a2, a3, a4⟩ := act_clean f (cb f.view) hs h1
    rw [← a2] at h2
    obtain ⟨b1, b2, b3, b4⟩ := ih ((cb f.view).foldl Fut.act f) a1 h2
    refine ⟨b1, ?_, b3.trans a3, b4.trans a4⟩
    show (((cb f.view).foldl Fut.act f).runPre cbs).view = _
    rw [b2, a2]; rfl

theorem view_finished (f : Fut V) (hs : f.state = .preFinished) :
    ({ f with state := .finished } : Fut V).view = f.view := by
  simp [Fut.view, hs]

theorem settle_clean (f : Fut V) (hc : CleanPre ({ f with state := .preFinished } : Fut V).view f.pre) :
    f.settle.view = expectPre ({ f with state := .preFinished } : Fut V).view f.pre ∧ f.settle.state = .finished ∧
    f.settle.calls = f.calls ++ f.cbs.map (fun c => (c, f.settle.view)) := by
  obtain ⟨h1, h2, h3, h4⟩ := runPre_clean { f with state := .preFinished } f.pre rfl hc
  have h5 : f.settle.view = (({ f with state := .preFinished } : Fut V).runPre f.pre).view := by
    show ({ (({ f with state := .preFinished } : Fut V).runPre f.pre) with state := .finished } : Fut V).view = _
    exact view_finished _ h1
  refine ⟨h5.trans h2, rfl, ?_⟩
  rw [h5]
  show (({ f with state := .preFinished } : Fut V).runPre f.pre).calls ++ _ = _
  rw [h3]
  congr 1
  show (({ f with state := .preFinished } : Fut V).runPre f.pre).cbs.map _ = _
  rw [h4]
  show f.cbs.map _ = f.cbs.map _
  have := view_finished _ h1
  simp only [this]

/-- **C51 (partial).** A future with any pre-done callbacks, started or not, that is given a result (or an exception): it then presents what the pre-done
callbacks, in the order they were added, made of it, and every done callback has been called exactly once, seeing that final outcome.
Provided that no pre-done callback sets a result over an exception or cancels the future (see `C51_recover_violates`, `C51_cancel_violates`). -/
theorem C51_pre_done_partial (pre : List (View V → List (Act V))) (cbs : List Nat) (started : Bool) (o : Except FErr V) :
    let o' : View V := match o with | .ok v => .value (some v) | .error e => .error e
    let f0 : Fut V := if started then (Fut.new pre cbs).start else Fut.new pre cbs
    let f := (match o with | .ok v => f0.setResult v | .error e => f0.setException e)
    CleanPre o' pre →
    f.2 = .ok () ∧ f.1.view = expectPre o' pre ∧ f.1.calls = cbs.map (fun c => (c, expectPre o' pre)) := by
  cases o with
  | ok v =>
    intro o' f0 f hc
    have hf : f = (({ f0 with result := some v } : Fut V).settle, .ok ()) := by
      cases started <;> rfl
    have hpre : f0.pre = pre := by cases started <;> rfl
    have hex : f0.exception = none := by cases started <;> rfl
    have hcb : f0.cbs = cbs := by cases started <;> rfl
    have hca : f0.calls = [] := by cases started <;> rfl
    have hv : ({ f0 with result := some v, state := .preFinished } : Fut V).view = o' := by simp [Fut.view, hex, o']
    obtain ⟨a, b, c⟩ := settle_clean { f0 with result := some v } (by
      show CleanPre ({ f0 with result := some v, state := .preFinished } : Fut V).view f0.pre
      rw [hv, hpre]; exact hc)
    have a' : ({ f0 with result := some v } : Fut V).settle.view = expectPre o' pre := by
      rw [a]
      show expectPre ({ f0 with result := some v, state := .preFinished } : Fut V).view f0.pre = _
      rw [hv, hpre]
    rw [hf]
    refine ⟨rfl, a', ?_⟩
    rw [a'] at c
    show ({ f0 with result := some v } : Fut V).settle.calls = _
    rw [c]
    simp [hcb, hca]
  | error e =>
    intro o' f0 f hc
    have hf : f = (({ f0 with exception := some e } : Fut V).settle, .ok ()) := by
      cases started <;> rfl
    have hpre : f0.pre = pre := by cases started <;> rfl
    have hcb : f0.cbs = cbs := by cases started <;> rfl
    have hca : f0.calls = [] := by cases started <;> rfl
    have hv : ({ f0 with exception := some e, state := .preFinished } : Fut V).view = o' := by simp [Fut.view, o']
    obtain ⟨a, b, c⟩ := settle_clean { f0 with exception := some e } (by
      show CleanPre ({ f0 with exception := some e, state := .preFinished } : Fut V).view f0.pre
      rw [hv, hpre]; exact hc)
    have a' : ({ f0 with exception := some e } : Fut V).settle.view = expectPre o' pre := by
      rw [a]
      show expectPre ({ f0 with exception := some e, state := .preFinished } : Fut V).view f0.pre = _
      rw [hv, hpre]
    rw [hf]
    refine ⟨rfl, a', ?_⟩
    rw [a'] at c
    show ({ f0 with exception := some e } : Fut V).settle.calls = _
    rw [c]
    simp [hcb, hca]

/-- add 2; then fail if the result exceeds 3 -/
def exPre : List (View Nat → List (Act Nat)) :=
  [fun v => match v with | .value (some n) => [.setResult (n + 2)] | _ => [],
   fun v => match v with | .value (some n) => if n > 3 then [.setException (.user 1)] else [] | _ => []]

example : CleanPre (.value (some 2)) exPre := by
  simp [CleanPre, exPre, CleanActs, expectAct]
example : ((Fut.new exPre [7, 8]).setResult 2).1.view = .error (.user 1) ∧ ((Fut.new exPre [7, 8]).setResult 1).1.view = .value (some 3) := by
  decide

/-- **C51 violated.** A pre-done callback that replaces an exception by a result has no effect: `result()` still raises the exception. -/
theorem C51_recover_violates :
    ∃ (pre : List (View Nat → List (Act Nat))),
      expectPre (.error (.user 1)) pre = .value (some 5) ∧ ((Fut.new pre []).setException (.user 1)).1.view = .error (.user 1) :=
  ⟨[fun _ => [.setResult 5]], rfl, rfl⟩

/-- **C51 violated.** A pre-done callback that cancels the future makes every done callback be called twice, the first time on a cancelled
future that later has a result. -/
theorem C51_cancel_violates :
    ∃ (pre : List (View Nat → List (Act Nat))),
      ((Fut.new pre [7]).setResult 5).1.calls = [(7, .cancelled), (7, .value (some 5))] :=
  ⟨[fun _ => [.cancel]], rfl⟩

/-- **C51.** A completed or cancelled future never changes again: setting raises InvalidStateError, cancelling does nothing. -/
theorem C51_final (f : Fut V) (h : f.state = .finished ∨ f.state = .cancelled) (v : V) (e : FErr) :
    f.setResult v = (f, .error .invalidState) ∧ f.setException e = (f, .error .invalidState) ∧ f.cancel.1 = f ∧ f.start = f := by
  rcases h with h | h <;> simp [Fut.setResult, Fut.setException, Fut.cancel, Fut.start, h]

example : ((Fut.new exPre [7, 8]).setResult 2).1.state = .finished := rfl

/-- **C51.** A new future can be cancelled, and its done callbacks then see that it is; once it was started it cannot, and nothing changes. -/
theorem C51_cancel (pre : List (View V → List (Act V))) (cbs : List Nat) :
    (Fut.new pre cbs : Fut V).cancel.2 = true ∧ (Fut.new pre cbs : Fut V).cancel.1.view = .cancelled ∧
    (Fut.new pre cbs : Fut V).cancel.1.calls = cbs.map (fun c => (c, .cancelled)) ∧
    (Fut.new pre cbs : Fut V).start.cancel = ((Fut.new pre cbs).start, false) ∧ (Fut.new pre cbs : Fut V).start.calls = [] :=
  ⟨rfl, rfl, rfl, rfl, rfl⟩

/-- **C51 violated.** `exception()` of a finished Satella future raises TypeError: the timeout has no default. -/
theorem C51_exception_violates :
    ∃ f : Fut Nat, f.view = .value (some 5) ∧ f.exceptionCall false = .error .typeError ∧ f.exceptionCall true = .ok none :=
  ⟨((Fut.new [] []).setResult 5).1, rfl, rfl, rfl⟩

/-- **C51 (exception, with a timeout given).** Of a future that ended, it tells what the future presents: CancelledError is raised if it was cancelled, the exception is returned if it has one, and None
if it has a result. -/
theorem C51_exception_partial (f : Fut V) (h : f.state = .finished ∨ f.state = .cancelled) :
    (f.view = .cancelled → f.exceptionCall true = .error .cancelledError) ∧ (∀ e, f.view = .error e → f.exceptionCall true = .ok (some e)) ∧
    (∀ v, f.view = .value v → f.exceptionCall true = .ok none) := by
  unfold Fut.view Fut.exceptionCall
  rcases h with h | h <;> simp only [h] <;> cases he : f.exception <;> simp_all

example : ((Fut.new exPre [7, 8]).setResult 2).1.exceptionCall true = .ok (some (.user 1)) := rfl

/-! ## C52: on_success, on_failure, chain -/

/-- **C52 (partial).** On a future that completed (any pre-done callbacks that behave): `on_success` functions are called exactly if it presents a
result, with that result; `on_failure` functions exactly if it presents an exception, with that; `chain` functions always, with whichever there is.
Missing: cancelled futures (see `C52_cancelled_violates`). -/
theorem C52_hooks_partial (f : Fut V) (h : f.state ≠ .cancelled) :
    (∀ v, f.onSuccess = some v ↔ f.view = .value v) ∧ (∀ e, f.onFailure = some e ↔ f.view = .error e) ∧
    (f.onSuccess = none ↔ ∃ e, f.view = .error e) ∧
    (match f.view with
      | .value v => f.chain = .inr v
      | .error e => f.chain = .inl e
      | .cancelled => False) := by
  unfold Fut.onSuccess Fut.onFailure Fut.view Fut.chain
  cases hs : f.state <;> simp_all <;> cases he : f.exception <;> simp

example : ((Fut.new exPre []).setResult 2).1.onFailure = some (.user 1) ∧ ((Fut.new exPre []).setResult 2).1.state ≠ .cancelled := by decide

/-- **C52 violated.** A function given to `on_success` is called, with None, when the future is cancelled. -/
theorem C52_cancelled_violates :
    ∃ f : Fut Nat, f.view = .cancelled ∧ f.onSuccess = some none :=
  ⟨(Fut.new [] []).cancel.1, rfl, rfl⟩

end
end Verif.Futures
