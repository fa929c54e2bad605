import Verif.Py.Basic
/-!
# Model of TerminableThread and IntervalTerminableThread (satella/coding/concurrent/thread.py), C67

The user's `prepare`, `loop`, `on_overrun` and `cleanup` are the environment's: each ends normally or raises, and takes its time.  Other threads, and the user's methods, may call `terminate()` at any
time: `req i` says that they did so between one look at the flag and the next.  A run may go on for ever: `none` means that it has not ended after that many rounds.
-/
namespace Verif.Terminable
open Verif

/-- how a method ends: normally, with an Exception, with SystemExit, with another BaseException.  (Part of the model of `TerminableThread`, /repo/satella/coding/concurrent/thread.py:229-451.) -/
inductive Out where
  | normal
  | exc (n : Nat)
  | sysExit
  | base (n : Nat)
  deriving DecidableEq, Repr

/-- what is called in the thread.  (Part of the model of `TerminableThread`, /repo/satella/coding/concurrent/thread.py:229-451.) -/
inductive Ev where
  | prepare
  | loop
  | overrun
  | sleep (t : Int)
  | cleanup
  deriving DecidableEq, Repr

/-- the surroundings: `terminate_on` as a test of the exception (none given: never), the user's methods, the requests to terminate, the time each `loop` takes.  (Part of the model of `TerminableThread`, /repo/satella/coding/concurrent/thread.py:229-451.) -/
structure Env where
  on : Out → Bool
  prepare : Out
  loop : Nat → Out
  overrun : Nat → Out
  cleanup : Out
  req : Nat → Bool
  time : Nat → Int

/-- how the thread ends: without a traceback, or with this exception; whether `terminating` is set then; what was called.  (Part of the model of `TerminableThread`, /repo/satella/coding/concurrent/thread.py:229-451.) -/
structure End where
  died : Option Out
  flag : Bool
  trace : List Ev
  deriving DecidableEq, Repr

/-- the `finally` clause, /repo/satella/coding/concurrent/thread.py:339-340 and :523-524: an exception of `cleanup` takes the place of any other -/
def finish (E : Env) (died : Option Out) (flag : Bool) (trace : List Ev) : End :=
  ⟨if E.cleanup = .normal then died else some E.cleanup, flag, trace ++ [.cleanup]⟩

/-- the two `except` clauses around `prepare` and `loop`, /repo/satella/coding/concurrent/thread.py:319-325,330-338: what becomes of the thread -/
def raised (E : Env) (o : Out) (flag : Bool) (trace : List Ev) : End :=
  match o with
  | .exc n => if E.on (.exc n) then finish E none true trace else finish E (some (.exc n)) flag trace
  | .sysExit => finish E none flag trace
  | o => finish E (some o) flag trace

/-- the `while` loop, /repo/satella/coding/concurrent/thread.py:327-335, from round `i` on -/
def loops (E : Env) : Nat → Nat → Bool → List Ev → Option End
  | 0, _, _, _ => none
  | fuel + 1, i, flag, trace =>
    if flag || E.req i then some (finish E none true trace)
    else
      match E.loop i with
      | .normal => loops E fuel (i + 1) false (trace ++ [.loop])
      | o => some (raised E o (E.req (i + 1)) (trace ++ [.loop]))

/-- `TerminableThread.run`, /repo/satella/coding/concurrent/thread.py:314-340 -/
def run (E : Env) (fuel : Nat) : Option End :=
  match E.prepare with
  | .normal => loops E fuel 0 false [.prepare]
  | o => some (raised E o (E.req 0) [.prepare])

/-! ## Specification -/

/-- the exception ends the thread quietly: SystemExit, or one of `terminate_on` -/
def Quiet (E : Env) (o : Out) : Prop := o = .sysExit ∨ E.on o = true

/-- what a thread that has called `loop` `k` times and ended was like: `prepare` first, then the loops, `cleanup` once and last; no `loop` was begun once termination was requested; all loops but the last ended normally -/
structure Life (E : Env) (k : Nat) (e : End) : Prop where
  trace : e.trace = .prepare :: (List.replicate k .loop ++ [.cleanup])
  asked : ∀ i, i < k → ∀ j, j ≤ i → E.req j = false
  normal : ∀ i, i + 1 < k → E.loop i = .normal
  prepared : 0 < k → E.prepare = .normal
  /-- why it ended: `prepare` failed, or the last `loop` did, or termination was requested -/
  why : (k = 0 ∧ E.prepare ≠ .normal ∧ (Quiet E E.prepare → e.died = none ∨ E.cleanup ≠ .normal) ∧ (¬ Quiet E E.prepare → E.cleanup = .normal → e.died = some E.prepare)) ∨
    (∃ j, k = j + 1 ∧ E.loop j ≠ .normal ∧ (Quiet E (E.loop j) → e.died = none ∨ E.cleanup ≠ .normal) ∧ (¬ Quiet E (E.loop j) → E.cleanup = .normal → e.died = some (E.loop j))) ∨
    (E.prepare = .normal ∧ (∀ i, i < k → E.loop i = .normal) ∧ E.req k = true ∧ e.flag = true ∧ (E.cleanup = .normal → e.died = none))

/-! ## Proofs -/

/-- no exception of `terminate_on` lies outside of Exception -/
def Catchable (E : Env) : Prop := ∀ n, E.on (.base n) = false

theorem raised_trace (E : Env) (o : Out) (f : Bool) (t : List Ev) : (raised E o f t).trace = t ++ [.cleanup] := by
  unfold raised
  split
  · split <;> rfl
  · rfl
  · rfl

theorem raised_died (E : Env) (o : Out) (f : Bool) (t : List Ev) (hc : Catchable E) (ho : o ≠ .normal) :
    (Quiet E o → (raised E o f t).died = none ∨ E.cleanup ≠ .normal) ∧ (¬ Quiet E o → E.cleanup = .normal → (raised E o f t).died = some o) := by
  by_cases hn : E.cleanup = .normal
  · constructor
    · intro hq
      left
      rcases hq with rfl | hq
      · simp [raised, finish, hn]
      · cases o with
        | normal => exact absurd rfl ho
        | exc n => simp [raised, finish, hn, hq]
        | sysExit => simp [raised, finish, hn]
        | base n => rw [hc n] at hq; cases hq
    · intro hq _
      cases o with
      | normal => exact absurd rfl ho
      | exc n =>
        have : ¬ E.on (.exc n) = true := fun h => hq (Or.inr h)
        simp [raised, finish, hn, this]
      | sysExit => exact absurd (Or.inl rfl) hq
      | base n => simp [raised, finish, hn]
  · exact ⟨fun _ => Or.inr hn, fun _ h => absurd h hn⟩

theorem replicate_snoc (k : Nat) (x : Ev) (l : List Ev) : List.replicate k x ++ (x :: l) = List.replicate (k + 1) x ++ l := by
  rw [List.replicate_succ']
  simp

theorem loops_life (E : Env) (hc : Catchable E) (hp : E.prepare = .normal) (fuel i : Nat) (e : End)
    (hi : ∀ j, j < i → E.loop j = .normal) (hr : ∀ j, j < i → E.req j = false)
    (h : loops E fuel i false (.prepare :: List.replicate i .loop) = some e) : ∃ k, Life E k e := by
  induction fuel generalizing i with
  | zero => cases h
  | succ fuel ih =>
    unfold loops at h
    by_cases hq : (false || E.req i) = true
    · rw [if_pos hq] at h
      injection h with h
      subst h
      refine ⟨i, ?_, ?_, ?_, fun _ => hp, ?_⟩
      · simp [finish]
      · intro x hx j hj
        exact hr j (by omega)
      · intro x hx
        exact hi x (by omega)
      · right; right
        refine ⟨hp, hi, by simpa using hq, rfl, ?_⟩
        intro hn
        simp [finish, hn]
    · rw [if_neg hq] at h
      have hq' : E.req i = false := by simpa using hq
      have hr' : ∀ j, j < i + 1 → E.req j = false := by
        intro j hj
        by_cases e : j = i
        · rw [e]; exact hq'
        · exact hr j (by omega)
      have ht : Ev.prepare :: List.replicate i .loop ++ [.loop] = .prepare :: List.replicate (i + 1) .loop := by
        rw [List.replicate_succ']; rfl
      have hrest : ∀ o, E.loop i = o → o ≠ .normal → some (raised E o (E.req (i + 1)) (Ev.prepare :: List.replicate i .loop ++ [.loop])) = some e → ∃ k, Life E k e := by
        intro o ho hon he
        injection he with he
        subst he
        refine ⟨i + 1, ?_, ?_, ?_, fun _ => hp, ?_⟩
        · rw [raised_trace, ht]; rfl
        · intro x hx j hj
          exact hr' j (by omega)
        · intro x hx
          exact hi x (by omega)
        · right; left
          refine ⟨i, rfl, by rw [ho]; exact hon, ?_⟩
          rw [ho]
          exact raised_died E o _ _ hc hon
      split at h
      · rename_i hl
        rw [ht] at h
        refine ih (i + 1) ?_ hr' h
        intro j hj
        by_cases e : j = i
        · rw [e]; exact hl
        · exact hi j (by omega)
      · rename_i hl
        exact hrest _ rfl hl h

/-- **C67** (partial: `terminate_on` names Exceptions only). A thread that ends has called `prepare` first, then `loop` some number of times, and `cleanup` once, last; it began no `loop` once termination was requested; it ended since
  `prepare` or the last `loop` raised or since termination was requested, without a traceback unless the exception is neither SystemExit nor one of `terminate_on`. -/
theorem C67_lifecycle_partial (E : Env) (hc : Catchable E) (fuel : Nat) (e : End) (h : run E fuel = some e) : ∃ k, Life E k e := by
  unfold run at h
  have hrest : ∀ o, E.prepare = o → o ≠ .normal → some (raised E o (E.req 0) [.prepare]) = some e → ∃ k, Life E k e := by
    intro o ho hon he
    injection he with he
    subst he
    refine ⟨0, by rw [raised_trace]; rfl, by omega, by omega, by omega, ?_⟩
    left
    refine ⟨rfl, by rw [ho]; exact hon, ?_⟩
    rw [ho]
    exact raised_died E o _ _ hc hon
  split at h
  · rename_i hp
    exact loops_life E hc hp fuel 0 e (by omega) (by omega) h
  · rename_i hp
    exact hrest _ rfl hp h

/-- **C67, termination.** If termination is requested before the look at the flag that precedes the `k`-th call of `loop`, and `prepare` and the calls before end normally, the thread ends after at most `k` calls of `loop`. -/
theorem C67_terminates (E : Env) (k : Nat) (hp : E.prepare = .normal) (hl : ∀ i, i < k → E.loop i = .normal) (hr : E.req k = true) :
    ∃ e n, run E (k + 1) = some e ∧ n ≤ k ∧ e.trace = .prepare :: (List.replicate n .loop ++ [.cleanup]) := by
  have key : ∀ d i, i + d = k → ∃ e n, loops E (d + 1) i false (.prepare :: List.replicate i .loop) = some e ∧ n ≤ k ∧
      e.trace = .prepare :: (List.replicate n .loop ++ [.cleanup]) := by
    intro d
    induction d with
    | zero =>
      intro i hi
      have : i = k := by omega
      subst this
      unfold loops
      rw [if_pos (by simp [hr])]
      exact ⟨_, i, rfl, Nat.le_refl _, by simp [finish]⟩
    | succ d ih =>
      intro i hi
      unfold loops
      split
      · exact ⟨_, i, rfl, by omega, by simp [finish]⟩
      · rw [hl i (by omega)]
        have ht : Ev.prepare :: List.replicate i .loop ++ [.loop] = .prepare :: List.replicate (i + 1) .loop := by
          rw [List.replicate_succ']; rfl
        dsimp only
        rw [ht]
        exact ih (i + 1) (by omega)
  obtain ⟨e, n, h1, h2, h3⟩ := key k 0 (by omega)
  refine ⟨e, n, ?_, h2, h3⟩
  unfold run
  rw [hp]
  exact h1

/-- **C67, an exception of `terminate_on`** out of `prepare` or out of a `loop` requests the termination of the thread; any other leaves the request as it was. -/
theorem C67_flagged (E : Env) (fuel n : Nat) (e : End) (h : run E fuel = some e) :
    (E.prepare = .exc n → e.flag = (E.on (.exc n) || E.req 0)) ∧
    (∀ j, E.prepare = .normal → (∀ i, i < j → E.loop i = .normal) → (∀ i, i ≤ j → E.req i = false) → E.loop j = .exc n → e.flag = (E.on (.exc n) || E.req (j + 1))) := by
  have rf : ∀ (n : Nat) (f : Bool) (t : List Ev), (raised E (.exc n) f t).flag = (E.on (.exc n) || f) := by
    intro n f t
    unfold raised
    by_cases hon : E.on (.exc n) = true <;> simp [hon, finish]
  constructor
  · intro hp
    simp only [run, hp] at h
    injection h with h
    subst h
    exact rf n _ _
  · intro j hp hl hr hj
    simp only [run, hp] at h
    have key : ∀ fuel i t, i ≤ j → loops E fuel i false t = some e → e.flag = (E.on (.exc n) || E.req (j + 1)) := by
      intro fuel
      induction fuel with
      | zero => intro i t _ h; cases h
      | succ fuel ih =>
        intro i t hij h
        unfold loops at h
        rw [if_neg (by simp [hr i hij])] at h
        by_cases hi : i = j
        · subst hi
          simp only [hj] at h
          injection h with h
          subst h
          exact rf n _ _
        · simp only [hl i (by omega)] at h
          exact ih (i + 1) _ (by omega) h
    exact key _ 0 _ (by omega) h

/-- **C67, violated by `terminate_on` with an exception that is not an Exception**, say KeyboardInterrupt: documented to be swallowed, it ends the thread with a traceback. -/
theorem C67_base_violates (E : Env) (n : Nat) (hp : E.prepare = .normal) (hr : E.req 0 = false) (hl : E.loop 0 = .base n) (hc : E.cleanup = .normal) (_ : E.on (.base n) = true) (fuel : Nat) :
    (run E (fuel + 1)).map End.died = some (some (.base n)) := by
  simp [run, hp, loops, hr, hl, raised, finish, hc]

/-! ## IntervalTerminableThread -/

/-- the `while` loop of `IntervalTerminableThread.run`, /repo/satella/coding/concurrent/thread.py:502-520, from round `i` on, at time `now`; `starts` are the times at which `loop` was called.
  The flag is looked at before the loop, after it, and during the sleep (`safe_sleep`, C68): a request that comes in round `i` is `req (i + 1)`, and if there is one the thread ends right after the `loop` or from
  the sleep, without another event.  The sleep itself lasts as long as it is told (C68), `on_overrun` takes no time. -/
def intervalLoops (E : Env) (seconds : Int) : Nat → Nat → Int → List Int → List Ev → Option (End × List Int)
  | 0, _, _, _, _ => none
  | fuel + 1, i, now, starts, trace =>
    match E.loop i with
    | .normal =>
      if E.req (i + 1) then some (finish E none true (trace ++ [.loop]), starts ++ [now])
      else
        let left := seconds - E.time i
        if left < 0 then
          match E.overrun i with
          | .normal => intervalLoops E seconds fuel (i + 1) (now + E.time i) (starts ++ [now]) (trace ++ [.loop, .overrun])
          | .sysExit => some (finish E none false (trace ++ [.loop, .overrun]), starts ++ [now])
          | o => some (finish E (some o) false (trace ++ [.loop, .overrun]), starts ++ [now])
        else intervalLoops E seconds fuel (i + 1) (now + E.time i + left) (starts ++ [now]) (trace ++ [.loop, .sleep left])
    | o => some (raised E o (E.req (i + 1)) (trace ++ [.loop]), starts ++ [now])

/-- `IntervalTerminableThread.run`, /repo/satella/coding/concurrent/thread.py:488-524 -/
def intervalRun (E : Env) (seconds : Int) (fuel : Nat) : Option (End × List Int) :=
  match E.prepare with
  | .normal => if E.req 0 then some (finish E none true [.prepare], []) else intervalLoops E seconds fuel 0 0 [] [.prepare]
  | o => some (raised E o (E.req 0) [.prepare], [])

/-- the times at which the calls of `loop` have to begin: the first at once, each next one `seconds` after the one before, or when that one ends if it takes longer -/
def due (E : Env) (seconds : Int) : Nat → Int
  | 0 => 0
  | i + 1 => due E seconds i + max seconds (E.time i)

/-- what happens between two calls of `loop`: `on_overrun` if the one before took longer than `seconds`, a sleep for the rest of the time otherwise -/
def between (E : Env) (seconds : Int) (i : Nat) : Ev := if seconds < E.time i then .overrun else .sleep (seconds - E.time i)

/-- the calls of the first `k` rounds -/
def rounds (E : Env) (seconds : Int) (k : Nat) : List Ev := (List.range k).flatMap (fun i => [.loop, between E seconds i])

theorem rounds_succ (E : Env) (seconds : Int) (k : Nat) : rounds E seconds (k + 1) = rounds E seconds k ++ [.loop, between E seconds k] := by
  unfold rounds
  rw [List.range_succ, List.flatMap_append]
  simp

/-- **C67, intervals.** The calls of `loop` begin exactly when they are due; after each, `on_overrun` is called or the rest of the interval is slept; `cleanup` comes once, last; no `loop` begins once termination was requested. -/
theorem C67_interval (E : Env) (seconds : Int) (fuel : Nat) (e : End) (starts : List Int) (h : intervalRun E seconds fuel = some (e, starts)) :
    starts = (List.range starts.length).map (due E seconds) ∧
    (∀ i, i < starts.length → ∀ j, j ≤ i → E.req j = false) ∧
    (e.trace = [.prepare, .cleanup] ∧ starts = [] ∨
      ∃ k, starts.length = k + 1 ∧ (e.trace = .prepare :: (rounds E seconds k ++ [.loop, .cleanup]) ∨ e.trace = .prepare :: (rounds E seconds k ++ [.loop, .overrun, .cleanup]) ∧ seconds < E.time k)) := by
  have key : ∀ (fuel i : Nat) (e : End) (starts : List Int), (∀ j, j ≤ i → E.req j = false) →
      intervalLoops E seconds fuel i (due E seconds i) ((List.range i).map (due E seconds)) (.prepare :: rounds E seconds i) = some (e, starts) →
      starts = (List.range starts.length).map (due E seconds) ∧ (∀ x, x < starts.length → ∀ j, j ≤ x → E.req j = false) ∧
      ∃ k, starts.length = k + 1 ∧ (e.trace = .prepare :: (rounds E seconds k ++ [.loop, .cleanup]) ∨ e.trace = .prepare :: (rounds E seconds k ++ [.loop, .overrun, .cleanup]) ∧ seconds < E.time k) := by
    intro fuel
    induction fuel with
    | zero => intro i e starts _ h; cases h
    | succ fuel ih =>
      intro i e starts hr h
      have hs : (List.range i).map (due E seconds) ++ [due E seconds i] = (List.range (i + 1)).map (due E seconds) := by
        rw [List.range_succ, List.map_append]; rfl
      -- the thread ends in this round
      have last : ∀ (tr : List Ev), e.trace = tr → starts = (List.range i).map (due E seconds) ++ [due E seconds i] →
          (tr = .prepare :: rounds E seconds i ++ [.loop] ++ [.cleanup] ∨ tr = .prepare :: rounds E seconds i ++ [.loop, .overrun] ++ [.cleanup] ∧ seconds < E.time i) →
          starts = (List.range starts.length).map (due E seconds) ∧ (∀ x, x < starts.length → ∀ j, j ≤ x → E.req j = false) ∧
          ∃ k, starts.length = k + 1 ∧ (e.trace = .prepare :: (rounds E seconds k ++ [.loop, .cleanup]) ∨ e.trace = .prepare :: (rounds E seconds k ++ [.loop, .overrun, .cleanup]) ∧ seconds < E.time k) := by
        intro tr h1 h2 h3
        rw [hs] at h2
        subst h2
        refine ⟨by simp, ?_, i, by simp, ?_⟩
        · intro x hx j hj
          simp at hx
          exact hr j (by omega)
        · rcases h3 with h3 | ⟨h3, h4⟩
          · left; rw [h1, h3]; simp
          · right; rw [h1, h3]; exact ⟨by simp, h4⟩
      unfold intervalLoops at h
      split at h
      · rename_i hl
        by_cases hq : E.req (i + 1) = true
        · rw [if_pos hq] at h
          injection h with h
          injection h with h1 h2
          exact last _ (by rw [← h1]; rfl) h2.symm (Or.inl rfl)
        · rw [if_neg hq] at h
          have hr' : ∀ j, j ≤ i + 1 → E.req j = false := by
            intro j hj
            by_cases e : j = i + 1
            · rw [e]; simpa using hq
            · exact hr j (by omega)
          dsimp only at h
          by_cases hlt : seconds - E.time i < 0
          · rw [if_pos hlt] at h
            have hov : seconds < E.time i := by omega
            have fail : ∀ d, some (finish E d false (.prepare :: rounds E seconds i ++ [.loop, .overrun]), (List.range i).map (due E seconds) ++ [due E seconds i]) = some (e, starts) →
                starts = (List.range starts.length).map (due E seconds) ∧ (∀ x, x < starts.length → ∀ j, j ≤ x → E.req j = false) ∧
                ∃ k, starts.length = k + 1 ∧ (e.trace = .prepare :: (rounds E seconds k ++ [.loop, .cleanup]) ∨ e.trace = .prepare :: (rounds E seconds k ++ [.loop, .overrun, .cleanup]) ∧ seconds < E.time k) := by
              intro d h
              injection h with h
              injection h with h1 h2
              exact last _ (by rw [← h1]; rfl) h2.symm (Or.inr ⟨rfl, hov⟩)
            split at h
            · refine ih (i + 1) e starts hr' ?_
              rw [← hs, rounds_succ]
              have hb : between E seconds i = .overrun := if_pos hov
              have hd : due E seconds (i + 1) = due E seconds i + E.time i := by
                show due E seconds i + max seconds (E.time i) = _
                omega
              rw [hb, hd]
              exact h
            · exact fail _ h
            · exact fail _ h
          · rw [if_neg hlt] at h
            refine ih (i + 1) e starts hr' ?_
            rw [← hs, rounds_succ]
            have hb : between E seconds i = .sleep (seconds - E.time i) := if_neg (by omega)
            have hd : due E seconds (i + 1) = due E seconds i + E.time i + (seconds - E.time i) := by
              show due E seconds i + max seconds (E.time i) = _
              omega
            rw [hb, hd]
            exact h
      · injection h with h
        injection h with h1 h2
        exact last _ (by rw [← h1, raised_trace]) h2.symm (Or.inl rfl)
  unfold intervalRun at h
  split at h
  · by_cases hq : E.req 0 = true
    · rw [if_pos hq] at h
      injection h with h
      injection h with h1 h2
      subst h1 h2
      exact ⟨rfl, by simp, Or.inl ⟨rfl, rfl⟩⟩
    · rw [if_neg hq] at h
      obtain ⟨h1, h2, h3⟩ := key fuel 0 e starts (by intro j hj; rw [Nat.le_zero.1 hj]; simpa using hq) h
      exact ⟨h1, h2, Or.inr h3⟩
  · injection h with h
    injection h with h1 h2
    subst h1 h2
    exact ⟨rfl, by simp, Or.inl ⟨by rw [raised_trace]; rfl, rfl⟩⟩

/-- **C67, intervals, the request.** Whether the thread ends as one requested to terminate: requested before the first
`loop`, or by an exception of `terminate_on` out of `prepare`. -/
theorem C67_interval_flagged (E : Env) (seconds : Int) (fuel n : Nat) (e : End) (starts : List Int) (h : intervalRun E seconds fuel = some (e, starts)) :
    (E.prepare = .normal → E.req 0 = true → e.flag = true ∧ starts = []) ∧
    (E.prepare = .exc n → e.flag = (E.on (.exc n) || E.req 0) ∧ starts = []) := by
  constructor
  · intro hp hr
    simp only [intervalRun, hp, hr, if_true] at h
    injection h with h
    injection h with h1 h2
    subst h1 h2
    exact ⟨rfl, rfl⟩
  · intro hp
    simp only [intervalRun, hp] at h
    injection h with h
    injection h with h1 h2
    subst h1 h2
    unfold raised
    by_cases hon : E.on (.exc n) = true <;> simp [hon, finish]

/-! Cases that meet the hypotheses -/

/-- the second `loop` raises exception 4, which is one of `terminate_on` -/
def exampleEnv : Env := ⟨fun o => o = .exc 4, .normal, fun i => if i = 1 then .exc 4 else .normal, fun _ => .normal, .normal, fun _ => false, fun i => if i = 0 then 5 else 1⟩

example : Catchable exampleEnv := by intro n; simp [exampleEnv]
example : run exampleEnv 5 = some ⟨none, true, [.prepare, .loop, .loop, .cleanup]⟩ := by decide
example : intervalRun exampleEnv 3 5 = some (⟨none, true, [.prepare, .loop, .overrun, .loop, .cleanup]⟩, [0, 5]) := by decide
example : let E : Env := { exampleEnv with loop := fun _ => .normal, req := fun i => i = 2 }
    E.prepare = .normal ∧ E.req 2 = true ∧ run E 3 = some ⟨none, true, [.prepare, .loop, .loop, .cleanup]⟩ := by decide
example : let E : Env := { exampleEnv with on := fun o => o = .base 1, loop := fun _ => .base 1 }
    E.prepare = .normal ∧ E.req 0 = false ∧ E.loop 0 = .base 1 ∧ E.cleanup = .normal ∧ E.on (.base 1) = true := by decide

end Verif.Terminable
