import Verif.Py.Basic
import Verif.Py.Run
/-!
# Model of satella/time/backoff.py (ExponentialBackoff)

Times and durations are integers (in any unit; the code takes floats).  Calls that look at the clock carry what it shows.
-/
namespace Verif.Time
open Verif

/-- constructor arguments, /repo/satella/time/backoff.py:42-46 -/
structure EBConf where
  start : Int
  limit : Int
  grace : Nat

/-- the attributes that change, /repo/satella/time/backoff.py:47-53 -/
structure EB where
  counter : Int
  graceCounter : Nat
  until_ : Option Int
  deriving DecidableEq, Repr

/-- `__init__`, /repo/satella/time/backoff.py:47-53 -/
def EB.init : EB := { counter := 0, graceCounter := 0, until_ := none }

/-- `failed()`, /repo/satella/time/backoff.py:61-72 -/
def EB.failed (c : EBConf) (s : EB) (t : Int) : EB :=
  if c.grace = s.graceCounter then
    let counter := if s.counter = 0 then c.start else min c.limit (s.counter * 2)
    { s with counter := counter, until_ := some (t + counter) }
  else { s with graceCounter := s.graceCounter + 1 }

/-- `success()`, /repo/satella/time/backoff.py:121-128 (that it notifies waiting threads: see below) -/
def EB.success (_ : EB) : EB := { counter := 0, graceCounter := 0, until_ := none }

/-- `time_until_next_check()`, /repo/satella/time/backoff.py:90-100 -/
def EB.timeUntil (s : EB) (t : Int) : EB × Option Int :=
  match s.until_ with
  | none => (s, none)
  | some u => if t > u then ({ s with until_ := none }, none) else (s, some (u - t))

/-- `ready_for_next_check`, /repo/satella/time/backoff.py:102-114 -/
def EB.ready (s : EB) (t : Int) : EB × Bool :=
  match s.until_ with
  | none => (s, true)
  | some u => if t > u then ({ s with until_ := none }, true) else (s, false)

/-- calls.  (Part of the model of `ExponentialBackoff`, /repo/satella/time/backoff.py:10-178.) -/
inductive EBOp where
  | failed (t : Int)
  | success
  | sleep
  | timeUntil (t : Int)
  | ready (t : Int)
  | available
  deriving DecidableEq, Repr

/-- what they return; `slept d`: the sleep function was called with `d`.  (Part of the model of `ExponentialBackoff`, /repo/satella/time/backoff.py:10-178.) -/
inductive EBRes where
  | unit
  | slept (d : Int)
  | time (d : Option Int)
  | bool (b : Bool)
  deriving DecidableEq, Repr

/-- One call, /repo/satella/time/backoff.py: `sleep` :55-59, `available` :116-119, others above. -/
def EB.step (c : EBConf) (s : EB) : EBOp → EB × EBRes
  | .failed t => (s.failed c t, .unit)
  | .success => (s.success, .unit)
  | .sleep => (s, .slept s.counter)
  | .timeUntil t => ((s.timeUntil t).1, .time (s.timeUntil t).2)
  | .ready t => ((s.ready t).1, .bool (s.ready t).2)
  | .available => (s, .bool (decide (s.counter = 0)))

/-- what one call of a decorated function does: returns, raises an exception that means failure (at a time), or raises another one.  (Part of the model of `ExponentialBackoff`, /repo/satella/time/backoff.py:10-178.) -/
inductive Attempt (ρ : Type) where
  | returns (r : ρ)
  | fails (t : Int)
  | raises (e : Exc)

/-- The loop of `launch`, /repo/satella/time/backoff.py:161-172: attempts, in order; collects the arguments of sleep.  `none`: it is still going on when the attempts listed are over. -/
def EB.launch {ρ : Type} (c : EBConf) (s : EB) : List (Attempt ρ) → EB × List Int × Option (Except Exc ρ)
  | [] => (s, [], none)
  | .returns r :: _ => (s.success, [], some (.ok r))
  | .raises e :: _ => (s, [], some (.error e))
  | .fails t :: as =>
    let r := EB.launch c (s.failed c t) as
    (r.1, (s.failed c t).counter :: r.2.1, r.2.2)

/-! ## Specification -/

/-- how long to wait after `n` failures in a row -/
def waitTime (c : EBConf) (n : Nat) : Int := if n ≤ c.grace then 0 else min c.limit (c.start * 2 ^ (n - c.grace - 1))

/-- abstract state: failures since the last success, when the last one was, and the time of the last call -/
structure EBAbs where
  fails : Nat
  last : Int
  now : Int

/-- it is time for the next check: the wait after the last failure is over -/
def EBAbs.Over (c : EBConf) (b : EBAbs) (t : Int) : Prop := b.fails ≤ c.grace ∨ b.last + waitTime c b.fails < t

def EBSpec (c : EBConf) (b : EBAbs) : EBOp → EBRes → EBAbs → Prop
  | .failed t, r, b' => r = .unit ∧ b' = { fails := b.fails + 1, last := t, now := t }
  | .success, r, b' => r = .unit ∧ b' = { b with fails := 0 }
  | .sleep, r, b' => b' = b ∧ r = .slept (waitTime c b.fails)
  | .timeUntil t, r, b' => b' = { b with now := t } ∧
      ((b.Over c t ∧ r = .time none) ∨ (¬ b.Over c t ∧ r = .time (some (b.last + waitTime c b.fails - t))))
  | .ready t, r, b' => b' = { b with now := t } ∧ ∃ a, r = .bool a ∧ (a = true ↔ b.Over c t)
  | .available, r, b' => b' = b ∧ ∃ a, r = .bool a ∧ (a = true ↔ waitTime c b.fails = 0)

/-- the clock does not go back -/
def EBOp.After (now : Int) : EBOp → Prop
  | .failed t => now ≤ t
  | .timeUntil t => now ≤ t
  | .ready t => now ≤ t
  | _ => True

/-- the time the clock shows in the call -/
def EBOp.time (now : Int) : EBOp → Int
  | .failed t => t
  | .timeUntil t => t
  | .ready t => t
  | _ => now

/-- the clock does not go back during the calls -/
def Forward : Int → List EBOp → Prop
  | _, [] => True
  | now, o :: os => o.After now ∧ Forward (o.time now) os

/-! ## C31 -/

/-- the state after so many failures -/
def EBRep (c : EBConf) (s : EB) (b : EBAbs) : Prop :=
  s.counter = waitTime c b.fails ∧ s.graceCounter = min b.fails c.grace ∧
  ((b.fails ≤ c.grace ∧ s.until_ = none) ∨
   (c.grace < b.fails ∧ (s.until_ = some (b.last + waitTime c b.fails) ∨ (s.until_ = none ∧ b.last + waitTime c b.fails < b.now))))

theorem two_pow_pos (k : Nat) : (0 : Int) < 2 ^ k := by
  induction k with
  | zero => decide
  | succ k ih => rw [Int.pow_succ]; omega

theorem wait_next (c : EBConf) (h0 : 0 ≤ c.start) (hl : c.start ≤ c.limit) {n : Nat} (hn : c.grace ≤ n) :
    (if waitTime c n = 0 then c.start else min c.limit (waitTime c n * 2)) = waitTime c (n + 1) := by
  have e1 : waitTime c (n + 1) = min c.limit (c.start * 2 ^ (n - c.grace)) := by
    unfold waitTime; rw [if_neg (by omega)]; congr 3; omega
  by_cases hg : n = c.grace
  · subst hg
    have : waitTime c c.grace = 0 := by simp [waitTime]
    rw [if_pos this, e1]
    simp; omega
  · have e2 : waitTime c n = min c.limit (c.start * 2 ^ (n - c.grace - 1)) := by
      unfold waitTime; rw [if_neg (by omega)]
    have e3 : c.start * 2 ^ (n - c.grace) = c.start * 2 ^ (n - c.grace - 1) * 2 := by
      have : n - c.grace = (n - c.grace - 1) + 1 := by omega
      rw [this, Int.pow_succ]; simp [Int.mul_assoc]
    rw [e1, e2, e3]
    have hp := two_pow_pos (n - c.grace - 1)
    by_cases hs : c.start = 0
    · rw [hs]; simp; omega
    · have h1 : 0 < c.start * 2 ^ (n - c.grace - 1) := Int.mul_pos (by omega) hp
      rw [if_neg (by omega)]
      omega

theorem eb_step_sim (c : EBConf) (h0 : 0 ≤ c.start) (hl : c.start ≤ c.limit) (s : EB) (b : EBAbs) (o : EBOp) (ho : o.After b.now) (h : EBRep c s b) :
    ∃ b', EBSpec c b o (s.step c o).2 b' ∧ EBRep c (s.step c o).1 b' ∧ b'.now = o.time b.now := by
  obtain ⟨counter, gc, un⟩ := s
  obtain ⟨n, last, now⟩ := b
  obtain ⟨h1, h2, h3⟩ := h
  dsimp only at h1 h2 h3
  subst h1 h2
  cases o with
  | failed t =>
    refine ⟨_, ⟨rfl, rfl⟩, ?_, rfl⟩
    simp only [EB.step, EB.failed]
    by_cases hg : c.grace ≤ n
    · rw [if_pos (by omega)]
      refine ⟨?_, by simp only; omega, Or.inr ⟨by simp only; omega, Or.inl ?_⟩⟩
      · exact wait_next c h0 hl hg
      · simp only; rw [wait_next c h0 hl hg]
    · rw [if_neg (by omega)]
      refine ⟨?_, by simp only; omega, Or.inl ⟨by simp only; omega, ?_⟩⟩
      · simp only [waitTime]; rw [if_pos (by omega), if_pos (by omega)]
      · rcases h3 with h3 | h3
        · exact h3.2
        · omega
  | success =>
    refine ⟨_, ⟨rfl, rfl⟩, ⟨?_, ?_, Or.inl ⟨by simp, rfl⟩⟩, rfl⟩
    · simp [EB.step, EB.success, waitTime]
    · simp [EB.step, EB.success]
  | sleep => exact ⟨_, ⟨rfl, rfl⟩, ⟨rfl, rfl, h3⟩, rfl⟩
  | available => exact ⟨_, ⟨rfl, _, rfl, by simp⟩, ⟨rfl, rfl, h3⟩, rfl⟩
  | timeUntil t =>
    refine ⟨_, ⟨rfl, ?_⟩, ?_, rfl⟩
    · simp only [EB.step, EB.timeUntil, EBAbs.Over]
      rcases h3 with ⟨hn, rfl⟩ | ⟨hn, rfl | ⟨rfl, hlt⟩⟩
      · exact Or.inl ⟨Or.inl hn, rfl⟩
      · simp only
        by_cases ht : t > last + waitTime c n
        · rw [if_pos ht]; exact Or.inl ⟨Or.inr ht, rfl⟩
        · rw [if_neg ht]; exact Or.inr ⟨by omega, rfl⟩
      · simp only [EBOp.After] at ho
        exact Or.inl ⟨Or.inr (by omega), rfl⟩
    · simp only [EB.step, EB.timeUntil]
      simp only [EBOp.After] at ho
      rcases h3 with ⟨hn, rfl⟩ | ⟨hn, rfl | ⟨rfl, hlt⟩⟩
      · exact ⟨rfl, rfl, Or.inl ⟨hn, rfl⟩⟩
      · simp only
        by_cases ht : t > last + waitTime c n
        · rw [if_pos ht]; exact ⟨rfl, rfl, Or.inr ⟨hn, Or.inr ⟨rfl, ht⟩⟩⟩
        · rw [if_neg ht]; exact ⟨rfl, rfl, Or.inr ⟨hn, Or.inl rfl⟩⟩
      · exact ⟨rfl, rfl, Or.inr ⟨hn, Or.inr ⟨rfl, by simp only; omega⟩⟩⟩
  | ready t =>
    simp only [EBOp.After] at ho
    refine ⟨_, ⟨rfl, ?_⟩, ?_, rfl⟩
    · simp only [EB.step, EB.ready, EBAbs.Over]
      rcases h3 with ⟨hn, rfl⟩ | ⟨hn, rfl | ⟨rfl, hlt⟩⟩
      · exact ⟨_, rfl, by simp [hn]⟩
      · simp only
        by_cases ht : t > last + waitTime c n
        · rw [if_pos ht]; exact ⟨_, rfl, by simp; exact Or.inr ht⟩
        · rw [if_neg ht]; exact ⟨_, rfl, by simp; omega⟩
      · exact ⟨_, rfl, by simp; omega⟩
    · simp only [EB.step, EB.ready]
      rcases h3 with ⟨hn, rfl⟩ | ⟨hn, rfl | ⟨rfl, hlt⟩⟩
      · exact ⟨rfl, rfl, Or.inl ⟨hn, rfl⟩⟩
      · simp only
        by_cases ht : t > last + waitTime c n
        · rw [if_pos ht]; exact ⟨rfl, rfl, Or.inr ⟨hn, Or.inr ⟨rfl, ht⟩⟩⟩
        · rw [if_neg ht]; exact ⟨rfl, rfl, Or.inr ⟨hn, Or.inl rfl⟩⟩
      · exact ⟨rfl, rfl, Or.inr ⟨hn, Or.inr ⟨rfl, by simp only; omega⟩⟩⟩

/-- **C31 (partial).** For every history of calls by a clock that does not go back, with start not above limit: sleep waits 0 while failures are within the grace amount, then `start`, doubled with every further failure, never above
`limit`, and 0 again after a success; ready_for_next_check and time_until_next_check agree on when that wait after the last failure is over; available tells whether the time to wait is 0.
Missing: start above limit (see `C31_limit_violates`). -/
theorem C31_history_partial (c : EBConf) (h0 : 0 ≤ c.start) (hl : c.start ≤ c.limit) (ops : List EBOp) (t0 : Int) (hops : Forward t0 ops) :
    ∃ b', History (EBSpec c) ⟨0, t0, t0⟩ ops (runOps (EB.step c) EB.init ops).2 b' := by
  have key : ∀ (s : EB) (b : EBAbs) (ops : List EBOp), EBRep c s b → Forward b.now ops → ∃ b', History (EBSpec c) b ops (runOps (EB.step c) s ops).2 b' := by
    intro s b ops
    induction ops generalizing s b with
    | nil => intro _ _; exact ⟨b, rfl⟩
    | cons o os ih =>
      intro hR hF
      obtain ⟨m, h1, h2, h3⟩ := eb_step_sim c h0 hl s b o hF.1 hR
      obtain ⟨b', h4⟩ := ih _ m h2 (by rw [h3]; exact hF.2)
      exact ⟨b', m, h1, h4⟩
  exact key EB.init ⟨0, t0, t0⟩ ops ⟨by simp [EB.init, waitTime], by simp [EB.init], Or.inl ⟨by simp, rfl⟩⟩ hops

example : (0 : Int) ≤ 2 ∧ (2 : Int) ≤ 30 ∧ Forward 5 [.failed 5, .ready 6, .sleep, .failed 9, .timeUntil 9, .success, .available] := by
  simp [Forward, EBOp.After, EBOp.time]

/-- **C31, bounds.** The waiting time is never negative and never above the limit, and never less after one more failure. -/
theorem C31_bounds (c : EBConf) (h0 : 0 ≤ c.start) (hl : c.start ≤ c.limit) (n : Nat) : 0 ≤ waitTime c n ∧ waitTime c n ≤ c.limit ∧ waitTime c n ≤ waitTime c (n + 1) := by
  have h1 : 0 ≤ waitTime c n ∧ waitTime c n ≤ c.limit := by
    unfold waitTime
    split
    · omega
    · have := Int.mul_nonneg h0 (Int.le_of_lt (two_pow_pos (n - c.grace - 1)))
      omega
  refine ⟨h1.1, h1.2, ?_⟩
  by_cases hn : c.grace ≤ n
  · rw [← wait_next c h0 hl hn]
    split <;> omega
  · have e : waitTime c n = 0 := by unfold waitTime; rw [if_pos (by omega)]
    have e2 : waitTime c (n + 1) = 0 := by unfold waitTime; rw [if_pos (by omega)]
    omega

/-- the times at which attempts fail -/
def failures {ρ : Type} (ts : List Int) : List (Attempt ρ) := ts.map .fails

/-- **C31, launch.** A function decorated with launch which fails as often as `ts` says and then returns `r` makes launch sleep for the waiting times after 1, 2, ... failures, and returns `r`, after which everything is as after
a success.  An exception not listed comes out at once. -/
theorem C31_launch {ρ : Type} (c : EBConf) (h0 : 0 ≤ c.start) (hl : c.start ≤ c.limit) (ts : List Int) (r : ρ) (e : Exc) (rest : List (Attempt ρ)) :
    EB.launch c EB.init (failures ts ++ .returns r :: rest) = (EB.init, (List.range ts.length).map (fun i => waitTime c (i + 1)), some (.ok r)) ∧
    (EB.launch c EB.init (failures ts ++ .raises e :: rest)).2 = ((List.range ts.length).map (fun i => waitTime c (i + 1)), some (.error e)) := by
  have key : ∀ (ts : List Int) (s : EB) (n : Nat) (last now : Int), EBRep c s ⟨n, last, now⟩ →
      EB.launch c s (failures ts ++ .returns r :: rest) = (EB.init, (List.range ts.length).map (fun i => waitTime c (n + i + 1)), some (.ok r)) ∧
      (EB.launch c s (failures ts ++ .raises e :: rest)).2 = ((List.range ts.length).map (fun i => waitTime c (n + i + 1)), some (.error e)) := by
    intro ts
    induction ts with
    | nil => intro s n last now h; simp [failures, EB.launch, EB.success, EB.init]
    | cons t ts ih =>
      intro s n last now h
      have hs : ∃ b', EBSpec c ⟨n, last, t⟩ (.failed t) (s.step c (.failed t)).2 b' ∧ EBRep c (s.step c (.failed t)).1 b' ∧ b'.now = t := by
        -- the time of the last call does not matter for failed()
        have h' : EBRep c { s with until_ := if n ≤ c.grace then none else some (last + waitTime c n) } ⟨n, last, t⟩ := by
          refine ⟨h.1, h.2.1, ?_⟩
          by_cases hn : n ≤ c.grace
          · exact Or.inl ⟨hn, by simp [hn]⟩
          · exact Or.inr ⟨by simp only; omega, Or.inl (by simp [hn])⟩
        have := eb_step_sim c h0 hl _ _ (.failed t) (by simp [EBOp.After]) h'
        obtain ⟨b', h1, h2, h3⟩ := this
        refine ⟨b', h1, ?_, h3⟩
        obtain ⟨h1, rfl⟩ := h1
        obtain ⟨h4, h5, h6⟩ := h
        dsimp only at h4 h5 h6
        refine ⟨?_, ?_, ?_⟩
        · simp only [EB.step, EB.failed] at h2 ⊢
          have := h2.1
          split
          · rename_i hg; rw [if_pos hg] at this; exact this
          · rename_i hg; rw [if_neg hg] at this; exact this
        · simp only [EB.step, EB.failed] at h2 ⊢
          have := h2.2.1
          split
          · rename_i hg; rw [if_pos hg] at this; simpa using this
          · rename_i hg; rw [if_neg hg] at this; simpa using this
        · simp only [EB.step, EB.failed] at h2 ⊢
          have := h2.2.2
          split
          · rename_i hg; rw [if_pos hg] at this; simpa using this
          · rename_i hg
            dsimp only
            rw [h5] at hg
            rcases h6 with h6 | h6
            · exact Or.inl ⟨by omega, h6.2⟩
            · omega
      obtain ⟨b', h1, h2, h3⟩ := hs
      obtain ⟨h1, rfl⟩ := h1
      simp only [EB.step] at h2
      obtain ⟨i1, i2⟩ := ih _ _ _ _ h2
      have hw : (s.failed c t).counter = waitTime c (n + 1) := h2.1
      have hr : (fun i => waitTime c (n + 1 + i + 1)) = (fun i => waitTime c (n + i + 1)) ∘ Nat.succ := by
        funext i; simp only [Function.comp]; congr 1; omega
      refine ⟨?_, ?_⟩
      · simp only [failures, List.map_cons, List.cons_append, EB.launch] at i1 ⊢
        rw [i1, hw]
        simp only [List.length_cons, List.range_succ_eq_map, List.map_cons, List.map_map, Nat.add_zero]
        rw [hr]
      · simp only [failures, List.map_cons, List.cons_append, EB.launch] at i2 ⊢
        rw [i2, hw]
        simp only [List.length_cons, List.range_succ_eq_map, List.map_cons, List.map_map, Nat.add_zero]
        rw [hr]
  have := key ts EB.init 0 0 0 ⟨by simp [EB.init, waitTime], by simp [EB.init], Or.inl ⟨by simp, rfl⟩⟩
  simpa using this

example : EB.launch ⟨2, 5, 1⟩ EB.init (failures [10, 11, 12, 13] ++ [.returns 'x']) = (EB.init, [0, 2, 4, 5], some (.ok 'x')) := by decide +kernel

/-- **C31 is violated**: with start above limit, the first waiting time is above the limit. -/
theorem C31_limit_violates (c : EBConf) (h : c.limit < c.start) (hg : c.grace = 0) (t : Int) :
    (runOps (EB.step c) EB.init [.failed t, .sleep]).2 = [.unit, .slept c.start] ∧ c.limit < c.start := by
  simp [runOps, EB.step, EB.failed, EB.init, hg, h]

/-- **C31 is violated**: the documentation says that after failing and waiting, `available` is true again; it stays false until success() is called, although ready_for_next_check is true. -/
theorem C31_available_violates : (runOps (EB.step ⟨2, 30, 0⟩) EB.init [.failed 0, .ready 3, .available]).2 = [.unit, .bool true, .bool false] := by decide +kernel

end Verif.Time
