import Verif.Py.Basic
/-!
# Model of safe_sleep and safe_wait_condition (satella/coding/concurrent/thread.py), C68

Times are integers of some unit.  A sleep lasts as long as it is told.  `req i` says whether termination has been requested by the `i`-th look at the flag.
-/
namespace Verif.SafeSleep
open Verif

/-- how a call ends: it returns, it raises SystemExit, WouldWaitMore, or ResourceLocked.  (Part of the model of `TerminableThread`, /repo/satella/coding/concurrent/thread.py:229-451.) -/
inductive Out where
  | returned
  | systemExit
  | wouldWait
  | resourceLocked
  deriving DecidableEq, Repr

/-- the loop of `safe_sleep`, /repo/satella/coding/concurrent/thread.py:406-412, having slept `t` in all in `i` rounds: the sleeps that follow and how it ends; `none` if it takes more rounds than the fuel -/
def sleepLoop (req : Nat → Bool) (interval wake : Int) : Nat → Nat → Int → Option (List Int × Out)
  | 0, _, _ => none
  | fuel + 1, i, t =>
    if t < interval ∧ req i = false then
      (sleepLoop req interval wake fuel (i + 1) (t + min (interval - t) wake)).map (fun r => (min (interval - t) wake :: r.1, r.2))
    else some ([], if req i then .systemExit else .returned)

/-- `safe_sleep`, /repo/satella/coding/concurrent/thread.py:393-412: time has to pass for the loop to end, so one round for each unit of the interval is enough -/
def safeSleep (req : Nat → Bool) (interval wake : Int) : Option (List Int × Out) := sleepLoop req interval wake (interval.toNat + 1) 0 0

/-- the sleeps of a `safe_sleep` that ends in this way: each is positive and no longer than `wake`; it returns after exactly the interval (or at once, for a negative one), with no request seen; it raises SystemExit at the first look at the flag that
  sees a request, having slept no longer than the interval -/
structure Slept (req : Nat → Bool) (interval wake : Int) (naps : List Int) (o : Out) : Prop where
  each : ∀ x ∈ naps, 0 < x ∧ x ≤ wake
  looks : ∀ i, i < naps.length → req i = false
  returned : o = .returned → naps.sum = max interval 0 ∧ req naps.length = false
  exit : o = .systemExit → req naps.length = true ∧ naps.sum ≤ max interval 0
  only : o = .returned ∨ o = .systemExit

theorem sleepLoop_spec (req : Nat → Bool) (interval wake : Int) (hw : 0 < wake) (fuel i : Nat) (t : Int) (ht : t ≤ max interval 0) (ht0 : 0 ≤ t) (hf : (interval - t).toNat < fuel) :
    ∃ naps o, sleepLoop req interval wake fuel i t = some (naps, o) ∧ (∀ x ∈ naps, 0 < x ∧ x ≤ wake) ∧ (∀ k, k < naps.length → req (i + k) = false) ∧
      (o = .returned → t + naps.sum = max interval 0 ∧ req (i + naps.length) = false) ∧ (o = .systemExit → req (i + naps.length) = true ∧ t + naps.sum ≤ max interval 0) ∧
      (o = .returned ∨ o = .systemExit) := by
  induction fuel generalizing i t with
  | zero => omega
  | succ fuel ih =>
    unfold sleepLoop
    by_cases hc : t < interval ∧ req i = false
    · rw [if_pos hc]
      have hm : 0 < min (interval - t) wake := by omega
      obtain ⟨naps, o, h1, h2, h3, h4, h5, h6⟩ := ih (i + 1) (t + min (interval - t) wake) (by omega) (by omega) (by omega)
      rw [h1]
      refine ⟨min (interval - t) wake :: naps, o, rfl, ?_, ?_, ?_, ?_, h6⟩
      · intro x hx
        rcases List.mem_cons.1 hx with rfl | hx
        · omega
        · exact h2 x hx
      · intro k hk
        cases k with
        | zero => exact hc.2
        | succ k =>
          have := h3 k (by simpa using hk)
          rw [show i + (k + 1) = i + 1 + k by omega]
          exact this
      · intro ho
        have := h4 ho
        rw [List.sum_cons, List.length_cons, show i + (naps.length + 1) = i + 1 + naps.length by omega]
        exact ⟨by omega, this.2⟩
      · intro ho
        have := h5 ho
        rw [List.sum_cons, List.length_cons, show i + (naps.length + 1) = i + 1 + naps.length by omega]
        exact ⟨this.1, by omega⟩
    · rw [if_neg hc]
      refine ⟨[], _, rfl, by simp, by simp, ?_, ?_, ?_⟩
      · intro ho
        have hq : req i = false := by
          cases hr : req i with
          | false => rfl
          | true => rw [hr] at ho; cases ho
        refine ⟨?_, by simpa using hq⟩
        have : ¬ t < interval := fun h => hc ⟨h, hq⟩
        simp only [List.sum_nil]
        omega
      · intro ho
        have hq : req i = true := by
          cases hr : req i with
          | true => rfl
          | false => rw [hr] at ho; cases ho
        exact ⟨by simpa using hq, by simp only [List.sum_nil]; omega⟩
      · split
        · exact Or.inr rfl
        · exact Or.inl rfl

/-- **C68, safe_sleep.** It ends; it sleeps the interval in naps of at most `wake_up_each`, and raises SystemExit at the first look at the flag after termination was requested, hence at most `wake_up_each` later. -/
theorem C68_safe_sleep (req : Nat → Bool) (interval wake : Int) (hw : 0 < wake) : ∃ naps o, safeSleep req interval wake = some (naps, o) ∧ Slept req interval wake naps o := by
  obtain ⟨naps, o, h1, h2, h3, h4, h5, h6⟩ := sleepLoop_spec req interval wake hw (interval.toNat + 1) 0 0 (by omega) (by omega) (by omega)
  refine ⟨naps, o, h1, h2, ?_, ?_, ?_, h6⟩
  · intro i hi; simpa using h3 i hi
  · intro ho; simpa using h4 ho
  · intro ho; simpa using h5 ho

/-- **C68, violated by `wake_up_each` 0** (a time string "0s" will do): `safe_sleep` then never returns, it sleeps 0 seconds for ever, unless termination is requested. -/
theorem C68_zero_violates (req : Nat → Bool) (interval : Int) (hi : 0 < interval) (hr : ∀ i, req i = false) (fuel : Nat) : sleepLoop req interval 0 fuel 0 0 = none := by
  have key : ∀ fuel i, sleepLoop req interval 0 fuel i 0 = none := by
    intro fuel
    induction fuel with
    | zero => intro i; rfl
    | succ fuel ih =>
      intro i
      unfold sleepLoop
      rw [if_pos ⟨hi, hr i⟩]
      have : min (interval - 0) 0 = 0 := by omega
      rw [this, Int.add_zero, ih]
      rfl
  exact key fuel 0

/-! ## safe_wait_condition -/

/-- what one `condition.wait(ttw)` does, /repo/satella/coding/concurrent/thread.py:91-127: it is notified, its time is over, or it cannot get the lock of the condition within the time -/
inductive Wait where
  | notified
  | over
  | locked
  deriving DecidableEq, Repr

/-- the loop of `safe_wait_condition`, /repo/satella/coding/concurrent/thread.py:379-391, with `waits` what each wait does -/
def waitLoop (req : Nat → Bool) (waits : Nat → Wait) (timeout wake : Int) (dontRaise : Bool) : Nat → Nat → Int → Option (List Int × Out)
  | 0, _, _ => none
  | fuel + 1, i, t =>
    if t < timeout then
      if req i then some ([], .systemExit)
      else
        let ttw := min (timeout - t) wake
        match waits i with
        | .notified => some ([ttw], .returned)
        | .locked => some ([ttw], .resourceLocked)
        | .over => (waitLoop req waits timeout wake dontRaise fuel (i + 1) (t + ttw)).map (fun r => (ttw :: r.1, r.2))
    else some ([], if dontRaise then .returned else .wouldWait)

/-- `safe_wait_condition`, /repo/satella/coding/concurrent/thread.py:358-391 -/
def safeWait (req : Nat → Bool) (waits : Nat → Wait) (timeout wake : Int) (dontRaise : Bool) : Option (List Int × Out) :=
  waitLoop req waits timeout wake dontRaise (timeout.toNat + 1) 0 0

/-- the waits of a `safe_wait_condition` that ends in this way: all but the last one were over, each no longer than `wake`, at most `timeout` in all; no request had been seen before each -/
structure Waited (req : Nat → Bool) (waits : Nat → Wait) (timeout wake : Int) (dontRaise : Bool) (ws : List Int) (o : Out) : Prop where
  each : ∀ x ∈ ws, 0 < x ∧ x ≤ wake
  total : ws.sum ≤ max timeout 0
  looks : ∀ i, i < ws.length → req i = false
  over : ∀ i, i + 1 < ws.length → waits i = .over
  /-- it returned since it was notified, or, if asked not to raise, since the time is over -/
  returned : o = .returned → (∃ i, ws.length = i + 1 ∧ waits i = .notified) ∨ (dontRaise = true ∧ ws.sum = max timeout 0 ∧ ∀ i, i < ws.length → waits i = .over)
  wouldWait : o = .wouldWait → dontRaise = false ∧ ws.sum = max timeout 0 ∧ ∀ i, i < ws.length → waits i = .over
  exit : o = .systemExit → req ws.length = true ∧ ∀ i, i < ws.length → waits i = .over
  locked : o = .resourceLocked → ∃ i, ws.length = i + 1 ∧ waits i = .locked

theorem waitLoop_spec (req : Nat → Bool) (waits : Nat → Wait) (timeout wake : Int) (dr : Bool) (hw : 0 < wake) (fuel i : Nat) (t : Int) (ht : t ≤ max timeout 0) (ht0 : 0 ≤ t)
    (hf : (timeout - t).toNat < fuel) :
    ∃ ws o, waitLoop req waits timeout wake dr fuel i t = some (ws, o) ∧ (∀ x ∈ ws, 0 < x ∧ x ≤ wake) ∧ t + ws.sum ≤ max timeout 0 ∧ (∀ k, k < ws.length → req (i + k) = false) ∧
      (∀ k, k + 1 < ws.length → waits (i + k) = .over) ∧
      (o = .returned → (∃ k, ws.length = k + 1 ∧ waits (i + k) = .notified) ∨ (dr = true ∧ t + ws.sum = max timeout 0 ∧ ∀ k, k < ws.length → waits (i + k) = .over)) ∧
      (o = .wouldWait → dr = false ∧ t + ws.sum = max timeout 0 ∧ ∀ k, k < ws.length → waits (i + k) = .over) ∧
      (o = .systemExit → req (i + ws.length) = true ∧ ∀ k, k < ws.length → waits (i + k) = .over) ∧
      (o = .resourceLocked → ∃ k, ws.length = k + 1 ∧ waits (i + k) = .locked) := by
  induction fuel generalizing i t with
  | zero => omega
  | succ fuel ih =>
    unfold waitLoop
    by_cases hc : t < timeout
    · rw [if_pos hc]
      by_cases hr : req i = true
      · rw [if_pos hr]
        exact ⟨[], _, rfl, by simp, by simpa using ht, by simp, by simp, by simp, by simp, by simp [hr], by simp⟩
      · rw [if_neg hr]
        have hr' : req i = false := by simpa using hr
        have hm : 0 < min (timeout - t) wake := by omega
        dsimp only
        split
        · rename_i hn
          refine ⟨_, _, rfl, ?_, ?_, ?_, by simp, fun _ => Or.inl ⟨0, rfl, hn⟩, by simp, by simp, by simp⟩
          · intro x hx
            rw [List.mem_singleton.1 hx]; omega
          · simp only [List.sum_cons, List.sum_nil]; omega
          · intro k hk
            have : k = 0 := by simpa using hk
            rw [this]; exact hr'
        · rename_i hn
          refine ⟨_, _, rfl, ?_, ?_, ?_, by simp, by simp, by simp, by simp, fun _ => ⟨0, rfl, hn⟩⟩
          · intro x hx
            rw [List.mem_singleton.1 hx]; omega
          · simp only [List.sum_cons, List.sum_nil]; omega
          · intro k hk
            have : k = 0 := by simpa using hk
            rw [this]; exact hr'
        · rename_i hn
          obtain ⟨ws, o, h1, h2, h3, h4, h5, h6, h7, h8, h9⟩ := ih (i + 1) (t + min (timeout - t) wake) (by omega) (by omega) (by omega)
          rw [h1]
          have shift : ∀ k, i + (k + 1) = i + 1 + k := by intro k; omega
          have allOver : (∀ k, k < ws.length → waits (i + 1 + k) = .over) → ∀ k, k < (min (timeout - t) wake :: ws).length → waits (i + k) = .over := by
            intro h k hk
            cases k with
            | zero => exact hn
            | succ k => rw [shift]; exact h k (by simpa using hk)
          refine ⟨min (timeout - t) wake :: ws, o, rfl, ?_, ?_, ?_, ?_, ?_, ?_, ?_, ?_⟩
          · intro x hx
            rcases List.mem_cons.1 hx with rfl | hx
            · omega
            · exact h2 x hx
          · rw [List.sum_cons]; omega
          · intro k hk
            cases k with
            | zero => exact hr'
            | succ k => rw [shift]; exact h4 k (by simpa using hk)
          · intro k hk
            cases k with
            | zero => exact hn
            | succ k => rw [shift]; exact h5 k (by simpa using hk)
          · intro ho
            rcases h6 ho with ⟨k, hk1, hk2⟩ | ⟨a, b, c⟩
            · exact Or.inl ⟨k + 1, by simp [hk1], by rw [shift]; exact hk2⟩
            · exact Or.inr ⟨a, by rw [List.sum_cons]; omega, allOver c⟩
          · intro ho
            obtain ⟨a, b, c⟩ := h7 ho
            exact ⟨a, by rw [List.sum_cons]; omega, allOver c⟩
          · intro ho
            obtain ⟨a, c⟩ := h8 ho
            exact ⟨by rw [List.length_cons, shift]; exact a, allOver c⟩
          · intro ho
            obtain ⟨k, hk1, hk2⟩ := h9 ho
            exact ⟨k + 1, by simp [hk1], by rw [shift]; exact hk2⟩
    · rw [if_neg hc]
      refine ⟨[], _, rfl, by simp, by simpa using ht, by simp, by simp, ?_, ?_, ?_, ?_⟩
      · intro ho
        right
        cases dr with
        | true => exact ⟨rfl, by simp only [List.sum_nil]; omega, by simp⟩
        | false => simp at ho
      · intro ho
        cases dr with
        | true => simp at ho
        | false => exact ⟨rfl, by simp only [List.sum_nil]; omega, by simp⟩
      · intro ho; split at ho <;> cases ho
      · intro ho; split at ho <;> cases ho

/-- **C68, safe_wait_condition** (partial: a notification that comes between two waits is not seen, and ResourceLocked may be raised). It ends; it waits in pieces of at most `wake_up_each`, no longer than the timeout in all; it returns when a
  wait is notified, raises SystemExit at the first look at the flag after termination was requested, and WouldWaitMore (or, if asked not to raise, returns) exactly after the timeout. -/
theorem C68_safe_wait_partial (req : Nat → Bool) (waits : Nat → Wait) (timeout wake : Int) (dr : Bool) (hw : 0 < wake) :
    ∃ ws o, safeWait req waits timeout wake dr = some (ws, o) ∧ Waited req waits timeout wake dr ws o := by
  obtain ⟨ws, o, h1, h2, h3, h4, h5, h6, h7, h8, h9⟩ := waitLoop_spec req waits timeout wake dr hw (timeout.toNat + 1) 0 0 (by omega) (by omega) (by omega)
  simp only [Nat.zero_add, Int.zero_add] at h3 h4 h5 h6 h7 h8 h9
  exact ⟨ws, o, h1, h2, h3, h4, h5, h6, h7, h8, h9⟩

/-- **C68, violated by a condition that is locked**: documented to raise WouldWaitMore or SystemExit only, `safe_wait_condition` raises ResourceLocked when another thread holds the condition's lock for one `wake_up_each`, although the timeout is far from over. -/
theorem C68_locked_violates (timeout wake : Int) (h : 0 < wake) (ht : wake < timeout) (dr : Bool) :
    safeWait (fun _ => false) (fun _ => .locked) timeout wake dr = some ([wake], .resourceLocked) := by
  unfold safeWait
  have : min (timeout - 0) wake = wake := by omega
  simp [waitLoop, show (0 : Int) < timeout by omega]
  omega

/-! Cases that meet the hypotheses -/

example : safeSleep (fun _ => false) 5 2 = some ([2, 2, 1], .returned) := by decide
example : safeSleep (fun i => 2 ≤ i) 5 2 = some ([2, 2], .systemExit) := by decide
example : safeSleep (fun _ => false) (-3) 2 = some ([], .returned) := by decide
example : safeWait (fun _ => false) (fun i => if i = 1 then .notified else .over) 5 2 false = some ([2, 2], .returned) := by decide
example : safeWait (fun _ => false) (fun _ => .over) 5 2 false = some ([2, 2, 1], .wouldWait) := by decide

end Verif.SafeSleep
