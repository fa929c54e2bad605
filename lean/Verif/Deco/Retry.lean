import Verif.Py.Basic
/-!
# Model of satella/coding/decorators/retry_dec.py (retry), and C37

The decorated function is given by what it does at its first, second, ... call.
-/
namespace Verif.Deco
open Verif

/-- what a call does.  (Part of the model of `retry`, /repo/satella/coding/decorators/retry_dec.py:9-84.) -/
inductive Outc (ν : Type) where
  | val (v : ν)
  | exc (e : Exc)
  deriving DecidableEq, Repr

/-- calls made, in order: of the function, call_on_success, call_between_retries, on_failure, call_on_failure.  (Part of the model of `retry`, /repo/satella/coding/decorators/retry_dec.py:9-84.) -/
inductive Ev where
  | call
  | success (i : Nat)
  | between (e : Exc)
  | failure (e : Exc)
  | callFailure (e : Exc)
  deriving DecidableEq, Repr

/-- what the decorated function does: returns a value, or None, or raises.  (Part of the model of `retry`, /repo/satella/coding/decorators/retry_dec.py:9-84.) -/
inductive RRes (ν : Type) where
  | ret (v : ν)
  | none_
  | raises (e : Exc)
  deriving DecidableEq, Repr

/-- Arguments of retry, /repo/satella/coding/decorators/retry_dec.py:9-15; `listed`: is it an instance of exc_classes?  Callbacks are given by whether they are there, and by what they raise, if anything.  on_failure is always there. -/
structure RConf where
  times : Option Nat
  listed : Exc → Bool
  swallow : Bool
  onSuccess : Option (Nat → Option Exc)
  between : Option (Exc → Option Exc)
  onFailure : Exc → Option Exc
  callOnFailure : Option (Exc → Option Exc)

variable {ν : Type}

/-- the branch of a listed exception, /repo/satella/coding/decorators/retry_dec.py:70-74: what is called, and what that raises -/
def RConf.failed (c : RConf) (e : Exc) : List Ev × Option Exc :=
  match c.between with
  | none => ([], none)
  | some b => ([.between e], b e)

/-- an optional callback, /repo/satella/coding/decorators/retry_dec.py:77-78 -/
def RConf.callFail (c : RConf) (e : Exc) : List Ev × Option Exc :=
  match c.callOnFailure with
  | none => ([], none)
  | some b => ([.callFailure e], b e)

/-- the `else` of the loop, /repo/satella/coding/decorators/retry_dec.py:75-80; `f` is not bound if there was no attempt: UnboundLocalError (`other 0`) -/
def RConf.gaveUp (c : RConf) (f : Option Exc) : List Ev × RRes ν :=
  match f with
  | none => ([], .raises (.other 0))
  | some f =>
    match c.onFailure f with
    | some e => ([.failure f], .raises e)
    | none =>
      match c.callFail f with
      | (evs, some e) => (.failure f :: evs, .raises e)
      | (evs, none) => (.failure f :: evs, if c.swallow then .none_ else .raises f)

/-- an attempt, /repo/satella/coding/decorators/retry_dec.py:65-69: the call and, if it went well, call_on_success; what is called, and the outcome -/
def RConf.attempt (c : RConf) (i : Nat) (o : Outc ν) : List Ev × Outc ν :=
  match o with
  | .exc e => ([.call], .exc e)
  | .val v =>
    match c.onSuccess with
    | none => ([.call], .val v)
    | some s =>
      match s i with
      | none => ([.call, .success i], .val v)
      | some e => ([.call, .success i], .exc e)

/-- The loop, /repo/satella/coding/decorators/retry_dec.py:60-80, at turn `i`, the last exception being `f`.  `fuel` bounds the turns (the model's own: `none` if it is too small). -/
def retryLoop (c : RConf) (fn : Nat → Outc ν) : Nat → Nat → Option Exc → Option (List Ev × RRes ν)
  | 0, _, _ => none
  | fuel + 1, i, f =>
    if c.times = some i then some (c.gaveUp f)
    else
      let a := c.attempt i (fn i)
      match a.2 with
      | .val v => some (a.1, .ret v)
      | .exc e =>
        if c.listed e then
          match c.failed e with
          | (evs, some e') => some (a.1 ++ evs, .raises e')
          | (evs, none) => (retryLoop c fn fuel (i + 1) (some e)).map (fun r => (a.1 ++ evs ++ r.1, r.2))
        else some (a.1, .raises e)

/-- A call of a decorated function, /repo/satella/coding/decorators/retry_dec.py:59-80 -/
def retry (c : RConf) (fn : Nat → Outc ν) (fuel : Nat) : Option (List Ev × RRes ν) := retryLoop c fn fuel 0 none

/-! ## Specification -/

/-- callbacks raise nothing -/
structure Quiet (c : RConf) : Prop where
  success : ∀ s i, c.onSuccess = some s → s i = none
  between : ∀ b e, c.between = some b → b e = none
  failure : ∀ e, c.onFailure e = none
  callFailure : ∀ b e, c.callOnFailure = some b → b e = none

/-- the first `k` calls raise listed exceptions, those given -/
def Fails (c : RConf) (fn : Nat → Outc ν) (es : List Exc) : Prop := ∀ j e, es[j]? = some e → fn j = .exc e ∧ c.listed e = true

/-- what is called for attempts that raise the exceptions `es`: the function, and call_between_retries if given -/
def failures (c : RConf) (es : List Exc) : List Ev := es.flatMap (fun e => if c.between.isSome then [.call, .between e] else [.call])

/-! ## C37 -/

theorem loop_fails (c : RConf) (fn : Nat → Outc ν) (es : List Exc) (hq : ∀ b, c.between = some b → ∀ e ∈ es, b e = none) : ∀ (i fuel : Nat) (f : Option Exc),
    (∀ j e, es[j]? = some e → fn (i + j) = .exc e ∧ c.listed e = true) → (∀ n, c.times = some n → i + es.length ≤ n) →
    retryLoop c fn (fuel + es.length) i f = (retryLoop c fn fuel (i + es.length) (es.getLast?.or f)).map (fun r => (failures c es ++ r.1, r.2)) := by
  induction es with
  | nil => intro i fuel f _ _; simp [failures]
  | cons e es ih =>
    intro i fuel f h ht
    have h0 := h 0 e rfl
    have hi : c.times ≠ some i := fun hc => by have := ht i hc; simp at this; omega
    rw [List.length_cons, ← Nat.add_assoc, retryLoop, if_neg hi]
    simp only [Nat.add_zero] at h0
    have hrec := ih (fun b hb x hx => hq b hb x (by simp [hx])) (i + 1) fuel (some e) (fun j e' hj => by have := h (j + 1) e' (by simpa using hj); rwa [show i + (j + 1) = i + 1 + j by omega] at this)
      (fun n hn => by have := ht n hn; simp at this; omega)
    have hlast : (e :: es).getLast?.or f = es.getLast?.or (some e) := by
      cases es with
      | nil => rfl
      | cons a l => rw [List.getLast?_cons_cons]; cases hx : (a :: l).getLast? with
        | none => simp at hx
        | some y => rfl
    simp only [RConf.attempt, h0.1, h0.2, if_true, hlast, RConf.failed]
    cases hb : c.between with
    | none =>
      simp only [hrec, Option.map_map, failures, hb, Option.isSome_none, Bool.false_eq_true, if_false, List.flatMap_cons, List.append_nil]
      rw [show i + 1 + es.length = i + (es.length + 1) by omega]
      simp [Function.comp_def]
    | some b =>
      simp only [hq b hb e (by simp), hrec, Option.map_map, failures, hb, Option.isSome_some, if_true, List.flatMap_cons]
      rw [show i + 1 + es.length = i + (es.length + 1) by omega]
      simp [Function.comp_def]

/-- **C37, success.** If, after attempts that raise listed exceptions, less than `times` of them, an attempt returns a value, that is the last call; call_on_success gets the number of failures, and the value is returned. -/
theorem C37_success_partial (c : RConf) (hq : Quiet c) (fn : Nat → Outc ν) (es : List Exc) (hf : Fails c fn es) (v : ν) (hv : fn es.length = .val v)
    (ht : ∀ n, c.times = some n → es.length < n) (fuel : Nat) (hfuel : es.length < fuel) :
    retry c fn fuel = some (failures c es ++ .call :: (if c.onSuccess.isSome then [.success es.length] else []), .ret v) := by
  obtain ⟨k, rfl⟩ : ∃ k, fuel = k + 1 + es.length := ⟨fuel - es.length - 1, by omega⟩
  rw [retry, loop_fails c fn es (fun b hb e _ => hq.between b e hb) 0 (k + 1) none (by simpa [Fails] using hf) (fun n hn => by have := ht n hn; omega), Nat.zero_add, retryLoop]
  have hi : c.times ≠ some es.length := fun hc => by have := ht _ hc; omega
  rw [if_neg hi]
  simp only [RConf.attempt, hv]
  cases hs : c.onSuccess with
  | none => simp
  | some s => simp [hq.success s _ hs]

/-- **C37, an exception that is not listed** propagates at once. -/
theorem C37_unlisted (c : RConf) (hq : Quiet c) (fn : Nat → Outc ν) (es : List Exc) (hf : Fails c fn es) (e : Exc) (he : fn es.length = .exc e) (hl : c.listed e = false)
    (ht : ∀ n, c.times = some n → es.length < n) (fuel : Nat) (hfuel : es.length < fuel) :
    retry c fn fuel = some (failures c es ++ [.call], .raises e) := by
  obtain ⟨k, rfl⟩ : ∃ k, fuel = k + 1 + es.length := ⟨fuel - es.length - 1, by omega⟩
  rw [retry, loop_fails c fn es (fun b hb e _ => hq.between b e hb) 0 (k + 1) none (by simpa [Fails] using hf) (fun n hn => by have := ht n hn; omega), Nat.zero_add, retryLoop]
  have hi : c.times ≠ some es.length := fun hc => by have := ht _ hc; omega
  rw [if_neg hi]
  simp [RConf.attempt, he, hl]

/-- **C37, failure.** If all `times` attempts (at least one) raise listed exceptions, the function is called exactly `times` times, then on_failure (and call_on_failure, if given) with the last exception, and None is returned or that exception raised. -/
theorem C37_failure_partial (c : RConf) (hq : Quiet c) (fn : Nat → Outc ν) (es : List Exc) (hf : Fails c fn es) (ht : c.times = some es.length)
    (e : Exc) (he : es.getLast? = some e) (fuel : Nat) (hfuel : es.length < fuel) :
    retry c fn fuel = some (failures c es ++ .failure e :: (if c.callOnFailure.isSome then [.callFailure e] else []), if c.swallow then .none_ else .raises e) := by
  obtain ⟨k, rfl⟩ : ∃ k, fuel = k + 1 + es.length := ⟨fuel - es.length - 1, by omega⟩
  rw [retry, loop_fails c fn es (fun b hb e _ => hq.between b e hb) 0 (k + 1) none (by simpa [Fails] using hf) (fun n hn => by rw [ht] at hn; cases hn; omega), Nat.zero_add, retryLoop, if_pos ht]
  simp only [he, Option.some_or, RConf.gaveUp, hq.failure, RConf.callFail, Option.map_some]
  cases hc : c.callOnFailure with
  | none => simp
  | some b => simp [hq.callFailure b e hc]

/-- **C37, callbacks that raise.** If on_failure raises, that is the last thing called and its exception propagates; if call_on_failure does, after on_failure, its exception propagates; before that,
call_between_retries raises nothing. -/
theorem C37_callback_raises (c : RConf) (fn : Nat → Outc ν) (es : List Exc) (hf : Fails c fn es) (hb : ∀ b e, c.between = some b → b e = none) (fuel : Nat) (hfuel : es.length < fuel) :
    (∀ e e', c.times = some es.length → es.getLast? = some e → c.onFailure e = some e' → retry c fn fuel = some (failures c es ++ [.failure e], .raises e')) ∧
    (∀ e e' b, c.times = some es.length → es.getLast? = some e → c.onFailure e = none → c.callOnFailure = some b → b e = some e' →
      retry c fn fuel = some (failures c es ++ [.failure e, .callFailure e], .raises e')) := by
  obtain ⟨k, rfl⟩ : ∃ k, fuel = k + 1 + es.length := ⟨fuel - es.length - 1, by omega⟩
  constructor
  · intro e e' ht he h
    rw [retry, loop_fails c fn es (fun b h e _ => hb b e h) 0 (k + 1) none (by simpa [Fails] using hf) (fun n hn => by rw [ht] at hn; cases hn; omega), Nat.zero_add, retryLoop, if_pos ht]
    simp [he, RConf.gaveUp, h]
  · intro e e' b ht he h hc hbe
    rw [retry, loop_fails c fn es (fun b h e _ => hb b e h) 0 (k + 1) none (by simpa [Fails] using hf) (fun n hn => by rw [ht] at hn; cases hn; omega), Nat.zero_add, retryLoop, if_pos ht]
    simp [he, RConf.gaveUp, h, RConf.callFail, hc, hbe]

/-- **C37, call_between_retries raises** after some failed attempts: nothing more is called and its exception propagates. -/
theorem C37_between_raises (c : RConf) (fn : Nat → Outc ν) (es : List Exc) (hf : Fails c fn es) (e e' : Exc) (b : Exc → Option Exc) (ht : ∀ n, c.times = some n → es.length < n)
    (he : fn es.length = .exc e) (hl : c.listed e = true) (hb : c.between = some b) (hes : ∀ x ∈ es, b x = none) (hbe : b e = some e') (fuel : Nat) (hfuel : es.length < fuel) :
    retry c fn fuel = some (failures c (es ++ [e]), .raises e') := by
  obtain ⟨k, rfl⟩ : ∃ k, fuel = k + 1 + es.length := ⟨fuel - es.length - 1, by omega⟩
  rw [retry, loop_fails c fn es (fun b' h => by rw [hb] at h; cases h; exact hes) 0 (k + 1) none (by simpa [Fails] using hf) (fun n hn => by have := ht n hn; omega), Nat.zero_add, retryLoop,
    if_neg (fun h => absurd (ht _ h) (by omega))]
  simp [RConf.attempt, he, hl, RConf.failed, hb, hbe, failures]

/-- **C37, no limit.** Without `times`, a function that always fails is retried for ever. -/
theorem C37_forever (c : RConf) (hq : Quiet c) (fn : Nat → Outc ν) (ht : c.times = none) (h : ∀ i, ∃ e, fn i = .exc e ∧ c.listed e = true) (fuel : Nat) :
    retry c fn fuel = none := by
  unfold retry
  suffices ∀ i f, retryLoop c fn fuel i f = none from this 0 none
  induction fuel with
  | zero => intro i f; rfl
  | succ fuel ih =>
    intro i f
    obtain ⟨e, h1, h2⟩ := h i
    rw [retryLoop, if_neg (by rw [ht]; simp)]
    simp only [RConf.attempt, h1, h2, if_true, RConf.failed]
    cases hb : c.between with
    | none => simp [ih]
    | some b => simp [hq.between b e hb, ih]

theorem gaveUp_count (c : RConf) (f : Option Exc) : (c.gaveUp f : List Ev × RRes ν).1.count .call = 0 := by
  cases f with
  | none => rfl
  | some f =>
    simp only [RConf.gaveUp]
    cases c.onFailure f with
    | some e => rfl
    | none =>
      simp only [RConf.callFail]
      cases c.callOnFailure with
      | none => rfl
      | some b =>
        dsimp only
        cases b f <;> rfl

/-- **C37, how often.** Whatever the function and the callbacks do, the function is called at most `times` times. -/
theorem C37_at_most (c : RConf) (fn : Nat → Outc ν) (n : Nat) (ht : c.times = some n) (fuel : Nat) (r : List Ev × RRes ν) (h : retry c fn fuel = some r) :
    r.1.count .call ≤ n := by
  unfold retry at h
  suffices ∀ i f r, i ≤ n → retryLoop c fn fuel i f = some r → r.1.count .call + i ≤ n by
    have := this 0 none r (Nat.zero_le _) h; omega
  clear h
  induction fuel with
  | zero => intro i f r _ h; cases h
  | succ fuel ih =>
    intro i f r hi h
    rw [retryLoop] at h
    split at h
    · cases h
      rw [gaveUp_count]; omega
    · rename_i hne
      have hlt : i < n := by
        rcases Nat.lt_or_ge i n with h | h
        · exact h
        · exact absurd (by rw [ht]; congr 1; omega) hne
      have hcnt : (c.attempt i (fn i)).1.count .call = 1 := by
        unfold RConf.attempt
        repeat' split
        all_goals simp
      dsimp only at h
      split at h
      · cases h; simp [hcnt]; omega
      · split at h
        · rename_i e _ _
          have hcf : (c.failed e).1.count .call = 0 := by unfold RConf.failed; split <;> simp
          split at h
          · rename_i evs e' hfe
            rw [hfe] at hcf
            cases h; simp only [List.count_append, hcnt]; simp at hcf; omega
          · rename_i evs hfe
            rw [hfe] at hcf
            cases hr : retryLoop c fn fuel (i + 1) (some e) with
            | none => rw [hr] at h; cases h
            | some r' =>
              rw [hr] at h
              cases h
              have := ih (i + 1) (some e) r' (by omega) hr
              simp only [List.count_append, hcnt]
              simp only at hcf
              omega
        · cases h; simp [hcnt]; omega

/-- **C37, violated** for `times=0`: UnboundLocalError is raised. -/
theorem C37_zero_violates (c : RConf) (fn : Nat → Outc ν) (ht : c.times = some 0) (fuel : Nat) : retry c fn (fuel + 1) = some ([], .raises (.other 0)) := by
  simp [retry, retryLoop, ht, RConf.gaveUp]

/-- **C37, violated** when call_on_success raises a listed exception: the function, although it has returned a value, is called again. -/
theorem C37_on_success_violates :
    retry { times := some 3, listed := fun _ => true, swallow := true, onSuccess := some (fun i => if i = 0 then some .valueError else none), between := none,
            onFailure := fun _ => none, callOnFailure := none } (fun i => Outc.val i) 10 = some ([.call, .success 0, .call, .success 1], .ret 1) := by decide

/-! Concrete cases. -/

/-- all callbacks there, raising nothing; listing ValueError -/
def sampleConf (times : Option Nat) : RConf :=
  { times := times, listed := fun e => decide (e = .valueError), swallow := false, onSuccess := some (fun _ => none), between := some (fun _ => none), onFailure := fun _ => none, callOnFailure := some (fun _ => none) }

example : retry { sampleConf (some 2) with onFailure := fun _ => some (.other 5) } (fun _ => (Outc.exc .valueError : Outc Nat)) 10 =
    some ([.call, .between .valueError, .call, .between .valueError, .failure .valueError], .raises (.other 5)) := by decide
example : retry { sampleConf (some 2) with callOnFailure := some (fun _ => some (.other 5)) } (fun _ => (Outc.exc .valueError : Outc Nat)) 10 =
    some ([.call, .between .valueError, .call, .between .valueError, .failure .valueError, .callFailure .valueError], .raises (.other 5)) := by decide
example : Quiet (sampleConf (some 3)) :=
  ⟨fun s i h => by cases h; rfl, fun b e h => by cases h; rfl, fun _ => rfl, fun b e h => by cases h; rfl⟩
example : Fails (sampleConf (some 3)) (fun i => if i < 2 then Outc.exc .valueError else .val 7) [.valueError, .valueError] := by
  intro j e h
  match j with
  | 0 => cases h; exact ⟨rfl, rfl⟩
  | 1 => cases h; exact ⟨rfl, rfl⟩
  | j + 2 => cases h
example : retry (sampleConf (some 3)) (fun i => if i < 2 then Outc.exc .valueError else .val 7) 10 =
    some ([.call, .between .valueError, .call, .between .valueError, .call, .success 2], .ret 7) := by decide
example : retry (sampleConf (some 2)) (fun _ => (Outc.exc .valueError : Outc Nat)) 10 =
    some ([.call, .between .valueError, .call, .between .valueError, .failure .valueError, .callFailure .valueError], .raises .valueError) := by decide

end Verif.Deco
