import Verif.Deco.Retry
/-!
# Model of rethrow_as, silence_excs and reraise_as (satella/coding/recast_exceptions.py), C62

A decorated function may call itself, or other functions decorated with the same object, and go on depending on what those calls gave: a body is a tree of what it may do.  One thread; `threading.local` keeps threads apart.
-/
namespace Verif.Deco.Rethrow
open Verif Verif.Deco

variable {ν ε : Type}

/-- what a call gives: a value or an exception.  (Part of the model of `rethrow_as`, /repo/satella/coding/recast_exceptions.py:197-293.) -/
inductive Out (ν ε : Type) where
  | val (v : ν)
  | exc (e : ε)
  deriving DecidableEq, Repr

/-- what a decorated function does: return, raise, or call a function decorated with the same object, which does `inner`, and go on.  (Part of the model of `rethrow_as`, /repo/satella/coding/recast_exceptions.py:197-293.) -/
inductive Body (ν ε : Type) where
  | ret (v : ν)
  | raise (e : ε)
  | call (inner : Body ν ε) (next : Out ν ε → Body ν ε)

/-- `mapping`, `returns`, `returns_factory`, /repo/satella/coding/recast_exceptions.py:236-261: which exceptions are caught, and the exception they become, or none to silence them; what is returned when one was silenced -/
structure Cfg (ν ε : Type) where
  mapping : List ((ε → Bool) × Option (ε → ε))
  returns : ν

/-- the first pair that matches, /repo/satella/coding/recast_exceptions.py:287-289 -/
def Cfg.find (c : Cfg ν ε) (e : ε) : Option (Option (ε → ε)) := (c.mapping.find? (fun p => p.1 e)).map (·.2)

/-- the end of a decorated call, /repo/satella/coding/recast_exceptions.py:271-278, :286-293, given the flag `was_raised` and what the function gave: the flag and what the call gives -/
def Cfg.leave (c : Cfg ν ε) (flag : Bool) : Out ν ε → Bool × Out ν ε
  | .val v => (flag, if flag then .val c.returns else .val v)
  | .exc e =>
    match c.find e with
    | none => (flag, .exc e)
    | some none => (true, .val c.returns)
    | some (some f) => (true, .exc (f e))

/-- what a function does, starting with the flag; the flag afterwards and what it gave.  A decorated call first clears the flag (`__enter__`, /repo/satella/coding/recast_exceptions.py:282-284). -/
def Cfg.exec (c : Cfg ν ε) : Bool → Body ν ε → Bool × Out ν ε
  | flag, .ret v => (flag, .val v)
  | flag, .raise e => (flag, .exc e)
  | _, .call inner next =>
    let r := c.exec false inner
    let r := c.leave r.1 r.2
    c.exec r.1 (next r.2)

/-- calling a decorated function, /repo/satella/coding/recast_exceptions.py:267-278 -/
def Cfg.call (c : Cfg ν ε) (b : Body ν ε) : Out ν ε := (c.leave (c.exec false b).1 (c.exec false b).2).2

/-- `reraise_as` as a decorator, /repo/satella/coding/recast_exceptions.py:169-181, around what a function gave; silencing returns None -/
def reraise (none_ : ν) (source : ε → Bool) (target : Option ε) : Out ν ε → Out ν ε
  | .val v => .val v
  | .exc e =>
    if source e then
      match target with
      | some t => .exc t
      | none => .val none_
    else .exc e

/-! ## Specification -/

/-- what the decorator should do with what the function gave: values pass, exceptions become what the first pair that matches says -/
def translate (c : Cfg ν ε) : Out ν ε → Out ν ε
  | .val v => .val v
  | .exc e =>
    match c.mapping.find? (fun p => p.1 e) with
    | none => .exc e
    | some (_, none) => .val c.returns
    | some (_, some f) => .exc (f e)

/-- what a function should give, if each decorated call it makes does that -/
def meaning (c : Cfg ν ε) : Body ν ε → Out ν ε
  | .ret v => .val v
  | .raise e => .exc e
  | .call inner next => meaning c (next (translate c (meaning c inner)))

/-- no call made inside is one whose exception is caught by the decorator -/
def Quiet (c : Cfg ν ε) : Body ν ε → Prop
  | .ret _ => True
  | .raise _ => True
  | .call inner next => Quiet c inner ∧ (∀ e, meaning c inner = .exc e → c.mapping.find? (fun p => p.1 e) = none) ∧ Quiet c (next (translate c (meaning c inner)))

/-! ## Proofs -/

theorem leave_clear (c : Cfg ν ε) (o : Out ν ε) : (c.leave false o).2 = translate c o := by
  cases o with
  | val v => rfl
  | exc e =>
    simp only [Cfg.leave, translate, Cfg.find]
    cases c.mapping.find? (fun p => p.1 e) with
    | none => rfl
    | some p => obtain ⟨q, t⟩ := p; cases t <;> rfl

theorem leave_flag (c : Cfg ν ε) (o : Out ν ε) (h : ∀ e, o = .exc e → c.mapping.find? (fun p => p.1 e) = none) : (c.leave false o).1 = false := by
  cases o with
  | val v => rfl
  | exc e => simp [Cfg.leave, Cfg.find, h e rfl]

theorem exec_quiet (c : Cfg ν ε) (b : Body ν ε) (h : Quiet c b) : c.exec false b = (false, meaning c b) := by
  induction b with
  | ret v => rfl
  | raise e => rfl
  | call inner next ih1 ih2 =>
    simp only [Cfg.exec, meaning]
    rw [ih1 h.1]
    dsimp only
    rw [leave_flag c _ h.2.1, leave_clear]
    exact ih2 _ h.2.2

/-- **C62** (partial: no exception is caught in a call made inside the call, through the same decorator). The decorated function gives what the function gave, with its exceptions translated by the first pair that matches. -/
theorem C62_rethrow_partial (c : Cfg ν ε) (b : Body ν ε) (h : Quiet c b) : c.call b = translate c (meaning c b) := by
  unfold Cfg.call
  rw [exec_quiet c b h]
  exact leave_clear c _

/-- **C62, violated by recursion**: if the function calls itself, the inner call's exception is silenced, and the function then returns a value of its own, that value is lost: `returns` is returned in its stead. -/
theorem C62_recursion_violates (c : Cfg ν ε) (e : ε) (v : ν) (p : ε → Bool) (rest : List ((ε → Bool) × Option (ε → ε))) (hm : c.mapping = (p, none) :: rest) (hp : p e = true) :
    meaning c (.call (.raise e) (fun _ => .ret v)) = .val v ∧ c.call (.call (.raise e) (fun _ => .ret v)) = .val c.returns := by
  simp [meaning, Cfg.call, Cfg.exec, Cfg.leave, Cfg.find, hm, hp]

/-- **C62, violated by recursion, translated exceptions**: the same if the inner call's exception is turned into another, and the function catches that and returns a value. -/
theorem C62_recursion_translated_violates (c : Cfg ν ε) (e : ε) (v : ν) (p : ε → Bool) (f : ε → ε) (rest : List ((ε → Bool) × Option (ε → ε))) (hm : c.mapping = (p, some f) :: rest) (hp : p e = true) :
    meaning c (.call (.raise e) (fun _ => .ret v)) = .val v ∧ c.call (.call (.raise e) (fun _ => .ret v)) = .val c.returns := by
  simp [meaning, Cfg.call, Cfg.exec, Cfg.leave, Cfg.find, hm, hp]

/-- **C62, reraise_as.** The decorated function returns what the function returned; an exception that matches becomes the target, or None is returned; another exception passes. -/
theorem C62_reraise (none_ : ν) (source : ε → Bool) (target : Option ε) (o : Out ν ε) :
    (∀ v, o = .val v → reraise none_ source target o = .val v) ∧ (∀ e, o = .exc e → source e = false → reraise none_ source target o = .exc e) ∧
      (∀ e t, o = .exc e → source e = true → target = some t → reraise none_ source target o = .exc t) ∧ (∀ e, o = .exc e → source e = true → target = none → reraise none_ source target o = .val none_) := by
  refine ⟨?_, ?_, ?_, ?_⟩
  · rintro v rfl; rfl
  · rintro e rfl h; simp [reraise, h]
  · rintro e t rfl h rfl; simp [reraise, h]
  · rintro e rfl h rfl; simp [reraise, h]

/-! Concrete cases: silence 1, turn 2 into 3. -/
/-- numbers for exceptions and values -/
def cfg0 : Cfg Nat Nat := ⟨[(fun e => e == 1, none), (fun e => e == 2, some (fun _ => 3))], 0⟩
example : Quiet cfg0 (.call (.raise 5) (fun _ => .raise 2)) ∧ cfg0.call (.call (.raise 5) (fun _ => .raise 2)) = .exc 3 := by
  refine ⟨⟨trivial, ?_, trivial⟩, by decide⟩
  intro e he
  cases he
  decide
example : cfg0.call (.raise 1) = .val 0 ∧ cfg0.call (.ret 7) = .val 7 ∧ cfg0.call (.call (.raise 1) (fun _ => .ret 7)) = .val 0 := by decide

end Verif.Deco.Rethrow
