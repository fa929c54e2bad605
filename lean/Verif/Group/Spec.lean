import Verif.Group.Model
/-! # What a group of callbacks should do (C19) -/
namespace Verif.Group
open Verif

/-- Abstract state: the callbacks registered and not cancelled, in the order they will be called, with their functions; the cancelled
callbacks; how many callbacks were ever made; the calls made so far. -/
structure Abs (F A : Type _) where
  live : List (Nat × F × Bool)
  cancelled : Nat → Prop
  objs : List F
  trace : List (F × A)

/-- What the functions of the callbacks return, called one after another, as results -/
def outcomes {F A R : Type _} (E : Env F A R) (a : A) : List (F × A) → List F → List (Val R)
  | _, [] => []
  | t, f :: fs =>
    (match (E t f a).ret with
      | .ok r => .val r
      | .error e => .exc e) :: outcomes E a (t ++ [(f, a)]) fs

inductive Spec {F A R : Type _} (E : Env F A R) (C : Cfg) :
    Abs F A → Op F A → Res R → Abs F A → Prop
  | add {b f o} : Spec E C b (.add f o) (.callback b.objs.length)
      { b with live := b.live ++ [(b.objs.length, f, o)], objs := b.objs ++ [f] }
  /-- adding a callback that is registered already, or cancelled, does nothing -/
  | addAgainNothing {b c o} : (b.cancelled c ∨ c ∈ b.live.map (·.1)) →
      Spec E C b (.addAgain c o) (.callback c) b
  | addAgain {b c o f} : ¬ b.cancelled c → c ∉ b.live.map (·.1) → b.objs[c]? = some f →
      Spec E C b (.addAgain c o) (.callback c) { b with live := b.live ++ [(c, f, o)] }
  | cancel {b c} : Spec E C b (.cancel c) .unit
      { b with live := b.live.filter (fun x => x.1 ≠ c), cancelled := fun d => d = c ∨ b.cancelled d }
  /-- every live callback is called once, in order, with the arguments given; the results are in that order; one-shot callbacks are
  forgotten, the others stay in the same order -/
  | call {b a} : Spec E C b (.call a)
      (.call (b.live.map (·.1))
        (if C.gather then .results (outcomes E a b.trace (b.live.map (·.2.1))) else .none))
      { b with live := b.live.filter (fun x => !x.2.2), trace := b.trace ++ b.live.map (fun x => (x.2.1, a)) }

end Verif.Group
