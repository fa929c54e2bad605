import Verif.Futures.Model
/-!
# What a user expects of futures (C22, C51, C52)
-/
namespace Verif.Futures
open Verif Conc

section
variable {V : Type _}

/-- A future that can be cancelled (or is already): not running, no outcome. -/
def FState.canCancel : FState V → Bool
  | .pending => true
  | .cancelled => true
  | .notified => true
  | _ => false

/-- Time passes: a future that is done keeps its outcome (a cancelled one stays cancelled). -/
def Evolves (s s' : Store V) : Prop :=
  ∀ i, (∀ v, s.st i = .value v → s'.st i = .value v) ∧ (∀ e, s.st i = .error e → s'.st i = .error e) ∧
    ((s.st i).isCancelled = true → (s'.st i).isCancelled = true)

/-- Waiting for the members one after another: each wait ends no earlier than the one before; `last` is now. -/
def Waits (last : Store V) : List (Nat × Store V) → Prop
  | [] => True
  | (_, s) :: rest => Evolves s last ∧ (∀ x ∈ rest, Evolves s x.2) ∧ Waits last rest

/-- A wait with no time limit ends only when the future is done. -/
def NoLimit (w : List (Nat × Store V)) : Prop := ∀ x ∈ w, (x.2.st x.1).isDone = true

/-- What the user expects of one action of a pre-done callback: setting a result or an exception replaces the outcome; a future that is
completing can no longer be cancelled. -/
def expectAct (o : View V) : Act V → View V
  | .setResult v => .value (some v)
  | .setException e => .error e
  | .cancel => o

/-- What the user expects of the pre-done callbacks, called in the order they were added, each seeing what the ones before made of the
outcome. -/
def expectPre (o : View V) (pre : List (View V → List (Act V))) : View V :=
  pre.foldl (fun o cb => (cb o).foldl expectAct o) o

/-- The actions of a callback for which satella's Future behaves as expected: no `cancel`, no result set over an exception. -/
def CleanActs (o : View V) : List (Act V) → Prop
  | [] => True
  | .setResult v :: as => (∀ e, o ≠ .error e) ∧ CleanActs (.value (some v)) as
  | .setException e :: as => CleanActs (.error e) as
  | .cancel :: _ => False

/-- All callbacks behave so. -/
def CleanPre (o : View V) : List (View V → List (Act V)) → Prop
  | [] => True
  | cb :: cbs => CleanActs o (cb o) ∧ CleanPre ((cb o).foldl expectAct o) cbs

end
end Verif.Futures
