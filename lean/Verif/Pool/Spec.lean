import Verif.Pool.Model
/-!
# The life of a connection (C23)
-/
namespace Verif.Pool
open Verif Conc

/-- In what phase of its life a connection is: not yet seen, held by a thread, returned to the pool, torn down. -/
inductive Phase where
  | fresh
  | held (t : Nat)
  | free
  | torn
  deriving DecidableEq, Repr

/-- What may happen to a connection next: it is handed out only when new or returned, released only by its holder, torn down only when returned, and nothing happens
to it after that. -/
def Phase.next (c : Nat) (p : Phase) : Ev → Option Phase
  | .handed t d => if d = c then (match p with | .fresh => some (.held t) | .free => some (.held t) | _ => none) else some p
  | .released t d => if d = c then (if p = .held t then some .free else none) else some p
  | .torn d => if d = c then (if p = .free then some .torn else none) else some p
  | .raised _ _ => some p

/-- The phase of connection `c` after the events; `none` if it was not treated as it should be. -/
def phaseOf (c : Nat) (log : List Ev) : Option Phase :=
  log.foldl (fun p e => p.bind (fun p => p.next c e)) (some .fresh)

/-- how often it was handed out -/
def uses (c : Nat) (log : List Ev) : Nat :=
  (log.filter (fun e => match e with | .handed _ d => d = c | _ => false)).length

end Verif.Pool
