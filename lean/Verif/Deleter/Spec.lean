import Verif.Deleter.Model
/-!
# What a deleter is to do (C24)

The abstract ListDeleter is a cursor in the list: before its first element (0), at the n-th (n), or after the last one (length + 1).
-/
namespace Verif.Deleter
open Verif

section
variable {α : Type _}

/-- the list, where the cursor is, the numbers (from 0) of the entries that were current when `delete` was called -/
structure Cursor (α : Type _) where
  xs : List α
  pos : Nat
  marked : List Nat

/-- the current entry -/
def Cursor.current (c : Cursor α) : Option α := if c.pos = 0 then none else c.xs[c.pos - 1]?

/-- the result for the entry the cursor is at -/
def Cursor.show (c : Cursor α) : LRes α := .ofOption .stopIteration c.current

/-- move right or left, staying at the ends -/
def Cursor.right (c : Cursor α) : Cursor α := { c with pos := min (c.pos + 1) (c.xs.length + 1) }
def Cursor.left (c : Cursor α) : Cursor α := { c with pos := c.pos - 1 }

/-- where iteration in a direction starts -/
def startPos (d : Dir) (xs : List α) : Nat := match d with | .forward => 0 | .backward => xs.length + 1

/-- what each call does -/
def lspec (d : Dir) (c : Cursor α) (o : LOp) (r : LRes α) (c' : Cursor α) : Prop :=
  match o with
  | .iter => c' = { c with pos := startPos d c.xs, marked := [] } ∧ r = .none
  | .next => c' = (match d with | .forward => c.right | .backward => c.left) ∧ r = c'.show
  | .prev => c' = (match d with | .forward => c.left | .backward => c.right) ∧ r = c'.show
  | .value => c' = c ∧ ∀ x, c.current = some x → r = .item x
  | .delete => c'.xs = c.xs ∧ c'.pos = c.pos ∧ r = .none ∧
      ∀ i, i ∈ c'.marked ↔ (i ∈ c.marked ∨ i + 1 = c.pos)

/-- the list without the entries with these numbers -/
def without (xs : List α) (gone : List Nat) : List α := (xs.zipIdx.filter (fun p => decide (p.2 ∉ gone))).map Prod.fst

end

section
variable {κ ν : Type _} [DecidableEq κ]

/-- the keys that were current (last returned) when `delete` was called -/
def deletedKeys : Option κ → List (DOp × DRes κ ν) → List κ
  | _, [] => []
  | _, (.next, .item k _) :: t => deletedKeys (some k) t
  | some k, (.delete, _) :: t => k :: deletedKeys (some k) t
  | cur, _ :: t => deletedKeys cur t

/-- the items returned since the last `iter`, if there was one -/
def seen? : Option (List (κ × ν)) → List (DOp × DRes κ ν) → Option (List (κ × ν))
  | l, [] => l
  | l, (.next, .item k v) :: t => seen? (l.map (· ++ [(k, v)])) t
  | _, (.iter, _) :: t => seen? (some []) t
  | l, _ :: t => seen? l t

/-- the calls with what they returned -/
def trace (s : DD κ ν) (ops : List DOp) : List (DOp × DRes κ ν) := ops.zip (runOps DD.step s ops).2

end
end Verif.Deleter
