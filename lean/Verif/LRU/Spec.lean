import Verif.LRU.Model
/-!
# What an LRU promises

The abstract state remembers when (number of calls so far) each held element was last used.
-/
namespace Verif.LRU
open Verif
variable {ι : Type _} [DecidableEq ι]

/-- number of calls made so far, and for each held element the call that used it last -/
structure Uses (ι : Type _) where
  now : Nat
  last : ι → Option Nat

/-- one call later, with the last use of `x` changed to `v` -/
def Uses.upd (u : Uses ι) (x : ι) (v : Option Nat) : Uses ι :=
  { now := u.now + 1, last := fun y => if y = x then v else u.last y }

/-- one call later, no use changed -/
def Uses.tick (u : Uses ι) : Uses ι := { u with now := u.now + 1 }

/-- state before, call, result, state after -/
def UseSpec (u : Uses ι) : Op ι → Res ι → Uses ι → Prop
  | .add x, r, u' => r = .unit ∧ u' = if u.last x = none then u.upd x (some u.now) else u.tick
  | .markAsUsed x, r, u' => r = .unit ∧ u' = u.upd x (some u.now)
  | .remove x, r, u' =>
    (u.last x = none ∧ r = .exc .keyError ∧ u' = u.tick) ∨
    (u.last x ≠ none ∧ r = .unit ∧ u' = u.upd x none)
  | .evict, r, u' =>
    ((∀ x, u.last x = none) ∧ r = .exc .keyError ∧ u' = u.tick) ∨
    ∃ x t, u.last x = some t ∧ r = .val x ∧ u' = u.upd x none ∧
      ∀ y t', u.last y = some t' → y ≠ x → t < t'
  | .contains x, r, u' => u' = u.tick ∧ ∃ b, r = .bool b ∧ (b = true ↔ u.last x ≠ none)
  | .len, r, u' =>
    u' = u.tick ∧ ∃ l : List ι, l.Nodup ∧ (∀ x, x ∈ l ↔ u.last x ≠ none) ∧ r = .nat l.length

end Verif.LRU
