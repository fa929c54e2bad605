import Verif.Expiring.Model
/-! # What an expiring dictionary and a self-cleaning default dictionary should do (C12, C13) -/
namespace Verif.Expiring
open Verif

section
variable {K V : Type _} [DecidableEq K]

/-- Every key's last value and the moment until which it is alive. -/
abbrev Life (K V : Type _) := K → Option (V × Int)

/-- Change one entry. -/
def Life.upd (m : Life K V) (k : K) (e : Option (V × Int)) : Life K V := fun x => if x = k then e else m x

/-- `k` is alive at `now`, with value `v`. -/
def Alive (m : Life K V) (now : Int) (k : K) (v : V) : Prop := ∃ e, m k = some (v, e) ∧ now ≤ e

/-- What each call at time `now` should do.  Entries set live for `timeout`; a call sees the entries alive
at its time and nothing else. -/
def Spec (timeout : Int) (m : Life K V) : Op K V × Int → Res K V → Life K V → Prop
  | (.set k v, now), r, m' => r = .unit ∧ m' = m.upd k (some (v, now + timeout))
  | (.get k, now), r, m' => m' = m ∧
      ((∃ v, Alive m now k v ∧ r = .val v) ∨ ((∀ v, ¬ Alive m now k v) ∧ r = .exc .keyError))
  | (.contains k, now), r, m' => m' = m ∧ ∃ b : Bool, r = .bool b ∧ (b = true ↔ ∃ v, Alive m now k v)
  | (.del k, now), r, m' =>
      ((∃ v, Alive m now k v) ∧ r = .unit ∧ m' = m.upd k none) ∨
      ((∀ v, ¬ Alive m now k v) ∧ r = .exc .keyError ∧ m' = m)
  | (.iter, now), r, m' => m' = m ∧ ∃ l : List K, l.Nodup ∧ (∀ k, k ∈ l ↔ ∃ v, Alive m now k v) ∧ r = .keys l
  | (.len, now), r, m' => m' = m ∧ ∃ l : List K, l.Nodup ∧ (∀ k, k ∈ l ↔ ∃ v, Alive m now k v) ∧ r = .nat l.length
  | (.cleanup, _), r, m' => m' = m ∧ r = .unit

/-- The ways in which the code departs from `Spec`: with dead entries around, `len`, iteration, `cleanup` and
membership of a dead key may raise KeyError; deleting a key that is not alive
may raise ValueError or pass silently. -/
def Defect (m : Life K V) : Op K V × Int → Res K V → Life K V → Prop
  | (.contains k, now), r, m' => m' = m ∧ r = .exc .keyError ∧ ∃ v e, m k = some (v, e) ∧ e < now
  | (.del k, now), r, m' => (∀ v, ¬ Alive m now k v) ∧ m' = m.upd k none ∧
      (r = .exc .valueError ∧ m k = none ∨ (r = .unit ∨ r = .exc .keyError ∨ r = .exc .valueError) ∧ m k ≠ none)
  | (.iter, now), r, m' => m' = m ∧ r = .exc .keyError ∧ ∃ k v e, m k = some (v, e) ∧ e < now
  | (.len, now), r, m' => m' = m ∧ r = .exc .keyError ∧ ∃ k v e, m k = some (v, e) ∧ e < now
  | (.cleanup, now), r, m' => m' = m ∧ r = .exc .keyError ∧ ∃ k v e, m k = some (v, e) ∧ e < now
  | _, _, _ => False

/-- A self-cleaning default dictionary is a total map. -/
def SSpec (dflt : V) (m : K → V) : SOp K V → Res K V → (K → V) → Prop
  | .set k v, r, m' => r = .unit ∧ m' = fun x => if x = k then v else m x
  | .get k, r, m' => r = .val (m k) ∧ m' = m
  | .update k f, r, m' => r = .unit ∧ m' = fun x => if x = k then f (m k) else m x
  | .contains _, r, m' => r = .bool true ∧ m' = m
  | .del k, r, m' => r = .unit ∧ m' = fun x => if x = k then dflt else m x
  | .iter, r, m' => m' = m ∧ ∃ l : List K, l.Nodup ∧ (∀ k, k ∈ l ↔ m k ≠ dflt) ∧ r = .keys l
  | .len, r, m' => m' = m ∧ ∃ l : List K, l.Nodup ∧ (∀ k, k ∈ l ↔ m k ≠ dflt) ∧ r = .nat l.length
  | .cleanup, r, m' => r = .unit ∧ m' = m

end
end Verif.Expiring
