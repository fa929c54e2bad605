import Verif.Sorted.Model
/-! # What SortedList and Ranking promise: a sequence kept in key order -/
namespace Verif.SortedL
open Verif

section
variable {ι κ : Type _} [PyLinOrd κ] (E : Env ι κ)

/-- the sequence is in non-decreasing key order -/
def KeySorted (l : List ι) : Prop := l.Pairwise (fun a b => PyOrd.lt (E.key b) (E.key a) = false)

/-- A call on the sequence `l`, its result, the sequence after. -/
def SeqSpec (l : List ι) : Op ι → Res ι → List ι → Prop
  | .add x, r, l' =>
    KeySorted E l' ∧ ∃ pre post, l = pre ++ post ∧ l' = pre ++ x :: post ∧ r = .nat pre.length ∧
      (∀ y ∈ pre, PyOrd.lt (E.key y) (E.key x) = true) ∧
      (∀ y ∈ post, PyOrd.lt (E.key y) (E.key x) = false)
  | .extend xs, r, l' => r = .unit ∧ KeySorted E l' ∧ l'.Perm (xs ++ l)
  | .remove x, r, l' =>
    ((∀ y ∈ l, E.eqv y x = false) ∧ r = .exc .valueError ∧ l' = l) ∨
    ∃ pre y post, l = pre ++ y :: post ∧ E.eqv y x = true ∧ (∀ z ∈ pre, E.eqv z x = false) ∧
      l' = pre ++ post ∧ r = .unit
  | .pop, r, l' =>
    (l = [] ∧ r = .exc .indexError ∧ l' = []) ∨
    ∃ x, l = l' ++ [x] ∧ r = .val x ∧ ∀ y ∈ l, PyOrd.lt (E.key x) (E.key y) = false
  | .popleft, r, l' =>
    (l = [] ∧ r = .exc .indexError ∧ l' = []) ∨
    ∃ x, l = x :: l' ∧ r = .val x ∧ ∀ y ∈ l, PyOrd.lt (E.key y) (E.key x) = false
  | .index x, r, l' =>
    l' = l ∧ (((∀ y ∈ l, E.eqv y x = false) ∧ r = .exc .valueError) ∨
    ∃ pre y post, l = pre ++ y :: post ∧ E.eqv y x = true ∧ (∀ z ∈ pre, E.eqv z x = false) ∧
      r = .nat pre.length)
  | .get i, r, l' =>
    l' = l ∧ (((i < -l.length ∨ (l.length : Int) ≤ i) ∧ r = .exc .indexError) ∨
    ∃ (n : Nat) (x : ι), l[n]? = some x ∧ r = .val x ∧ (i = n ∨ i = (n : Int) - l.length))
  | .contains x, r, l' => l' = l ∧ ∃ b, r = .bool b ∧ (b = true ↔ ∃ y ∈ l, E.eqv y x = true)
  | .len, r, l' => l' = l ∧ r = .nat l.length
  | .iter, r, l' => l' = l ∧ r = .vals l ∧ KeySorted E l

end
end Verif.SortedL

namespace Verif.SortedL
open Verif
section
variable {ι κ : Type _} [PyLinOrd κ] (E : Env ι κ)

/-- `p` is the last position of the object `x` in `l` (its only one when it was added once) -/
def LastAt (l : List ι) (x : ι) (p : Nat) : Prop := l[p]? = some x ∧ ∀ q, p < q → l[q]? ≠ some x

/-- Ranking: a sequence in key order, with positions. -/
def RankSpec (l : List ι) : RkOp ι → Res ι → List ι → Prop
  | .add x, r, l' => r = .unit ∧ KeySorted E l' ∧ ∃ pre post, l = pre ++ post ∧ l' = pre ++ x :: post ∧
      (∀ y ∈ pre, PyOrd.lt (E.key y) (E.key x) = true)
  | .remove x, r, l' => SeqSpec E l (.remove x) r l'
  | .positionOf x, r, l' =>
    l' = l ∧ (((∀ y ∈ l, E.eqv y x = false) ∧ r = .exc .valueError) ∨
    ∃ (p : Nat) (y : ι), r = .nat p ∧ l[p]? = some y ∧ E.eqv y x = true ∧
      ∀ (q : Nat) (z : ι), q < p → l[q]? = some z → E.eqv z x = false)
  | .rankingFor x, r, l' => l' = l ∧ ∀ p, LastAt l x p → r = .nat p
  | .get i, r, l' => SeqSpec E l (.get i) r l'
  | .sorted, r, l' => l' = l ∧ r = .vals l ∧ KeySorted E l

end
end Verif.SortedL
