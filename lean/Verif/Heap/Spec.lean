import Verif.Heap.Model
/-!
# What the heaps promise, without mentioning how they work

A `Heap` is a bag (a list up to permutation), a `SetHeap` a set, a `TimeBasedHeap` a bag of
(timestamp, item) pairs, a `TimeBasedSetHeap` a partial map from items to timestamps.
-/
namespace Verif.Heap
open Verif

section
variable {α : Type _} [PyOrd α] [DecidableEq α]

/-- `x` is a least element of `b`. -/
def Least (x : α) (b : List α) : Prop := x ∈ b ∧ ∀ y ∈ b, PyOrd.lt y x = false

/-- Heap as a bag: state before, call, result, state after. -/
def BagSpec (b : List α) : Op α → Res α → List α → Prop
  | .push x, r, b' => r = .unit ∧ b' = x :: b
  | .pushMany xs, r, b' => r = .unit ∧ b' = xs ++ b
  | .pop, r, b' =>
    (b = [] ∧ r = .exc .indexError ∧ b' = []) ∨ ∃ x, r = .val x ∧ Least x b ∧ b.Perm (x :: b')
  | .popItem x, r, b' =>
    (x ∉ b ∧ r = .exc .valueError ∧ b' = b) ∨ (x ∈ b ∧ r = .val x ∧ b.Perm (x :: b'))
  | .filterMap f g, r, b' =>
    r = .unit ∧ b' = (b.filter (f.getD fun _ => true)).map (g.getD id)
  | .contains x, r, b' => b' = b ∧ ∃ a, r = .bool a ∧ (a = true ↔ x ∈ b)
  | .len, r, b' => b' = b ∧ r = .nat b.length
  | .truth, r, b' => b' = b ∧ ∃ a, r = .bool a ∧ (a = true ↔ b ≠ [])
  | .iterAscending, r, b' => b' = b ∧ ∃ l, r = .vals l ∧ Sorted l ∧ l.Perm b
  | .iterDescending, r, b' => b' = b ∧ ∃ l, r = .vals l ∧ Sorted l.reverse ∧ l.Perm b
  | .copy, r, b' => b' = b ∧ r = .unit

/-- SetHeap as a set. -/
def SetSpec (S : α → Prop) : Op α → Res α → (α → Prop) → Prop
  | .push x, r, S' => r = .unit ∧ ∀ y, S' y ↔ y = x ∨ S y
  | .pushMany xs, r, S' => r = .unit ∧ ∀ y, S' y ↔ y ∈ xs ∨ S y
  | .pop, r, S' =>
    ((∀ y, ¬ S y) ∧ r = .exc .indexError ∧ S' = S) ∨
    ∃ x, S x ∧ r = .val x ∧ (∀ y, S y → PyOrd.lt y x = false) ∧ ∀ y, S' y ↔ S y ∧ y ≠ x
  | .popItem x, r, S' =>
    (¬ S x ∧ r = .exc .valueError ∧ S' = S) ∨ (S x ∧ r = .val x ∧ ∀ y, S' y ↔ S y ∧ y ≠ x)
  | .filterMap f g, r, S' =>
    r = .unit ∧ ∀ y, S' y ↔ ∃ x, S x ∧ f.getD (fun _ => true) x = true ∧ g.getD id x = y
  | .contains x, r, S' => S' = S ∧ ∃ a, r = .bool a ∧ (a = true ↔ S x)
  | .len, r, S' => S' = S ∧ ∃ l : List α, l.Nodup ∧ (∀ y, y ∈ l ↔ S y) ∧ r = .nat l.length
  | .truth, r, S' => S' = S ∧ ∃ a, r = .bool a ∧ (a = true ↔ ∃ y, S y)
  | .iterAscending, r, S' =>
    S' = S ∧ ∃ l, r = .vals l ∧ Sorted l ∧ l.Nodup ∧ ∀ y, y ∈ l ↔ S y
  | .iterDescending, r, S' =>
    S' = S ∧ ∃ l, r = .vals l ∧ Sorted l.reverse ∧ l.Nodup ∧ ∀ y, y ∈ l ↔ S y
  | .copy, r, S' => S' = S ∧ r = .unit

end

section
variable {ι : Type _} [PyLinOrd ι] [DecidableEq ι]

/-- TimeBasedHeap as a bag of (timestamp, item).  `getTimestamp` is promised nothing but to leave
the heap alone (see `C04_get_timestamp_broken`). -/
def TimeBagSpec (b : List (Int × ι)) : TOp ι → TRes ι → List (Int × ι) → Prop
  | .put ts x, r, b' => r = .unit ∧ b' = (ts, x) :: b
  | .pop, r, b' =>
    (b = [] ∧ r = .exc .indexError ∧ b' = []) ∨
    ∃ ts x, r = .entry ts x ∧ Least (ts, x) b ∧ b.Perm ((ts, x) :: b')
  | .popTimestamp ts, r, b' =>
    ((∀ x, (ts, x) ∉ b) ∧ r = .exc .valueError ∧ b' = b) ∨
    ∃ x, r = .item x ∧ b.Perm ((ts, x) :: b')
  | .popItem x, r, b' =>
    ((∀ ts, (ts, x) ∉ b) ∧ r = .exc .valueError ∧ b' = b) ∨
    ∃ ts, r = .entry ts x ∧ b.Perm ((ts, x) :: b')
  | .getTimestamp _, _, b' => b' = b
  | .peekClosest, r, b' =>
    b' = b ∧ ((b = [] ∧ r = .exc .indexError) ∨ ∃ ts x, r = .entry ts x ∧ Least (ts, x) b)
  | .popLessThan t n, r, b' =>
    ∃ l, r = .entries l ∧ b.Perm (l ++ b') ∧ Sorted l ∧ (∀ e ∈ l, e.1 < t) ∧ l.length ≤ n ∧
      (∀ e ∈ l, ∀ e' ∈ b', PyOrd.le e e') ∧ (l.length = n ∨ ∀ e ∈ b', ¬ e.1 < t)
  | .remove x, r, b' => r = .unit ∧ b' = b.filter (fun e => decide (e.2 ≠ x))
  | .items, r, b' => b' = b ∧ ∃ l, r = .itemList l ∧ l.Perm (b.map Prod.snd)

/-- change a partial map at one point -/
def upd (m : ι → Option Int) (x : ι) (v : Option Int) : ι → Option Int :=
  fun y => if y = x then v else m y

/-- TimeBasedSetHeap as a partial map from items to timestamps. -/
def TimeMapSpec (m : ι → Option Int) : TOp ι → TRes ι → (ι → Option Int) → Prop
  | .put ts x, r, m' => r = .unit ∧ m' = upd m x (some ts)
  | .pop, r, m' =>
    ((∀ x, m x = none) ∧ r = .exc .indexError ∧ m' = m) ∨
    ∃ ts x, r = .entry ts x ∧ m x = some ts ∧ m' = upd m x none ∧
      ∀ y ty, m y = some ty → PyOrd.le (ts, x) (ty, y)
  | .popTimestamp ts, r, m' =>
    ((∀ x, m x ≠ some ts) ∧ r = .exc .valueError ∧ m' = m) ∨
    ∃ x, m x = some ts ∧ r = .item x ∧ m' = upd m x none
  | .popItem x, r, m' =>
    (m x = none ∧ r = .exc .valueError ∧ m' = m) ∨
    ∃ ts, m x = some ts ∧ r = .entry ts x ∧ m' = upd m x none
  | .getTimestamp x, r, m' =>
    m' = m ∧ ((m x = none ∧ r = .exc .valueError) ∨ ∃ ts, m x = some ts ∧ r = .stamp ts)
  | .peekClosest, r, m' => m' = m ∧ r = .exc .attributeError
  | .popLessThan t n, r, m' =>
    ∃ l, r = .entries l ∧ Sorted l ∧ (l.map Prod.snd).Nodup ∧ l.length ≤ n ∧
      (∀ e ∈ l, m e.2 = some e.1 ∧ e.1 < t) ∧
      (∀ y, m' y = if y ∈ l.map Prod.snd then none else m y) ∧
      (∀ e ∈ l, ∀ y ty, m' y = some ty → PyOrd.le e (ty, y)) ∧
      (l.length = n ∨ ∀ y ty, m' y = some ty → ¬ ty < t)
  | .remove x, r, m' => r = .unit ∧ m' = upd m x none
  | .items, r, m' => m' = m ∧ ∃ l : List ι, r = .itemList l ∧ l.Nodup ∧ ∀ x, x ∈ l ↔ m x ≠ none

end
end Verif.Heap
