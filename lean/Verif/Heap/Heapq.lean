import Verif.Py.Basic
/-!
# Python's `heapq`, the library under `satella.coding.structures.heaps`

`heapq` is not part of /repo; the models in `Verif.Heap.Model` are stated over *any*
implementation meeting the documented contract `Heapq` below.  `cpython` is the algorithm of
CPython's `Lib/heapq.py` and is proved to meet the contract in `Verif.Heap.HeapqCorrect`, so the contract
is satisfiable and the theorems apply to the real library.
-/
namespace Verif.Heap
open Verif

/-- `j` is a child of `i` in the implicit binary tree. -/
def Child (i j : Nat) : Prop := j = 2 * i + 1 ∨ j = 2 * i + 2

/-- The heap invariant documented by `heapq`: no child is smaller than its parent. -/
def IsHeap {α : Type _} [PyOrd α] (l : List α) : Prop :=
  ∀ i j x y, Child i j → l[i]? = some x → l[j]? = some y → PyOrd.lt y x = false

/-- Documented contract of `heapq.heapify`, `heapq.heappush`, `heapq.heappop`
(used by /repo/satella/coding/structures/heaps/base.py:22,35,44,64,81,94,109).
`heappop` returns `none` for the IndexError of popping an empty heap. -/
structure Heapq (α : Type _) [PyOrd α] where
  heapify : List α → List α
  heappush : List α → α → List α
  heappop : List α → Option (α × List α)
  heapify_perm : ∀ l, (heapify l).Perm l
  heapify_heap : ∀ l, IsHeap (heapify l)
  push_perm : ∀ l x, (heappush l x).Perm (x :: l)
  push_heap : ∀ l x, IsHeap l → IsHeap (heappush l x)
  pop_nil : heappop [] = none
  pop_perm : ∀ l x r, heappop l = some (x, r) → l.Perm (x :: r)
  pop_some : ∀ l, l ≠ [] → heappop l ≠ none
  pop_heap : ∀ l x r, IsHeap l → heappop l = some (x, r) → IsHeap r
  /-- the element popped is the one at index 0 -/
  pop_head : ∀ l x r, heappop l = some (x, r) → l.head? = some x

/-! ## CPython's algorithm -/
section CPython
variable {α : Type _} [PyOrd α]

/-- `_siftdown(heap, startpos, pos)` of CPython's heapq: move `newitem` up from `pos`.
Called through /repo/satella/coding/structures/heaps/base.py:64 (heappush). -/
def siftdown (newitem : α) (startpos : Nat) (heap : List α) (pos : Nat) : List α :=
  if _h : startpos < pos then
    match heap[(pos - 1) / 2]? with
    | none => heap
    | some parent =>
      if PyOrd.lt newitem parent then
        siftdown newitem startpos (heap.set pos parent) ((pos - 1) / 2)
      else heap.set pos newitem
  else heap.set pos newitem
termination_by pos
decreasing_by omega

/-- The index of the smaller child as chosen in `_siftup` of CPython's heapq, given the left child exists.
Called through /repo/satella/coding/structures/heaps/base.py:22 (heapify), :81 (heappop). -/
def smallerChild (heap : List α) (childpos : Nat) : Nat :=
  match heap[childpos]?, heap[childpos + 1]? with
  | some l, some r => if PyOrd.lt l r then childpos else childpos + 1
  | _, _ => childpos

theorem smallerChild_ge (heap : List α) (c : Nat) :
    c ≤ smallerChild heap c ∧ smallerChild heap c ≤ c + 1 := by
  unfold smallerChild
  split
  · split <;> omega
  · omega

/-- The `while` loop of `_siftup`: bubble the smaller child up until hitting a leaf; returns the
list and the final hole.  Called through /repo/satella/coding/structures/heaps/base.py:22,81. -/
def siftupLoop (heap : List α) (pos : Nat) : List α × Nat :=
  if _h : 2 * pos + 1 < heap.length then
    match heap[smallerChild heap (2 * pos + 1)]? with
    | none => (heap, pos)
    | some c => siftupLoop (heap.set pos c) (smallerChild heap (2 * pos + 1))
  else (heap, pos)
termination_by heap.length - pos
decreasing_by
  have := smallerChild_ge heap (2 * pos + 1)
  simp only [List.length_set]
  omega

/-- `_siftup(heap, pos)` of CPython's heapq.
Called through /repo/satella/coding/structures/heaps/base.py:22,81. -/
def siftup (heap : List α) (pos : Nat) : List α :=
  match heap[pos]? with
  | none => heap
  | some newitem =>
    siftdown newitem pos (siftupLoop heap pos).1 (siftupLoop heap pos).2

/-- `heapq.heapify` loop: `for i in reversed(range(n))`.
Called at /repo/satella/coding/structures/heaps/base.py:22,35,44,94. -/
def heapifyFrom (heap : List α) : Nat → List α
  | 0 => heap
  | n + 1 => heapifyFrom (siftup heap n) n

/-- `heapq.heapify`. Called at /repo/satella/coding/structures/heaps/base.py:22,35,44,94. -/
def cpHeapify (heap : List α) : List α := heapifyFrom heap (heap.length / 2)

/-- `heapq.heappush`. Called at /repo/satella/coding/structures/heaps/base.py:64. -/
def cpHeappush (heap : List α) (item : α) : List α :=
  siftdown item 0 (heap ++ [item]) heap.length

/-- `heapq.heappop`. Called at /repo/satella/coding/structures/heaps/base.py:81,109. -/
def cpHeappop (heap : List α) : Option (α × List α) :=
  match heap.getLast? with
  | none => none
  | some lastelt =>
    match heap.dropLast with
    | [] => some (lastelt, [])
    | returnitem :: rest => some (returnitem, siftup (lastelt :: rest) 0)

end CPython
end Verif.Heap
