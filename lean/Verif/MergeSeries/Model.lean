import Verif.Heap.Model
/-!
# Model of satella/coding/transforms/merger.py (merge_series)

Timestamps are integers (the code takes anything ordered); values are never looked at, except that `min` in `next` compares them on equal timestamps, which changes nothing (only the timestamp of the minimum is used).
-/
namespace Verif.MergeSeries
open Verif Heap

section
variable {V : Type}

/-- What is known about one series: its entry of next_preloaded_values, its entry of super_next_preloaded_values, and what its iterator has left; /repo/satella/coding/transforms/merger.py:22-44 -/
structure Ser (V : Type) where
  cur : Int × V
  sup : Option (Int × V)
  rest : List (Int × V)
  deriving DecidableEq, Repr

/-- The attributes of a merge_series which is not empty.  (Part of the model of `merge_series`, /repo/satella/coding/transforms/merger.py:11-116.) -/
structure St (V : Type) where
  ss : List (Ser V)
  heap : SetHeap Int

variable (H : Heapq Int)

/-- first two entries of each series, /repo/satella/coding/transforms/merger.py:25,38-44; `none` if one is empty -/
def preload : List (List (Int × V)) → Option (List (Ser V))
  | [] => some []
  | [] :: _ => none
  | (x :: l) :: ls => (preload ls).map ({ cur := x, sup := l.head?, rest := l.tail } :: ·)

/-- `max` of a set, /repo/satella/coding/transforms/merger.py:34; `none` is ValueError -/
def maxTs : List Int → Option Int
  | [] => none
  | x :: l => some (l.foldl max x)

/-- the pushes of :42, in order of series.  (Part of the model of `merge_series`, /repo/satella/coding/transforms/merger.py:11-116.) -/
def pushSups (ss : List (Ser V)) (h : SetHeap Int) : SetHeap Int :=
  ss.foldl (fun h s => match s.sup with | some y => SetHeap.push H h y.1 | none => h) h

/-- `__init__`, /repo/satella/coding/transforms/merger.py:22-44; `ok none` is `empty = True` -/
def init (lists : List (List (Int × V))) : Except Exc (Option (St V)) :=
  match preload lists with
  | none => .ok none
  | some ss =>
    match maxTs (ss.map (·.cur.1)) with
    | none => .error .valueError
    | some m => .ok (some { ss := ss, heap := pushSups H ss (SetHeap.push H (SetHeap.init H []) m) })

/-- `advance(i)` for the series at hand, /repo/satella/coding/transforms/merger.py:49-62; `none` is ValueError -/
def advance (s : Ser V) (h : SetHeap Int) : Option (Ser V × SetHeap Int) :=
  match s.sup with
  | none => none
  | some y =>
    match s.rest with
    | [] => some ({ cur := y, sup := none, rest := [] }, h)
    | x :: l => some ({ cur := y, sup := some x, rest := l }, SetHeap.push H h x.1)

/-- How one turn of the loop of `assert_preloaded` ends: it goes on to the next series, or `return False`, or ValueError of `advance`.  (Part of the model of `assert_preloaded`, /repo/satella/coding/transforms/merger.py:70-89.) -/
inductive Turn where
  | on
  | no
  | valueError
  deriving DecidableEq, Repr

/-- The `while` of `assert_preloaded`, /repo/satella/coding/transforms/merger.py:82-88, which advances the series; it is written out as recursion on what the iterator has left.  In `cur <= ts < sup[0]` the second comparison is
made only if the first one holds.  So when there is no next entry: if `cur <= ts`, subscripting None raises TypeError, and the condition of line 87 does not hold; if not, `advance` is called, which raises ValueError. -/
def settleLoop (ts : Int) (cur : Int × V) (sup : Option (Int × V)) (rest : List (Int × V)) (h : SetHeap Int) : Ser V × SetHeap Int × Turn :=
  match sup, rest with
  | none, rest => ({ cur := cur, sup := none, rest := rest }, h, if cur.1 ≤ ts then .on else .valueError)
  | some y, [] =>
    if cur.1 ≤ ts ∧ ts < y.1 then ({ cur := cur, sup := some y, rest := [] }, h, .on)
    else ({ cur := y, sup := none, rest := [] }, h, if y.1 ≤ ts then .on else .valueError)
  | some y, x :: l =>
    if cur.1 ≤ ts ∧ ts < y.1 then ({ cur := cur, sup := some y, rest := x :: l }, h, .on)
    else settleLoop ts y (some x) l (SetHeap.push H h x.1)

/-- One turn of the loop of `assert_preloaded`, /repo/satella/coding/transforms/merger.py:77-88 -/
def settle (ts : Int) (s : Ser V) (h : SetHeap Int) : Ser V × SetHeap Int × Turn :=
  match s.sup with
  | none => (s, h, if s.cur.1 > ts then .no else .on)
  | some y => settleLoop H ts s.cur (some y) s.rest h

/-- `assert_preloaded`, /repo/satella/coding/transforms/merger.py:70-89; series after the one that fails are left as they are -/
def assertPreloaded (ts : Int) : List (Ser V) → SetHeap Int → List (Ser V) × SetHeap Int × Turn
  | [], h => ([], h, .on)
  | s :: ss, h =>
    match settle H ts s h with
    | (s', h', .on) =>
      let r := assertPreloaded ts ss h'
      (s' :: r.1, r.2.1, r.2.2)
    | (s', h', e) => (s' :: ss, h', e)

/-- `next`, /repo/satella/coding/transforms/merger.py:64-68: advances the series whose timestamp is `m`; `none` is ValueError -/
def advanceMin (m : Int) : List (Ser V) → SetHeap Int → Option (List (Ser V) × SetHeap Int)
  | [], h => some ([], h)
  | s :: ss, h =>
    if s.cur.1 = m then
      match advance H s h with
      | none => none
      | some (s', h') => (advanceMin m ss h').map (fun r => (s' :: r.1, r.2))
    else (advanceMin m ss h).map (fun r => (s :: r.1, r.2))

/-- the smallest of the timestamps, /repo/satella/coding/transforms/merger.py:65 -/
def minTs : List (Ser V) → Int
  | [] => 0
  | s :: ss => ss.foldl (fun m s => min m s.cur.1) s.cur.1

/-- `assert_have_timestamps`, /repo/satella/coding/transforms/merger.py:91-101 -/
def haveTimestamps (st : St V) : Except Exc (St V) :=
  if st.heap.data ≠ [] then .ok st
  else if st.ss.all (fun s => s.sup.isNone) then .error .stopIteration
  else match advanceMin H (minTs st.ss) st.ss st.heap with
    | none => .error .valueError
    | some (ss, h) => if h.data ≠ [] then .ok { ss := ss, heap := h } else .error .stopIteration

/-- The loop of `__next__`, /repo/satella/coding/transforms/merger.py:110-116; the pop's IndexError becomes StopIteration (line 103).  `fuel` bounds its turns (the model's own: `none` when it runs out). -/
def popLoop : Nat → St V → Option (Except Exc (Int × List V) × St V)
  | 0, _ => none
  | fuel + 1, st =>
    match SetHeap.pop H st.heap with
    | (h, .val ts) =>
      match assertPreloaded H ts st.ss h with
      | (ss, h', .on) => some (.ok (ts, ss.map (·.cur.2)), { ss := ss, heap := h' })
      | (ss, h', .no) => popLoop fuel { ss := ss, heap := h' }
      | (ss, h', .valueError) => some (.error .valueError, { ss := ss, heap := h' })
    | (h, .exc .indexError) => some (.error .stopIteration, { st with heap := h })
    | (h, .exc e) => some (.error e, { st with heap := h })
    | (h, _) => some (.error .runtimeError, { st with heap := h })

/-- `__next__` of a merge_series that is not empty, /repo/satella/coding/transforms/merger.py:103-116 -/
def next (fuel : Nat) (st : St V) : Option (Except Exc (Int × List V) × St V) :=
  match haveTimestamps H st with
  | .error e => some (.error e, st)
  | .ok st' => popLoop H fuel st'

/-- calls `next()` until StopIteration; `none` if the bound on the number of calls, or on turns, is too small.  (Part of the model of `merge_series`, /repo/satella/coding/transforms/merger.py:11-116.) -/
def consume (fuel : Nat) : Nat → St V → Option (Except Exc (List (Int × List V)))
  | 0, _ => none
  | n + 1, st =>
    match next H fuel st with
    | none => none
    | some (.error .stopIteration, _) => some (.ok [])
    | some (.error e, _) => some (.error e)
    | some (.ok x, st') =>
      match consume fuel n st' with
      | none => none
      | some (.error e) => some (.error e)
      | some (.ok l) => some (.ok (x :: l))

/-- `list(merge_series(*lists))`, with bounds on turns and calls.  (Part of the model of `merge_series`, /repo/satella/coding/transforms/merger.py:11-116.) -/
def mergeSeries (fuel n : Nat) (lists : List (List (Int × V))) : Option (Except Exc (List (Int × List V))) :=
  match init H lists with
  | .error e => some (.error e)
  | .ok none => some (.ok [])
  | .ok (some st) => consume H fuel n st

end
end Verif.MergeSeries
