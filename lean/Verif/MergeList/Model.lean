import Verif.Heap.Model
/-!
# Model of satella/coding/transforms/merge_list.py

Keys and values are comparable: merge_list compares values (and then list numbers) of entries with equal keys, so with values that cannot be compared it raises TypeError.
-/
namespace Verif.MergeList
open Verif Heap

section
variable {K V : Type} [DecidableEq K] [DecidableEq V] [PyLinOrd K] [PyLinOrd V]

/-- The attributes of a merge_list, /repo/satella/coding/transforms/merge_list.py:23-24; `its` is what each iterator has left, `cur` is `k`, `v` (`i` is never used). -/
structure St (K V : Type) where
  its : List (List (K × V))
  avail : List Nat
  heap : List (K × V × Nat)
  cur : Option (K × V)
  closed : Bool

variable (H : Heapq (K × V × Nat)) (f : V → V → V)

/-- `pop`, /repo/satella/coding/transforms/merge_list.py:67-75; `none` is IndexError -/
def St.pop (s : St K V) : Option ((K × V × Nat) × St K V) :=
  match H.heappop s.heap with
  | none => none
  | some (x, h) =>
    if x.2.2 ∈ s.avail then
      match s.its[x.2.2]? with
      | some ((k2, v2) :: l) => some (x, { s with heap := H.heappush h (k2, v2, x.2.2), its := s.its.set x.2.2 l })
      | _ => some (x, { s with heap := h, avail := s.avail.filter (fun j => decide (j ≠ x.2.2)) })
    else some (x, { s with heap := h })

/-- the loop of `__init__`, /repo/satella/coding/transforms/merge_list.py:37-42; `i` is the number of the list -/
def fill (i : Nat) (s : St K V) : List (List (K × V)) → St K V
  | [] => s
  | [] :: ls => fill (i + 1) { s with its := s.its ++ [[]] } ls
  | ((k, v) :: l) :: ls => fill (i + 1) { s with heap := H.heappush s.heap (k, v, i), avail := setAdd s.avail i, its := s.its ++ [l] } ls

/-- `__init__`, /repo/satella/coding/transforms/merge_list.py:29-46 -/
def St.init (lists : List (List (K × V))) : St K V :=
  let s := fill H 0 { its := [], avail := [], heap := Heap.init H [], cur := none, closed := false } lists
  match s.pop H with
  | none => { s with closed := true }
  | some ((k, v, _), s') => { s' with cur := some (k, v) }

/-- what a call of `next()` does: yields, stops, or raises RecursionError.  (Part of the model of `merge_list`, /repo/satella/coding/transforms/merge_list.py:7-75.) -/
inductive NRes (K V : Type) where
  | yield (k : K) (v : V)
  | stop
  | recursion
  deriving DecidableEq

/-- `__next__`, /repo/satella/coding/transforms/merge_list.py:48-65; it calls itself, the number is how deep it may. -/
def St.next : Nat → St K V → St K V × NRes K V
  | 0, s => (s, .recursion)
  | d + 1, s =>
    if s.closed then (s, .stop)
    else match s.cur with
      | none => (s, .stop)
      | some (k, v) =>
        match s.pop H with
        | none => ({ s with closed := true }, .yield k v)
        | some ((k2, v2, _), s') =>
          if k2 = k then St.next d { s' with cur := some (k, f v v2) }
          else ({ s' with cur := some (k2, v2) }, .yield k v)

/-- `list(merge_list(...))`: calls of `next()` until it stops (at most the given number); `none` if RecursionError is raised.  (Part of the model of `merge_list`, /repo/satella/coding/transforms/merge_list.py:7-75.) -/
def consume (lim : Nat) : Nat → St K V → Option (List (K × V))
  | 0, _ => none
  | n + 1, s =>
    match s.next H f lim with
    | (_, .stop) => some []
    | (_, .recursion) => none
    | (s', .yield k v) => (consume lim n s').map ((k, v) :: ·)

end
end Verif.MergeList
