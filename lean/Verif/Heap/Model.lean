import Verif.Heap.Heapq
import Verif.Py.Dict
import Verif.Py.Run
/-!
# Model of satella/coding/structures/heaps

All four heaps keep their elements in the list `data`, maintained by `heapq` (parameter `H`).
Not modelled: `__str__`, `__repr__`, and list methods inherited from `UserList` which are not
overridden (`append`, `insert`, slicing, ...), which bypass the heap.
-/
namespace Verif.Heap
open Verif

/-- `list.remove(x)`: drop the first element satisfying `p`; `none` is ValueError.  Also the `for index, elem in enumerate(data): if p(elem): data.pop(index)` loops of
/repo/satella/coding/structures/heaps/time.py:55-57,78-80,196-198,212-214.  Returns the element dropped and the rest. -/
def removeFirst {α : Type _} (p : α → Bool) : List α → Option (α × List α)
  | [] => none
  | x :: l => if p x then some (x, l) else (removeFirst p l).map (fun q => (q.1, x :: q.2))

/-- `filter(f, l) if f else l`, /repo/satella/coding/structures/heaps/base.py:90 -/
def optFilter {α : Type _} (f : Option (α → Bool)) (l : List α) : List α :=
  match f with
  | some f => l.filter f
  | none => l

/-- `map(g, l) if g else l`, /repo/satella/coding/structures/heaps/base.py:91 -/
def optMap {α : Type _} (g : Option (α → α)) (l : List α) : List α :=
  match g with
  | some g => l.map g
  | none => l

/-- What a call returns to its caller.  (Part of the model of `Heap`, /repo/satella/coding/structures/heaps/base.py:10-133.) -/
inductive Res (α : Type _) where
  | unit
  | val (x : α)
  | bool (b : Bool)
  | nat (n : Nat)
  | vals (l : List α)
  | exc (e : Exc)
  deriving DecidableEq, Repr

/-- Calls on a `Heap`/`SetHeap`, /repo/satella/coding/structures/heaps/base.py:10-175. -/
inductive Op (α : Type _) where
  | push (x : α)
  | pushMany (xs : List α)
  | pop
  | popItem (x : α)
  | filterMap (f : Option (α → Bool)) (g : Option (α → α))
  | contains (x : α)
  | len
  | truth
  | iterAscending
  | iterDescending
  | copy

section Heap
variable {α : Type _} [PyOrd α] [DecidableEq α] (H : Heapq α)

/-- The loop `while heap: yield heapq.heappop(heap)` on the copy made by `iter_ascending`,
/repo/satella/coding/structures/heaps/base.py:107-109; `n` bounds the iterations by the length of the copy. -/
def drain : Nat → List α → List α
  | 0, _ => []
  | n + 1, heap =>
    match H.heappop heap with
    | none => []
    | some (x, rest) => x :: drain n rest

/-- `iter_ascending`, fully consumed, /repo/satella/coding/structures/heaps/base.py:102-109 -/
def iterAscending (data : List α) : List α := drain H data.length data

/-- `iter_descending`, /repo/satella/coding/structures/heaps/base.py:111-118 -/
def iterDescending (data : List α) : List α := (iterAscending H data).reverse

/-- `Heap.__init__`, /repo/satella/coding/structures/heaps/base.py:20-22 (`UserList.__init__` copies the iterable). -/
def Heap.init (fromList : List α) : List α := H.heapify fromList

/-- `Heap.pop_item`, /repo/satella/coding/structures/heaps/base.py:37-45 -/
def Heap.popItem (data : List α) (x : α) : List α × Res α :=
  match removeFirst (fun y => decide (y = x)) data with
  | none => (data, .exc .valueError)
  | some (_, rest) => (H.heapify rest, .val x)

/-- `Heap.pop`, /repo/satella/coding/structures/heaps/base.py:75-81 -/
def Heap.pop (data : List α) : List α × Res α :=
  match H.heappop data with
  | none => (data, .exc .indexError)
  | some (x, rest) => (rest, .val x)

/-- `Heap.filter_map`, /repo/satella/coding/structures/heaps/base.py:83-94 (the map function keeps the element type) -/
def Heap.filterMap (data : List α) (f : Option (α → Bool)) (g : Option (α → α)) : List α :=
  H.heapify (optMap g (optFilter f data))

/-- One call on a `Heap`: push :47-64 (the deprecated `*args` form pushes a tuple, here just an element),
push_many :24-35, pop :75-81, pop_item :37-45, filter_map :83-94, `in` :132-133, len :123-124,
bool :96-100, iterators :102-118, `__copy__` :69-70 (continues with the copy);
/repo/satella/coding/structures/heaps/base.py -/
def Heap.step (data : List α) : Op α → List α × Res α
  | .push x => (H.heappush data x, .unit)
  | .pushMany xs => (H.heapify (data ++ xs), .unit)
  | .pop => Heap.pop H data
  | .popItem x => Heap.popItem H data x
  | .filterMap f g => (Heap.filterMap H data f g, .unit)
  | .contains x => (data, .bool (decide (x ∈ data)))
  | .len => (data, .nat data.length)
  | .truth => (data, .bool (decide (0 < data.length)))
  | .iterAscending => (data, .vals (iterAscending H data))
  | .iterDescending => (data, .vals (iterDescending H data))
  | .copy => (Heap.init H data, .unit)

/-- A `SetHeap`: the list and the companion set, /repo/satella/coding/structures/heaps/base.py:136-157 -/
structure SetHeap (α : Type _) where
  data : List α
  set : List α

/-- `SetHeap.__init__`, /repo/satella/coding/structures/heaps/base.py:155-157 -/
def SetHeap.init (fromList : List α) : SetHeap α :=
  let data := Heap.init H fromList
  { data := data, set := setOf data }

/-- `SetHeap.push`, /repo/satella/coding/structures/heaps/base.py:159-162 -/
def SetHeap.push (s : SetHeap α) (x : α) : SetHeap α :=
  if x ∈ s.set then s
  else { data := H.heappush s.data x, set := setAdd s.set x }

/-- `SetHeap.pop`, /repo/satella/coding/structures/heaps/base.py:164-167: `set.remove` raises KeyError
after the element already left the list. -/
def SetHeap.pop (s : SetHeap α) : SetHeap α × Res α :=
  match Heap.pop H s.data with
  | (data, .val x) =>
    if x ∈ s.set then ({ data := data, set := s.set.filter (fun y => decide (y ≠ x)) }, .val x)
    else ({ data := data, set := s.set }, .exc .keyError)
  | (data, r) => ({ data := data, set := s.set }, r)

/-- One call on a `SetHeap`: overrides push_many :148-153, push :159-162, pop :164-167, `in` :169-170,
filter_map :172-175, the rest (pop_item, len, bool, iterators, copy) inherited from `Heap`;
/repo/satella/coding/structures/heaps/base.py -/
def SetHeap.step (s : SetHeap α) : Op α → SetHeap α × Res α
  | .push x => (SetHeap.push H s x, .unit)
  | .pushMany xs => (xs.foldl (SetHeap.push H) s, .unit)
  | .pop => SetHeap.pop H s
  | .contains x => (s, .bool (decide (x ∈ s.set)))
  | .filterMap f g =>
    let data := Heap.filterMap H s.data f g
    ({ data := data, set := setOf data }, .unit)
  | .popItem x =>
    let r := Heap.popItem H s.data x
    ({ s with data := r.1 }, r.2)
  | .len => (s, .nat s.data.length)
  | .truth => (s, .bool (decide (0 < s.data.length)))
  | .iterAscending => (s, .vals (iterAscending H s.data))
  | .iterDescending => (s, .vals (iterDescending H s.data))
  | .copy => (SetHeap.init H s.data, .unit)

end Heap

/-! ## Heaps of (timestamp, item) pairs -/

/-- Calls on a `TimeBasedHeap`/`TimeBasedSetHeap`, /repo/satella/coding/structures/heaps/time.py.
`put ts x` covers both forms of `put` (time.py:85-98, 232-245): with one argument `ts` is the clock
reading.  `popLessThan t n` is the generator `pop_less_than(t)` from which `n` elements are requested
(`n ≥ len` consumes it); with no argument `t` is the clock reading. -/
inductive TOp (ι : Type _) where
  | put (ts : Int) (x : ι)
  | pop
  | popTimestamp (ts : Int)
  | popItem (x : ι)
  | getTimestamp (x : ι)
  | peekClosest
  | popLessThan (t : Int) (n : Nat)
  | remove (x : ι)
  | items

/-- What a call on a time based heap returns.  (Part of the model of `TimeBasedHeap`, /repo/satella/coding/structures/heaps/time.py:10-133.) -/
inductive TRes (ι : Type _) where
  | unit
  | entry (ts : Int) (x : ι)
  | item (x : ι)
  | stamp (ts : Int)
  | entries (l : List (Int × ι))
  | itemList (l : List ι)
  | exc (e : Exc)
  deriving DecidableEq, Repr

section Time
variable {ι : Type _} [PyLinOrd ι] [DecidableEq ι] (H : Heapq (Int × ι))

/-- `TimeBasedHeap.pop_less_than` asked for up to `n` elements,
/repo/satella/coding/structures/heaps/time.py:124-127: the elements yielded and the heap left. -/
def popLessThan (t : Int) : Nat → List (Int × ι) → List (Int × ι) × List (Int × ι)
  | 0, data => ([], data)
  | n + 1, data =>
    match data.head? with
    | none => ([], data)
    | some top =>
      if top.1 ≥ t then ([], data)
      else
        match H.heappop data with
        | none => ([], data)
        | some (x, rest) =>
          let r := popLessThan t n rest
          (x :: r.1, r.2)

/-- One call on a `TimeBasedHeap`: put :85-98, pop (inherited, base.py:75-81), pop_timestamp :49-60,
pop_item :70-83, peek_closest :100-106, pop_less_than :108-127, remove :129-133, items :35-40;
/repo/satella/coding/structures/heaps/time.py.  `get_timestamp` (:62-68) subscripts the
already unpacked item (`elem[1]`), which for items that are not sequences raises TypeError when the heap is not
empty and returns None when it is; modelled as that. -/
def TimeHeap.step (data : List (Int × ι)) : TOp ι → List (Int × ι) × TRes ι
  | .put ts x => (H.heappush data (ts, x), .unit)
  | .pop =>
    match H.heappop data with
    | none => (data, .exc .indexError)
    | some (e, rest) => (rest, .entry e.1 e.2)
  | .popTimestamp ts =>
    match removeFirst (fun e => decide (e.1 = ts)) data with
    | none => (data, .exc .valueError)
    | some (e, rest) => (H.heapify rest, .item e.2)
  | .popItem x =>
    match removeFirst (fun e => decide (e.2 = x)) data with
    | none => (data, .exc .valueError)
    | some (e, rest) => (H.heapify rest, .entry e.1 e.2)
  | .getTimestamp _ => (data, if data = [] then .unit else .exc .typeError)
  | .peekClosest =>
    match data.head? with
    | none => (data, .exc .indexError)
    | some e => (data, .entry e.1 e.2)
  | .popLessThan t n =>
    let r := popLessThan H t n data
    (r.2, .entries r.1)
  | .remove x => (H.heapify (data.filter (fun e => decide (e.2 ≠ x))), .unit)
  | .items => (data, .itemList (data.map Prod.snd))

/-- `copy.copy` of a `TimeBasedHeap`: the inherited `__copy__` passes the copied list to the
constructor, whose only parameter is the clock source, so the contents are not used;
/repo/satella/coding/structures/heaps/base.py:69-70, time.py:42-47 -/
def TimeHeap.copy (_data : List (Int × ι)) : List (Int × ι) := H.heapify []

/-- A `TimeBasedSetHeap`: the list and `item_to_timestamp`,
/repo/satella/coding/structures/heaps/time.py:181-187 -/
structure TSHeap (ι : Type _) where
  data : List (Int × ι)
  stamps : Dict ι Int

/-- `TimeBasedSetHeap.__init__`, /repo/satella/coding/structures/heaps/time.py:181-187 -/
def TSHeap.init : TSHeap ι := { data := H.heapify [], stamps := [] }

/-- `TimeBasedSetHeap.pop_item`, /repo/satella/coding/structures/heaps/time.py:204-218.  The element leaves the list
before `del item_to_timestamp[...]`, which raises KeyError when missing. -/
def TSHeap.popItem (s : TSHeap ι) (x : ι) : TSHeap ι × TRes ι :=
  match removeFirst (fun e => decide (e.2 = x)) s.data with
  | none => (s, .exc .valueError)
  | some (e, rest) =>
    if Dict.has s.stamps e.2 then
      ({ data := H.heapify rest, stamps := Dict.del s.stamps e.2 }, .entry e.1 e.2)
    else ({ s with data := H.heapify rest }, .exc .keyError)

/-- `TimeBasedSetHeap.push`, /repo/satella/coding/structures/heaps/time.py:220-225; an exception of `pop_item` propagates. -/
def TSHeap.push (s : TSHeap ι) (ts : Int) (x : ι) : TSHeap ι × TRes ι :=
  if Dict.has s.stamps x then
    match TSHeap.popItem H s x with
    | (s', .exc e) => (s', .exc e)
    | (s', _) => ({ data := H.heappush s'.data (ts, x), stamps := Dict.set s'.stamps x ts }, .unit)
  else ({ data := H.heappush s.data (ts, x), stamps := Dict.set s.stamps x ts }, .unit)

/-- `TimeBasedSetHeap.pop`, /repo/satella/coding/structures/heaps/time.py:227-230 -/
def TSHeap.pop (s : TSHeap ι) : TSHeap ι × TRes ι :=
  match H.heappop s.data with
  | none => (s, .exc .indexError)
  | some (e, rest) =>
    if Dict.has s.stamps e.2 then ({ data := rest, stamps := Dict.del s.stamps e.2 }, .entry e.1 e.2)
    else ({ s with data := rest }, .exc .keyError)

/-- `TimeBasedSetHeap.pop_less_than` asked for up to `n` elements,
/repo/satella/coding/structures/heaps/time.py:247-265; an exception of `pop` ends it. -/
def TSHeap.popLessThan (t : Int) : Nat → TSHeap ι → TSHeap ι × Option Exc × List (Int × ι)
  | 0, s => (s, none, [])
  | n + 1, s =>
    match s.data.head? with
    | none => (s, none, [])
    | some top =>
      if top.1 ≥ t then (s, none, [])
      else
        match TSHeap.pop H s with
        | (s', .entry ts x) =>
          let r := TSHeap.popLessThan t n s'
          (r.1, r.2.1, (ts, x) :: r.2.2)
        | (s', .exc e) => (s', some e, [])
        | (s', _) => (s', none, [])

/-- One call on a `TimeBasedSetHeap`: put :232-245, pop :227-230, pop_timestamp :189-202,
pop_item :204-218, get_timestamp :165-172, pop_less_than :247-265, items :174-179,
remove :267-271 (inherited `filter_map`: `item_to_timestamp` is left alone);
/repo/satella/coding/structures/heaps/time.py.
The class has no `peek_closest`: AttributeError. -/
def TSHeap.step (s : TSHeap ι) : TOp ι → TSHeap ι × TRes ι
  | .put ts x => TSHeap.push H s ts x
  | .pop => TSHeap.pop H s
  | .popTimestamp ts =>
    match removeFirst (fun e => decide (e.1 = ts)) s.data with
    | none => (s, .exc .valueError)
    | some (e, rest) =>
      if Dict.has s.stamps e.2 then
        ({ data := H.heapify rest, stamps := Dict.del s.stamps e.2 }, .item e.2)
      else ({ s with data := rest }, .exc .keyError)
  | .popItem x => TSHeap.popItem H s x
  | .getTimestamp x =>
    match Dict.get? s.stamps x with
    | none => (s, .exc .valueError)
    | some ts => (s, .stamp ts)
  | .peekClosest => (s, .exc .attributeError)
  | .popLessThan t n =>
    match TSHeap.popLessThan H t n s with
    | (s', some e, _) => (s', .exc e)
    | (s', none, l) => (s', .entries l)
  | .remove x => ({ s with data := H.heapify (s.data.filter (fun e => decide (e.2 ≠ x))) }, .unit)
  | .items => (s, .itemList (s.data.map Prod.snd))

end Time

end Verif.Heap
