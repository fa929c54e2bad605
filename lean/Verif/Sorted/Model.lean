import Verif.Py.Basic
import Verif.Py.Dict
import Verif.Py.Run
/-!
# Model of satella/coding/structures/sorted_list.py and ranking.py

Elements are objects of a type `ι` (Lean equality is object identity); `eqv a b` is Python's `a == b`, any
boolean function.  Keys are of a linearly ordered type.
-/
namespace Verif.SortedL
open Verif

/-- The parameters of a SortedList: the key function, `==` on elements
(/repo/satella/coding/structures/sorted_list.py:22,26,52). -/
structure Env (ι κ : Type _) where
  key : ι → κ
  eqv : ι → ι → Bool
  eqv_refl : ∀ x, eqv x x = true

/-- A SortedList: `items` and `keys`, two parallel deques (/repo/satella/coding/structures/sorted_list.py:20,24-25). -/
structure SL (ι κ : Type _) where
  items : List ι
  keys : List κ

section
variable {ι κ : Type _} [PyOrd ι] [PyLinOrd κ] [DecidableEq κ] (E : Env ι κ)

/-- `a <= b` on `(key, item)` tuples, the order used by `sorted`,
/repo/satella/coding/structures/sorted_list.py:23: the keys decide unless equal. -/
def pairLe (a b : κ × ι) : Bool :=
  if a.1 = b.1 then !PyOrd.lt b.2 a.2 else !PyOrd.lt b.1 a.1

/-- `SortedList.__init__`, /repo/satella/coding/structures/sorted_list.py:22-26; Python's `sorted` is a stable merge sort. -/
def SL.init (items : List ι) : SL ι κ :=
  let sort := (items.map fun i => (E.key i, i)).mergeSort pairLe
  { items := sort.map Prod.snd, keys := sort.map Prod.fst }

/-- The `for`/`else` scan of `SortedList.add`, /repo/satella/coding/structures/sorted_list.py:82-86:
the first index with `key_value <= keys[index]`, or the length. -/
def addIndex (k : κ) : List κ → Nat
  | [] => 0
  | k' :: ks => if PyOrd.lt k' k then addIndex k ks + 1 else 0

/-- `SortedList.add`, /repo/satella/coding/structures/sorted_list.py:73-91 -/
def SL.add (s : SL ι κ) (x : ι) : SL ι κ × Nat :=
  let keyValue := E.key x
  let index := addIndex keyValue s.keys
  ({ items := s.items.insertIdx index x, keys := s.keys.insertIdx index keyValue }, index)

/-- `SortedList.index`, /repo/satella/coding/structures/sorted_list.py:50-52 (`Sequence.index`: the first element
equal to `x`; `none` is ValueError). -/
def SL.index (s : SL ι κ) (x : ι) : Option Nat := s.items.findIdx? (fun y => E.eqv y x)

/-- `SortedList.remove`, /repo/satella/coding/structures/sorted_list.py:62-71 -/
def SL.remove (s : SL ι κ) (x : ι) : SL ι κ × Option Exc :=
  match SL.index E s x with
  | none => (s, some .valueError)
  | some i => ({ items := s.items.eraseIdx i, keys := s.keys.eraseIdx i }, none)

/-- `SortedList.pop`, /repo/satella/coding/structures/sorted_list.py:34-37; `none` is IndexError. -/
def SL.pop (s : SL ι κ) : SL ι κ × Option ι :=
  match s.keys.getLast?, s.items.getLast? with
  | none, _ => (s, none)
  | some _, none => ({ s with keys := s.keys.dropLast }, none)
  | some _, some x => ({ items := s.items.dropLast, keys := s.keys.dropLast }, some x)

/-- `SortedList.popleft`, /repo/satella/coding/structures/sorted_list.py:39-42; `none` is IndexError. -/
def SL.popleft (s : SL ι κ) : SL ι κ × Option ι :=
  match s.keys, s.items with
  | [], _ => (s, none)
  | _ :: ks, [] => ({ s with keys := ks }, none)
  | _ :: ks, x :: xs => ({ items := xs, keys := ks }, some x)

/-- `seq[i]` for an int index, negative counting from the end; `none` is IndexError.
Used by /repo/satella/coding/structures/sorted_list.py:59-60,144. -/
def pyGet {α : Type _} (l : List α) (i : Int) : Option α :=
  if 0 ≤ i then l[i.toNat]?
  else if 0 ≤ i + l.length then l[(i + l.length).toNat]? else none

/-- Calls on a SortedList, /repo/satella/coding/structures/sorted_list.py:28-91. -/
inductive Op (ι : Type _) where
  | add (x : ι)
  | extend (xs : List ι)
  | remove (x : ι)
  | pop
  | popleft
  | index (x : ι)
  | get (i : Int)
  | contains (x : ι)
  | len
  | iter

/-- What a call returns.  (Part of the model of `Ranking`, /repo/satella/coding/structures/ranking.py:8-81.) -/
inductive Res (ι : Type _) where
  | unit
  | nat (n : Nat)
  | val (x : ι)
  | bool (b : Bool)
  | vals (l : List ι)
  | exc (e : Exc)
  deriving DecidableEq, Repr

/-- One call on a SortedList: add :73-91, extend :54-57, remove :62-71, pop :34-37, popleft :39-42,
index :50-52, `[]` :59-60, `in` :31-32, len :47-48, iter :44-45;
/repo/satella/coding/structures/sorted_list.py -/
def SL.step (s : SL ι κ) : Op ι → SL ι κ × Res ι
  | .add x => let r := SL.add E s x; (r.1, .nat r.2)
  | .extend xs => (xs.foldl (fun s x => (SL.add E s x).1) s, .unit)
  | .remove x =>
    match SL.remove E s x with
    | (s', none) => (s', .unit)
    | (s', some e) => (s', .exc e)
  | .pop =>
    match SL.pop s with
    | (s', some x) => (s', .val x)
    | (s', none) => (s', .exc .indexError)
  | .popleft =>
    match SL.popleft s with
    | (s', some x) => (s', .val x)
    | (s', none) => (s', .exc .indexError)
  | .index x =>
    match SL.index E s x with
    | some i => (s, .nat i)
    | none => (s, .exc .valueError)
  | .get i =>
    match pyGet s.items i with
    | some x => (s, .val x)
    | none => (s, .exc .indexError)
  | .contains x => (s, .bool (s.items.any (fun y => E.eqv y x)))
  | .len => (s, .nat s.items.length)
  | .iter => (s, .vals s.items)

/-! ## Ranking -/

/-- A Ranking: the sorted list and `element_to_position`, keyed by object identity
(/repo/satella/coding/structures/ranking.py:29-37). -/
structure Rk (ι κ : Type _) where
  ranking : SL ι κ
  pos : Dict ι Nat

variable [DecidableEq ι]

/-- `for position, item in enumerate(seq, start=p): element_to_position[id(item)] = position`,
/repo/satella/coding/structures/ranking.py:36-37,47-48,56-57 -/
def enumPos (p : Nat) : List ι → Dict ι Nat → Dict ι Nat
  | [], d => d
  | x :: xs, d => enumPos (p + 1) xs (Dict.set d x p)

/-- `Ranking.__init__`, /repo/satella/coding/structures/ranking.py:31-37 -/
def Rk.init (items : List ι) : Rk ι κ :=
  let r := SL.init E items
  { ranking := r, pos := enumPos 0 r.items [] }

/-- `Ranking.add`, /repo/satella/coding/structures/ranking.py:42-48 -/
def Rk.add (s : Rk ι κ) (x : ι) : Rk ι κ :=
  let r := SL.add E s.ranking x
  { ranking := r.1, pos := enumPos r.2 (r.1.items.drop r.2) s.pos }

/-- `Ranking.remove`, /repo/satella/coding/structures/ranking.py:50-57 -/
def Rk.remove (s : Rk ι κ) (x : ι) : Rk ι κ × Option Exc :=
  match SL.index E s.ranking x with
  | none => (s, some .valueError)
  | some index =>
    match SL.remove E s.ranking x with
    | (_, some e) => (s, some e)
    | (r, none) => ({ ranking := r, pos := enumPos index (r.items.drop index) s.pos }, none)

/-- Calls on a Ranking, /repo/satella/coding/structures/ranking.py:39-81. -/
inductive RkOp (ι : Type _) where
  | add (x : ι)
  | remove (x : ι)
  | positionOf (x : ι)
  | rankingFor (x : ι)
  | get (i : Int)
  | sorted

/-- One call on a Ranking: add :42-48, remove :50-57, get_position_of :59-67,
calculate_ranking_for :39-40, `[]` :69-75, get_sorted :77-81 (consumed);
/repo/satella/coding/structures/ranking.py -/
def Rk.step (s : Rk ι κ) : RkOp ι → Rk ι κ × Res ι
  | .add x => (Rk.add E s x, .unit)
  | .remove x =>
    match Rk.remove E s x with
    | (s', none) => (s', .unit)
    | (s', some e) => (s', .exc e)
  | .positionOf x =>
    match SL.index E s.ranking x with
    | some i => (s, .nat i)
    | none => (s, .exc .valueError)
  | .rankingFor x =>
    match Dict.get? s.pos x with
    | some i => (s, .nat i)
    | none => (s, .exc .keyError)
  | .get i =>
    match pyGet s.ranking.items i with
    | some x => (s, .val x)
    | none => (s, .exc .indexError)
  | .sorted => (s, .vals s.ranking.items)

end
end Verif.SortedL
