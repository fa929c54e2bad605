import Verif.Py.Dict
import Verif.Conc.Monitor
/-!
# Model of satella/coding/algos.py (merge_dicts)

`merge_dicts` changes its first argument in place and puts parts of the second one into it, so dictionaries and lists are objects on a heap, known by reference.
-/
namespace Verif.Merge
open Verif Conc

/-- keys of dictionaries (anything hashable).  (Part of the model of `merge_dicts`, /repo/satella/coding/algos.py:6-26.) -/
abbrev Key := Nat

/-- A Python value: neither a dictionary nor a list, or a reference to one.  (Part of the model of `merge_dicts`, /repo/satella/coding/algos.py:6-26.) -/
inductive Val where
  | atom (n : Nat)
  | ref (i : Nat)
  deriving DecidableEq, Repr

/-- An object: a dictionary or a list.  The elements of lists are never looked at.  (Part of the model of `merge_dicts`, /repo/satella/coding/algos.py:6-26.) -/
inductive Obj where
  | dict (d : Dict Key Val)
  | list (xs : List Val)
  deriving DecidableEq, Repr

/-- part of the model of `merge_dicts`, /repo/satella/coding/algos.py:6-26 -/
abbrev Heap := Nat → Obj

/-- `o[k]` for the dictionary at `i`; `none` is KeyError.  (Part of the model of `merge_dicts`, /repo/satella/coding/algos.py:6-26.) -/
def getItem (h : Heap) (i : Nat) (k : Key) : Option Val :=
  match h i with
  | .dict d => d.get? k
  | _ => none

/-- `o[k] = v` for the dictionary at `i`.  (Part of the model of `merge_dicts`, /repo/satella/coding/algos.py:6-26.) -/
def setItem (h : Heap) (i : Nat) (k : Key) (v : Val) : Heap :=
  match h i with
  | .dict d => upd h i (.dict (d.set k v))
  | _ => h

/-- The loop over the keys of the second dictionary (at `j`), /repo/satella/coding/algos.py:15-19; `rec` is the recursive call.  The keys are those at the beginning of the loop (Python
goes through the dictionary itself, and raises RuntimeError if it grows meanwhile).  `none`: an exception. -/
def loopH (rec : Heap → Val → Val → Option (Heap × Val)) (i j : Nat) : List Key → Heap → Option Heap
  | [], h => some h
  | k :: ks, h =>
    match getItem h j k with
    | none => none
    | some y =>
      match getItem h i k with
      | some x =>
        match rec h x y with
        | none => none
        | some (h', r) => loopH rec i j ks (setItem h' i k r)
      | none => loopH rec i j ks (setItem h i k y)

/-- `merge_dicts`, /repo/satella/coding/algos.py:6-26; the first argument is how deep recursion may go (`none`: RecursionError). -/
def mergeH : Nat → Heap → Val → Val → Option (Heap × Val)
  | 0, _, _, _ => none
  | f + 1, h, .ref i, .ref j =>
    match h i, h j with
    | .dict _, .dict d2 =>
      match loopH (mergeH f) i j d2.keys h with
      | none => none
      | some h' => some (h', .ref i)
    | .list xs, .list ys => some (upd h i (.list (xs ++ ys)), .ref i)
    | _, _ => some (h, .ref j)
  | _ + 1, h, _, v2 => some (h, v2)

end Verif.Merge
