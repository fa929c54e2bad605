import Verif.Merge.Model
/-!
# Merging nested dictionaries (C25)

Values as trees.  `ι` is what identifies an object: `Tree Nat` are trees of heap objects, `Tree Unit` are plain values.
-/
namespace Verif.Merge
open Verif Conc

mutual
/-- a value: an atom, a list, or a dictionary -/
inductive Tree (ι : Type) where
  | atom (n : Nat)
  | list (i : ι) (xs : List Val)
  | dict (i : ι) (es : Ents ι)
/-- the entries of a dictionary, in order -/
inductive Ents (ι : Type) where
  | nil
  | cons (k : Key) (t : Tree ι) (es : Ents ι)
end

section
variable {ι : Type}

/-- the entry under a key -/
def Ents.get : Ents ι → Key → Option (Tree ι)
  | .nil, _ => none
  | .cons k' t es, k => if k' = k then some t else es.get k

/-- the keys, in order -/
def Ents.keys : Ents ι → List Key
  | .nil => []
  | .cons k _ es => k :: es.keys

mutual
/-- no dictionary has a key twice -/
def Tree.WF : Tree ι → Prop
  | .atom _ => True
  | .list _ _ => True
  | .dict _ es => es.keys.Nodup ∧ es.WF
def Ents.WF : Ents ι → Prop
  | .nil => True
  | .cons _ t es => t.WF ∧ es.WF
end

/-- change the entry under `k` with `f`; if there is none, add `t` at the end -/
def Ents.alter (k : Key) (f : Tree ι → Tree ι) (t : Tree ι) : Ents ι → Ents ι
  | .nil => .cons k t .nil
  | .cons k' x es => if k' = k then .cons k' (f x) es else .cons k' x (es.alter k f t)

mutual
/-- merge into `v1` the second value -/
def Tree.into : Tree ι → Tree ι → Tree ι
  | .atom n => fun _ => .atom n
  | .list j ys => fun v1 => match v1 with
    | .list i xs => .list i (xs ++ ys)
    | _ => .list j ys
  | .dict j b => fun v1 => match v1 with
    | .dict i a => .dict i (b.into a)
    | _ => .dict j b
def Ents.into : Ents ι → Ents ι → Ents ι
  | .nil => fun a => a
  | .cons k t b => fun a => b.into (a.alter k t.into t)
end

/-- `v1` merged with `v2`: entry by entry for dictionaries (see `C25_entry`, `C25_keys`), concatenated for lists, `v2` otherwise -/
def Tree.merge (v1 v2 : Tree ι) : Tree ι := v2.into v1

/-! ## Trees on the heap -/

/-- the value a tree stands for -/
def Tree.val : Tree Nat → Val
  | .atom n => .atom n
  | .list i _ => .ref i
  | .dict i _ => .ref i

/-- the entries as a dictionary of values -/
def Ents.dict : Ents Nat → Dict Key Val
  | .nil => []
  | .cons k t es => (k, t.val) :: es.dict

mutual
/-- the heap contains this tree -/
def Tree.Holds (h : Heap) : Tree Nat → Prop
  | .atom _ => True
  | .list i xs => h i = .list xs
  | .dict i es => h i = .dict es.dict ∧ es.Holds h
def Ents.Holds (h : Heap) : Ents Nat → Prop
  | .nil => True
  | .cons _ t es => t.Holds h ∧ es.Holds h
end

mutual
/-- the objects a tree consists of -/
def Tree.ids : Tree Nat → List Nat
  | .atom _ => []
  | .list i _ => [i]
  | .dict i es => i :: es.ids
def Ents.ids : Ents Nat → List Nat
  | .nil => []
  | .cons _ t es => t.ids ++ es.ids
end

mutual
/-- how deep a tree is -/
def Tree.depth : Tree ι → Nat
  | .atom _ => 1
  | .list _ _ => 1
  | .dict _ es => es.depth + 1
def Ents.depth : Ents ι → Nat
  | .nil => 0
  | .cons _ t es => max t.depth es.depth
end

mutual
/-- forget the identity of objects -/
def Tree.plain : Tree ι → Tree Unit
  | .atom n => .atom n
  | .list _ xs => .list () xs
  | .dict _ es => .dict () es.plain
def Ents.plain : Ents ι → Ents Unit
  | .nil => .nil
  | .cons k t es => .cons k t.plain es.plain
end

/-- where associativity can be expected: no key path under which the first and third are both lists (both dictionaries) while the second is not -/
def Tree.isList : Tree ι → Bool
  | .list _ _ => true
  | _ => false

def Tree.isDict : Tree ι → Bool
  | .dict _ _ => true
  | _ => false

mutual
def Tree.Fit : Tree ι → Tree ι → Tree ι → Prop
  | .atom _ => fun _ _ => True
  | .list _ _ => fun a b => a.isList = true → b.isList = true
  | .dict _ ec => fun a b => (a.isDict = true → b.isDict = true) ∧
      match a, b with
      | .dict _ ea, .dict _ eb => ec.Fit ea eb
      | _, _ => True
def Ents.Fit : Ents ι → Ents ι → Ents ι → Prop
  | .nil => fun _ _ => True
  | .cons k t ec => fun ea eb =>
      (match ea.get k, eb.get k with
      | some x, some y => t.Fit x y
      | _, _ => True) ∧ ec.Fit ea eb
end

end
end Verif.Merge
