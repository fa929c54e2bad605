import Verif.Config.Model
import Verif.Merge.Spec
/-!
# What configuration sources provide (C26)
-/
namespace Verif.Config
open Verif Merge

/-- a configuration as a plain value -/
abbrev Cfg := Tree Unit

/-- `{}` -/
def emptyCfg : Cfg := .dict () .nil

/-- configurations merged in order, later ones overriding -/
def mergeAll (l : List Cfg) : Cfg := l.foldl Tree.merge emptyCfg

/-- what AlternativeSource provides, from what its sources would: the first that does not fail with ConfigurationError -/
def alternative : List (Out Cfg) → Out Cfg
  | [] => .raise .configurationError
  | .raise .configurationError :: l => alternative l
  | .raise e :: _ => .raise e
  | .ok c :: _ => if c.isDict then .ok c else .raise .assertionError

/-- the first outcome that makes a MergingSource fail, if there is one -/
def firstFatal (onFail : Nat) : List (Out Cfg) → Option Exc
  | [] => none
  | .raise .configurationError :: l => if onFail = SILENT then firstFatal onFail l else some .configurationError
  | .raise e :: _ => some e
  | .ok c :: l => if c.isDict then firstFatal onFail l else some .assertionError

/-- the configurations among the outcomes -/
def provided : List (Out Cfg) → List Cfg
  | [] => []
  | .ok c :: l => c :: provided l
  | .raise _ :: l => provided l

/-- what MergingSource provides, from what its sources would -/
def merged (onFail : Nat) (failNone : Bool) (l : List (Out Cfg)) : Out Cfg :=
  match firstFatal onFail l with
  | some e => .raise e
  | none => if provided l = [] ∧ l ≠ [] ∧ failNone = true then .raise .configurationError else .ok (mergeAll (provided l))

mutual
/-- what a source provides -/
def Src.value : Src Cfg → Out Cfg
  | .leaf o => o
  | .base => .ok emptyCfg
  | .alt ss => alternative ss.values
  | .merging onFail failNone ss => merged onFail failNone ss.values
  | .object k s => s.value.map fun c => .dict () (.cons k c .nil)
def Srcs.values : Srcs Cfg → List (Out Cfg)
  | .nil => []
  | .cons s ss => s.value :: ss.values
end

mutual
/-- the same sources with the provided values changed -/
def Src.map {α β : Type} (f : α → β) : Src α → Src β
  | .leaf o => .leaf (o.map f)
  | .base => .base
  | .alt ss => .alt (ss.map f)
  | .merging a b ss => .merging a b (ss.map f)
  | .object k s => .object k (s.map f)
def Srcs.map {α β : Type} (f : α → β) : Srcs α → Srcs β
  | .nil => .nil
  | .cons s ss => .cons (s.map f) (ss.map f)
end

mutual
/-- the objects in the values of the leaves -/
def Src.ids : Src (Tree Nat) → List Nat
  | .leaf (.ok t) => t.ids
  | .leaf (.raise _) => []
  | .base => []
  | .alt ss => ss.ids
  | .merging _ _ ss => ss.ids
  | .object _ s => s.ids
def Srcs.ids : Srcs (Tree Nat) → List Nat
  | .nil => []
  | .cons s ss => s.ids ++ ss.ids
end

mutual
/-- every value of a leaf satisfies `P` -/
def Src.All {α : Type} (P : α → Prop) : Src α → Prop
  | .leaf (.ok t) => P t
  | .leaf (.raise _) => True
  | .base => True
  | .alt ss => ss.All P
  | .merging _ _ ss => ss.All P
  | .object _ s => s.All P
def Srcs.All {α : Type} (P : α → Prop) : Srcs α → Prop
  | .nil => True
  | .cons s ss => s.All P ∧ ss.All P
end

mutual
/-- a bound on the depth of what is provided -/
def Src.depth {ι : Type} : Src (Tree ι) → Nat
  | .leaf (.ok t) => t.depth
  | .leaf (.raise _) => 1
  | .base => 1
  | .alt ss => ss.depth
  | .merging _ _ ss => ss.depth
  | .object _ s => s.depth + 1
def Srcs.depth {ι : Type} : Srcs (Tree ι) → Nat
  | .nil => 1
  | .cons s ss => max s.depth ss.depth
end

end Verif.Config
