import Verif.Merge.Model
import Verif.Py.Basic
/-!
# Model of satella/configuration/sources (base.py, derivative.py, object_from.py, format.py, file.py)

Sources provide references to objects on a heap, because `MergingSource` merges in place.
-/
namespace Verif.Config
open Verif Conc Merge

/-- what a call returns: a value or an exception.  (Part of the model of `BaseSource`, /repo/satella/configuration/sources/base.py:7-20.) -/
inductive Out (α : Type) where
  | ok (v : α)
  | raise (e : Exc)
  deriving DecidableEq, Repr

/-- part of the model of `BaseSource`, /repo/satella/configuration/sources/base.py:7-20 -/
def Out.map {α β : Type} (f : α → β) : Out α → Out β
  | .ok v => .ok (f v)
  | .raise e => .raise e

mutual
/-- Configuration sources.  `leaf` is any other source (StaticSource, or one that reads something), which provides a value or raises.  (Part of the model of `BaseSource`, /repo/satella/configuration/sources/base.py:7-20.) -/
inductive Src (α : Type) where
  | leaf (o : Out α)
  /-- `BaseSource()`, /repo/satella/configuration/sources/base.py:7-20 -/
  | base
  /-- `AlternativeSource(*ss)`, /repo/satella/configuration/sources/derivative.py:10-24 -/
  | alt (ss : Srcs α)
  /-- `MergingSource(*ss, on_fail, fail_if_no_sources_are_correct)`, /repo/satella/configuration/sources/derivative.py:59-81 -/
  | merging (onFail : Nat) (failNone : Bool) (ss : Srcs α)
  /-- `BuildObjectFrom(key, child)`, /repo/satella/configuration/sources/object_from.py:6-15 -/
  | object (key : Key) (child : Src α)
/-- part of the model of `OptionalSource`, /repo/satella/configuration/sources/derivative.py:41-56 -/
inductive Srcs (α : Type) where
  | nil
  | cons (s : Src α) (ss : Srcs α)
end

/-- `OptionalSource(s)`, /repo/satella/configuration/sources/derivative.py:41-53 -/
def Src.optional {α : Type} (s : Src α) : Src α := .alt (.cons s (.cons .base .nil))

/-- `MergingSource.RAISE`, `MergingSource.SILENT`, /repo/satella/configuration/sources/derivative.py:72-73 -/
def RAISE : Nat := 0
/-- part of the model of `StaticSource`, /repo/satella/configuration/sources/base.py:23-33 -/
def SILENT : Nat := 1

/-- objects, and the address of the next new one.  (Part of the model of `StaticSource`, /repo/satella/configuration/sources/base.py:23-33.) -/
structure St where
  heap : Heap
  next : Nat

/-- a new dictionary.  (Part of the model of `StaticSource`, /repo/satella/configuration/sources/base.py:23-33.) -/
def St.alloc (s : St) (d : Dict Key Val) : St × Val := ({ heap := upd s.heap s.next (.dict d), next := s.next + 1 }, .ref s.next)

/-- `isinstance(v, dict)`.  (Part of the model of `StaticSource`, /repo/satella/configuration/sources/base.py:23-33.) -/
def St.isDict (s : St) (v : Val) : Bool :=
  match v with
  | .ref i => match s.heap i with
    | .dict _ => true
    | _ => false
  | _ => false

/-- `bool(self.sources)`.  (Part of the model of `StaticSource`, /repo/satella/configuration/sources/base.py:23-33.) -/
def Srcs.nonempty {α : Type} : Srcs α → Bool
  | .nil => false
  | .cons _ _ => true

mutual
/-- `provide()`.  `f` is the recursion limit within merge_dicts.

* leaf: /repo/satella/configuration/sources/base.py:32-33 for StaticSource
* base: /repo/satella/configuration/sources/base.py:11-17
* alt: /repo/satella/configuration/sources/derivative.py:26-38
* merging: /repo/satella/configuration/sources/derivative.py:83-105
* object: /repo/satella/configuration/sources/object_from.py:17-23 -/
def Src.provide (f : Nat) : Src Val → St → St × Out Val
  | .leaf o, st => (st, o)
  | .base, st => ((st.alloc []).1, .ok (st.alloc []).2)
  | .alt ss, st => ss.first f st
  | .merging onFail failNone ss, st =>
    match ss.mergeInto f onFail (st.alloc []).1 (st.alloc []).2 0 with
    | (st', .raise e) => (st', .raise e)
    | (st', .ok (cfg, correct)) =>
      if correct = 0 ∧ ss.nonempty = true ∧ failNone = true then (st', .raise .configurationError) else (st', .ok cfg)
  | .object key child, st =>
    match child.provide f st with
    | (st', .raise e) => (st', .raise e)
    | (st', .ok v) => ((st'.alloc [(key, v)]).1, .ok (st'.alloc [(key, v)]).2)
/-- the loop of AlternativeSource.provide, /repo/satella/configuration/sources/derivative.py:30-38 -/
def Srcs.first (f : Nat) : Srcs Val → St → St × Out Val
  | .nil, st => (st, .raise .configurationError)
  | .cons s ss, st =>
    match s.provide f st with
    | (st', .ok v) => if st'.isDict v then (st', .ok v) else (st', .raise .assertionError)
    | (st', .raise .configurationError) => ss.first f st'
    | (st', .raise e) => (st', .raise e)
/-- the loop of MergingSource.provide, /repo/satella/configuration/sources/derivative.py:87-100; arguments: cfg, correct_sources -/
def Srcs.mergeInto (f : Nat) (onFail : Nat) : Srcs Val → St → Val → Nat → St × Out (Val × Nat)
  | .nil, st, cfg, correct => (st, .ok (cfg, correct))
  | .cons s ss, st, cfg, correct =>
    match s.provide f st with
    | (st', .ok p) =>
      if st'.isDict p then
        match mergeH f st'.heap cfg p with
        | none => (st', .raise .runtimeError)
        | some (h, cfg') => ss.mergeInto f onFail { st' with heap := h } cfg' (correct + 1)
      else (st', .raise .assertionError)
    | (st', .raise .configurationError) =>
      if onFail = RAISE then (st', .raise .configurationError)
      else if onFail = SILENT then
        match mergeH f (st'.alloc []).1.heap cfg (st'.alloc []).2 with
        | none => ((st'.alloc []).1, .raise .runtimeError)
        | some (h, cfg') => ss.mergeInto f onFail { (st'.alloc []).1 with heap := h } cfg' correct
      else (st', .raise .configurationError)
    | (st', .raise e) => (st', .raise e)
end

end Verif.Config
