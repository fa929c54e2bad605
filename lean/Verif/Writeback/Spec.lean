import Verif.Writeback.Model
/-! # What a write-back cache should do (C14)

The abstract state is the plain dictionary that received the same writes, and the key of a lookup still being answered. -/
namespace Verif.Writeback
open Verif

section
variable {K V : Type _} [DecidableEq K]

/-- The plain dictionary and the pending lookup. -/
structure Plain (K V : Type _) where
  dict : K → Option V
  waiting : Option K

/-- what a plain dictionary answers -/
def Plain.answer (p : Plain K V) (k : K) : Res V :=
  match p.dict k with
  | some v => .val v
  | none => .exc .keyError

/-- What calls and events should give.  `canDelete`: a delete method was supplied. -/
inductive Spec (canDelete : Bool) : Plain K V → Op K V → Res V → Plain K V → Prop
  /-- a blocked client does nothing -/
  | blocked {p k o} : p.waiting = some k → (∀ i, o ≠ .finish i) → o ≠ .start → Spec canDelete p o .idle p
  /-- a lookup is answered at once by the plain dictionary's answer, or later -/
  | get {p k} : p.waiting = none → Spec canDelete p (.get k) (p.answer k) p
  | getLater {p k} : p.waiting = none → Spec canDelete p (.get k) .pending { p with waiting := some k }
  | set {p k v} : p.waiting = none →
      Spec canDelete p (.set k v) .unit { p with dict := fun x => if x = k then some v else p.dict x }
  | del {p k} : p.waiting = none → canDelete = true →
      Spec canDelete p (.del k) .unit { p with dict := fun x => if x = k then none else p.dict x }
  | delUnsupported {p k} : p.waiting = none → canDelete = false →
      Spec canDelete p (.del k) (.exc .typeError) p
  | sync {p r} : p.waiting = none → (r = .unit ∨ r = .pending) → Spec canDelete p .sync r p
  | start {p} : Spec canDelete p .start .idle p
  | finishIdle {p i} : Spec canDelete p (.finish i) .idle p
  /-- the pending lookup is answered by the plain dictionary's answer -/
  | finishRead {p k i} : p.waiting = some k →
      Spec canDelete p (.finish i) (p.answer k) { p with waiting := none }

end
end Verif.Writeback
