import Verif.Ids.Model
/-! # What an identifier allocator should do (C17) -/
namespace Verif.Ids
open Verif

/-- below the limit, if there is one -/
def Below (hi : Option Int) (x : Int) : Prop := ∀ t, hi = some t → x < t

/-- The abstract state is the set of identifiers in use.  `lo` and `hi` bound the identifiers handed out, `markHi` those that may be
reserved (the statement of C17 has `markHi = hi`). -/
inductive Spec (lo : Int) (hi markHi : Option Int) : (Int → Prop) → Op → Res → (Int → Prop) → Prop
  /-- an identifier not in use and within the bounds is handed out -/
  | allocate {A i x} : ¬ A x → lo ≤ x → Below hi x →
      Spec lo hi markHi A (.allocate i) (.id x) (fun y => y = x ∨ A y)
  /-- only if all are in use there is none -/
  | empty {A i} : (∀ x, lo ≤ x → Below hi x → A x) → Spec lo hi markHi A (.allocate i) (.exc .empty) A
  | mark {A x} : ¬ A x → lo ≤ x → Below markHi x →
      Spec lo hi markHi A (.markAllocated x) .unit (fun y => y = x ∨ A y)
  | markTaken {A x} : A x → Spec lo hi markHi A (.markAllocated x) (.exc .alreadyAllocated) A
  | markOutside {A x} : ¬ (lo ≤ x ∧ Below markHi x) → Spec lo hi markHi A (.markAllocated x) (.exc .valueError) A
  | free {A x} : A x → Spec lo hi markHi A (.markFree x) .unit (fun y => y ≠ x ∧ A y)
  | freeUnused {A x} : ¬ A x → Spec lo hi markHi A (.markFree x) (.exc .valueError) A

end Verif.Ids
