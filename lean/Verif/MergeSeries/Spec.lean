import Verif.Py.Basic
/-!
# What merging series means

A series is a list of (timestamp, value).
-/
namespace Verif.MergeSeries

variable {V : Type}

/-- timestamps do not decrease -/
def Ordered (l : List (Int × V)) : Prop := l.Pairwise (fun x y => x.1 ≤ y.1)

/-- timestamps increase -/
def Strict (l : List (Int × V)) : Prop := l.Pairwise (fun x y => x.1 < y.1)

/-- the value a series has at time `t`: that of its last entry not after `t`; `none` if it has not started -/
def latest (t : Int) (l : List (Int × V)) : Option V := ((l.filter (fun x => decide (x.1 ≤ t))).getLast?).map (·.2)

/-- `m` is the time at which the last series starts (and there are series, and all of them start) -/
def Start (ls : List (List (Int × V))) (m : Int) : Prop :=
  (∃ l ∈ ls, ∃ x, l.head? = some x ∧ x.1 = m) ∧ ∀ l ∈ ls, ∃ x, l.head? = some x ∧ x.1 ≤ m

/-- every time at which some series changes once all have started, in increasing order, once, each with the values of all series at that time -/
def Merged (ls : List (List (Int × V))) (m : Int) (out : List (Int × List V)) : Prop :=
  (out.map (·.1)).Pairwise (· < ·) ∧
  (∀ t, t ∈ out.map (·.1) ↔ m ≤ t ∧ ∃ l ∈ ls, ∃ x ∈ l, x.1 = t) ∧
  ∀ p ∈ out, p.2.map some = ls.map (latest p.1)

end Verif.MergeSeries
