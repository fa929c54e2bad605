import Verif.Matrix.Model
/-! # What a sparse matrix should do (C16)

The abstract state is the map from (column, row) to the value there. -/
namespace Verif.Matrix
open Verif

/-- the cells: column, row -/
abbrev Cells (V : Type _) := Int → Int → Option V

section
variable {V : Type _}

/-- `n` is the least bound of the indices satisfying `P`, all of which are not negative -/
def LeastBound (P : Int → Prop) (n : Int) : Prop :=
  (∀ x, P x → 0 ≤ x ∧ x < n) ∧ (P (n - 1) ∨ n = 0 ∧ ∀ x, ¬ P x)

/-- the smallest box with all set cells has `w` columns and `h` rows -/
def IsBox (m : Cells V) (w h : Int) : Prop :=
  LeastBound (fun c => ∃ r, m c r ≠ none) w ∧ LeastBound (fun r => ∃ c, m c r ≠ none) h

/-- a negative index counts from the end -/
def idx (i n : Int) : Int := if 0 ≤ i then i else n + i

/-- the `i`th of `vs`, None outside -/
def nth (vs : List (Option V)) (i : Int) : Option V := if 0 ≤ i then (vs[i.toNat]?).join else none

/-- `n` cells -/
def cellsOf (n : Int) (f : Int → Option V) : List (Option V) := (List.range n.toNat).map (fun i => f (Int.ofNat i))

/-- What each call should return and do, given the smallest box.  Cells not mentioned keep their values. -/
inductive Spec : Cells V → Op V → Res V → Cells V → Prop
  | set {m w h c r v} : IsBox m w h → 0 ≤ idx c w → 0 ≤ idx r h →
      Spec m (.set c r v) .unit (fun x y => if x = idx c w ∧ y = idx r h then v else m x y)
  | setRow {m w h r vs} : IsBox m w h → 0 ≤ idx r h →
      Spec m (.setRow r vs) .unit (fun x y => if y = idx r h ∧ 0 ≤ x ∧ x < vs.length then nth vs x else m x y)
  | setCol {m w h c vs} : IsBox m w h → 0 ≤ idx c w →
      Spec m (.setCol c vs) .unit (fun x y => if x = idx c w ∧ 0 ≤ y ∧ y < vs.length then nth vs y else m x y)
  | setAll {m vss} : Spec m (.setAll vss) .unit
      (fun x y => if 0 ≤ y ∧ y < vss.length then nth (vss.getD y.toNat []) x else none)
  | del {m w h c r} : IsBox m w h → 0 ≤ idx c w → 0 ≤ idx r h →
      Spec m (.del c r) .unit (fun x y => if x = idx c w ∧ y = idx r h then none else m x y)
  | delRow {m w h r} : IsBox m w h → 0 ≤ idx r h →
      Spec m (.delRow r) .unit (fun x y => if y = idx r h then none else m x y)
  | delCol {m w h c} : IsBox m w h → 0 ≤ idx c w →
      Spec m (.delCol c) .unit (fun x y => if x = idx c w then none else m x y)
  | clear {m} : Spec m .clear .unit (fun _ _ => none)
  | deleteRow {m r} : Spec m (.deleteRow r) .unit (fun x y => if y = r then none else m x y)
  | appendRow {m w h vs} : IsBox m w h →
      Spec m (.appendRow vs) .unit (fun x y => if y = h ∧ 0 ≤ x ∧ x < vs.length then nth vs x else m x y)
  | shoot {m} : Spec m .shoot .unit (fun x y => if x % 2 = 0 ∧ y % 2 = 0 then m (x / 2) (y / 2) else none)
  | get {m w h c r} : IsBox m w h → 0 ≤ idx c w → idx c w < w → 0 ≤ idx r h → idx r h < h →
      Spec m (.get c r) (.val (m (idx c w) (idx r h))) m
  | getOutside {m w h c r} : IsBox m w h → w ≤ idx c w ∨ h ≤ idx r h → Spec m (.get c r) (.exc .indexError) m
  | getRow {m w h r} : IsBox m w h → 0 ≤ idx r h → idx r h < h →
      Spec m (.getRow r) (.list (cellsOf w (fun x => m x (idx r h)))) m
  | getCol {m w h c} : IsBox m w h → 0 ≤ idx c w → idx c w < w →
      Spec m (.getCol c) (.list (cellsOf h (fun y => m (idx c w) y))) m
  | getRowOutside {m w h r} : IsBox m w h → h ≤ idx r h → 0 < h → Spec m (.getRow r) (.exc .indexError) m
  | getColOutside {m w h c} : IsBox m w h → w ≤ idx c w → 0 < w → Spec m (.getCol c) (.exc .indexError) m
  /-- a slice of an empty matrix is empty -/
  | getRowEmpty {m r} : (∀ x y, m x y = none) → Spec m (.getRow r) (.list []) m
  | getColEmpty {m c} : (∀ x y, m x y = none) → Spec m (.getCol c) (.list []) m
  | getAll {m w h} : IsBox m w h →
      Spec m .getAll (.lists ((List.range h.toNat).map (fun y => cellsOf w (fun x => m x (Int.ofNat y))))) m
  | dims {m w h} : IsBox m w h → Spec m .dims (.dims w h) m

end
end Verif.Matrix
