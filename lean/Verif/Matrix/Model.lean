import Verif.Py.Basic
import Verif.Py.Dict
import Verif.Py.Run
/-!
# Model of satella/coding/structures/sparse_matrix.py

A value is an `Option V`; `none` is Python's None, which cannot be stored.  Slices are only `:`; other slices raise IndexError and
are not modelled.  The nested defaultdicts are dictionaries; where the code
looks up a missing row of the outer one the row is created, as in `delete_row`.
-/
namespace Verif.Matrix
open Verif

/-- The attributes, /repo/satella/coding/structures/sparse_matrix.py:87-91 -/
structure St (V : Type _) where
  rows : Dict Int (Dict Int V)
  count : Dict Int Nat
  noCols : Int
  noRows : Int

/-- Calls.  First coordinate: column.  (Part of the model of `_cleanup_key`, /repo/satella/coding/structures/sparse_matrix.py:10-19.) -/
inductive Op (V : Type _) where
  /-- `sm[c, r] = v` -/
  | set (c r : Int) (v : Option V)
  /-- `sm[:, r] = vs` -/
  | setRow (r : Int) (vs : List (Option V))
  /-- `sm[c, :] = vs` -/
  | setCol (c : Int) (vs : List (Option V))
  /-- `sm[:, :] = vss` -/
  | setAll (vss : List (List (Option V)))
  /-- `del sm[c, r]` -/
  | del (c r : Int)
  | delRow (r : Int)
  | delCol (c : Int)
  | clear
  | deleteRow (r : Int)
  | appendRow (vs : List (Option V))
  /-- `sm = sm.shoot()` -/
  | shoot
  | get (c r : Int)
  | getRow (r : Int)
  | getCol (c : Int)
  | getAll
  /-- `(sm.columns, sm.rows)` -/
  | dims

/-- What a call returns.  (Part of the model of `_cleanup_key`, /repo/satella/coding/structures/sparse_matrix.py:10-19.) -/
inductive Res (V : Type _) where
  | unit
  | val (v : Option V)
  | list (l : List (Option V))
  | lists (l : List (List (Option V)))
  | dims (c r : Int)
  | exc (e : Exc)
  deriving DecidableEq, Repr

section
variable {V : Type _}

/-- `_cleanup_key` for an integer, /repo/satella/coding/structures/sparse_matrix.py:15-19 -/
def cleanupKey (i n : Int) : Int := if i < 0 then i + n else i

/-- a new matrix, and `clear`, /repo/satella/coding/structures/sparse_matrix.py:87-91,132-139 -/
def St.empty : St V := { rows := [], count := [], noCols := 0, noRows := 0 }

/-- `_increment_column_count`, /repo/satella/coding/structures/sparse_matrix.py:213-217 -/
def incCount (count : Dict Int Nat) (c : Int) : Dict Int Nat :=
  match Dict.get? count c with
  | none => Dict.set count c 1
  | some n => Dict.set count c (n + 1)

/-- `__setitem__` of one value that is not None, at cleaned-up coordinates,
/repo/satella/coding/structures/sparse_matrix.py:271-280 -/
def St.put (s : St V) (c r : Int) (v : V) : St V :=
  let row := Dict.get? s.rows r
  { noCols := if c ≥ s.noCols then c + 1 else s.noCols
    noRows := if r ≥ s.noRows then r + 1 else s.noRows
    count :=
      match row with
      | none => incCount s.count c
      | some d => if Dict.has d c then s.count else incCount s.count c
    rows := Dict.set s.rows r (Dict.set (row.getD []) c v) }

/-- `max` of the keys; ValueError (`none`) when there are none,
/repo/satella/coding/structures/sparse_matrix.py:306-312 -/
def pyMax : List Int → Option Int
  | [] => none
  | x :: xs => some (xs.foldl (fun a b => if b > a then b else a) x)

/-- `__delitem__` of one cell at cleaned-up coordinates, /repo/satella/coding/structures/sparse_matrix.py:314,327-339; KeyError is
silenced, ValueError from `max` is not -/
def St.delAt (s : St V) (c r : Int) : St V × Option Exc :=
  match Dict.get? s.rows r with
  | none => (s, none)
  | some d =>
    if !Dict.has d c then (s, none)
    else
      let d' := Dict.del d c
      let rows := if d'.isEmpty then Dict.del s.rows r else Dict.set s.rows r d'
      match Dict.get? s.count c with
      | none => ({ s with rows := rows }, none)
      | some n =>
        let count := if n = 1 then Dict.del s.count c else Dict.set s.count c (n - 1)
        match pyMax (Dict.keys count) with
        | none => ({ s with rows := rows, count := count }, some .valueError)
        | some mc =>
          match pyMax (Dict.keys rows) with
          | none => ({ s with rows := rows, count := count, noCols := mc + 1 }, some .valueError)
          | some mr => ({ rows := rows, count := count, noCols := mc + 1, noRows := mr + 1 }, none)

/-- `del sm[c, r]`, /repo/satella/coding/structures/sparse_matrix.py:314-316,326-339 -/
def St.del1 (s : St V) (c r : Int) : St V × Option Exc :=
  s.delAt (cleanupKey c s.noCols) (cleanupKey r s.noRows)

/-- `sm[c, r] = v`, /repo/satella/coding/structures/sparse_matrix.py:252-256,270-280 -/
def St.set1 (s : St V) (c r : Int) (v : Option V) : St V × Option Exc :=
  match v with
  | none => s.del1 c r
  | some v => (s.put (cleanupKey c s.noCols) (cleanupKey r s.noRows) v, none)

/-- a loop of assignments or deletions, ended by an exception.  (Part of the model of `SparseMatrix`, /repo/satella/coding/structures/sparse_matrix.py:22-339.) -/
def loop {α : Type _} (f : St V → α → St V × Option Exc) : St V → List α → St V × Option Exc
  | s, [] => (s, none)
  | s, x :: xs =>
    match f s x with
    | (s', none) => loop f s' xs
    | (s', some e) => (s', some e)

/-- `enumerate(l)` starting at `i`.  (Part of the model of `SparseMatrix`, /repo/satella/coding/structures/sparse_matrix.py:22-339.) -/
def enum {α : Type _} (i : Int) : List α → List (Int × α)
  | [] => []
  | x :: xs => (i, x) :: enum (i + 1) xs

/-- `range(n)`.  (Part of the model of `SparseMatrix`, /repo/satella/coding/structures/sparse_matrix.py:22-339.) -/
def range (n : Int) : List Int := (List.range n.toNat).map Int.ofNat

/-- the loop of `sm[:, r] = vs`, /repo/satella/coding/structures/sparse_matrix.py:264-266, and of `append_row` :128-130 -/
def St.setRowAt (s : St V) (r : Int) (vs : List (Option V)) : St V × Option Exc :=
  loop (fun s (x : Int × Option V) => s.set1 x.1 r x.2) s (enum 0 vs)

/-- the loop of `sm[c, :] = vs`, /repo/satella/coding/structures/sparse_matrix.py:267-269 -/
def St.setColAt (s : St V) (c : Int) (vs : List (Option V)) : St V × Option Exc :=
  loop (fun s (x : Int × Option V) => s.set1 c x.1 x.2) s (enum 0 vs)

/-- `from_iterable`, /repo/satella/coding/structures/sparse_matrix.py:151-164 -/
def fromIterable (vss : List (List (Option V))) : St V × Option Exc :=
  loop (fun s (x : Int × List (Option V)) => s.setRowAt x.1 x.2) St.empty (enum 0 vss)

/-- Reading one cell at cleaned-up coordinates, /repo/satella/coding/structures/sparse_matrix.py:293-303 -/
def St.getAt (s : St V) (c r : Int) : Res V :=
  if r ≥ s.noRows then .exc .indexError
  else if c ≥ s.noCols then .exc .indexError
  else .val ((Dict.get? s.rows r).bind (fun d => Dict.get? d c))

/-- a comprehension of single reads, ended by an exception,
/repo/satella/coding/structures/sparse_matrix.py:289,291 -/
def readAll (s : St V) : List (Int × Int) → Res V
  | [] => .list []
  | (c, r) :: xs =>
    match s.getAt (cleanupKey c s.noCols) (cleanupKey r s.noRows) with
    | .val v =>
      match readAll s xs with
      | .list l => .list (v :: l)
      | e => e
    | e => e

/-- `get_row`, /repo/satella/coding/structures/sparse_matrix.py:182-200 -/
def St.row (s : St V) (r : Int) : List (Option V) :=
  match Dict.get? s.rows r with
  | none => List.replicate s.noCols.toNat none
  | some d => (range s.noCols).map (fun c => Dict.get? d c)

/-- `list(self)`, /repo/satella/coding/structures/sparse_matrix.py:176-177,287 -/
def St.allRows (s : St V) : List (List (Option V)) := (range s.noRows).map s.row

/-- `shoot`, /repo/satella/coding/structures/sparse_matrix.py:202-211 -/
def St.shoot (s : St V) : St V × Option Exc :=
  loop (fun s (x : Int × List (Option V)) =>
      loop (fun s (y : Int × Option V) => s.set1 (y.1 * 2) (x.1 * 2) y.2) s (enum 0 x.2))
    St.empty (enum 0 s.allRows)

/-- An exception or None as a result.  (Part of the model of `SparseMatrix`, /repo/satella/coding/structures/sparse_matrix.py:22-339.) -/
def wrap (x : St V × Option Exc) : St V × Res V :=
  match x.2 with
  | none => (x.1, .unit)
  | some e => (x.1, .exc e)

/-- One call: `__setitem__` :235-280, `__delitem__` :314-339, `__getitem__` :282-304, `delete_row` :225-233 (looking up a missing row in
the defaultdict creates it), `append_row` :122-130; /repo/satella/coding/structures/sparse_matrix.py.
A failed whole-matrix assignment leaves the matrix unchanged, as it is built first. -/
def step (s : St V) : Op V → St V × Res V
  | .set c r v => wrap (s.set1 c r v)
  | .setRow r vs => wrap (s.setRowAt (cleanupKey r s.noRows) vs)
  | .setCol c vs => wrap (s.setColAt (cleanupKey c s.noCols) vs)
  | .setAll vss =>
    match fromIterable vss with
    | (s', none) => (s', .unit)
    | (_, some e) => (s, .exc e)
  | .del c r => wrap (s.del1 c r)
  | .delRow r =>
    let r' := cleanupKey r s.noRows
    wrap (loop (fun s c => s.del1 c r') s (range s.noCols))
  | .delCol c =>
    let c' := cleanupKey c s.noCols
    wrap (loop (fun s r => s.del1 c' r) s (range s.noRows))
  | .clear => (St.empty, .unit)
  | .deleteRow r =>
    match Dict.get? s.rows r with
    | none => ({ s with rows := Dict.set s.rows r [] }, .unit)
    | some d => wrap (loop (fun s c => s.del1 c r) s (Dict.keys d))
  | .appendRow vs => wrap (s.setRowAt s.noRows vs)
  | .shoot =>
    match s.shoot with
    | (s', none) => (s', .unit)
    | (_, some e) => (s, .exc e)
  | .get c r => (s, s.getAt (cleanupKey c s.noCols) (cleanupKey r s.noRows))
  | .getRow r => (s, readAll s ((range s.noCols).map (fun c => (c, cleanupKey r s.noRows))))
  | .getCol c => (s, readAll s ((range s.noRows).map (fun r => (cleanupKey c s.noCols, r))))
  | .getAll => (s, .lists s.allRows)
  | .dims => (s, .dims s.noCols s.noRows)

/-- `__bool__`, /repo/satella/coding/structures/sparse_matrix.py:144-145 -/
def St.toBool (s : St V) : Bool := s.noRows == 0

/-- The loops of `max`, /repo/satella/coding/structures/sparse_matrix.py:63-69; comparing with a None `item` is TypeError (`none`) -/
def maxLoop (gt : V → V → Bool) : Option V → List (Option V) → Option (Option V)
  | item, [] => some item
  | item, none :: vs => maxLoop gt item vs
  | none, some _ :: _ => none
  | some i, some v :: vs => maxLoop gt (some (if gt v i then v else i)) vs

/-- `max` (and `min`, with the comparison reversed), /repo/satella/coding/structures/sparse_matrix.py:56-85 -/
def St.max (gt : V → V → Bool) (s : St V) : Res V :=
  match s.getAt 0 0 with
  | .val i =>
    match maxLoop gt i s.allRows.flatten with
    | some r => .val r
    | none => .exc .typeError
  | e => e

end
end Verif.Matrix
