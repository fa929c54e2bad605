import Verif.Py.Basic
import Verif.Py.Run
/-!
# Model of satella/parsing.py (BinaryParser)

The stream is not changed while the parser exists.  Bytes are natural numbers.
-/
namespace Verif.Parser
open Verif

/-- part of the model of `BinaryParser`, /repo/satella/parsing.py:9-180 -/
abbrev Byte := Nat

/-- a slice bound: negative ones count from the end, and both are cut to the list.  (Part of the model of `BinaryParser`, /repo/satella/parsing.py:9-180.) -/
def bound (len : Nat) (i : Int) : Nat := if i < 0 then ((len : Int) + i).toNat else min i.toNat len

/-- `l[i:j]`.  (Part of the model of `BinaryParser`, /repo/satella/parsing.py:9-180.) -/
def pySlice {α : Type} (l : List α) (i j : Int) : List α := (l.drop (bound l.length i)).take (bound l.length j - bound l.length i)

/-- What is used of a struct.Struct: its format, its size, and unpacking (of exactly `size` bytes; it raises struct.error for any other number).  (Part of the model of `BinaryParser`, /repo/satella/parsing.py:9-180.) -/
structure Struct where
  fmt : List Char
  size : Nat
  unpack : List Byte → Except Exc (List Int)

/-- the fields of a BinaryParser, /repo/satella/parsing.py:38-45; the cache of Structs, which changes nothing, is left out -/
structure P where
  stream : List Byte
  pointer : Int
  initOfs : Int
  length : Int
  deriving DecidableEq, Repr

/-- `__init__`, /repo/satella/parsing.py:38-45 -/
def P.new (stream : List Byte) (offset : Int) (length : Option Int) : Except Exc P :=
  let len : Int := match length with
    | none => stream.length
    | some l => if l = 0 then stream.length else l
  if offset > stream.length then .error .notEnoughBytes
  else .ok { stream := stream, pointer := offset, initOfs := offset, length := len }

/-- calls.  (Part of the model of `BinaryParser`, /repo/satella/parsing.py:9-180.) -/
inductive Op where
  | len
  | remainingCount
  | toBytes
  | skip (n : Int)
  | getParser (n : Int)
  | reset
  | getBytes (n : Int)
  | getStruct (st : Struct)
  | getStructs (st : Struct)
  | getRemaining

/-- what they return.  (Part of the model of `BinaryParser`, /repo/satella/parsing.py:9-180.) -/
inductive Res where
  | unit
  | int (n : Int)
  | bytes (b : List Byte)
  | ints (l : List Int)
  | parser (p : P)
  | exc (e : Exc)
  deriving DecidableEq, Repr

/-- `assert_has_bytes`, /repo/satella/parsing.py:60-70: whether it raises NotEnoughBytes -/
def P.lacks (p : P) (n : Int) : Bool := decide (p.length + p.initOfs < p.pointer + n)

/-- the test of /repo/satella/parsing.py:138-143: `none` is IndexError, `some false` AssertionError -/
def single (fmt : List Char) : Option Bool :=
  match fmt with
  | [] => none
  | c :: l => if c ∈ ['>', '<', '!', '@'] then some (decide (l.length = 1)) else some (decide (l.length = 0))

/-- the first of the values unpacked, /repo/satella/parsing.py:148 -/
def firstOf : Except Exc (List Int) → Res
  | .ok (v :: _) => .int v
  | .ok [] => .exc .indexError
  | .error e => .exc e

/-- the values unpacked, /repo/satella/parsing.py:168 -/
def allOf : Except Exc (List Int) → Res
  | .ok l => .ints l
  | .error e => .exc e

/-- One call, /repo/satella/parsing.py: `__len__` :29-30, get_remaining_bytes_count :32-36, `__bytes__` :47-48, skip :50-58, get_parser :72-86, reset :88-93, get_bytes :108-120, get_struct :122-150,
get_structs :152-170, get_remaining_bytes :172-180.  The pointer is moved in `finally` clauses. -/
def P.step (p : P) : Op → P × Res
  | .len => (p, .int p.length)
  | .remainingCount => (p, .int (p.length - p.pointer + p.initOfs))
  | .toBytes => (p, .bytes (pySlice p.stream p.initOfs (p.initOfs + p.length)))
  | .skip n => if p.lacks n then (p, .exc .notEnoughBytes) else ({ p with pointer := p.pointer + n }, .unit)
  | .getParser n =>
    if p.lacks n then (p, .exc .notEnoughBytes)
    else ({ p with pointer := p.pointer + n }, match P.new p.stream p.pointer (some n) with | .ok q => .parser q | .error e => .exc e)
  | .reset => ({ p with pointer := p.initOfs }, .unit)
  | .getBytes n =>
    if p.lacks n then (p, .exc .notEnoughBytes)
    else ({ p with pointer := p.pointer + n }, .bytes (pySlice p.stream p.pointer (p.pointer + n)))
  | .getStruct st =>
    match single st.fmt with
    | none => (p, .exc .indexError)
    | some false => (p, .exc .assertionError)
    | some true =>
      if p.lacks st.size then (p, .exc .notEnoughBytes)
      else ({ p with pointer := p.pointer + st.size }, firstOf (st.unpack (pySlice p.stream p.pointer (p.pointer + st.size))))
  | .getStructs st =>
    if p.lacks st.size then (p, .exc .notEnoughBytes)
    else ({ p with pointer := p.pointer + st.size }, allOf (st.unpack (pySlice p.stream p.pointer (p.pointer + st.size))))
  | .getRemaining => (p, .bytes (pySlice p.stream p.pointer (p.pointer + (p.length - (p.pointer - p.initOfs)))))

end Verif.Parser
