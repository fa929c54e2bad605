import Verif.Parser.Model
/-!
# What a parser of a window of bytes does

Its state is the bytes of the window and how many of them have been read.
-/
namespace Verif.Parser
open Verif

/-- `p` is a parser of the bytes `w`, of which `k` have been read: they lie at its offset in its stream -/
def Shows (p : P) (w : List Byte) (k : Nat) : Prop :=
  ∃ o : Nat, p.initOfs = o ∧ p.length = w.length ∧ p.pointer = o + k ∧ k ≤ w.length ∧ o + w.length ≤ p.stream.length ∧ w = (p.stream.drop o).take w.length

/-- reading `n` bytes: fails, changing nothing, if fewer are left; otherwise returns them (`mk`) and goes past them -/
def Read (b : List Byte × Nat) (n : Nat) (mk : List Byte → Res) (r : Res) (b' : List Byte × Nat) : Prop :=
  if b.2 + n ≤ b.1.length then r = mk ((b.1.drop b.2).take n) ∧ b' = (b.1, b.2 + n) else r = .exc .notEnoughBytes ∧ b' = b

/-- `get_struct` takes formats of one character, after an optional byte order -/
def OneChar (fmt : List Char) : Prop := (∃ c, c ∉ ['>', '<', '!', '@'] ∧ fmt = [c]) ∨ ∃ o c, o ∈ ['>', '<', '!', '@'] ∧ fmt = [o, c]

def Spec (b : List Byte × Nat) : Op → Res → List Byte × Nat → Prop
  | .len, r, b' => b' = b ∧ r = .int b.1.length
  | .remainingCount, r, b' => b' = b ∧ r = .int (b.1.length - b.2 : Nat)
  | .toBytes, r, b' => b' = b ∧ r = .bytes b.1
  | .skip n, r, b' => Read b n.toNat (fun _ => .unit) r b'
  | .getBytes n, r, b' => Read b n.toNat .bytes r b'
  | .getParser n, r, b' =>
    if b.2 + n.toNat ≤ b.1.length then b' = (b.1, b.2 + n.toNat) ∧ ∃ q, r = .parser q ∧ Shows q ((b.1.drop b.2).take n.toNat) 0
    else r = .exc .notEnoughBytes ∧ b' = b
  | .reset, r, b' => b' = (b.1, 0) ∧ r = .unit
  | .getStructs st, r, b' => Read b st.size (fun bs => match st.unpack bs with | .ok vs => .ints vs | .error e => .exc e) r b'
  | .getStruct st, r, b' =>
    (OneChar st.fmt → Read b st.size (fun bs => match st.unpack bs with | .ok (v :: _) => .int v | .ok [] => .exc .indexError | .error e => .exc e) r b') ∧
    (¬ OneChar st.fmt → b' = b ∧ (r = .exc .assertionError ∨ r = .exc .indexError))
  | .getRemaining, r, b' => b' = b ∧ r = .bytes (b.1.drop b.2)

/-- numbers of bytes asked for are not negative, and sub-parsers not empty -/
def Op.Sane : Op → Prop
  | .skip n => 0 ≤ n
  | .getBytes n => 0 ≤ n
  | .getParser n => 0 < n
  | _ => True

end Verif.Parser
