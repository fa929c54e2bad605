import Verif.Seq.Chunks
import Verif.Parser.Model
/-!
# Model of the slicing iterators of satella/coding/sequences/iterators.py, and C33

The input is given by the list of its elements; where it is an iterator, functions also give what they leave in it.
skip_first and stop_after are generators: a StopIteration raised in them becomes RuntimeError, and silence_excs, which wraps the call that makes the generator, does not see it.
-/
namespace Verif.Seq
open Verif

variable {α : Type}

/-- `for i in range(n): next(iterator)`; `none` is StopIteration.  (Part of the model of `skip_first`, /repo/satella/coding/sequences/iterators.py:461-477.) -/
def advance : Nat → List α → Option (List α)
  | 0, s => some s
  | _ + 1, [] => none
  | n + 1, _ :: l => advance n l

/-- `skip_first`, /repo/satella/coding/sequences/iterators.py:461-477 -/
def skipFirst (s : List α) (n : Nat) : Gen α :=
  match advance n s with
  | some r => { out := r, exc := none }
  | none => { out := [], exc := some .runtimeError }

/-- `stop_after`, /repo/satella/coding/sequences/iterators.py:608-626, and what it leaves in the iterator -/
def stopAfter : List α → Nat → Gen α × List α
  | s, 0 => ({ out := [], exc := none }, s)
  | [], _ + 1 => ({ out := [], exc := some .runtimeError }, [])
  | x :: l, n + 1 => let r := stopAfter l n; ({ out := x :: r.1.out, exc := r.1.exc }, r.2)

/-- the second loop of take_n, /repo/satella/coding/sequences/iterators.py:850-857, and what it leaves in the iterator -/
def takeLoop : List α → Nat → List α × List α
  | s, 0 => ([], s)
  | [], _ + 1 => ([], [])
  | x :: l, n + 1 => let r := takeLoop l n; (x :: r.1, r.2)

/-- `take_n`, /repo/satella/coding/sequences/iterators.py:837-857 -/
def takeN (s : List α) (n skip : Nat) : Except Exc (List α × List α) :=
  match advance skip s with
  | none => .error .stopIteration
  | some r => .ok (takeLoop r n)

/-- `n_th`, /repo/satella/coding/sequences/iterators.py:629-643 -/
def nTh (s : List α) (n : Nat) : Except Exc α :=
  match advance n s with
  | some (x :: _) => .ok x
  | some [] => .error .indexError
  | none => .error .indexError

/-- `even`, /repo/satella/coding/sequences/iterators.py:272-283 -/
def even : List α → List α
  | [] => []
  | [x] => [x]
  | x :: _ :: l => x :: even l

/-- `odd`, /repo/satella/coding/sequences/iterators.py:286-297 -/
def odd : List α → List α
  | [] => []
  | [_] => []
  | _ :: y :: l => y :: odd l

/-- `other_sequence_no_longer_than`, /repo/satella/coding/sequences/iterators.py:366-382 -/
def noLongerThan : List α → List α → List α
  | [], _ => []
  | _ :: _, [] => []
  | _ :: l, y :: m => y :: noLongerThan l m

/-- the `for` of shift, /repo/satella/coding/sequences/iterators.py:405-409: the elements taken, and the rest; `none` is StopIteration -/
def takeFront : Nat → List α → Option (List α × List α)
  | 0, s => some ([], s)
  | _ + 1, [] => none
  | n + 1, x :: l => (takeFront n l).map (fun r => (x :: r.1, r.2))

/-- `shift`, /repo/satella/coding/sequences/iterators.py:385-418; `reversible`: whether it has a `__reversed__` -/
def shift (reversible : Bool) (s : List α) (k : Int) : Except Exc (List α) :=
  if k ≥ 0 then
    match takeFront k.toNat s with
    | none => .error .stopIteration
    | some (es, r) => .ok (r ++ es)
  else if reversible then
    match takeN s.reverse (-k).toNat 0 with
    | .error e => .error e
    | .ok (es, _) => .ok (noLongerThan s (es.reverse ++ s))
  else .ok (Parser.pySlice s k s.length ++ Parser.pySlice s 0 k)

/-! ## C33 -/

theorem advance_eq (n : Nat) (s : List α) : advance n s = if n ≤ s.length then some (s.drop n) else none := by
  induction n generalizing s with
  | zero => simp [advance]
  | succ n ih => cases s with
    | nil => simp [advance]
    | cons x l => simp [advance, ih]

/-- **C33, skip_first.** If there are as many elements, skip_first gives those after the first `n`. -/
theorem C33_skip_first_partial (s : List α) (n : Nat) (h : n ≤ s.length) : skipFirst s n = { out := s.drop n, exc := none } := by
  simp [skipFirst, advance_eq, h]

/-- **C33, skip_first, the violation.** If there are less (which the documentation allows), it raises RuntimeError. -/
theorem C33_skip_first_violates (s : List α) (n : Nat) (h : s.length < n) : skipFirst s n = { out := [], exc := some .runtimeError } := by
  rw [skipFirst, advance_eq, if_neg (by omega)]

theorem stopAfter_eq (s : List α) (n : Nat) : stopAfter s n = ({ out := s.take n, exc := if n ≤ s.length then none else some .runtimeError }, s.drop n) := by
  induction n generalizing s with
  | zero => simp [stopAfter]
  | succ n ih => cases s with
    | nil => simp [stopAfter]
    | cons x l => simp [stopAfter, ih]

/-- **C33, stop_after.** If there are as many elements, it gives the first `n` and takes no more of the iterator. -/
theorem C33_stop_after_partial (s : List α) (n : Nat) (h : n ≤ s.length) : stopAfter s n = ({ out := s.take n, exc := none }, s.drop n) := by
  rw [stopAfter_eq, if_pos h]

/-- **C33, stop_after, the violation.** If there are less (which the documentation allows), it raises RuntimeError after having given them. -/
theorem C33_stop_after_violates (s : List α) (n : Nat) (h : s.length < n) : (stopAfter s n).1 = { out := s, exc := some .runtimeError } := by
  rw [stopAfter_eq, if_neg (by omega), List.take_of_length_le (by omega)]

theorem takeLoop_eq (s : List α) (n : Nat) : takeLoop s n = (s.take n, s.drop n) := by
  induction n generalizing s with
  | zero => simp [takeLoop]
  | succ n ih => cases s with
    | nil => simp [takeLoop]
    | cons x l => simp [takeLoop, ih]

/-- **C33, take_n.** If there are as many elements as to be skipped, it returns the (at most) `n` that follow, and takes no more of the iterator. -/
theorem C33_take_n_partial (s : List α) (n skip : Nat) (h : skip ≤ s.length) :
    takeN s n skip = .ok ((s.drop skip).take n, s.drop (skip + n)) := by
  simp [takeN, advance_eq, h, takeLoop_eq]

/-- **C33, take_n, the violation.** If there are less, it raises StopIteration. -/
theorem C33_take_n_violates (s : List α) (n skip : Nat) (h : s.length < skip) : takeN s n skip = .error .stopIteration := by
  rw [takeN, advance_eq, if_neg (by omega)]

/-- **C33, n_th.** It returns the element at that position, and raises IndexError if there is none. -/
theorem C33_n_th (s : List α) (n : Nat) :
    (∀ x, s[n]? = some x → nTh s n = .ok x) ∧ (s.length ≤ n → nTh s n = .error .indexError) := by
  simp only [nTh, advance_eq]
  constructor
  · intro x hx
    obtain ⟨h, hx'⟩ := List.getElem?_eq_some_iff.1 hx
    rw [if_pos (by omega), List.drop_eq_getElem_cons h]
    simp [hx']
  · intro h
    by_cases h' : n ≤ s.length
    · rw [if_pos h', List.drop_eq_nil_of_le h]
    · rw [if_neg h']

/-- **C33, even and odd.** They give the elements at even, and at odd, positions. -/
theorem C33_even_odd (s : List α) : ∀ i, (even s)[i]? = s[2 * i]? ∧ (odd s)[i]? = s[2 * i + 1]? := by
  induction s using even.induct with
  | case1 => simp [even, odd]
  | case2 x =>
    intro i
    cases i with
    | zero => simp [even, odd]
    | succ i => simp [even, odd]
  | case3 x y l ih =>
    intro i
    cases i with
    | zero => simp [even, odd]
    | succ i =>
      have := ih i
      simp only [even, odd, List.getElem?_cons_succ, this]
      rw [show 2 * (i + 1) = 2 * i + 1 + 1 by omega]
      simp

theorem takeFront_eq (n : Nat) (s : List α) : takeFront n s = if n ≤ s.length then some (s.take n, s.drop n) else none := by
  induction n generalizing s with
  | zero => simp [takeFront]
  | succ n ih => cases s with
    | nil => simp [takeFront]
    | cons x l => simp only [takeFront, ih, List.length_cons, Nat.add_le_add_iff_right]; split <;> simp

theorem noLongerThan_eq (s t : List α) : noLongerThan s t = t.take s.length := by
  induction s generalizing t with
  | nil => simp [noLongerThan]
  | cons x l ih => cases t with
    | nil => simp [noLongerThan]
    | cons y m => simp [noLongerThan, ih]

theorem shift_nonneg (b : Bool) (s : List α) (k : Nat) : shift b s k = if k ≤ s.length then .ok (s.drop k ++ s.take k) else .error .stopIteration := by
  unfold shift
  rw [if_pos (by omega)]
  simp only [Int.toNat_natCast, takeFront_eq]
  split <;> simp_all

theorem shift_neg (b : Bool) (s : List α) (k : Nat) (hk : 0 < k) : shift b s (-k) = .ok (s.drop (s.length - k) ++ s.take (s.length - k)) := by
  unfold shift
  rw [if_neg (by omega)]
  cases b with
  | true =>
    simp only [if_true, takeN, advance, takeLoop_eq, Int.neg_neg, Int.toNat_natCast, noLongerThan_eq]
    congr 1
    rw [List.take_reverse, List.reverse_reverse, List.take_append]
    rw [List.take_of_length_le (by simp)]
    congr 1
    simp only [List.length_drop]
    congr 1
    omega
  | false =>
    have h1 : Parser.bound s.length (-(k : Int)) = s.length - k := by
      unfold Parser.bound; rw [if_pos (by omega)]; omega
    have h2 : Parser.bound s.length (s.length : Int) = s.length := by
      unfold Parser.bound; rw [if_neg (by omega)]; omega
    have h3 : Parser.bound s.length 0 = 0 := by unfold Parser.bound; simp
    simp only [Bool.false_eq_true, if_false, Parser.pySlice, h1, h2, h3, List.drop_zero, Nat.sub_zero]
    rw [List.take_of_length_le (l := s.drop _) (by simp)]

theorem rot_get (s : List α) (m : Nat) (hm : m ≤ s.length) (i : Nat) (hi : i < s.length) :
    (s.drop m ++ s.take m)[i]? = s[(i + m) % s.length]? := by
  rw [List.getElem?_append]
  simp only [List.length_drop, List.getElem?_drop]
  split
  · rw [Nat.mod_eq_of_lt (by omega), Nat.add_comm]
  · rw [List.getElem?_take, if_pos (by omega), show i + m = (i - (s.length - m)) + s.length by omega, Nat.add_mod_right, Nat.mod_eq_of_lt (by omega)]

/-- **C33, shift.** For a shift not longer than the sequence, in both directions and for both kinds of input, the result is the sequence rotated: at position `i` it has the element of position `i + k`, around the end. -/
theorem C33_shift_partial (reversible : Bool) (s : List α) (k : Int) (h : -(s.length : Int) ≤ k ∧ k ≤ s.length) :
    ∃ out, shift reversible s k = .ok out ∧ out.length = s.length ∧
      ∀ i : Nat, i < s.length → out[i]? = s[((i + k) % s.length).toNat]? := by
  by_cases hk : 0 ≤ k
  · obtain ⟨m, rfl⟩ : ∃ m : Nat, k = m := ⟨k.toNat, by omega⟩
    have hm : m ≤ s.length := by omega
    refine ⟨_, by rw [shift_nonneg, if_pos hm], by simp; omega, fun i hi => ?_⟩
    rw [rot_get s m hm i hi]
    congr 1
  · obtain ⟨m, rfl⟩ : ∃ m : Nat, k = -m := ⟨(-k).toNat, by omega⟩
    have hm : m ≤ s.length := by omega
    refine ⟨_, shift_neg _ s m (by omega), by simp, fun i hi => ?_⟩
    rw [rot_get s (s.length - m) (by omega) i hi]
    congr 1
    have : ((i : Int) + -(m : Int)) % (s.length : Int) = ((i + (s.length - m) : Nat) : Int) % (s.length : Int) := by
      rw [show ((i + (s.length - m) : Nat) : Int) = (i : Int) + -(m : Int) + (s.length : Int) by omega, Int.add_emod_right]
    rw [this]
    rfl

/-- **C33, shift, the violation.** For longer shifts it raises StopIteration, or leaves the sequence as it is. -/
theorem C33_shift_violates (b : Bool) (s : List α) (k : Nat) (h : s.length < k) :
    shift b s k = .error .stopIteration ∧ shift b s (-(k : Int)) = .ok s := by
  refine ⟨by rw [shift_nonneg, if_neg (by omega)], ?_⟩
  rw [shift_neg _ _ _ (by omega), show s.length - k = 0 by omega]
  simp

/-! Concrete cases. -/

example : skipFirst [1, 2, 3, 4] 2 = { out := [3, 4], exc := none } := rfl
example : stopAfter [1, 2, 3, 4] 2 = ({ out := [1, 2], exc := none }, [3, 4]) := rfl
example : takeN [1, 2, 3, 4, 5] 2 1 = .ok ([2, 3], [4, 5]) := rfl
example : takeN [1, 2, 3] 7 1 = .ok ([2, 3], []) := rfl
example : even [1, 2, 3, 4, 5] = [1, 3, 5] ∧ odd [1, 2, 3, 4, 5] = [2, 4] := by decide
example : shift true [1, 2, 3] 1 = .ok [2, 3, 1] ∧ shift true [1, 2, 3] (-1) = .ok [3, 1, 2] ∧ shift false [1, 2, 3] (-1) = .ok [3, 1, 2] := by decide

end Verif.Seq
