import Verif.Seq.Slices
/-!
# Helpers for iteration (satella/coding/sequences, transforms/__init__.py), C143, C144

Inputs are lists of the elements that iteration gives.
-/
namespace Verif.Helpers
open Verif Verif.Seq

variable {α β κ σ ε : Type}

/-! ## Model -/

/-- the loop of `enumerate2`, /repo/satella/coding/sequences/iterators.py:800-803 -/
def enumFrom (step : Int) : Int → List α → List (Int × α)
  | _, [] => []
  | v, x :: l => (v, x) :: enumFrom step (v + step) l

/-- the loop of `count`, /repo/satella/coding/sequences/iterators.py:323-325 -/
def countFrom (step : Int) : Int → List α → List Int
  | _, [] => []
  | v, _ :: l => v :: countFrom step (v + step) l

/-- `x or default` for numbers that may be None, /repo/satella/coding/sequences/iterators.py:318, :322 -/
def orElse (x : Option Int) (d : Option Int) : Option Int :=
  match x with
  | none => d
  | some n => if n = 0 then d else some n

/-- `count`, /repo/satella/coding/sequences/iterators.py:300-325 -/
def count (sq : List α) (start startAt : Option Int) (step : Int) : List Int :=
  let start := orElse startAt start
  countFrom step ((orElse start (some 0)).getD 0) sq

/-- the loop of `smart_enumerate`, each element is the tuple it is or can be made into, or `none`: what was yielded, and whether TypeError ended it.  /repo/satella/coding/sequences/iterators.py:828-834 -/
def smartEnum (step : Int) : Int → List (Option (List Int)) → List (List Int) × Bool
  | _, [] => ([], false)
  | _, none :: _ => ([], true)
  | i, some row :: l => let r := smartEnum step (i + step) l; ((i :: row) :: r.1, r.2)

/-- `append_sequence`, with elements as in `smartEnum`; /repo/satella/coding/sequences/iterators.py:108-111 -/
def appendSeq (elems : List α) : List (Option (List α)) → List (List α) × Bool
  | [] => ([], false)
  | none :: _ => ([], true)
  | some row :: l => let r := appendSeq elems l; ((row ++ elems) :: r.1, r.2)

/-- an element of a zipped row: a tuple or anything else; /repo/satella/coding/sequences/iterators.py:784-787 -/
inductive Cell (α : Type)
  | tuple (l : List α)
  | one (a : α)

/-- the inner loop of `smart_zip`, /repo/satella/coding/sequences/iterators.py:782-788 -/
def smartRow (acc : List α) : List (Cell α) → List α
  | [] => acc
  | .tuple l :: r => smartRow (acc ++ l) r
  | .one a :: r => smartRow (acc ++ [a]) r

/-- `smart_zip` of two iterables, /repo/satella/coding/sequences/iterators.py:781-788 -/
def smartZip : List (Cell α) → List (Cell α) → List (List α)
  | a :: l, b :: m => smartRow [] [a, b] :: smartZip l m
  | _, _ => []

/-- `iter_dict_of_list`, /repo/satella/coding/sequences/iterators.py:335-337 -/
def iterDictOfList : List (κ × List α) → List (κ × α)
  | [] => []
  | (k, l) :: d => l.map (fun x => (k, x)) ++ iterDictOfList d

/-- how a generator went within `fuel` elements: what it yielded, and how it ended, if it did; /repo/satella/coding/sequences/iterators.py:23-27 -/
inductive End (ε : Type)
  | stopped
  | raised (e : ε)
  | running
deriving DecidableEq

/-- what the callable does: returns, raises one of the exceptions given, or another; /repo/satella/coding/sequences/iterators.py:24-26 -/
inductive Called (α ε : Type)
  | val (a : α)
  | listed
  | other (e : ε)
deriving DecidableEq

/-- `iterate_callable`, /repo/satella/coding/sequences/iterators.py:23-27 -/
def iterateCallable (clbl : Nat → Called α ε) : Nat → Nat → List α × End ε
  | 0, _ => ([], .running)
  | fuel + 1, i =>
    match clbl i with
    | .val a => let r := iterateCallable clbl fuel (i + 1); (a :: r.1, r.2)
    | .listed => ([], .stopped)
    | .other e => ([], .raised e)

/-- the loops of `f_range`, numbers are rationals; /repo/satella/coding/sequences/iterators.py:80-88 -/
def fLoop (stop step : Rat) : Nat → Rat → List Rat × End Empty
  | 0, _ => ([], .running)
  | fuel + 1, x =>
    if (if step > 0 then x < stop else x > stop) then let r := fLoop stop step fuel (x + step); (x :: r.1, r.2)
    else ([], .stopped)

/-- `f_range`; `none` is TypeError.  /repo/satella/coding/sequences/iterators.py:68-90 -/
def fRange (fuel : Nat) : List Rat → Option (List Rat × End Empty)
  | [stop] => some (fLoop stop 1 fuel 0)
  | [start, stop] => some (fLoop stop 1 fuel start)
  | [start, stop, step] => some (fLoop stop step fuel start)
  | _ => none

/-- `is_empty`, with the number of elements it took from the iterator; a StopIteration makes it True.  /repo/satella/coding/sequences/iterators.py:702-722 -/
def isEmpty (s : List α) (exhaust : Bool) : Bool × Nat :=
  if exhaust then (s.foldl (fun i _ => i + 1) 0 == 0, s.length)
  else match s with
    | [] => (true, 0)
    | _ :: _ => (false, 1)

/-- `length`, /repo/satella/coding/sequences/iterators.py:47-50 -/
def length (s : List α) : Nat := s.foldl (fun i _ => i + 1) 0

/-- `index_of`, `none` is ValueError.  /repo/satella/coding/sequences/sequences.py:229-234 -/
def indexOf (p : α → Bool) : Nat → List α → Option Nat
  | _, [] => none
  | i, x :: l => if p x then some i else indexOf p (i + 1) l

/-- the loop of `index_of_max`, from the `i`-th element; elements are numbers.  /repo/satella/coding/sequences/sequences.py:213-217 -/
def maxLoop : Nat → Nat → Int → List Int → Nat
  | _, mi, _, [] => mi
  | i, mi, m, x :: l => if x > m then maxLoop (i + 1) i x l else maxLoop (i + 1) mi m l

/-- `index_of_max`, `none` is ValueError.  /repo/satella/coding/sequences/sequences.py:202-217 -/
def indexOfMax : List Int → Option Nat
  | [] => none
  | x :: l => some (maxLoop 0 0 x (x :: l))

/-- `filter_out_nones`, /repo/satella/coding/sequences/sequences.py:181-185; `filter_out_false` is the same with another test, :195-199 -/
def filterOut (keep : α → Bool) (acc : List α) : List α → List α
  | [] => acc
  | x :: l => filterOut keep (if keep x then acc ++ [x] else acc) l

/-- calling an attribute of a Multirun: the operation on each element, until one raises; elements afterwards, and the results or the exception.  /repo/satella/coding/sequences/sequences.py:293-303 -/
def runAll (f : σ → Except ε σ) : List σ → List σ × Except ε (List σ)
  | [] => ([], .ok [])
  | s :: l =>
    match f s with
    | .error e => (s :: l, .error e)
    | .ok s' =>
      let r := runAll f l
      (s' :: r.1, match r.2 with | .ok rs => .ok (s' :: rs) | .error e => .error e)

/-- `Multirun(seq).item(...)`: getting the attribute looks at the first element, which takes it from an iterator; /repo/satella/coding/sequences/sequences.py:292-311 -/
def multirun (iterator : Bool) (f : σ → Except ε σ) (l : List σ) : List σ × Except ε (List σ) :=
  if iterator then
    match l with
    | [] => ([], .ok [])
    | s :: l => let r := runAll f l; (s :: r.1, r.2)
  else runAll f l

/-- what map_through may raise: KeyError or another exception; /repo/satella/coding/transforms/__init__.py:46-52 -/
inductive Bad | key | other
deriving DecidableEq

/-- `unpack_dict`: what was yielded, and the exception that ended it; /repo/satella/coding/transforms/__init__.py:45-52 -/
def unpackDict (get : κ → Option α) (through : α → Except Bad β) (raises : Bool) : List κ → List (Option β) × Option Bad
  | [] => ([], none)
  | k :: ks =>
    let got : Except Bad β := match get k with
      | none => .error .key
      | some v => through v
    match got with
    | .ok w => let r := unpackDict get through raises ks; (some w :: r.1, r.2)
    | .error .key => if raises then ([], some .key) else let r := unpackDict get through raises ks; (none :: r.1, r.2)
    | .error .other => ([], some .other)

/-- `zip_shifted` of one shifted sequence: StopIteration of `shift` is silenced, and None returned instead of an iterator.  /repo/satella/coding/sequences/iterators.py:421-458 -/
def zipShifted (reversible : Bool) (s : List α) (k : Int) : Except Exc (Option (List α)) :=
  match shift reversible s k with
  | .ok l => .ok (some l)
  | .error .stopIteration => .ok none
  | .error e => .error e

/-! ## C143: counting -/

theorem enumFrom_spec (step : Int) (l : List α) (v : Int) : (enumFrom step v l).length = l.length ∧ ∀ (i : Nat) x, l[i]? = some x → (enumFrom step v l)[i]? = some (v + i * step, x) := by
  induction l generalizing v with
  | nil => exact ⟨rfl, by simp⟩
  | cons y l ih =>
    obtain ⟨h1, h2⟩ := ih (v + step)
    refine ⟨by simp [enumFrom, h1], fun i x hx => ?_⟩
    cases i with
    | zero => simp at hx; subst hx; simp [enumFrom]
    | succ i =>
      simp only [enumFrom, List.getElem?_cons_succ] at hx ⊢
      rw [h2 i x hx]
      have : v + step + (i : Int) * step = v + ((i + 1 : Nat) : Int) * step := by
        push_cast
        grind
      rw [this]

/-- **C143 (enumerate2)**: the i-th element is given with start + i·step, and all elements are given in order. -/
theorem C143_enumerate2 (l : List α) (start step : Int) : (enumFrom step start l).length = l.length ∧ ∀ (i : Nat) x, l[i]? = some x → (enumFrom step start l)[i]? = some (start + i * step, x) := enumFrom_spec step l start

theorem countFrom_eq (step : Int) (l : List α) (v : Int) : countFrom step v l = (enumFrom step v l).map Prod.fst := by
  induction l generalizing v with
  | nil => rfl
  | cons x l ih => simp [countFrom, enumFrom, ih]

/-- **C143 (count)**: with start given, or neither, count gives start + i·step for the i-th of as many numbers as elements. -/
theorem C143_count (l : List α) (start : Option Int) (step : Int) : (count l start none step).length = l.length ∧ ∀ (i : Nat), i < l.length → (count l start none step)[i]? = some (start.getD 0 + i * step) := by
  have hv : (orElse (orElse none start) (some 0)).getD 0 = start.getD 0 := by
    cases start with
    | none => rfl
    | some n =>
      simp only [orElse]
      split <;> simp_all
  unfold count
  simp only [hv, countFrom_eq]
  obtain ⟨h1, h2⟩ := enumFrom_spec step l (start.getD 0)
  refine ⟨by simp [h1], fun i hi => ?_⟩
  have := h2 i l[i] (by simp [hi])
  simp [this]

/-- **C143 (count, start_at)**: the old name of the argument has the same effect, and wins if both are given; being 0, it counts as not given. -/
theorem C143_count_start_at (l : List α) (start : Option Int) (n step : Int) (i : Nat) (hi : i < l.length) :
    (n ≠ 0 → (count l start (some n) step)[i]? = some (n + i * step)) ∧ (count l start (some 0) step)[i]? = some (start.getD 0 + i * step) := by
  constructor
  · intro hn
    have : count l start (some n) step = count l (some n) none step := by simp [count, orElse, hn]
    rw [this]
    exact (C143_count l (some n) step).2 i hi
  · have : count l start (some 0) step = count l start none step := by simp [count, orElse]
    rw [this]
    exact (C143_count l start step).2 i hi

example : count [7, 7] (some 3) (some 5) 2 = [5, 7] ∧ count [7, 7] (some 3) (some 0) 2 = [3, 5] := by decide

/-- **C143 (smart_enumerate, append_sequence)**: elements up to the first that is not a tuple and cannot be made one are given, each with its number in front, or with the elements to append behind; such an element ends it with TypeError. -/
theorem C143_rows (start step : Int) (elems : List Int) (rows : List (List Int)) (rest : List (Option (List Int))) (hrest : rest = [] ∨ ∃ r, rest = none :: r) :
    (smartEnum step start (rows.map some ++ rest)).1.length = rows.length ∧ (appendSeq elems (rows.map some ++ rest)).1.length = rows.length ∧
    (∀ (i : Nat) row, rows[i]? = some row → (smartEnum step start (rows.map some ++ rest)).1[i]? = some ((start + i * step) :: row) ∧ (appendSeq elems (rows.map some ++ rest)).1[i]? = some (row ++ elems)) ∧
    ((smartEnum step start (rows.map some ++ rest)).2 = true ↔ rest ≠ []) ∧ ((appendSeq elems (rows.map some ++ rest)).2 = true ↔ rest ≠ []) := by
  induction rows generalizing start with
  | nil => rcases hrest with rfl | ⟨r, rfl⟩ <;> simp [smartEnum, appendSeq]
  | cons row rows ih =>
    obtain ⟨h1, h2, h3, h4, h5⟩ := ih (start + step)
    refine ⟨by simp [smartEnum, h1], by simp [appendSeq, h2], fun i r hr => ?_, by simpa [smartEnum] using h4, by simpa [appendSeq] using h5⟩
    cases i with
    | zero => simp at hr; subst hr; simp [smartEnum, appendSeq]
    | succ i =>
      obtain ⟨a, b⟩ := h3 i r (by simpa using hr)
      have : start + step + (i : Int) * step = start + ((i + 1 : Nat) : Int) * step := by
        push_cast
        grind
      rw [this] at a
      exact ⟨by simpa [smartEnum] using a, by simpa [appendSeq] using b⟩

/-! ## C143: f_range -/

theorem fLoop_spec (stop step : Rat) (n : Nat) : ∀ (x : Rat), (∀ i, i < n → (if step > 0 then x + (i : Rat) * step < stop else x + (i : Rat) * step > stop)) →
    ¬ (if step > 0 then x + (n : Rat) * step < stop else x + (n : Rat) * step > stop) →
    ∀ fuel, n < fuel → (fLoop stop step fuel x).1.length = n ∧ (fLoop stop step fuel x).2 = .stopped ∧ ∀ i, i < n → (fLoop stop step fuel x).1[i]? = some (x + (i : Rat) * step) := by
  induction n with
  | zero =>
    intro x _ h2 fuel hf
    cases fuel with
    | zero => omega
    | succ fuel =>
      have : x + ((0 : Nat) : Rat) * step = x := by grind
      rw [this] at h2
      simp only [fLoop, if_neg h2]
      simp
  | succ n ih =>
    intro x h1 h2 fuel hf
    have hs : ∀ i : Nat, x + step + (i : Rat) * step = x + ((i + 1 : Nat) : Rat) * step := by
      intro i
      rw [Rat.natCast_add]
      grind
    cases fuel with
    | zero => omega
    | succ fuel =>
      have h0 := h1 0 (by omega)
      have : x + ((0 : Nat) : Rat) * step = x := by grind
      rw [this] at h0
      obtain ⟨a, b, c⟩ := ih (x + step) (fun i hi => by rw [hs]; exact h1 (i + 1) (by omega)) (by rw [hs]; exact h2) fuel (by omega)
      simp only [fLoop, if_pos h0]
      refine ⟨by simp [a], b, fun i hi => ?_⟩
      cases i with
      | zero => simp [Rat.add_zero]
      | succ i => rw [← hs]; exact c i (by omega)

/-- numbers before the first at which a condition fails -/
theorem first_fail (P : Nat → Prop) [DecidablePred P] (m : Nat) (h : ¬ P m) : ∃ n, (∀ i, i < n → P i) ∧ ¬ P n := by
  induction m with
  | zero => exact ⟨0, by simp, h⟩
  | succ m ih =>
    by_cases hm : P m
    · by_cases hall : ∀ i, i < m → P i
      · exact ⟨m + 1, fun i hi => by
          rcases Nat.lt_or_ge i m with h | h
          · exact hall i h
          · have : i = m := by omega
            subst this; exact hm, h⟩
      · have : ∃ i, i < m ∧ ¬ P i := by
          apply Classical.byContradiction
          intro hn
          exact hall (fun i hi => Classical.byContradiction (fun hp => hn ⟨i, hi, hp⟩))
        obtain ⟨i, _, hi⟩ := this
        clear ih hall
        induction i with
        | zero => exact ⟨0, by simp, hi⟩
        | succ i ih2 =>
          by_cases hex : ∃ j, j < i + 1 ∧ ¬ P j
          · obtain ⟨j, hj, hpj⟩ := hex
            exact (Nat.strongRecOn (motive := fun j => ¬ P j → ∃ n, (∀ i, i < n → P i) ∧ ¬ P n) j (fun j ihj hpj => by
              by_cases h' : ∃ k, k < j ∧ ¬ P k
              · obtain ⟨k, hk, hpk⟩ := h'
                exact ihj k hk hpk
              · exact ⟨j, fun i hi => Classical.byContradiction (fun hp => h' ⟨i, hi, hp⟩), hpj⟩)) hpj
          · exact ⟨i + 1, fun j hj => Classical.byContradiction (fun hp => hex ⟨j, hj, hp⟩), hi⟩
    · exact ih hm

/-- every number is passed by enough steps -/
theorem exists_steps (a step : Rat) (hs : 0 < step) : ∃ n : Nat, a ≤ n * step := by
  refine ⟨(a / step).ceil.toNat, ?_⟩
  have h1 : a / step ≤ ((a / step).ceil : Rat) := Rat.le_ceil
  have h2 : (((a / step).ceil : Int) : Rat) ≤ (((a / step).ceil.toNat : Nat) : Rat) := by
    rw [← Rat.intCast_natCast]
    exact Rat.intCast_le_intCast.2 (by omega)
  have h3 := Rat.mul_le_mul_of_nonneg_right (Rat.le_trans h1 h2) (Rat.le_of_lt hs)
  rwa [Rat.div_mul_cancel (by grind)] at h3

/-- **C143 (f_range)**: with a step that is not zero, f_range ends; it gives start, start + step, ... as long as these are before stop, which is below it for a positive step and above it for a negative one. -/
theorem C143_f_range (start stop step : Rat) (hs : step ≠ 0) : ∃ n : Nat, ∀ fuel, n < fuel → ∃ l, fRange fuel [start, stop, step] = some (l, .stopped) ∧ l.length = n ∧
    (∀ i, i < n → l[i]? = some (start + (i : Rat) * step) ∧ (0 < step → start + (i : Rat) * step < stop) ∧ (step < 0 → stop < start + (i : Rat) * step)) ∧
    (0 < step → stop ≤ start + (n : Rat) * step) ∧ (step < 0 → start + (n : Rat) * step ≤ stop) := by
  obtain ⟨m, hm⟩ : ∃ m : Nat, ¬ (if step > 0 then start + (m : Rat) * step < stop else start + (m : Rat) * step > stop) := by
    by_cases hp : step > 0
    · obtain ⟨m, hm⟩ := exists_steps (stop - start) step hp
      exact ⟨m, by rw [if_pos hp]; grind⟩
    · obtain ⟨m, hm⟩ := exists_steps (start - stop) (-step) (by grind)
      exact ⟨m, by rw [if_neg hp]; grind⟩
  obtain ⟨n, h1, h2⟩ := first_fail (fun m => if step > 0 then start + (m : Rat) * step < stop else start + (m : Rat) * step > stop) m hm
  refine ⟨n, fun fuel hf => ?_⟩
  obtain ⟨a, b, c⟩ := fLoop_spec stop step n start h1 h2 fuel hf
  refine ⟨(fLoop stop step fuel start).1, by rw [← b]; rfl, a, fun i hi => ⟨c i hi, fun hp => ?_, fun hp => ?_⟩, fun hp => ?_, fun hp => ?_⟩
  · have := h1 i hi; rwa [if_pos hp] at this
  · have := h1 i hi; rw [if_neg (by grind)] at this; exact this
  · rw [if_pos hp] at h2; grind
  · rw [if_neg (by grind)] at h2; grind

/-- **C143 (f_range, fewer arguments)**: start is 0 and step is 1 if not given. -/
theorem C143_f_range_defaults (fuel : Nat) (start stop : Rat) : fRange fuel [stop] = fRange fuel [0, stop, 1] ∧ fRange fuel [start, stop] = fRange fuel [start, stop, 1] := ⟨rfl, rfl⟩

example : fRange 10 [1, 0, -1 / 4] = some ([1, 3 / 4, 1 / 2, 1 / 4], .stopped) := by decide +kernel

/-! ## C143: other helpers -/

/-- **C143 (iterate_callable)**: it gives what the callable returns for start_from and on, up to the first number for which it raises; that ends it, silently if the exception is one of those given. -/
theorem C143_iterate_callable (clbl : Nat → Called α ε) (start n : Nat) (vals : List α) (hv : vals.length = n) (h : ∀ (i : Nat) a, vals[i]? = some a → clbl (start + i) = .val a) (fuel : Nat) (hf : n < fuel) :
    (clbl (start + n) = .listed → iterateCallable clbl fuel start = (vals, .stopped)) ∧ (∀ e, clbl (start + n) = .other e → iterateCallable clbl fuel start = (vals, .raised e)) := by
  induction n generalizing start vals fuel with
  | zero =>
    obtain rfl := List.length_eq_zero_iff.1 hv
    cases fuel with
    | zero => omega
    | succ fuel => exact ⟨fun hc => by simp at hc; simp [iterateCallable, hc], fun e hc => by simp at hc; simp [iterateCallable, hc]⟩
  | succ n ih =>
    cases vals with
    | nil => simp at hv
    | cons a vals =>
      cases fuel with
      | zero => omega
      | succ fuel =>
        have h0 : clbl start = .val a := by simpa using h 0 a rfl
        obtain ⟨h1, h2⟩ := ih (start + 1) vals (by simpa using hv) (fun i b hb => by
          have := h (i + 1) b (by simpa using hb)
          rwa [show start + (i + 1) = start + 1 + i by omega] at this) fuel (by omega)
        rw [show start + 1 + n = start + (n + 1) by omega] at h1 h2
        exact ⟨fun hc => by simp [iterateCallable, h0, h1 hc], fun e hc => by simp [iterateCallable, h0, h2 e hc]⟩

theorem foldl_length (s : List α) (n : Nat) : s.foldl (fun i _ => i + 1) n = n + s.length := by
  induction s generalizing n with
  | nil => rfl
  | cons x s ih => simp only [List.foldl_cons, ih, List.length_cons]; omega

/-- **C143 (is_empty, length)**: is_empty tells whether there are elements; it takes one of them, if there is one, if exhaust is False, and else all. -/
theorem C143_is_empty (s : List α) (exhaust : Bool) : ((isEmpty s exhaust).1 = true ↔ s = []) ∧ (exhaust = false → (isEmpty s exhaust).2 = min 1 s.length) ∧ (exhaust = true → (isEmpty s exhaust).2 = s.length) ∧ length s = s.length := by
  refine ⟨?_, ?_, by rintro rfl; rfl, by simp [length]⟩
  · cases exhaust
    · cases s <;> simp [isEmpty]
    · simp [isEmpty]
  · rintro rfl
    cases s <;> simp [isEmpty]

theorem indexOf_spec (p : α → Bool) (l : List α) (k : Nat) : (∀ i, indexOf p k l = some i → ∃ j x, i = k + j ∧ l[j]? = some x ∧ p x = true ∧ ∀ m y, m < j → l[m]? = some y → p y = false) ∧ (indexOf p k l = none ↔ ∀ x ∈ l, p x = false) := by
  induction l generalizing k with
  | nil => simp [indexOf]
  | cons x l ih =>
    obtain ⟨h1, h2⟩ := ih (k + 1)
    cases hp : p x with
    | true =>
      simp only [indexOf, hp, ↓reduceIte]
      refine ⟨fun i hi => ⟨0, x, by simp at hi; omega, rfl, hp, by intro m y hm; omega⟩, by simp [hp]⟩
    | false =>
      simp only [indexOf, hp, Bool.false_eq_true, ↓reduceIte]
      refine ⟨fun i hi => ?_, by simp [h2, hp]⟩
      obtain ⟨j, y, a, b, c, d⟩ := h1 i hi
      refine ⟨j + 1, y, by omega, by simpa using b, c, fun m z hm hz => ?_⟩
      cases m with
      | zero => simp at hz; subst hz; exact hp
      | succ m => exact d m z (by omega) (by simpa using hz)

/-- **C143 (index_of)**: the index of the first element for which the predicate holds, and ValueError exactly if there is none. -/
theorem C143_index_of (p : α → Bool) (l : List α) : (∀ i, indexOf p 0 l = some i → (∃ x, l[i]? = some x ∧ p x = true) ∧ ∀ m y, m < i → l[m]? = some y → p y = false) ∧ (indexOf p 0 l = none ↔ ∀ x ∈ l, p x = false) := by
  obtain ⟨h1, h2⟩ := indexOf_spec p l 0
  refine ⟨fun i hi => ?_, h2⟩
  obtain ⟨j, x, a, b, c, d⟩ := h1 i hi
  obtain rfl : i = j := by omega
  exact ⟨⟨x, b, c⟩, d⟩

theorem maxLoop_spec (pre l : List Int) (mi : Nat) (m : Int) (hm : pre[mi]? = some m) (hmax : ∀ (j : Nat) y, pre[j]? = some y → y ≤ m ∧ (j < mi → y < m)) :
    ∃ x, (pre ++ l)[maxLoop pre.length mi m l]? = some x ∧ ∀ (j : Nat) y, (pre ++ l)[j]? = some y → y ≤ x ∧ (j < maxLoop pre.length mi m l → y < x) := by
  induction l generalizing pre mi m with
  | nil => exact ⟨m, by simpa [maxLoop] using hm, by simpa [maxLoop] using hmax⟩
  | cons x l ih =>
    have hlt : mi < pre.length := by
      rcases Nat.lt_or_ge mi pre.length with h | h
      · exact h
      · rw [List.getElem?_eq_none h] at hm; simp at hm
    have hsplit : ∀ (j : Nat) y, (pre ++ [x])[j]? = some y → pre[j]? = some y ∨ (j = pre.length ∧ y = x) := by
      intro j y hy
      rcases Nat.lt_or_ge j pre.length with h | h
      · rw [List.getElem?_append_left h] at hy; exact Or.inl hy
      · rw [List.getElem?_append_right h] at hy
        rcases Nat.eq_zero_or_pos (j - pre.length) with h0 | h0
        · rw [h0] at hy; simp at hy; exact Or.inr ⟨by omega, hy.symm⟩
        · obtain ⟨k, hk⟩ : ∃ k, j - pre.length = k + 1 := ⟨j - pre.length - 1, by omega⟩
          rw [hk] at hy; simp at hy
    have key : ∀ mi' m', (pre ++ [x])[mi']? = some m' → (∀ (j : Nat) y, (pre ++ [x])[j]? = some y → y ≤ m' ∧ (j < mi' → y < m')) → maxLoop pre.length mi m (x :: l) = maxLoop (pre ++ [x]).length mi' m' l →
        ∃ z, (pre ++ x :: l)[maxLoop pre.length mi m (x :: l)]? = some z ∧ ∀ (j : Nat) y, (pre ++ x :: l)[j]? = some y → y ≤ z ∧ (j < maxLoop pre.length mi m (x :: l) → y < z) := by
      intro mi' m' h1 h2 h3
      obtain ⟨z, a, b⟩ := ih (pre ++ [x]) mi' m' h1 h2
      rw [h3]
      exact ⟨z, by simpa using a, by simpa using b⟩
    by_cases hx : x > m
    · refine key pre.length x (by simp) (fun j y hy => ?_) (by simp [maxLoop, hx])
      rcases hsplit j y hy with h | ⟨h, rfl⟩
      · have := (hmax j y h).1; exact ⟨by omega, fun _ => by omega⟩
      · exact ⟨by omega, fun _ => by omega⟩
    · refine key mi m (by rw [List.getElem?_append_left hlt]; exact hm) (fun j y hy => ?_) (by simp [maxLoop, hx])
      rcases hsplit j y hy with h | ⟨h, rfl⟩
      · exact hmax j y h
      · exact ⟨by omega, fun _ => by omega⟩

/-- **C143 (index_of_max)**: the index of the first of the greatest elements, and ValueError exactly for an empty sequence. -/
theorem C143_index_of_max (l : List Int) : (indexOfMax l = none ↔ l = []) ∧ ∀ i, indexOfMax l = some i → ∃ x, l[i]? = some x ∧ ∀ (j : Nat) y, l[j]? = some y → y ≤ x ∧ (j < i → y < x) := by
  cases l with
  | nil => simp [indexOfMax]
  | cons x l =>
    refine ⟨by simp [indexOfMax], fun i hi => ?_⟩
    simp only [indexOfMax, Option.some.injEq] at hi
    have e : maxLoop 0 0 x (x :: l) = maxLoop [x].length 0 x l := by simp [maxLoop]
    obtain ⟨z, a, b⟩ := maxLoop_spec [x] l 0 x rfl (by
      intro j y hy
      cases j with
      | zero => simp at hy; subst hy; exact ⟨Int.le_refl _, by omega⟩
      | succ j => simp at hy)
    rw [← e, hi] at a b
    exact ⟨z, by simpa using a, by simpa using b⟩

theorem filterOut_eq (keep : α → Bool) (l acc : List α) : filterOut keep acc l = acc ++ l.filter keep := by
  induction l generalizing acc with
  | nil => simp [filterOut]
  | cons x l ih => cases h : keep x <;> simp [filterOut, ih, h]

/-- **C143 (filter_out_nones, filter_out_false)**: exactly the elements that pass the test, in their order. -/
theorem C143_filter (keep : α → Bool) (l : List α) : (filterOut keep [] l).Sublist l ∧ (∀ x ∈ filterOut keep [] l, keep x = true) ∧ (∀ p : α → Bool, (∀ x, p x = true → keep x = true) → (filterOut keep [] l).countP p = l.countP p) := by
  simp only [filterOut_eq, List.nil_append]
  refine ⟨List.filter_sublist, fun x hx => by simpa using (List.mem_filter.1 hx).2, fun p hp => ?_⟩
  rw [List.countP_filter]
  congr 1
  funext x
  cases h : p x
  · simp
  · simp [hp x h]

/-- **C143 (iter_dict_of_list)**: each pair of a key and an element of its list, in order. -/
theorem C143_iter_dict_of_list (d : List (κ × List α)) : iterDictOfList d = d.flatMap (fun p => p.2.map (fun x => (p.1, x))) := by
  induction d with
  | nil => rfl
  | cons p d ih => simp [iterDictOfList, ih]

/-- elements of a cell -/
def Cell.elems : Cell α → List α
  | .tuple l => l
  | .one a => [a]

/-- **C143 (smart_zip)**: the i-th row has the elements of the i-th of each, tuples expanded; there are as many rows as in the shortest. -/
theorem C143_smart_zip (l m : List (Cell α)) : (smartZip l m).length = min l.length m.length ∧ ∀ (i : Nat) a b, l[i]? = some a → m[i]? = some b → (smartZip l m)[i]? = some (a.elems ++ b.elems) := by
  induction l generalizing m with
  | nil => simp [smartZip]
  | cons a l ih =>
    cases m with
    | nil => simp [smartZip]
    | cons b m =>
      obtain ⟨h1, h2⟩ := ih m
      refine ⟨by simp [smartZip, h1], fun i x y hx hy => ?_⟩
      cases i with
      | zero =>
        simp at hx hy
        subst hx hy
        cases a <;> cases b <;> simp [smartZip, smartRow, Cell.elems]
      | succ i => simpa [smartZip] using h2 i x y (by simpa using hx) (by simpa using hy)

/-- **C143 (Multirun)**: on a sequence, the operation is done on each element in order, and elements are returned; if it raises for one, that exception is raised, elements before had the operation done and others did not. -/
theorem C143_multirun (f : σ → Except ε σ) (pre post : List σ) (s : σ) (pre' : List σ) (hp : pre'.length = pre.length) (hpre : ∀ (i : Nat) x y, pre[i]? = some x → pre'[i]? = some y → f x = .ok y) :
    multirun false f pre = (pre', .ok pre') ∧ ∀ e, f s = .error e → multirun false f (pre ++ s :: post) = (pre' ++ s :: post, .error e) := by
  simp only [multirun, Bool.false_eq_true, ↓reduceIte]
  induction pre generalizing pre' with
  | nil =>
    obtain rfl := List.length_eq_zero_iff.1 hp
    exact ⟨rfl, fun e he => by simp [runAll, he]⟩
  | cons x pre ih =>
    cases pre' with
    | nil => simp at hp
    | cons y pre' =>
      obtain ⟨h1, h2⟩ := ih pre' (by simpa using hp) (fun i a b ha hb => hpre (i + 1) a b (by simpa using ha) (by simpa using hb))
      have h0 : f x = .ok y := hpre 0 x y rfl rfl
      exact ⟨by simp [runAll, h0, h1], fun e he => by simp [runAll, h0, h2 e he]⟩

/-- **C143 (unpack_dict)**: with all keys in the dictionary the values are given in the order of keys, through map_through; without raise_if_not_found None is given for each key that is not there. -/
theorem C143_unpack_dict (get : κ → Option α) (f : α → β) (ks : List κ) : unpackDict get (fun v => .ok (f v)) false ks = (ks.map (fun k => (get k).map f), none) ∧
    ((∀ k ∈ ks, (get k).isSome) → unpackDict get (fun v => .ok (f v)) true ks = (ks.map (fun k => (get k).map f), none)) ∧
    (∀ pre k post, ks = pre ++ k :: post → (∀ k' ∈ pre, (get k').isSome) → get k = none → unpackDict get (fun v => .ok (f v)) true ks = (pre.map (fun k => (get k).map f), some .key)) := by
  refine ⟨?_, ?_, ?_⟩
  · induction ks with
    | nil => rfl
    | cons k ks ih => cases h : get k <;> simp [unpackDict, h, ih]
  · intro hk
    induction ks with
    | nil => rfl
    | cons k ks ih =>
      have h0 := hk k (by simp)
      cases h : get k with
      | none => rw [h] at h0; simp at h0
      | some v => simp [unpackDict, h, ih (fun k' hk' => hk k' (by simp [hk']))]
  · intro pre k post hks hpre hk
    subst hks
    induction pre with
    | nil => simp [unpackDict, hk]
    | cons k' pre ih =>
      have h0 := hpre k' (by simp)
      cases h : get k' with
      | none => rw [h] at h0; simp at h0
      | some v => simp [unpackDict, h, ih (fun k'' hk'' => hpre k'' (by simp [hk'']))]

example : indexOfMax [3, 7, 1, 7] = some 1 := by decide
example : iterateCallable (fun i => if i < 5 then Called.val (i * i) else (.listed : Called Nat Unit)) 10 2 = ([4, 9, 16], .stopped) := by decide
example : smartEnum 2 10 [some [1], some [2, 3], none, some [4]] = ([[10, 1], [12, 2, 3]], true) := by decide
example : count [(), (), ()] (some 5) none 3 = [5, 8, 11] := by decide
/-- **C143, what `map_through` raises** is raised by unpack_dict, after the values before, whether or not missing keys are to be; unless it is a KeyError (for which see C144). -/
theorem C143_unpack_dict_raises (get : κ → Option α) (through : α → Except Bad β) (raises : Bool) (pre : List κ) (k : κ) (post : List κ) (v : α)
    (hpre : ∀ k' ∈ pre, ∃ v' w, get k' = some v' ∧ through v' = .ok w) (hk : get k = some v) (hv : through v = .error .other) :
    (unpackDict get through raises (pre ++ k :: post)).2 = some .other ∧ (unpackDict get through raises (pre ++ k :: post)).1.length = pre.length := by
  induction pre with
  | nil => simp [unpackDict, hk, hv]
  | cons k' pre ih =>
    obtain ⟨v', w, h1, h2⟩ := hpre k' (by simp)
    have := ih (fun k'' h'' => hpre k'' (by simp [h'']))
    simp [unpackDict, h1, h2, this]

example : unpackDict (fun k : Nat => some k) (fun v => if v = 3 then .error .other else .ok v) false [1, 2, 3, 4] = ([some 1, some 2], some .other) := by decide
example : unpackDict (fun k : Nat => if k = 1 then none else some k) (fun v => .ok (v + 1)) false [0, 1, 2] = ([some 1, none, some 3], none) := by decide

/-! ## C144 -/

/-- **C144 (violation), f_range with step 0**: it never ends if start is above stop, and otherwise is empty, while range raises ValueError. -/
theorem C144_f_range_violates (start stop : Rat) : (stop < start → ∀ fuel, ∃ l, fRange fuel [start, stop, 0] = some (l, .running) ∧ l.length = fuel) ∧ (start ≤ stop → fRange 1 [start, stop, 0] = some ([], .stopped)) := by
  refine ⟨fun h fuel => ?_, fun h => ?_⟩
  · refine ⟨_, congrArg some (Prod.ext rfl ?_), ?_⟩
    · induction fuel with
      | zero => rfl
      | succ fuel ih =>
        have h0 : ¬ (0 : Rat) > 0 := by grind
        have e : start + 0 = start := by grind
        simp only [fLoop, if_neg h0, h, gt_iff_lt, ↓reduceIte, e]
        exact ih
    · induction fuel with
      | zero => rfl
      | succ fuel ih =>
        have h0 : ¬ (0 : Rat) > 0 := by grind
        have e : start + 0 = start := by grind
        simp only [fLoop, if_neg h0, h, gt_iff_lt, ↓reduceIte, e, List.length_cons]
        rw [ih]
  · have h0 : ¬ (0 : Rat) > 0 := by grind
    have h1 : ¬ start > stop := by grind
    simp [fRange, fLoop, h0, h1]

/-- **C144 (violation), start and start_at**: if both are given, count starts from the deprecated start_at, although start is to be preferred. -/
theorem C144_count_violates : count [(), ()] (some 3) (some 7) 1 = [7, 8] := by decide

/-- **C144 (violation), unpack_dict**: a KeyError of map_through is taken for a missing key, and None given for a key that is there. -/
theorem C144_unpack_dict_violates (get : κ → Option α) (k : κ) (v : α) (through : α → Except Bad β) (h : get k = some v) (ht : through v = .error .key) : unpackDict get through false [k] = ([none], none) := by
  simp [unpackDict, h, ht]

/-- **C144 (violation), Multirun of an iterator**: the first element is skipped. -/
theorem C144_multirun_violates (f : σ → Except ε σ) (s : σ) (l : List σ) : multirun true f (s :: l) = (s :: (multirun false f l).1, (multirun false f l).2) := rfl

/-- **C144 (violation), zip_shifted**: with a shift greater than the length None is returned instead of an iterator. -/
theorem C144_zip_shifted_violates (reversible : Bool) (s : List α) (k : Nat) (h : s.length < k) : zipShifted reversible s k = .ok none := by
  rw [zipShifted, (C33_shift_violates reversible s k h).1]

/-- **C144 (partial), zip_shifted**: with a shift within the length, whichever sign, an iterator over as many elements is returned, with the element of position i + k, around the end, at position i. -/
theorem C144_zip_shifted_partial (reversible : Bool) (s : List α) (k : Int) (h : -(s.length : Int) ≤ k ∧ k ≤ s.length) : ∃ l, zipShifted reversible s k = .ok (some l) ∧ l.length = s.length ∧ ∀ i : Nat, i < s.length → l[i]? = s[((i + k) % s.length).toNat]? := by
  obtain ⟨out, h1, h2, h3⟩ := C33_shift_partial reversible s k h
  exact ⟨out, by rw [zipShifted, h1], h2, h3⟩

example : ∃ (get : Nat → Option Nat) (through : Nat → Except Bad Nat), get 0 = some 5 ∧ through 5 = .error .key := ⟨fun _ => some 5, fun _ => .error .key, rfl, rfl⟩

end Verif.Helpers
