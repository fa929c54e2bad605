/-!
# Slices of deques, C222

`/repo/satella/coding/structures/sorted_list.py:94-144` (`SliceableDeque`): slices are generators that look into the deque while they are iterated over.
-/
namespace Verif.SliceableDeque

section
variable {α : Type}

/-! ## Model -/

/-- What is raised.  (Part of the model of `SliceableDeque`, /repo/satella/coding/structures/sorted_list.py:94-144.) -/
inductive Exc where
  | indexError
  | valueError
  | stopIteration
  deriving DecidableEq, Repr

/-- One bound of `slice.indices` of the standard library, used in /repo/satella/coding/structures/sorted_list.py:136: `dflt` if it is None; else counted from
the end if negative, and brought between `lower` and `upper`. -/
def bound (n lower upper dflt : Int) : Option Int → Int
  | none => dflt
  | some x =>
    if x < 0 then (if x + n < lower then lower else x + n)
    else if x > upper then upper else x

/-- `item.indices(tot_length)`, /repo/satella/coding/structures/sorted_list.py:136 (the standard library, as CPython has it); a step of zero raises ValueError. -/
def indices (start stop step : Option Int) (n : Nat) : Except Exc (Int × Int × Int) :=
  let k := step.getD 1
  if k = 0 then .error .valueError
  else if k < 0 then .ok (bound n (-1) (n - 1) (n - 1) start, bound n (-1) (n - 1) (-1) stop, k)
  else .ok (bound n 0 n 0 start, bound n 0 n n stop, k)

/-- `deque[index]`, /repo/satella/coding/structures/sorted_list.py:140 and /repo/satella/coding/structures/sorted_list.py:144: negative ones count from the end. -/
def getAt (d : List α) (i : Int) : Except Exc α :=
  let j := if i < 0 then i + d.length else i
  if j < 0 then .error .indexError
  else match d[j.toNat]? with
    | some x => .ok x
    | none => .error .indexError

/-- A slice that is being iterated over, /repo/satella/coding/structures/sorted_list.py:138-142: the next number of the range, its stop and step; or it is over. -/
inductive Gen where
  | at_ (i stop step : Int)
  | over
  deriving DecidableEq, Repr

/-- `d[start:stop:step]`, /repo/satella/coding/structures/sorted_list.py:132-142 -/
def slice (d : List α) (start stop step : Option Int) : Except Exc Gen :=
  match indices start stop step d.length with
  | .error e => .error e
  | .ok (i, j, k) => .ok (.at_ i j k)

/-- `next()` of a slice, /repo/satella/coding/structures/sorted_list.py:139-140: the next number of `range(start, stop, step)`, and what the deque has there now. A generator that raised is over. -/
def next (d : List α) : Gen → Gen × Except Exc α
  | .over => (.over, .error .stopIteration)
  | .at_ i j k =>
    if (0 < k ∧ i < j) ∨ (k < 0 ∧ j < i) then
      match getAt d i with
      | .ok x => (.at_ (i + k) j k, .ok x)
      | .error e => (.over, .error e)
    else (.over, .error .stopIteration)

/-- Calls of `next()`, the deque being `ds m` at the m-th, and what they give (of `SliceableDeque`, /repo/satella/coding/structures/sorted_list.py:138-142). -/
def nexts (ds : Nat → List α) (g : Gen) : Nat → Gen × List (Except Exc α)
  | 0 => (g, [])
  | m + 1 =>
    let p := nexts ds g m
    let q := next (ds m) p.1
    (q.1, p.2 ++ [q.2])

/-- `list(d[...])`: what `next()` gives until it raises, with fuel (of `SliceableDeque`, /repo/satella/coding/structures/sorted_list.py:138-142).  -/
def toList (d : List α) : Nat → Gen → Option (List α × Exc)
  | 0, _ => none
  | fuel + 1, g =>
    match next d g with
    | (_, .error e) => some ([], e)
    | (g', .ok x) => (toList d fuel g').map (fun p => (x :: p.1, p.2))

/-! ## Specification -/

/-- A bound that was given, from the end of a sequence of length `n` if negative, as the documentation of Python has it. -/
def fromEnd (n : Nat) (x : Int) : Int := if x < 0 then n + x else x

/-- The first position, for a step that is positive: the bound, or 0 if it is before the beginning, or 0 if it was left out. -/
def First (n : Nat) (start : Option Int) (k : Int) : Int :=
  match start with
  | none => if 0 < k then 0 else n - 1
  | some x => if 0 < k then max 0 (fromEnd n x) else min (n - 1) (fromEnd n x)

/-- Position `p` comes before the bound `stop`, in the direction of the step. -/
def Before (n : Nat) (stop : Option Int) (k : Int) (p : Int) : Prop :=
  match stop with
  | none => True
  | some x => if 0 < k then p < fromEnd n x else fromEnd n x < p

instance (n : Nat) (stop : Option Int) (k p : Int) : Decidable (Before n stop k p) := by
  unfold Before; cases stop <;> infer_instance

/-- `out` is the slice of `l`: its m-th element is the one at first + m·step, as long as there is such a position and it is before the bound. -/
def IsSlice (l : List α) (start stop : Option Int) (k : Int) (out : List α) : Prop :=
  ∀ m : Nat, out[m]? = (let p := First l.length start k + m * k; if 0 ≤ p ∧ p < l.length ∧ Before l.length stop k p then l[p.toNat]? else none)

/-! ## Properties -/

theorem mul_step (i k : Int) (m : Nat) : i + ((m + 1 : Nat) : Int) * k = (i + k) + (m : Int) * k := by
  rw [show ((m + 1 : Nat) : Int) = (m : Int) + 1 by omega, Int.add_mul]; omega

theorem getAt_ok (d : List α) (i : Int) (h0 : 0 ≤ i) : getAt d i = match d[i.toNat]? with | some x => .ok x | none => .error .indexError := by
  simp only [getAt]
  rw [if_neg (by omega), if_neg (by omega)]

/-- The slice from where it is: each further position, as long as it is before the stop. -/
theorem toList_spec (d : List α) (j k : Int) (hk : k ≠ 0) : ∀ (fuel : Nat) (i : Int),
    (0 < k → 0 ≤ i ∧ j ≤ d.length ∧ (j - i).toNat < fuel) → (k < 0 → i < d.length ∧ -1 ≤ j ∧ (i - j).toNat < fuel) →
    ∃ out, toList d fuel (.at_ i j k) = some (out, .stopIteration) ∧
      ∀ m : Nat, out[m]? = (let p := i + m * k; if (0 < k ∧ p < j) ∨ (k < 0 ∧ j < p) then d[p.toNat]? else none) := by
  intro fuel
  induction fuel with
  | zero => intro i h1 h2; omega
  | succ fuel ih =>
    intro i h1 h2
    by_cases hc : (0 < k ∧ i < j) ∨ (k < 0 ∧ j < i)
    · have hi : 0 ≤ i ∧ i < d.length := by omega
      obtain ⟨x, hx⟩ : ∃ x, d[i.toNat]? = some x := ⟨d[i.toNat]'(by omega), List.getElem?_eq_getElem (by omega)⟩
      obtain ⟨out, ho, hs⟩ := ih (i + k) (by omega) (by omega)
      refine ⟨x :: out, ?_, ?_⟩
      · have hn : next d (.at_ i j k) = (.at_ (i + k) j k, .ok x) := by
          simp only [next]; rw [if_pos hc, getAt_ok d i hi.1, hx]
        simp only [toList, hn]
        rw [ho]; rfl
      · intro m
        cases m with
        | zero => simp only [Int.natCast_zero, Int.zero_mul, Int.add_zero, List.getElem?_cons_zero]; rw [if_pos hc, hx]
        | succ m =>
          simp only [List.getElem?_cons_succ, mul_step]
          exact hs m
    · refine ⟨[], ?_, ?_⟩
      · have hn : next d (.at_ i j k) = (.over, .error .stopIteration) := by simp only [next]; rw [if_neg hc]
        simp [toList, hn]
      · intro m
        simp only [List.getElem?_nil]
        rw [if_neg]
        rcases Int.lt_or_gt_of_ne hk with h | h
        · have : (m : Int) * k ≤ 0 := Int.mul_nonpos_of_nonneg_of_nonpos (by omega) (by omega)
          omega
        · have : 0 ≤ (m : Int) * k := Int.mul_nonneg (by omega) (by omega)
          omega

/-- The numbers of `indices` are those of the specification. -/
theorem indices_spec (start stop step : Option Int) (n : Nat) (hk : step.getD 1 ≠ 0) :
    ∃ i j, indices start stop step n = .ok (i, j, step.getD 1) ∧
      (0 < step.getD 1 → 0 ≤ i ∧ j ≤ n) ∧ (step.getD 1 < 0 → i < n ∧ -1 ≤ j) ∧
      ∀ m : Nat, (((0 < step.getD 1 ∧ i + m * step.getD 1 < j) ∨ (step.getD 1 < 0 ∧ j < i + m * step.getD 1)) ↔
        (0 ≤ First n start (step.getD 1) + m * step.getD 1 ∧ First n start (step.getD 1) + m * step.getD 1 < n ∧ Before n stop (step.getD 1) (First n start (step.getD 1) + m * step.getD 1))) ∧
        (((0 < step.getD 1 ∧ i + m * step.getD 1 < j) ∨ (step.getD 1 < 0 ∧ j < i + m * step.getD 1)) → i = First n start (step.getD 1)) := by
  generalize hkk : step.getD 1 = k at *
  rcases Int.lt_or_gt_of_ne hk with h | h
  · refine ⟨bound n (-1) (n - 1) (n - 1) start, bound n (-1) (n - 1) (-1) stop, by simp [indices, hkk, hk, h], by omega, fun _ => ?_, fun m => ?_⟩
    · constructor
      · cases start with
        | none => simp only [bound]; omega
        | some x => simp only [bound]; split <;> split <;> omega
      · cases stop with
        | none => simp only [bound]; omega
        | some x => simp only [bound]; split <;> split <;> omega
    · have : (m : Int) * k ≤ 0 := Int.mul_nonpos_of_nonneg_of_nonpos (by omega) (by omega)
      generalize (m : Int) * k = q at *
      have hk0 : ¬ 0 < k := by omega
      cases start <;> cases stop <;> simp only [bound, First, Before, fromEnd, hk0, ↓reduceIte, false_and, false_or, h, true_and] <;> grind
  · refine ⟨bound n 0 n 0 start, bound n 0 n n stop, by simp [indices, hkk, hk, show ¬ k < 0 by omega], fun _ => ?_, by omega, fun m => ?_⟩
    · constructor
      · cases start with
        | none => simp only [bound]; omega
        | some x => simp only [bound]; split <;> split <;> omega
      · cases stop with
        | none => simp only [bound]; omega
        | some x => simp only [bound]; split <;> split <;> omega
    · have : 0 ≤ (m : Int) * k := Int.mul_nonneg (by omega) (by omega)
      generalize (m : Int) * k = q at *
      have hk0 : ¬ k < 0 := by omega
      have hk1 : 0 < k := h
      cases start <;> cases stop <;> simp only [bound, First, Before, fromEnd, hk0, hk1, ↓reduceIte, false_and, or_false, true_and] <;> grind

/-- **C222 (elements)** `d[i]` is the element at `i`, counted from the end if `i` is negative, and IndexError is raised if there is none. -/
theorem C222_item (d : List α) (i : Int) :
    (∀ x, getAt d i = .ok x ↔ ∃ n : Nat, d[n]? = some x ∧ (i = n ∨ i = (n : Int) - d.length)) ∧
    ((∀ x, getAt d i ≠ .ok x) → getAt d i = .error .indexError) := by
  have hlt : ∀ {n : Nat} {x : α}, d[n]? = some x → n < d.length := fun h => (List.getElem?_eq_some_iff.1 h).1
  have key : ∀ j : Int, (if i < 0 then i + (d.length : Int) else i) = j → getAt d i = if j < 0 then .error .indexError else match d[j.toNat]? with | some x => .ok x | none => .error .indexError := by
    rintro j rfl; rfl
  have pos : ∀ n : Nat, getAt d i = (if (n : Int) < 0 then .error .indexError else match d[(n : Int).toNat]? with | some x => .ok x | none => .error .indexError) →
      getAt d i = match d[n]? with | some x => .ok x | none => .error .indexError := by
    intro n h
    rw [h, if_neg (by omega), Int.toNat_natCast]
  refine ⟨fun x => ⟨fun h => ?_, ?_⟩, fun h => ?_⟩
  · generalize hj : (if i < 0 then i + (d.length : Int) else i) = j at key
    rw [key j rfl] at h
    split at h
    · cases h
    · cases hd : d[j.toNat]? with
      | none => rw [hd] at h; cases h
      | some y =>
        rw [hd] at h; cases h
        refine ⟨_, hd, ?_⟩
        split at hj
        · right; omega
        · left; omega
  · rintro ⟨n, hn, h⟩
    have := hlt hn
    rw [pos n (key n (by split <;> omega)), hn]
  · generalize hj : (if i < 0 then i + (d.length : Int) else i) = j at key
    rw [key j rfl] at h ⊢
    split
    · rfl
    · rename_i h0
      rw [if_neg h0] at h
      split
      · rename_i x hx; rw [hx] at h; exact absurd rfl (h x)
      · rfl

/-- negative ones count from the end -/
example : (match getAt [1, 2, 3] (-1) with | .ok x => some x | .error _ => none) = some 3 ∧ (match getAt [1, 2, 3] (-4) with | .ok x => some x | .error _ => none) = none := by decide

/-- **C222 (slices are those of sequences)** As long as the deque is not changed, iterating over `d[start:stop:step]` gives, for any bounds, given or not, negative or too large, what slicing a sequence
gives, and ends; a step of zero raises ValueError at once. -/
theorem C222_slice (d : List α) (start stop step : Option Int) :
    (step = some 0 → slice d start stop step = .error .valueError) ∧
    (step ≠ some 0 → ∃ g, slice d start stop step = .ok g ∧ ∃ n, ∀ fuel, n ≤ fuel →
      ∃ out, toList d fuel g = some (out, .stopIteration) ∧ IsSlice d start stop (step.getD 1) out) := by
  constructor
  · rintro rfl; rfl
  · intro hs
    have hk : step.getD 1 ≠ 0 := by
      cases step with
      | none => simp
      | some k => simpa using hs
    obtain ⟨i, j, h1, h2, h3, h4⟩ := indices_spec start stop step d.length hk
    refine ⟨.at_ i j (step.getD 1), by simp [slice, h1], (j - i).toNat + (i - j).toNat + 1, fun fuel hf => ?_⟩
    obtain ⟨out, ho, hsp⟩ := toList_spec d j (step.getD 1) hk fuel i (fun h => ⟨(h2 h).1, (h2 h).2, by omega⟩) (fun h => ⟨(h3 h).1, (h3 h).2, by omega⟩)
    refine ⟨out, ho, fun m => ?_⟩
    rw [hsp m]
    simp only
    obtain ⟨h5, h6⟩ := h4 m
    by_cases hc : (0 < step.getD 1 ∧ i + m * step.getD 1 < j) ∨ (step.getD 1 < 0 ∧ j < i + m * step.getD 1)
    · rw [if_pos hc, if_pos (h5.1 hc), h6 hc]
    · rw [if_neg hc, if_neg (fun h => hc (h5.2 h))]

/-- `[1, 2, 3, 4, 5][-1:-100:-2]`. -/
example : (match slice [1, 2, 3, 4, 5] (some (-1)) (some (-100)) (some (-2)) with | .ok g => toList [1, 2, 3, 4, 5] 9 g | .error _ => none) = some ([5, 3, 1], .stopIteration) := by decide

theorem nexts_state (ds : Nat → List α) (i j k : Int) (m : Nat) :
    ((∀ r ∈ (nexts ds (.at_ i j k) m).2, ∃ x, r = .ok x) → (nexts ds (.at_ i j k) m).1 = .at_ (i + m * k) j k) ∧
    ((∃ e, .error e ∈ (nexts ds (.at_ i j k) m).2) → (nexts ds (.at_ i j k) m).1 = .over) := by
  induction m with
  | zero => simp [nexts]
  | succ m ih =>
    obtain ⟨ih1, ih2⟩ := ih
    simp only [nexts, List.mem_append, List.mem_singleton]
    by_cases hall : ∀ r ∈ (nexts ds (.at_ i j k) m).2, ∃ x, r = .ok x
    · rw [ih1 hall]
      have hm : i + ((m + 1 : Nat) : Int) * k = i + m * k + k := by rw [mul_step]; omega
      rw [hm]
      simp only [next]
      split
      · cases hg : getAt (ds m) (i + m * k) with
        | ok x =>
          refine ⟨fun _ => rfl, ?_⟩
          rintro ⟨e, h | h⟩
          · obtain ⟨x, hx⟩ := hall _ h; cases hx
          · cases h
        | error e =>
          refine ⟨fun h => ?_, fun _ => rfl⟩
          obtain ⟨x, hx⟩ := h _ (Or.inr rfl); cases hx
      · refine ⟨fun h => ?_, fun _ => rfl⟩
        obtain ⟨x, hx⟩ := h _ (Or.inr rfl); cases hx
    · have he : ∃ e, .error e ∈ (nexts ds (.at_ i j k) m).2 := by
        simp only [Classical.not_forall] at hall
        obtain ⟨r, hr, hn⟩ := hall
        cases r with
        | ok x => exact absurd ⟨x, rfl⟩ hn
        | error e => exact ⟨e, hr⟩
      refine ⟨fun h => absurd (fun r hr => h r (Or.inl hr)) hall, fun _ => ?_⟩
      rw [ih2 he]; rfl

/-- **C222 (slices look into the deque)** Positions are those for the length that the deque had when it was sliced; what is given for each is what the deque has there when it is asked for, however
it has changed. If the deque has become too short IndexError is raised; and once anything was raised the slice is over. -/
theorem C222_live (d : List α) (start stop step : Option Int) (g : Gen) (h : slice d start stop step = .ok g) (ds : Nat → List α) (m : Nat) :
    ((∀ r ∈ (nexts ds g m).2, ∃ x, r = .ok x) →
      (next (ds m) (nexts ds g m).1).2 =
        (let p := First d.length start (step.getD 1) + m * step.getD 1
         if 0 ≤ p ∧ p < d.length ∧ Before d.length stop (step.getD 1) p then
           (match (ds m)[p.toNat]? with | some x => .ok x | none => .error .indexError)
         else .error .stopIteration)) ∧
    ((∃ e, .error e ∈ (nexts ds g m).2) → (next (ds m) (nexts ds g m).1).2 = .error .stopIteration) := by
  have hs : step ≠ some 0 := by rintro rfl; cases h
  have hk : step.getD 1 ≠ 0 := by
    cases step with
    | none => simp
    | some k => simpa using hs
  obtain ⟨i, j, h1, h2, h3, h4⟩ := indices_spec start stop step d.length hk
  have hg : g = .at_ i j (step.getD 1) := by simp [slice, h1] at h; exact h.symm
  subst hg
  obtain ⟨n1, n2⟩ := nexts_state ds i j (step.getD 1) m
  refine ⟨fun ha => ?_, fun he => ?_⟩
  · rw [n1 ha]
    obtain ⟨h5, h6⟩ := h4 m
    simp only [next]
    by_cases hc : (0 < step.getD 1 ∧ i + m * step.getD 1 < j) ∨ (step.getD 1 < 0 ∧ j < i + m * step.getD 1)
    · have h7 := h5.1 hc
      rw [if_pos hc, if_pos h7, h6 hc, getAt_ok _ _ h7.1]
      split
      · rename_i x hx; split at hx <;> simp_all
      · rename_i e hx; split at hx <;> simp_all
    · rw [if_neg hc, if_neg (fun h => hc (h5.2 h))]
  · rw [n2 he]; rfl

/-- A slice of three, the deque losing its last two after the first was given. -/
example : (nexts (fun m => if m = 0 then [1, 2, 3] else [1]) (.at_ 0 3 1) 3).2.map (fun r => match r with | .ok x => some x | .error .indexError => some 0 | .error _ => none) = [some 1, some 0, none] := by
  decide

end

end Verif.SliceableDeque
