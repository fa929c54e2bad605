/-!
# linear_interpolate and percentile (satella/coding/transforms), C96

Numbers are rational: rounding of floats is not modelled.
-/
namespace Verif.Interpolate

/-- `bisect.bisect_left` on the times of the series, as a linear search: how many come before the first one that is not less than `t`.  This is what bisection finds in a sorted list; the theorems that use it assume one, /repo/satella/coding/transforms/interpol.py:37 -/
def bisectLeft (t : Rat) : List (Rat × Rat) → Nat
  | [] => 0
  | p :: l => if p.1 < t then bisectLeft t l + 1 else 0

/-- what a call gives, /repo/satella/coding/transforms/interpol.py:23-47 -/
inductive Out where
  | value (y : Rat)
  | valueError
  | indexError
  | assertion
deriving DecidableEq

/-- `linear_interpolate`, /repo/satella/coding/transforms/interpol.py:7-47.  Division by zero cannot occur in it, as `C96_between` shows: the two times are different. -/
def interpolate (series : List (Rat × Rat)) (t : Rat) (clip : Bool) : Out :=
  match series.head?, series.getLast? with
  | some first, some last =>
    if t < first.1 then (if clip then .value first.2 else .valueError)
    else if t > last.1 then (if clip then .value last.2 else .valueError)
    else if t = first.1 then .value first.2
    else
      let i := bisectLeft t series - 1
      if i = series.length - 1 then .value last.2
      else
        match series[i]?, series[i + 1]? with
        | some p, some q =>
          if p.1 ≤ t ∧ t ≤ q.1 then .value ((q.2 - p.2) / (q.1 - p.1) * (t - p.1) + p.2) else .assertion
        | _, _ => .indexError
  | _, _ => .indexError

/-- `percentile`, /repo/satella/coding/transforms/percentile.py:7-23; `none` is IndexError.  For `percent` from 0 to 1, as documented: negative indices are not modelled. -/
def percentile (n : List Rat) (percent : Rat) : Option Rat :=
  let k := ((n.length : Rat) - 1) * percent
  let f := k.floor
  let c := k.ceil
  if f = c then n[f.toNat]?
  else
    match n[f.toNat]?, n[c.toNat]? with
    | some a, some b => some (a * ((c : Rat) - k) + b * (k - (f : Rat)))
    | _, _ => none

/-! ## Specification -/

/-- sorted by time, ascending -/
def SortedByTime (series : List (Rat × Rat)) : Prop := series.Pairwise (fun p q => p.1 ≤ q.1)

/-- `(t, y)` is on the line from `p` to `q` -/
def OnLine (p q : Rat × Rat) (t y : Rat) : Prop := (y - p.2) * (q.1 - p.1) = (q.2 - p.2) * (t - p.1)

/-! ## Proofs -/

theorem bisect_lt (t : Rat) (l : List (Rat × Rat)) (i : Nat) (hi : i < bisectLeft t l) (p : Rat × Rat) (hp : l[i]? = some p) : p.1 < t := by
  induction l generalizing i with
  | nil => simp [bisectLeft] at hi
  | cons q l ih =>
    simp only [bisectLeft] at hi
    split at hi
    · rename_i h
      cases i with
      | zero => simp at hp; subst hp; exact h
      | succ i => exact ih i (by omega) (by simpa using hp)
    · omega

theorem bisect_le_length (t : Rat) (l : List (Rat × Rat)) : bisectLeft t l ≤ l.length := by
  induction l with
  | nil => simp [bisectLeft]
  | cons q l ih => simp only [bisectLeft]; split <;> simp <;> omega

theorem bisect_at (t : Rat) (l : List (Rat × Rat)) (p : Rat × Rat) (hp : l[bisectLeft t l]? = some p) : t ≤ p.1 := by
  induction l with
  | nil => simp at hp
  | cons q l ih =>
    simp only [bisectLeft] at hp
    split at hp
    · exact ih (by simpa using hp)
    · rename_i h
      simp at hp; subst hp; exact Rat.not_lt.1 h

theorem sorted_get (l : List (Rat × Rat)) (h : SortedByTime l) (i j : Nat) (hij : i ≤ j) (p q : Rat × Rat) (hp : l[i]? = some p) (hq : l[j]? = some q) : p.1 ≤ q.1 := by
  obtain ⟨h1, rfl⟩ := List.getElem?_eq_some_iff.1 hp
  obtain ⟨h2, rfl⟩ := List.getElem?_eq_some_iff.1 hq
  rcases Nat.lt_or_eq_of_le hij with hlt | rfl
  · exact List.pairwise_iff_getElem.1 h i j h1 h2 hlt
  · exact Rat.le_refl

/-- the interesting case: which two entries are used -/
theorem inner (series : List (Rat × Rat)) (t : Rat) (first last : Rat × Rat) (hf : series.head? = some first) (hl : series.getLast? = some last)
    (h1 : first.1 < t) (h2 : t ≤ last.1) : ∃ i p q, series[i]? = some p ∧ series[i + 1]? = some q ∧ bisectLeft t series = i + 1 ∧ p.1 < t ∧ t ≤ q.1 := by
  have hpos : 0 < bisectLeft t series := by
    cases series with
    | nil => simp at hf
    | cons a l =>
      simp at hf; subst hf
      simp [bisectLeft, h1]
  have hlt : bisectLeft t series < series.length := by
    rcases Nat.lt_or_eq_of_le (bisect_le_length t series) with h | h
    · exact h
    · exfalso
      have hlen : 0 < series.length := by omega
      rw [List.getLast?_eq_getElem?] at hl
      have := bisect_lt t series (series.length - 1) (by omega) last hl
      grind
  obtain ⟨i, hi⟩ : ∃ i, bisectLeft t series = i + 1 := ⟨bisectLeft t series - 1, by omega⟩
  refine ⟨i, series[i]'(by omega), series[i + 1]'(by omega), List.getElem?_eq_getElem _, List.getElem?_eq_getElem _, hi, ?_, ?_⟩
  · exact bisect_lt t series i (by omega) _ (List.getElem?_eq_getElem _)
  · exact bisect_at t series _ (by rw [hi]; exact List.getElem?_eq_getElem _)

theorem interpolate_inner (series : List (Rat × Rat)) (t : Rat) (clip : Bool) (first last : Rat × Rat) (hf : series.head? = some first) (hl : series.getLast? = some last)
    (h1 : first.1 < t) (h2 : t ≤ last.1) : ∃ i p q, series[i]? = some p ∧ series[i + 1]? = some q ∧ p.1 < t ∧ t ≤ q.1 ∧
      interpolate series t clip = .value ((q.2 - p.2) / (q.1 - p.1) * (t - p.1) + p.2) := by
  obtain ⟨i, p, q, hp, hq, hb, hpt, htq⟩ := inner series t first last hf hl h1 h2
  refine ⟨i, p, q, hp, hq, hpt, htq, ?_⟩
  have hlen : i + 1 < series.length := (List.getElem?_eq_some_iff.1 hq).1
  unfold interpolate
  simp only [hf, hl, hb, Nat.add_sub_cancel, hp, hq]
  rw [if_neg (by grind), if_neg (by grind), if_neg (by grind), if_neg (by omega), if_pos ⟨by grind, htq⟩]

theorem line (p q : Rat × Rat) (t : Rat) (h : p.1 < q.1) : OnLine p q t ((q.2 - p.2) / (q.1 - p.1) * (t - p.1) + p.2) := by
  unfold OnLine
  have hne : q.1 - p.1 ≠ 0 := by grind
  have := Rat.div_mul_cancel (a := q.2 - p.2) hne
  grind

/-- **C96, within the series**: at a time from the first to the last one the value is on the line between two consecutive entries around that time. -/
theorem C96_between (series : List (Rat × Rat)) (hs : SortedByTime series) (t : Rat) (clip : Bool) (first last : Rat × Rat) (hf : series.head? = some first) (hl : series.getLast? = some last)
    (h1 : first.1 < t) (h2 : t ≤ last.1) :
    ∃ i p q y, series[i]? = some p ∧ series[i + 1]? = some q ∧ p.1 < t ∧ t ≤ q.1 ∧ interpolate series t clip = .value y ∧ OnLine p q t y ∧
      (p.2 ≤ q.2 → p.2 ≤ y ∧ y ≤ q.2) ∧ (q.2 ≤ p.2 → q.2 ≤ y ∧ y ≤ p.2) := by
  have _ := hs
  obtain ⟨i, p, q, hp, hq, hpt, htq, he⟩ := interpolate_inner series t clip first last hf hl h1 h2
  have hpq : p.1 < q.1 := by grind
  refine ⟨i, p, q, _, hp, hq, hpt, htq, he, line p q t hpq, ?_⟩
  have hon := line p q t hpq
  generalize (q.2 - p.2) / (q.1 - p.1) * (t - p.1) + p.2 = y at hon
  unfold OnLine at hon
  have hd : 0 < q.1 - p.1 := by grind
  have ha : 0 ≤ t - p.1 := by grind
  have hb : 0 ≤ q.1 - t := by grind
  constructor
  · intro hle
    have hc : 0 ≤ q.2 - p.2 := by grind
    have m1 := Rat.mul_nonneg hc ha
    have m2 := Rat.mul_nonneg hc hb
    refine ⟨?_, ?_⟩
    · refine Rat.not_lt.1 fun hlt => ?_
      have : 0 < p.2 - y := by grind
      have := Rat.mul_pos this hd
      grind
    · refine Rat.not_lt.1 fun hlt => ?_
      have : 0 < y - q.2 := by grind
      have := Rat.mul_pos this hd
      grind
  · intro hle
    have hc : 0 ≤ p.2 - q.2 := by grind
    have m1 := Rat.mul_nonneg hc ha
    have m2 := Rat.mul_nonneg hc hb
    refine ⟨?_, ?_⟩
    · refine Rat.not_lt.1 fun hlt => ?_
      have : 0 < q.2 - y := by grind
      have := Rat.mul_pos this hd
      grind
    · refine Rat.not_lt.1 fun hlt => ?_
      have : 0 < y - p.2 := by grind
      have := Rat.mul_pos this hd
      grind

/-- **C96, at the entries**: if the times differ, then the value at the time of an entry is the value of the entry. -/
theorem C96_at_entries (series : List (Rat × Rat)) (hs : series.Pairwise (fun p q => p.1 < q.1)) (clip : Bool) (j : Nat) (p : Rat × Rat) (hp : series[j]? = some p) :
    interpolate series p.1 clip = .value p.2 := by
  have hlen : j < series.length := (List.getElem?_eq_some_iff.1 hp).1
  have hget : ∀ (i k : Nat) (a b : Rat × Rat), i < k → series[i]? = some a → series[k]? = some b → a.1 < b.1 := by
    intro i k a b hik ha hb
    obtain ⟨h1, rfl⟩ := List.getElem?_eq_some_iff.1 ha
    obtain ⟨h2, rfl⟩ := List.getElem?_eq_some_iff.1 hb
    exact List.pairwise_iff_getElem.1 hs i k h1 h2 hik
  obtain ⟨first, hf⟩ : ∃ f, series.head? = some f := by cases series with | nil => simp at hlen | cons a l => exact ⟨a, rfl⟩
  obtain ⟨last, hl⟩ : ∃ f, series.getLast? = some f := by
    rw [List.getLast?_eq_getElem?]; exact ⟨_, List.getElem?_eq_getElem (by omega)⟩
  have hf' : series[0]? = some first := by rw [← List.head?_eq_getElem?]; exact hf
  have hl' : series[series.length - 1]? = some last := by rw [← List.getLast?_eq_getElem?]; exact hl
  cases j with
  | zero =>
    rw [hf'] at hp; injection hp with hp; subst hp
    have hle : first.1 ≤ last.1 := by
      rcases Nat.eq_zero_or_pos (series.length - 1) with h | h
      · rw [h, hf'] at hl'; injection hl' with hl'; rw [hl']; exact Rat.le_refl
      · exact Rat.le_of_lt (hget 0 _ _ _ h hf' hl')
    unfold interpolate
    simp only [hf, hl]
    rw [if_neg (by grind), if_neg (by grind), if_pos trivial]
  | succ j =>
    have h1 : first.1 < p.1 := hget 0 (j + 1) _ _ (by omega) hf' hp
    have h2 : p.1 ≤ last.1 := by
      rcases Nat.lt_or_eq_of_le (show j + 1 ≤ series.length - 1 by omega) with h | h
      · exact Rat.le_of_lt (hget _ _ _ _ h hp hl')
      · rw [← h, hp] at hl'; injection hl' with hl'; rw [hl']; exact Rat.le_refl
    obtain ⟨i, a, b, ha, hb, hat, htb, he⟩ := interpolate_inner series p.1 clip first last hf hl h1 h2
    have hij : i = j := by
      rcases Nat.lt_trichotomy i j with h | h | h
      · have := hget (i + 1) (j + 1) _ _ (by omega) hb hp; grind
      · exact h
      · have : j + 1 ≤ i := h
        rcases Nat.lt_or_eq_of_le this with h' | h'
        · have := hget _ _ _ _ h' hp ha; grind
        · subst h'; rw [hp] at ha; injection ha with ha; subst ha; grind
    subst hij
    rw [hp] at hb; injection hb with hb; subst hb
    have hon := line a p p.1 hat
    rw [he]
    unfold OnLine at hon
    congr 1
    have hd : p.1 - a.1 ≠ 0 := by grind
    have := Rat.div_mul_cancel (a := p.2 - a.2) hd
    grind

/-- **C96, outside the series**: before the first time and after the last one ValueError is raised, or with `clip` the first or last value is returned. An empty series raises IndexError. -/
theorem C96_outside (series : List (Rat × Rat)) (t : Rat) (clip : Bool) (first last : Rat × Rat) (hf : series.head? = some first) (hl : series.getLast? = some last) :
    (t < first.1 → interpolate series t clip = if clip then .value first.2 else .valueError) ∧
    (first.1 ≤ t → last.1 < t → interpolate series t clip = if clip then .value last.2 else .valueError) ∧
    (SortedByTime series → first.1 ≤ t → t ≤ last.1 → ∃ y, interpolate series t clip = .value y) ∧
    interpolate [] t clip = .indexError := by
  refine ⟨?_, ?_, ?_, rfl⟩
  · intro h; unfold interpolate; simp [hf, hl, h]
  · intro h1 h2
    unfold interpolate
    simp only [hf, hl]
    rw [if_neg (by grind), if_pos (by grind)]
  · intro _ h1 h2
    by_cases e : t = first.1
    · refine ⟨first.2, ?_⟩
      unfold interpolate
      simp only [hf, hl]
      rw [if_neg (by grind), if_neg (by grind), if_pos e]
    · obtain ⟨_, _, _, _, _, _, _, he⟩ := interpolate_inner series t clip first last hf hl (by grind) h2
      exact ⟨_, he⟩


/-! ### percentile -/

/-- sorted, ascending -/
def Sorted (n : List Rat) : Prop := n.Pairwise (· ≤ ·)

/-- `y` is read at the position `k` of the list, where between two positions the values change linearly -/
def ReadAt (n : List Rat) (k y : Rat) : Prop :=
  ∃ (i : Nat) (a : Rat), n[i]? = some a ∧ (i : Rat) ≤ k ∧ k < (i : Rat) + 1 ∧
    ((k = (i : Rat) ∧ y = a) ∨ ((i : Rat) < k ∧ ∃ b, n[i + 1]? = some b ∧ y = a + (b - a) * (k - (i : Rat))))

theorem readAt_percentile (n : List Rat) (hn : n ≠ []) (p : Rat) (h0 : 0 ≤ p) (h1 : p ≤ 1) : ∃ y, percentile n p = some y ∧ ReadAt n (((n.length : Rat) - 1) * p) y := by
  have hlen : 0 < n.length := List.length_pos_iff.2 hn
  have hl1 : (1 : Rat) ≤ (n.length : Rat) := by
    have : ((1 : Nat) : Rat) ≤ (n.length : Rat) := Rat.natCast_le_natCast.2 hlen
    simpa using this
  have hk0 : 0 ≤ ((n.length : Rat) - 1) * p := Rat.mul_nonneg (by grind) h0
  have hk1 : ((n.length : Rat) - 1) * p ≤ (n.length : Rat) - 1 := by
    have := Rat.mul_le_mul_of_nonneg_left h1 (show 0 ≤ (n.length : Rat) - 1 by grind)
    grind
  unfold percentile
  generalize ((n.length : Rat) - 1) * p = k at *
  obtain ⟨i, hi⟩ : ∃ i : Nat, k.floor = (i : Int) :=
    ⟨k.floor.toNat, (Int.toNat_of_nonneg (Rat.le_floor_iff.2 (by simpa using hk0))).symm⟩
  have hfl : (i : Rat) ≤ k := by
    have := Rat.floor_le k
    rw [hi, Rat.intCast_natCast] at this
    exact this
  have hfu : k < (i : Rat) + 1 := by
    have := Rat.lt_floor_add_one k
    rw [hi, Rat.intCast_add, Rat.intCast_natCast] at this
    simpa using this
  have hil : i < n.length := by
    have : (i : Rat) < (n.length : Rat) := by grind
    exact Rat.natCast_lt_natCast.1 this
  by_cases hk : k = (i : Rat)
  · have hc : k.ceil = (i : Int) := by rw [hk, ← Rat.intCast_natCast]; exact Rat.ceil_intCast _
    simp only [hi, hc, if_true, Int.toNat_natCast]
    exact ⟨_, List.getElem?_eq_getElem hil, i, _, List.getElem?_eq_getElem hil, hfl, hfu, .inl ⟨hk, rfl⟩⟩
  · have hlt : (i : Rat) < k := by grind
    have hc : k.ceil = ((i + 1 : Nat) : Int) := by
      have c1 : k.ceil ≤ ((i + 1 : Nat) : Int) := by
        rw [Rat.ceil_le_iff, Rat.intCast_natCast, Rat.natCast_add]; simp; grind
      have c2 : (i : Int) < k.ceil := by
        rw [Rat.lt_ceil_iff, Rat.intCast_natCast]; exact hlt
      omega
    have hil' : i + 1 < n.length := by
      have : (i : Rat) + 1 < (n.length : Rat) := by grind
      have h' : ((i + 1 : Nat) : Rat) < (n.length : Rat) := by rw [Rat.natCast_add]; simpa using this
      exact Rat.natCast_lt_natCast.1 h'
    simp only [hi, hc, Int.toNat_natCast, List.getElem?_eq_getElem hil, List.getElem?_eq_getElem hil']
    rw [if_neg (by omega)]
    refine ⟨_, rfl, i, _, List.getElem?_eq_getElem hil, hfl, hfu, .inr ⟨hlt, _, List.getElem?_eq_getElem hil', ?_⟩⟩
    rw [Rat.intCast_natCast, Rat.intCast_natCast, Rat.natCast_add]
    simp
    grind

theorem sorted_rat (n : List Rat) (h : Sorted n) (i j : Nat) (hij : i ≤ j) (a b : Rat) (ha : n[i]? = some a) (hb : n[j]? = some b) : a ≤ b := by
  obtain ⟨h1, rfl⟩ := List.getElem?_eq_some_iff.1 ha
  obtain ⟨h2, rfl⟩ := List.getElem?_eq_some_iff.1 hb
  rcases Nat.lt_or_eq_of_le hij with hlt | rfl
  · exact List.pairwise_iff_getElem.1 h i j h1 h2 hlt
  · exact Rat.le_refl

/-- a value read from position `i` on is at least the `i`-th -/
theorem part_bounds (a b d : Rat) (h : a ≤ b) (h0 : 0 ≤ d) (h1 : d ≤ 1) : a ≤ a + (b - a) * d ∧ a + (b - a) * d ≤ b := by
  have m1 := Rat.mul_nonneg (show 0 ≤ b - a by grind) h0
  have m2 := Rat.mul_nonneg (show 0 ≤ b - a by grind) (show 0 ≤ 1 - d by grind)
  grind

theorem readAt_mono (n : List Rat) (hs : Sorted n) (k k' y y' : Rat) (h : ReadAt n k y) (h' : ReadAt n k' y') (hk : k ≤ k') : y ≤ y' := by
  obtain ⟨i, a, ha, hl, hu, hc⟩ := h
  obtain ⟨i', a', ha', hl', hu', hc'⟩ := h'
  have hii : i ≤ i' := by
    have : (i : Rat) < ((i' + 1 : Nat) : Rat) := by rw [Rat.natCast_add]; simp; grind
    have := Rat.natCast_lt_natCast.1 this
    omega
  -- the second value is at least the entry at its position
  have hy' : a' ≤ y' := by
    rcases hc' with ⟨_, rfl⟩ | ⟨_, b', hb', rfl⟩
    · exact Rat.le_refl
    · exact (part_bounds a' b' _ (sorted_rat n hs _ _ (Nat.le_succ _) _ _ ha' hb') (by grind) (by grind)).1
  rcases Nat.lt_or_eq_of_le hii with hlt | rfl
  · rcases hc with ⟨_, rfl⟩ | ⟨_, b, hb, rfl⟩
    · have := sorted_rat n hs _ _ hii _ _ ha ha'; grind
    · have m1 := (part_bounds a b _ (sorted_rat n hs _ _ (Nat.le_succ _) _ _ ha hb) (show 0 ≤ k - (i : Rat) by grind) (by grind)).2
      have m2 := sorted_rat n hs _ _ hlt _ _ hb ha'
      grind
  · rw [ha] at ha'; injection ha' with ha'; subst ha'
    rcases hc with ⟨_, rfl⟩ | ⟨hlt, b, hb, rfl⟩
    · exact hy'
    · rcases hc' with ⟨e, rfl⟩ | ⟨_, b', hb', rfl⟩
      · grind
      · rw [hb] at hb'; injection hb' with hb'; subst hb'
        have hab := sorted_rat n hs _ _ (Nat.le_succ _) _ _ ha hb
        have := Rat.mul_nonneg (show 0 ≤ b - a by grind) (show 0 ≤ k' - k by grind)
        grind

/-- **C96, percentile**: of a list that is not empty, for a `percent` from 0 to 1, the value read at the position `(len(n)-1)*percent`, with the values between two positions changing linearly.  An empty list raises IndexError. -/
theorem C96_percentile (n : List Rat) (p : Rat) (h0 : 0 ≤ p) (h1 : p ≤ 1) :
    (n ≠ [] → ∃ y, percentile n p = some y ∧ ReadAt n (((n.length : Rat) - 1) * p) y) ∧ (n = [] → percentile n p = none) := by
  refine ⟨fun h => readAt_percentile n h p h0 h1, ?_⟩
  rintro rfl
  simp [percentile]

/-- **C96, percentile of a sorted list**: grows with `percent`, from the least entry at 0 to the greatest at 1. -/
theorem C96_percentile_sorted (n : List Rat) (hs : Sorted n) (first last : Rat) (hf : n.head? = some first) (hl : n.getLast? = some last) :
    percentile n 0 = some first ∧ percentile n 1 = some last ∧
    (∀ p q x y, 0 ≤ p → p ≤ q → q ≤ 1 → percentile n p = some x → percentile n q = some y → x ≤ y) ∧
    (∀ p x, 0 ≤ p → p ≤ 1 → percentile n p = some x → first ≤ x ∧ x ≤ last) := by
  have hn : n ≠ [] := by rintro rfl; simp at hf
  have hlen : 0 < n.length := List.length_pos_iff.2 hn
  have e0 : percentile n 0 = some first := by
    rw [List.head?_eq_getElem?] at hf
    simp [percentile, hf, show (0 : Rat).floor = 0 from rfl, show (0 : Rat).ceil = 0 from rfl]
  have e1 : percentile n 1 = some last := by
    rw [List.getLast?_eq_getElem?] at hl
    have hc : (n.length : Rat) - 1 = ((n.length - 1 : Nat) : Int) := by
      rw [Rat.intCast_natCast]
      obtain ⟨m, hm⟩ : ∃ m, n.length = m + 1 := ⟨n.length - 1, by omega⟩
      rw [hm, Rat.natCast_add]; simp; grind
    unfold percentile
    simp only [Rat.mul_one, hc, Rat.floor_intCast, Rat.ceil_intCast, if_true, Int.toNat_natCast]
    exact hl
  have mono : ∀ p q x y, 0 ≤ p → p ≤ q → q ≤ 1 → percentile n p = some x → percentile n q = some y → x ≤ y := by
    intro p q x y hp hpq hq hx hy
    obtain ⟨x', ex, rx⟩ := readAt_percentile n hn p hp (by grind)
    obtain ⟨y', ey, ry⟩ := readAt_percentile n hn q (by grind) hq
    rw [hx] at ex; injection ex with ex; subst ex
    rw [hy] at ey; injection ey with ey; subst ey
    refine readAt_mono n hs _ _ x y rx ry ?_
    have hl1 : (1 : Rat) ≤ (n.length : Rat) := by
      have : ((1 : Nat) : Rat) ≤ (n.length : Rat) := Rat.natCast_le_natCast.2 hlen
      simpa using this
    exact Rat.mul_le_mul_of_nonneg_left hpq (by grind)
  refine ⟨e0, e1, mono, fun p x hp hp1 hx => ⟨mono 0 p _ _ (by grind) hp hp1 e0 hx, mono p 1 _ _ hp hp1 (by grind) hx e1⟩⟩

/-! ### Concrete cases -/

example : interpolate [(0, 10), (2, 20), (4, 0)] 3 false = .value 10 := by decide +kernel
example : interpolate [(0, 10), (2, 20), (4, 0)] 1 false = .value 15 := by decide +kernel
example : interpolate [(0, 10), (2, 20), (4, 0)] 5 true = .value 0 := by decide +kernel
example : interpolate [(0, 10), (2, 20), (4, 0)] 5 false = .valueError := by decide +kernel
example : SortedByTime [(0, 10), (2, 20), (2, 30), (4, 0)] := by unfold SortedByTime; decide +kernel
example : ([(0, 10), (2, 20), (4, 0)] : List (Rat × Rat)).Pairwise (fun p q => p.1 < q.1) := by decide +kernel
example : percentile [1, 3, 5, 11] (1/2) = some 4 := by decide +kernel
example : Sorted [1, 3, 5, 11] := by unfold Sorted; decide +kernel

end Verif.Interpolate
