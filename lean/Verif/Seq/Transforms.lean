/-!
# Small transforms (satella/coding/transforms), C95
-/
namespace Verif.Transforms

variable {α β : Type}

/-- `clip`, /repo/satella/coding/transforms/__init__.py:67-80; numbers are rational -/
def clip (v lo hi : Rat) : Rat := if v < lo then lo else if v > hi then hi else v

/-- the loop of `pad_to_multiple_of_length`, /repo/satella/coding/transforms/__init__.py:105-107, on the copy that `for_argument(list)` makes (:83); `factory n` is what the n-th call of the factory gives; `k` is how often it was called.
  The fuel is enough, as `C95_pad` shows. -/
def padLoop (m : Int) (factory : Nat → α) : Nat → Nat → List α → List α
  | 0, _, seq => seq
  | fuel + 1, k, seq => if (seq.length : Int) % m ≠ 0 then padLoop m factory fuel (k + 1) (seq ++ [factory k]) else seq

/-- what is given to pad with, /repo/satella/coding/transforms/__init__.py:85-86; an absent `pad_with` is None -/
structure PadArgs (α : Type) where
  padWith : Option α
  factory : Option (Nat → α)

/-- `pad_to_multiple_of_length`, /repo/satella/coding/transforms/__init__.py:83-107: `none` is ValueError or, for 0, ZeroDivisionError; `noneV` is None -/
def pad (noneV : α) (seq : List α) (m : Int) (p : PadArgs α) : Option (List α) :=
  match p.padWith, p.factory with
  | some _, some _ => none
  | w, none => if m = 0 then none else some (padLoop m (fun _ => w.getD noneV) m.natAbs 0 seq)
  | none, some f => if m = 0 then none else some (padLoop m f m.natAbs 0 seq)

/-- the loop of `split_shuffle_and_join`, /repo/satella/coding/transforms/__init__.py:181-183 -/
def splitLoop (p : α → Bool) : List α → List α × List α → List α × List α
  | [], acc => acc
  | x :: l, (n, s) => splitLoop p l (if p x then (n, s ++ [x]) else (n ++ [x], s))

/-- `split_shuffle_and_join`, /repo/satella/coding/transforms/__init__.py:159-190; `shuffle` is random.shuffle -/
def splitShuffle (shuffle : List α → List α) (p : α → Bool) (front : Bool) (l : List α) : List α :=
  let r := splitLoop p l ([], [])
  if front then r.1 ++ shuffle r.2 else shuffle r.2 ++ r.1

/-- `unpack_dict`, /repo/satella/coding/transforms/__init__.py:25-52: what is yielded (None is `none`) and whether KeyError came then; `map_through` is assumed not to raise -/
def unpackDict (d : α → Option β) (g : β → β) (raise_ : Bool) : List α → List (Option β) × Bool
  | [] => ([], false)
  | k :: ks =>
    match d k with
    | some v => (some (g v) :: (unpackDict d g raise_ ks).1, (unpackDict d g raise_ ks).2)
    | none => if raise_ then ([], true) else (none :: (unpackDict d g raise_ ks).1, (unpackDict d g raise_ ks).2)

/-- the loop of `list_values_to_indices`, /repo/satella/coding/transforms/misc.py:19-24; `none` is ValueError -/
def indicesLoop [DecidableEq α] : List α → Nat → (α → Option Nat) → Option (α → Option Nat)
  | [], _, d => some d
  | v :: l, i, d => if (d v).isSome then none else indicesLoop l (i + 1) (fun w => if w = v then some i else d w)

/-- `list_values_to_indices`, /repo/satella/coding/transforms/misc.py:6-24 -/
def indices [DecidableEq α] (l : List α) : Option (α → Option Nat) := indicesLoop l 0 (fun _ => none)

/-- the loop of `hashables_to_int`, /repo/satella/coding/transforms/words.py:13-18, over the elements of the set in the order in which it gives them -/
def numberLoop [DecidableEq α] : List α → Nat → (α → Option Nat) → (α → Option Nat)
  | [], _, d => d
  | w :: l, i, d => numberLoop l (i + 1) (fun v => if v = w then some i else d v)

/-- `hashables_to_int`, /repo/satella/coding/transforms/words.py:6-18; `set_` gives the elements of the set of words -/
def hashablesToInt [DecidableEq α] (set_ : List α → List α) (words : List α) : α → Option Nat := numberLoop (set_ words) 0 (fun _ => none)

/-- `is_subset`, /repo/satella/coding/transforms/predicates.py:4-18; the items of the first dictionary in order -/
def isSubset [DecidableEq β] (items : List (α × β)) (super : α → Option β) : Bool :=
  match items with
  | [] => true
  | (k, v) :: rest =>
    match super k with
    | none => false
    | some w => if v ≠ w then false else isSubset rest super

/-! ## Properties -/

/-- **C95, clip**: the result is between the limits, it is the value itself if that is, and otherwise it is the nearest limit. -/
theorem C95_clip (v lo hi : Rat) (h : lo ≤ hi) :
    lo ≤ clip v lo hi ∧ clip v lo hi ≤ hi ∧ (lo ≤ v → v ≤ hi → clip v lo hi = v) ∧ (v ≤ lo → clip v lo hi = lo) ∧ (hi ≤ v → clip v lo hi = hi) := by
  unfold clip
  split
  · grind
  · split <;> grind

theorem padLoop_spec (m : Int) (factory : Nat → α) (fuel k : Nat) (seq : List α) (j : Nat) (hj : j ≤ fuel)
    (h0 : ((seq.length + j : Nat) : Int) % m = 0) (hmin : ∀ i < j, ((seq.length + i : Nat) : Int) % m ≠ 0) :
    padLoop m factory fuel k seq = seq ++ (List.range j).map (fun i => factory (k + i)) := by
  induction fuel generalizing k seq j with
  | zero =>
    have : j = 0 := by omega
    subst this
    simp [padLoop]
  | succ fuel ih =>
    cases j with
    | zero =>
      simp only [Nat.add_zero] at h0
      simp [padLoop, h0]
    | succ j =>
      have h1 := hmin 0 (by omega)
      simp only [Nat.add_zero] at h1
      simp only [padLoop, ne_eq, h1, not_false_eq_true, if_true]
      rw [ih (k + 1) (seq ++ [factory k]) j (by omega) (by simpa [Nat.add_comm, Nat.add_left_comm, Nat.add_assoc] using h0)
        (fun i hi => by simpa [Nat.add_comm, Nat.add_left_comm, Nat.add_assoc] using hmin (i + 1) (by omega))]
      rw [List.range_succ_eq_map, List.map_cons, List.map_map]
      simp [Function.comp_def, Nat.add_comm, Nat.add_left_comm]

/-- the next multiple of `m` is less than `m` away -/
theorem next_multiple (n : Nat) (m : Int) (hm : m ≠ 0) : ∃ j, j < m.natAbs ∧ ((n + j : Nat) : Int) % m = 0 ∧ ∀ i < j, ((n + i : Nat) : Int) % m ≠ 0 := by
  have key : ∀ a : Nat, ((a : Nat) : Int) % m = 0 ↔ a % m.natAbs = 0 := by
    intro a
    constructor
    · intro h
      have := Int.dvd_of_emod_eq_zero h
      rw [← Int.natAbs_dvd_natAbs, Int.natAbs_natCast] at this
      exact Nat.mod_eq_zero_of_dvd this
    · intro h
      have := Nat.dvd_of_mod_eq_zero h
      apply Int.emod_eq_zero_of_dvd
      rw [← Int.natAbs_dvd_natAbs, Int.natAbs_natCast]
      exact this
  have hpos : 0 < m.natAbs := by omega
  generalize m.natAbs = q at key hpos
  have hlt := Nat.mod_lt n hpos
  have hdm := Nat.div_add_mod n q
  by_cases h0 : n % q = 0
  · exact ⟨0, hpos, by rw [key]; simpa using h0, by intro i hi; omega⟩
  · refine ⟨q - n % q, by omega, ?_, ?_⟩
    · rw [key]
      have : n + (q - n % q) = q * (n / q + 1) := by rw [Nat.mul_add]; omega
      rw [this]; exact Nat.mul_mod_right _ _
    · intro i hi
      rw [ne_eq, key]
      have : n + i = n % q + i + q * (n / q) := by omega
      rw [this, Nat.add_mul_mod_self_left, Nat.mod_eq_of_lt (by omega)]
      omega

/-- **C95, pad_to_multiple_of_length**: elements are appended, as few as are needed to make the length a multiple; they are what the factory gives, in order, or `pad_with`, or None. Both at once, and a multiple of 0, are refused. -/
theorem C95_pad (noneV : α) (seq : List α) (m : Int) (p : PadArgs α) :
    (pad noneV seq m p = none ↔ m = 0 ∨ (p.padWith.isSome ∧ p.factory.isSome)) ∧
    ∀ out, pad noneV seq m p = some out → ∃ j, j < m.natAbs ∧ (out.length : Int) % m = 0 ∧ (∀ i < j, ((seq.length + i : Nat) : Int) % m ≠ 0) ∧
      out = seq ++ (List.range j).map (fun i => match p.factory with | some f => f i | none => p.padWith.getD noneV) := by
  obtain ⟨w, f⟩ := p
  have main : ∀ (f : Nat → α), m ≠ 0 → ∃ j, j < m.natAbs ∧ ((padLoop m f m.natAbs 0 seq).length : Int) % m = 0 ∧ (∀ i < j, ((seq.length + i : Nat) : Int) % m ≠ 0) ∧
      padLoop m f m.natAbs 0 seq = seq ++ (List.range j).map f := by
    intro f hm
    obtain ⟨j, hj, h0, hmin⟩ := next_multiple seq.length m hm
    have e := padLoop_spec m f m.natAbs 0 seq j (by omega) h0 hmin
    simp only [Nat.zero_add] at e
    refine ⟨j, hj, ?_, hmin, e⟩
    rw [e]; simpa using h0
  cases w <;> cases f
  · simp only [pad]
    by_cases hm : m = 0
    · simp [hm]
    · simp only [hm, if_false]
      refine ⟨by simp, ?_⟩
      intro out h; injection h with h; subst h
      exact main _ hm
  · simp only [pad]
    by_cases hm : m = 0
    · simp [hm]
    · simp only [hm, if_false]
      refine ⟨by simp, ?_⟩
      intro out h; injection h with h; subst h
      exact main _ hm
  · simp only [pad]
    by_cases hm : m = 0
    · simp [hm]
    · simp only [hm, if_false]
      refine ⟨by simp, ?_⟩
      intro out h; injection h with h; subst h
      exact main _ hm
  · simp [pad]

theorem splitLoop_spec (p : α → Bool) (l n s : List α) : splitLoop p l (n, s) = (n ++ l.filter (fun x => !p x), s ++ l.filter p) := by
  induction l generalizing n s with
  | nil => simp [splitLoop]
  | cons x l ih =>
    simp only [splitLoop]
    cases h : p x <;> simp [h, ih]

/-- **C95, split_shuffle_and_join**: the elements for which the predicate does not hold come in their order, at the front or at the back, and the others come in some order. So no element is lost or repeated. -/
theorem C95_split_shuffle (shuffle : List α → List α) (hs : ∀ l, (shuffle l).Perm l) (p : α → Bool) (front : Bool) (l : List α) :
    (splitShuffle shuffle p front l).Perm l ∧
    ∃ s, s.Perm (l.filter p) ∧ splitShuffle shuffle p front l = if front then l.filter (fun x => !p x) ++ s else s ++ l.filter (fun x => !p x) := by
  have hf : (l.filter p ++ l.filter (fun x => !p x)).Perm l := List.filter_append_perm p l
  have h2 : splitShuffle shuffle p front l = if front then l.filter (fun x => !p x) ++ shuffle (l.filter p) else shuffle (l.filter p) ++ l.filter (fun x => !p x) := by
    unfold splitShuffle; simp [splitLoop_spec]
  refine ⟨?_, shuffle (l.filter p), hs _, h2⟩
  rw [h2]
  have hp : (shuffle (l.filter p) ++ l.filter (fun x => !p x)).Perm l := ((hs _).append_right _).trans hf
  cases front
  · simpa using hp
  · simpa using List.perm_append_comm.trans hp

/-- **C95, unpack_dict**: for each key, in order, the value through the function, or None if it is not there; if missing keys raise, KeyError comes at the first one, after the values for the keys before it. -/
theorem C95_unpack (d : α → Option β) (g : β → β) (ks : List α) :
    unpackDict d g false ks = (ks.map (fun k => (d k).map g), false) ∧
    unpackDict d g true ks = ((ks.takeWhile (fun k => (d k).isSome)).map (fun k => (d k).map g), ks.any (fun k => (d k).isNone)) := by
  induction ks with
  | nil => exact ⟨rfl, rfl⟩
  | cons k ks ih =>
    obtain ⟨ih1, ih2⟩ := ih
    cases h : d k with
    | none => simp [unpackDict, h, ih1]
    | some v => simp [unpackDict, h, ih1, ih2]

theorem indicesLoop_spec [DecidableEq α] (l : List α) (i : Nat) (d : α → Option Nat) :
    (indicesLoop l i d = none ↔ ¬ l.Nodup ∨ ∃ v ∈ l, (d v).isSome) ∧
    ∀ r, indicesLoop l i d = some r → ∀ v, r v = if v ∈ l then some (i + l.idxOf v) else d v := by
  induction l generalizing i d with
  | nil => simp [indicesLoop]
  | cons x l ih =>
    simp only [indicesLoop]
    by_cases hx : (d x).isSome
    · simp [hx]
    · simp only [hx]
      obtain ⟨h1, h2⟩ := ih (i + 1) (fun w => if w = x then some i else d w)
      refine ⟨?_, ?_⟩
      · simp only [Bool.false_eq_true, if_false, h1, List.nodup_cons, List.mem_cons]
        constructor
        · rintro (h | ⟨v, hv, hs⟩)
          · exact Or.inl (fun hh => h hh.2)
          · by_cases e : v = x
            · subst e; exact Or.inl (fun hh => hh.1 hv)
            · simp [e] at hs; exact Or.inr ⟨v, Or.inr hv, by simpa using hs⟩
        · rintro (h | ⟨v, rfl | hv, hs⟩)
          · by_cases hxl : x ∈ l
            · exact Or.inr ⟨x, hxl, by simp⟩
            · exact Or.inl (fun hh => h ⟨hxl, hh⟩)
          · exact absurd hs hx
          · by_cases e : v = x
            · subst e; exact Or.inr ⟨v, hv, by simp⟩
            · exact Or.inr ⟨v, hv, by simpa [e] using hs⟩
      · intro r hr v
        simp only [Bool.false_eq_true, if_false] at hr
        have hnd : ¬ (¬ l.Nodup ∨ ∃ v ∈ l, ((fun w => if w = x then some i else d w) v).isSome) := by
          rw [← h1, hr]; simp
        rw [h2 r hr v]
        by_cases e : v = x
        · subst e
          have : v ∉ l := fun hv => hnd (Or.inr ⟨v, hv, by simp⟩)
          simp [this]
        · by_cases hv : v ∈ l
          · have e' : (x == v) = false := by simpa using fun h => e h.symm
            simp only [hv, if_true, List.mem_cons, or_true, List.idxOf_cons, e', cond_false]
            congr 1
            omega
          · simp [hv, e]

/-- **C95, list_values_to_indices**: if the entries differ, each is mapped to the place where it is, and nothing else is in the dictionary; otherwise ValueError. -/
theorem C95_indices [DecidableEq α] (l : List α) :
    (indices l = none ↔ ¬ l.Nodup) ∧ ∀ r, indices l = some r → ∀ v i, r v = some i ↔ l[i]? = some v := by
  obtain ⟨h1, h2⟩ := indicesLoop_spec l 0 (fun _ => none)
  refine ⟨by unfold indices; rw [h1]; simp, ?_⟩
  intro r hr v i
  have hn : l.Nodup := by
    have : ¬ (¬ l.Nodup ∨ ∃ v ∈ l, ((fun _ => none : α → Option Nat) v).isSome) := by rw [← h1]; unfold indices at hr; rw [hr]; simp
    simpa using this
  rw [h2 r hr v]
  constructor
  · intro h
    split at h
    · rename_i hv
      simp at h
      subst h
      rw [List.getElem?_eq_getElem (List.idxOf_lt_length_of_mem hv), List.getElem_idxOf]
    · cases h
  · intro h
    obtain ⟨hi, he⟩ := List.getElem?_eq_some_iff.1 h
    have hv : v ∈ l := he ▸ List.getElem_mem hi
    have : l.idxOf v = i := by rw [← he]; exact hn.idxOf_getElem i hi
    simp [hv, this]

theorem numberLoop_spec [DecidableEq α] (l : List α) (hn : l.Nodup) (i : Nat) (d : α → Option Nat) :
    ∀ v, numberLoop l i d v = if v ∈ l then some (i + l.idxOf v) else d v := by
  induction l generalizing i d with
  | nil => simp [numberLoop]
  | cons x l ih =>
    intro v
    rw [List.nodup_cons] at hn
    simp only [numberLoop]
    rw [ih hn.2]
    by_cases e : v = x
    · subst e; simp [hn.1]
    · by_cases hv : v ∈ l
      · have e' : (x == v) = false := by simpa using fun h => e h.symm
        simp only [hv, if_true, List.mem_cons, or_true, List.idxOf_cons, e', cond_false]
        congr 1
        omega
      · simp [hv, e]

/-- **C95, hashables_to_int**: exactly the words have numbers, different words have different numbers, and the numbers are those from 0 to one less than how many words there are. -/
theorem C95_hashables [DecidableEq α] (set_ : List α → List α) (words : List α) (hs : (set_ words).Nodup ∧ ∀ w, w ∈ set_ words ↔ w ∈ words) :
    (∀ w, (hashablesToInt set_ words w).isSome ↔ w ∈ words) ∧
    (∀ w w' i, hashablesToInt set_ words w = some i → hashablesToInt set_ words w' = some i → w = w') ∧
    (∀ i, (∃ w, hashablesToInt set_ words w = some i) ↔ i < (set_ words).length) := by
  have e := numberLoop_spec (set_ words) hs.1 0 (fun _ => none)
  have e' : ∀ w, hashablesToInt set_ words w = if w ∈ set_ words then some ((set_ words).idxOf w) else none := by
    intro w; unfold hashablesToInt; rw [e]; simp
  refine ⟨?_, ?_, ?_⟩
  · intro w; rw [e', ← hs.2]; split <;> rename_i h <;> simp [h]
  · intro w w' i h h'
    rw [e'] at h h'
    split at h
    · rename_i hw
      split at h'
      · rename_i hw'
        injection h with h; injection h' with h'
        have h1 := List.getElem_idxOf (List.idxOf_lt_length_of_mem hw)
        have h2 := List.getElem_idxOf (List.idxOf_lt_length_of_mem hw')
        rw [← h1, ← h2]
        congr 1
        omega
      · cases h'
    · cases h
  · intro i
    constructor
    · rintro ⟨w, h⟩
      rw [e'] at h
      split at h
      · rename_i hw
        injection h with h
        rw [← h]; exact List.idxOf_lt_length_of_mem hw
      · cases h
    · intro h
      refine ⟨(set_ words)[i], ?_⟩
      rw [e', if_pos (List.getElem_mem h), hs.1.idxOf_getElem i h]

/-- **C95, is_subset**: exactly if every key of the first dictionary is in the second, with an equal value. -/
theorem C95_is_subset [DecidableEq β] (items : List (α × β)) (super : α → Option β) : isSubset items super = true ↔ ∀ k v, (k, v) ∈ items → super k = some v := by
  induction items with
  | nil => simp [isSubset]
  | cons p items ih =>
    obtain ⟨k, v⟩ := p
    simp only [isSubset, List.mem_cons]
    cases h : super k with
    | none =>
      simp only [Bool.false_eq_true, false_iff]
      intro hh
      have := hh k v (Or.inl rfl)
      rw [h] at this; cases this
    | some w =>
      by_cases e : v = w
      · subst e
        simp only [ne_eq, not_true_eq_false, if_false, ih]
        constructor
        · rintro hh k' v' (h' | h')
          · injection h' with h1 h2; subst h1 h2; exact h
          · exact hh k' v' h'
        · intro hh k' v' h'; exact hh k' v' (Or.inr h')
      · simp only [ne_eq, e, not_false_eq_true, if_true, Bool.false_eq_true, false_iff]
        intro hh
        have := hh k v (Or.inl rfl)
        rw [h] at this; injection this with this; exact e this.symm

/-! Cases that meet the hypotheses -/
example : clip 7 1 5 = 5 ∧ clip 3 1 5 = 3 ∧ clip (-2) 1 5 = 1 := by refine ⟨?_, ?_, ?_⟩ <;> simp [clip] <;> grind
example : pad 0 [1, 2, 3, 4] 3 ⟨none, some (fun i => 10 + i)⟩ = some [1, 2, 3, 4, 10, 11] := by decide
example : ∀ l : List Nat, (l.reverse).Perm l := fun l => List.reverse_perm l
example : splitShuffle List.reverse (fun x => x % 2 == 0) true [1, 2, 3, 4] = [1, 3, 4, 2] := by decide
example : (unpackDict (fun k => if k < 3 then some (k + 1) else none) (fun v => v * 10) true [1, 5, 2]) = ([some 20], true) := by decide
example : (indices [5, 6, 7]).isSome ∧ (indices [5, 6, 5]) = none := ⟨by decide, (C95_indices _).1.2 (by decide)⟩
example : ([1, 2].Nodup) ∧ ∀ w, w ∈ [1, 2] ↔ w ∈ [2, 1, 1] := by simp; omega
example : isSubset [(1, 2)] (fun k => if k < 3 then some 2 else none) = true := by decide

end Verif.Transforms
