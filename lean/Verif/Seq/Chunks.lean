import Verif.Py.Basic
/-!
# Model of satella/coding/sequences/sequences.py, and C32

(The lines of that file end with carriage returns only; line numbers count them.)
The input is given by the list of its elements.  A generator is given by what it yields, and by the exception it ends with, if any.
A StopIteration raised in the body of a generator becomes a RuntimeError.
-/
namespace Verif.Seq
open Verif

/-- what a generator yields until it is exhausted, and the exception raised at the end, if any.  (Part of the model of `is_last`, /repo/satella/coding/sequences/sequences.py:51-71.) -/
structure Gen (α : Type) where
  out : List α
  exc : Option Exc
  deriving DecidableEq, Repr

variable {α : Type}

/-- the loop of is_last, /repo/satella/coding/sequences/sequences.py:66-71 -/
def isLastLoop (prev : α) : List α → List (Bool × α)
  | [] => [(true, prev)]
  | v :: l => (false, prev) :: isLastLoop v l

/-- `is_last`, /repo/satella/coding/sequences/sequences.py:51-71 -/
def isLast : List α → Gen (Bool × α)
  | [] => { out := [], exc := some .runtimeError }
  | x :: l => { out := isLastLoop x l, exc := none }

/-- the loop of add_next and what follows it, /repo/satella/coding/sequences/sequences.py:98-105 -/
def addNextLoop (wrapOver skipLast : Bool) (first prev : α) : List α → List (α × Option α)
  | [] => if wrapOver then [(prev, some first)] else if skipLast then [] else [(prev, none)]
  | v :: l => (prev, some v) :: addNextLoop wrapOver skipLast first v l

/-- `add_next`, /repo/satella/coding/sequences/sequences.py:74-105 -/
def addNext (wrapOver skipLast : Bool) : List α → List (α × Option α)
  | [] => []
  | x :: l => addNextLoop wrapOver skipLast x x l

/-- the inner loop of half_cartesian, /repo/satella/coding/sequences/sequences.py:130-136 -/
def halfRow (same : Bool) (i : Nat) (x : α) : Nat → List α → List (α × α)
  | _, [] => []
  | j, y :: l => (if (if same then decide (j ≥ i) else decide (j > i)) then [(x, y)] else []) ++ halfRow same i x (j + 1) l

/-- the outer loop of half_cartesian, /repo/satella/coding/sequences/sequences.py:129, for a `seq` that can be iterated over many times -/
def halfRows (same : Bool) (seq : List α) : Nat → List α → List (α × α)
  | _, [] => []
  | i, x :: l => halfRow same i x 0 seq ++ halfRows same seq (i + 1) l

/-- `half_cartesian`, /repo/satella/coding/sequences/sequences.py:108-136 -/
def halfCartesian (same : Bool) (seq : List α) : List (α × α) := halfRows same seq 0 seq

/-- `half_cartesian` given an iterator: the inner loop takes all that the outer has not yet taken, /repo/satella/coding/sequences/sequences.py:108-136. -/
def halfCartesianIter (same : Bool) : List α → List (α × α)
  | [] => []
  | x :: l => halfRow same 0 x 0 l

/-- The `while` of group_quantity for a sequence, /repo/satella/coding/sequences/sequences.py:156-160.  `fuel` bounds the turns (the model's own: `none` when it is too small). -/
def groupSeq (n : Nat) (seq : List α) : Nat → Nat → Option (List (List α))
  | 0, _ => none
  | fuel + 1, i => if i < seq.length then (groupSeq n seq fuel (i + n)).map ((seq.drop i).take n :: ·) else some []

/-- the loop of group_quantity for other iterables, /repo/satella/coding/sequences/sequences.py:161-171 -/
def groupIter (n : Nat) (entries : List α) : List α → List (List α)
  | [] => if entries.isEmpty then [] else [entries]
  | x :: l => if entries.length = n then entries :: groupIter n [x] l else groupIter n (entries ++ [x]) l

/-- `group_quantity`, /repo/satella/coding/sequences/sequences.py:139-171; `sequence` tells whether it was given a sequence that is not a range -/
def groupQuantity (sequence : Bool) (fuel n : Nat) (seq : List α) : Option (List (List α)) :=
  if sequence then groupSeq n seq fuel 0 else some (groupIter n [] seq)

/-! ## Specification -/

/-- `cs` are chunks of `s` with `n` elements, the last one perhaps with less -/
structure Chunks (n : Nat) (s : List α) (cs : List (List α)) : Prop where
  all : cs.flatten = s
  full : ∀ c ∈ cs.dropLast, c.length = n
  last : ∀ c ∈ cs.getLast?, 0 < c.length ∧ c.length ≤ n

/-- `ps` is what you get from `s` at the pairs of positions `ix` -/
def AtPositions (s : List α) (ix : List (Nat × Nat)) (ps : List (α × α)) : Prop :=
  ps.map (fun p => (some p.1, some p.2)) = ix.map (fun p => (s[p.1]?, s[p.2]?))

/-! ## C32 -/

theorem isLastLoop_spec (x : α) (l : List α) : isLastLoop x l = (((x :: l).dropLast).map (fun v => (false, v))) ++ [(true, (x :: l).getLast (by simp))] := by
  induction l generalizing x with
  | nil => simp [isLastLoop]
  | cons y l ih => simp [isLastLoop, ih]

/-- **C32, is_last.** Of a sequence that is not empty, all elements are given in order, flagged False but for the last, which is flagged True. -/
theorem C32_is_last_partial (s : List α) (h : s ≠ []) :
    (isLast s).exc = none ∧ (isLast s).out.map Prod.snd = s ∧
      ∀ i b, (isLast s).out[i]?.map Prod.fst = some b → (b = true ↔ i + 1 = s.length) := by
  cases s with
  | nil => exact absurd rfl h
  | cons x l =>
    simp only [isLast, isLastLoop_spec]
    refine ⟨trivial, ?_, ?_⟩
    · simp only [List.map_append, List.map_map, List.map_cons, List.map_nil]
      have : (Prod.snd ∘ fun v : α => (false, v)) = id := rfl
      rw [this, List.map_id, List.dropLast_concat_getLast]
    · intro i b hb
      rw [List.getElem?_append] at hb
      simp only [List.length_map, List.length_dropLast, List.length_cons, Nat.add_sub_cancel] at hb
      split at hb
      · simp only [List.getElem?_map, Option.map_map] at hb
        cases hx : (x :: l).dropLast[i]? with
        | none => rw [hx] at hb; cases hb
        | some v => rw [hx] at hb; simp at hb; subst hb; simp; omega
      · rename_i hi
        by_cases h0 : i - l.length = 0
        · simp [h0] at hb; subst hb; simp; omega
        · rw [List.getElem?_eq_none (by simp; omega)] at hb; cases hb

/-- **C32, is_last, the violation.** Of an empty sequence it raises RuntimeError. -/
theorem C32_is_last_violates : isLast ([] : List Nat) = { out := [], exc := some .runtimeError } := rfl

theorem addNextLoop_spec (f x : α) (l : List α) :
    addNextLoop false false f x l = (x :: l).zip (l.map some ++ [none]) ∧
    addNextLoop true false f x l = (x :: l).zip (l.map some ++ [some f]) ∧
    addNextLoop true true f x l = (x :: l).zip (l.map some ++ [some f]) ∧
    addNextLoop false true f x l = (x :: l).zip (l.map some) := by
  induction l generalizing x with
  | nil => simp [addNextLoop]
  | cons y l ih => simp [addNextLoop, ih]

/-- **C32, add_next.** Each element in order, with the next one; the last with None. -/
theorem C32_add_next (s : List α) :
    (addNext false false s).length = s.length ∧ ∀ i (_ : i < s.length), (addNext false false s)[i]? = some (s[i], s[i + 1]?) := by
  cases s with
  | nil => simp [addNext]
  | cons x l =>
    simp only [addNext, (addNextLoop_spec x x l).1]
    refine ⟨by simp, fun i hi => ?_⟩
    have hi' : i < l.length + 1 := by simpa using hi
    rw [List.getElem?_zip_eq_some]
    refine ⟨List.getElem?_eq_getElem hi, ?_⟩
    rw [List.getElem?_append]
    by_cases h : i < l.length
    · simp [h]
    · have : i = l.length := by omega
      subst this; simp

/-- **C32, add_next, wrapping over.** With `wrap_over` the last one comes with the first. -/
theorem C32_add_next_wrap (skip : Bool) (s : List α) :
    (addNext true skip s).length = s.length ∧
      ∀ i (_ : i < s.length), (addNext true skip s)[i]? = some (s[i], s[(i + 1) % s.length]?) := by
  cases s with
  | nil => simp [addNext]
  | cons x l =>
    have : addNextLoop true skip x x l = (x :: l).zip (l.map some ++ [some x]) := by
      cases skip with
      | false => exact (addNextLoop_spec x x l).2.1
      | true => exact (addNextLoop_spec x x l).2.2.1
    simp only [addNext, this]
    refine ⟨by simp, fun i hi => ?_⟩
    have hi' : i < l.length + 1 := by simpa using hi
    rw [List.getElem?_zip_eq_some]
    refine ⟨List.getElem?_eq_getElem hi, ?_⟩
    rw [List.getElem?_append]
    by_cases h : i < l.length
    · rw [Nat.mod_eq_of_lt (by simp; omega)]; simp [h]
    · have : i = l.length := by omega
      subst this; simp

/-- **C32, add_next, the last skipped.** With `skip_last` the last element, which has no next, is not given. -/
theorem C32_add_next_skip (s : List α) : addNext false true s = (addNext false false s).dropLast := by
  cases s with
  | nil => rfl
  | cons x l =>
    simp only [addNext, (addNextLoop_spec x x l).1, (addNextLoop_spec x x l).2.2.2]
    induction l generalizing x with
    | nil => rfl
    | cons z l ih => 
      simp only [List.map_cons, List.cons_append, List.zip_cons_cons]
      rw [List.dropLast_cons_of_ne_nil (by cases l <;> simp), ← ih z]

/-- positions in a row -/
def rowIx (same : Bool) (i j n : Nat) : List (Nat × Nat) :=
  ((List.range' j n).filter (fun j => if same then decide (j ≥ i) else decide (j > i))).map (fun j => (i, j))

theorem halfRow_spec (same : Bool) (s : List α) (i : Nat) (x : α) (hx : s[i]? = some x) : ∀ (l : List α) (j : Nat), l = s.drop j →
    AtPositions s (rowIx same i j l.length) (halfRow same i x j l) := by
  intro l
  induction l with
  | nil => intro j _; rfl
  | cons y l ih =>
    intro j hj
    have hy : s[j]? = some y := by rw [← List.head?_drop, ← hj]; rfl
    have hl : l = s.drop (j + 1) := by rw [← List.tail_drop, ← hj]; rfl
    have := ih (j + 1) hl
    unfold AtPositions rowIx at this ⊢
    simp only [halfRow, List.length_cons, List.range'_succ, List.map_append, List.filter_cons, this]
    generalize (if same = true then decide (j ≥ i) else decide (j > i)) = b
    cases b <;> simp [hx, hy]

/-- positions in all rows -/
def rowsIx (same : Bool) (n i m : Nat) : List (Nat × Nat) := (List.range' i m).flatMap (fun i => rowIx same i 0 n)

theorem halfRows_spec (same : Bool) (s : List α) : ∀ (l : List α) (i : Nat), l = s.drop i →
    AtPositions s (rowsIx same s.length i l.length) (halfRows same s i l) := by
  intro l
  induction l with
  | nil => intro i _; rfl
  | cons x l ih =>
    intro i hi
    have hx : s[i]? = some x := by rw [← List.head?_drop, ← hi]; rfl
    have hl : l = s.drop (i + 1) := by rw [← List.tail_drop, ← hi]; rfl
    have h1 := ih (i + 1) hl
    have h2 := halfRow_spec same s i x hx s 0 (by simp)
    unfold AtPositions rowsIx at *
    simp only [halfRows, List.length_cons, List.range'_succ, List.flatMap_cons, List.map_append, h1, h2]

theorem mem_rowsIx (same : Bool) (n m i j : Nat) : (i, j) ∈ rowsIx same n 0 m ↔ i < m ∧ j < n ∧ (if same then i ≤ j else i < j) := by
  simp only [rowsIx, rowIx, List.mem_flatMap, List.mem_map, List.mem_filter, List.mem_range'_1, Prod.mk.injEq]
  constructor
  · rintro ⟨a, h1, b, ⟨h2, h3⟩, rfl, rfl⟩
    refine ⟨by omega, by omega, ?_⟩
    cases same <;> simpa using h3
  · rintro ⟨h1, h2, h3⟩
    refine ⟨i, by omega, j, ⟨by omega, ?_⟩, rfl, rfl⟩
    cases same <;> simpa using h3

theorem nodup_rowsIx (same : Bool) (n m : Nat) : ∀ i, (rowsIx same n i m).Nodup := by
  induction m with
  | zero => intro i; simp [rowsIx]
  | succ m ih =>
    intro i
    have := ih (i + 1)
    unfold rowsIx at this ⊢
    rw [List.range'_succ, List.flatMap_cons, List.nodup_append]
    refine ⟨?_, this, ?_⟩
    · unfold rowIx
      rw [List.Nodup, List.pairwise_map]
      exact (List.Pairwise.filter _ (List.nodup_range' (step := 1))).imp (fun h e => h (by simpa using e))
    · intro a ha b hb e
      subst e
      simp only [rowIx, List.mem_map, List.mem_flatMap, List.mem_range'_1] at ha hb
      obtain ⟨j, _, rfl⟩ := ha
      obtain ⟨i', h1, j', _, h2⟩ := hb
      simp at h2; omega

/-- **C32, half_cartesian.** Of a sequence, every pair of positions `i <= j` (or `i < j`, without `include_same_pairs`) comes exactly once. -/
theorem C32_half_cartesian (same : Bool) (s : List α) :
    ∃ ix : List (Nat × Nat), ix.Nodup ∧ (∀ i j, (i, j) ∈ ix ↔ j < s.length ∧ (if same then i ≤ j else i < j)) ∧
      AtPositions s ix (halfCartesian same s) := by
  refine ⟨rowsIx same s.length 0 s.length, nodup_rowsIx _ _ _ _, fun i j => ?_, halfRows_spec same s s 0 (by simp)⟩
  rw [mem_rowsIx]
  cases same <;> simp <;> omega

/-- **C32, half_cartesian, the violation.** Given an iterator (which the annotation allows) it pairs the first element with the others, and nothing else: the pairs of an element with itself are missing, and those of later elements. -/
theorem C32_half_cartesian_violates : halfCartesianIter true [1, 2, 3] = [(1, 2), (1, 3)] ∧
    halfCartesian true [1, 2, 3] = [(1, 1), (1, 2), (1, 3), (2, 2), (2, 3), (3, 3)] := by decide

theorem Chunks.cons {n : Nat} {c : List α} {s : List α} {cs : List (List α)} (h : Chunks n s cs) (hc : c.length = n) (hn : 0 < n) : Chunks n (c ++ s) (c :: cs) := by
  refine ⟨by simp [h.all], ?_, ?_⟩
  · cases cs with
    | nil => simp
    | cons d ds =>
      intro e he
      rw [List.dropLast_cons_of_ne_nil (by simp)] at he
      rcases List.mem_cons.1 he with rfl | he
      · exact hc
      · exact h.full e he
  · cases cs with
    | nil => simp [hc, hn]
    | cons d ds =>
      intro e he
      exact h.last e (by simpa [List.getLast?_cons_cons] using he)

theorem groupSeq_spec {n : Nat} (hn : 0 < n) (s : List α) : ∀ (fuel i : Nat), s.length - i < fuel → ∃ cs, groupSeq n s fuel i = some cs ∧ Chunks n (s.drop i) cs := by
  intro fuel
  induction fuel with
  | zero => intro i h; omega
  | succ fuel ih =>
    intro i h
    by_cases hi : i < s.length
    · obtain ⟨cs, h1, h2⟩ := ih (i + n) (by omega)
      refine ⟨_, by rw [groupSeq, if_pos hi, h1]; rfl, ?_⟩
      by_cases hl : i + n ≤ s.length
      · have : s.drop i = (s.drop i).take n ++ s.drop (i + n) := by rw [← List.drop_drop, List.take_append_drop]
        rw [this]
        rw [show ((s.drop i).take n ++ s.drop (i + n)).take n = (s.drop i).take n by rw [← this]]
        exact h2.cons (by simp; omega) hn
      · have h0 : s.drop (i + n) = [] := List.drop_eq_nil_of_le (by omega)
        have hcs : cs = [] := by
          cases fuel with
          | zero => rw [groupSeq] at h1; cases h1
          | succ fuel => rw [groupSeq, if_neg (by omega)] at h1; exact (Option.some.inj h1).symm
        subst hcs
        have ht : (s.drop i).take n = s.drop i := List.take_of_length_le (by simp; omega)
        rw [ht]
        exact ⟨by simp, by simp, by simp; omega⟩
    · refine ⟨[], by rw [groupSeq, if_neg hi], ?_⟩
      rw [List.drop_eq_nil_of_le (by omega)]
      exact ⟨rfl, by simp, by simp⟩

theorem groupIter_spec {n : Nat} (hn : 0 < n) (l : List α) : ∀ e : List α, e.length ≤ n → Chunks n (e ++ l) (groupIter n e l) := by
  induction l with
  | nil =>
    intro e he
    cases e with
    | nil => exact ⟨rfl, by simp [groupIter], by simp [groupIter]⟩
    | cons x e => exact ⟨by simp [groupIter], by simp [groupIter], by simpa [groupIter] using he⟩
  | cons x l ih =>
    intro e he
    rw [groupIter]
    split
    · rename_i h
      exact (ih [x] hn).cons h hn
    · have := ih (e ++ [x]) (by simp; omega)
      simpa using this

/-- **C32, group_quantity.** For every chunk size of at least 1 and every input, sequence or not, the lists together are the input, all have that size but the last, which is not empty and not longer.
(The number of turns of the loop is bounded by the length.) -/
theorem C32_group_quantity (sequence : Bool) (n : Nat) (hn : 1 ≤ n) (s : List α) :
    ∃ cs, (∀ fuel, s.length < fuel → groupQuantity sequence fuel n s = some cs) ∧ Chunks n s cs := by
  cases sequence with
  | false => exact ⟨_, fun _ _ => rfl, by simpa using groupIter_spec hn s [] (by simp)⟩
  | true =>
    obtain ⟨cs, _, h2⟩ := groupSeq_spec hn s (s.length + 1) 0 (by omega)
    refine ⟨cs, fun fuel hf => ?_, by simpa using h2⟩
    obtain ⟨ds, h3, h4⟩ := groupSeq_spec hn s fuel 0 (by omega)
    have : ds = cs := chunks_unique hn (by simpa using h4) (by simpa using h2)
    rw [← this]
    exact h3
where
  chunks_unique {n : Nat} (hn : 1 ≤ n) : ∀ {ds cs : List (List α)} {s : List α}, Chunks n s ds → Chunks n s cs → ds = cs := by
    intro ds
    induction ds with
    | nil =>
      intro cs s h1 h2
      cases cs with
      | nil => rfl
      | cons c cs =>
        exfalso
        have h0 : (c :: cs).flatten = [] := h2.all.trans h1.all.symm
        simp only [List.flatten_cons, List.append_eq_nil_iff] at h0
        cases cs with
        | nil => have := h2.last c (by simp); simp [h0.1] at this
        | cons d cs => have := h2.full c (by simp); simp [h0.1] at this; omega
    | cons d ds ih =>
      intro cs s h1 h2
      cases cs with
      | nil =>
        exfalso
        have h0 : (d :: ds).flatten = [] := h1.all.trans h2.all.symm
        simp only [List.flatten_cons, List.append_eq_nil_iff] at h0
        cases ds with
        | nil => have := h1.last d (by simp); simp [h0.1] at this
        | cons e ds => have := h1.full d (by simp); simp [h0.1] at this; omega
      | cons c cs =>
        have hd : d = s.take n ∧ ds.flatten = s.drop n := head h1
        have hc : c = s.take n ∧ cs.flatten = s.drop n := head h2
        have t1 : Chunks n (s.drop n) ds := tail h1 hd.2
        have t2 : Chunks n (s.drop n) cs := tail h2 hc.2
        rw [hd.1, hc.1, ih t1 t2]
  head {n : Nat} {d : List α} {ds : List (List α)} {s : List α} (h : Chunks n s (d :: ds)) : d = s.take n ∧ ds.flatten = s.drop n := by
    have h1 := h.all
    simp only [List.flatten_cons] at h1
    cases ds with
    | nil =>
      have := h.last d (by simp)
      simp at h1
      subst h1
      simp [List.take_of_length_le this.2, List.drop_eq_nil_of_le this.2]
    | cons e ds =>
      have := h.full d (by simp)
      subst h1
      subst this
      simp
  tail {n : Nat} {d : List α} {ds : List (List α)} {s s' : List α} (h : Chunks n s (d :: ds)) (h' : ds.flatten = s') : Chunks n s' ds := by
    cases ds with
    | nil => exact ⟨h', by simp, by simp⟩
    | cons e ds =>
      refine ⟨h', fun c hc => h.full c ?_, fun c hc => h.last c ?_⟩
      · rw [List.dropLast_cons_of_ne_nil (by simp)]; exact List.mem_cons_of_mem _ hc
      · rw [List.getLast?_cons_cons]; exact hc

/-- **C32, group_quantity of size 0.** A chunk size of 0 makes it yield empty lists for ever. -/
theorem C32_group_zero (s : List α) (hs : s ≠ []) (fuel : Nat) : groupQuantity true fuel 0 s = none := by
  simp only [groupQuantity, if_true]
  have : 0 < s.length := List.length_pos_iff.2 hs
  suffices ∀ i, i < s.length → groupSeq 0 s fuel i = none from this 0 ‹_›
  induction fuel with
  | zero => intro i _; rfl
  | succ fuel ih => intro i hi; rw [groupSeq, if_pos hi, ih _ (by simpa using hi)]; rfl

/-! Concrete cases. -/

example : isLast [1, 2, 3] = { out := [(false, 1), (false, 2), (true, 3)], exc := none } := rfl
example : addNext false false [1, 2, 3] = [(1, some 2), (2, some 3), (3, none)] := rfl
example : addNext true false [1, 2, 3] = [(1, some 2), (2, some 3), (3, some 1)] := rfl
example : groupQuantity true 20 3 [1, 2, 3, 4, 5, 6, 7] = some [[1, 2, 3], [4, 5, 6], [7]] := rfl
example : groupQuantity false 20 3 [1, 2, 3, 4, 5, 6] = some [[1, 2, 3], [4, 5, 6]] := rfl

end Verif.Seq
