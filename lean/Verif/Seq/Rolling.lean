import Verif.Py.Dict
import Verif.Py.Run

/-!
# Rolling averages and counting

Model of `satella/coding/sequences/average.py` (`RollingArithmeticAverage`) and
`satella/coding/structures/dictionaries/counting.py` (`CountingDict`).
-/

namespace Verif.Rolling

/-! ## Rolling averages: model -/

/-- `RollingArithmeticAverage`, /repo/satella/coding/sequences/average.py:12-15: the size, the queue, the sum. -/
structure Avg where
  n : Int
  queue : List Rat
  sum : Rat
deriving DecidableEq

/-- Calls of a `RollingArithmeticAverage`, /repo/satella/coding/sequences/average.py:17-45. -/
inductive Op where
  | insert (x : Rat)
  | avg
  | clear
deriving DecidableEq

/-- What the calls give: None, a value, or an exception; /repo/satella/coding/sequences/average.py:17-45. -/
inductive Res where
  | none
  | value (v : Rat)
  | zeroDivisionError
  | indexError
deriving DecidableEq

/-- /repo/satella/coding/sequences/average.py:12-15, the constructor. -/
def make (n : Int) : Avg := ⟨n, [], 0⟩

/-- /repo/satella/coding/sequences/average.py:17-45, one call. `rnd` is the rounding of the results of `+` and `-`:
identity for integers and fractions, that of floating point for floats. The division is not rounded. -/
def step (rnd : Rat → Rat) (s : Avg) : Op → Avg × Res
  | .insert x =>
    if s.n ≤ (s.queue.length : Int) then
      match s.queue with
      | [] => (s, .indexError)
      | p :: q => ({ s with queue := q ++ [x], sum := rnd (rnd (s.sum - p) + x) }, .none)
    else ({ s with queue := s.queue ++ [x], sum := rnd (s.sum + x) }, .none)
  | .avg => (s, if s.queue.length = 0 then .zeroDivisionError else .value (s.sum / (s.queue.length : Rat)))
  | .clear => ({ s with queue := [], sum := 0 }, .none)

/-! ## Rolling averages: specification -/

/-- The last `n` elements.  (Part of what is said of `RollingArithmeticAverage`, /repo/satella/coding/sequences/average.py:4-45.) -/
def lastN (n : Nat) (xs : List Rat) : List Rat := xs.drop (xs.length - n)

/-- The arithmetic mean.  (Part of what is said of `RollingArithmeticAverage`, /repo/satella/coding/sequences/average.py:4-45.) -/
def mean (xs : List Rat) : Rat := xs.sum / (xs.length : Rat)

/-- What is expected: `xs` are all the samples inserted since the last clearing. -/
def spec (n : Nat) (xs : List Rat) (o : Op) (r : Res) (xs' : List Rat) : Prop :=
  match o with
  | .insert x => r = .none ∧ xs' = xs ++ [x]
  | .clear => r = .none ∧ xs' = []
  | .avg => xs' = xs ∧ (xs = [] → r = .zeroDivisionError) ∧ (xs ≠ [] → r = .value (mean (lastN n xs)))

/-! ## Rolling averages: proofs -/

theorem lastN_snoc_full (n : Nat) (hn : 0 < n) (xs : List Rat) (x : Rat) (h : n ≤ xs.length) :
    ∃ p q, lastN n xs = p :: q ∧ lastN n (xs ++ [x]) = q ++ [x] := by
  have hlen : (lastN n xs).length = n := by simp [lastN]; omega
  obtain ⟨k, hk⟩ : ∃ k, xs.length - n = k := ⟨_, rfl⟩
  have hk1 : k < xs.length := by omega
  refine ⟨xs[k], xs.drop (k + 1), ?_, ?_⟩
  · simp only [lastN, hk]
    exact List.drop_eq_getElem_cons hk1
  · simp only [lastN, List.length_append, List.length_singleton]
    rw [show xs.length + 1 - n = k + 1 by omega, List.drop_append_of_le_length (by omega)]

theorem lastN_short (n : Nat) (xs : List Rat) (h : xs.length ≤ n) : lastN n xs = xs := by
  simp [lastN, show xs.length - n = 0 by omega]

theorem lastN_length (n : Nat) (xs : List Rat) : (lastN n xs).length = min n xs.length := by
  simp [lastN]; omega

theorem mem_lastN {n : Nat} {xs : List Rat} {y : Rat} (h : y ∈ lastN n xs) : y ∈ xs := List.mem_of_mem_drop h

theorem sum_snoc (xs : List Rat) (x : Rat) : (xs ++ [x]).sum = xs.sum + x := by
  simp only [List.sum_append, List.sum_cons, List.sum_nil]
  grind

/-- **C167 the average of the last samples.** For every history of inserting, clearing and asking, the average is the
arithmetic mean of the last `n` samples inserted since the last clearing (of all of them, if fewer); ZeroDivisionError
exactly if there are none; nothing else is raised. This is for every rounding that does not change sums of up to
`n` of the samples inserted: for integers and fractions always, for floats if such sums are exact. -/
theorem C167_average (rnd : Rat → Rat) (A : Rat → Prop) (n : Nat) (hn : 0 < n) (hr : ∀ l : List Rat, (∀ x ∈ l, A x) → l.length ≤ n → rnd l.sum = l.sum)
    (ops : List Op) (ha : ∀ o ∈ ops, ∀ x, o = .insert x → A x) :
    ∃ xs, History (spec n) [] ops (runOps (step rnd) (make n) ops).2 xs := by
  have := history_of_sim (step := step rnd) (spec := spec n) (fun s xs => s.n = (n : Int) ∧ s.queue = lastN n xs ∧ s.sum = (lastN n xs).sum ∧ ∀ x ∈ xs, A x)
    (fun o => ∀ x, o = .insert x → A x) ?_ (make n) [] ops ha ⟨rfl, by simp [make, lastN], by simp [make, lastN], by simp⟩
  · obtain ⟨b, h, -⟩ := this
    exact ⟨b, h⟩
  · intro s xs o hA ⟨h1, h2, h3, h4⟩
    have hlen := lastN_length n xs
    cases o with
    | insert x =>
      have hAx := hA x rfl
      have h4' : ∀ y ∈ xs ++ [x], A y := by
        intro y hy
        rcases List.mem_append.mp hy with hy | hy
        · exact h4 y hy
        · rw [List.mem_singleton.mp hy]; exact hAx
      refine ⟨xs ++ [x], ⟨?_, rfl⟩, ?_⟩
      · simp only [step, h1, h2]
        split
        · rename_i hle
          obtain ⟨p, q, e1, -⟩ := lastN_snoc_full n hn xs x (by omega)
          rw [e1]
        · rfl
      · simp only [step, h1, h2]
        split
        · rename_i hle
          obtain ⟨p, q, e1, e2⟩ := lastN_snoc_full n hn xs x (by omega)
          rw [e1] at h3 ⊢
          have hq : ∀ y ∈ q, A y := fun y hy => h4 y (mem_lastN (by rw [e1]; simp [hy]))
          have hql : q.length + 1 ≤ n := by
            have := hlen
            rw [e1] at this
            simp at this
            omega
          have e3 : rnd (s.sum - p) = q.sum := by
            rw [h3, List.sum_cons, show p + q.sum - p = q.sum by grind]
            exact hr q hq (by omega)
          have e4 : rnd (q.sum + x) = (q ++ [x]).sum := by
            rw [← sum_snoc]
            refine hr _ ?_ (by simp; omega)
            intro y hy
            rcases List.mem_append.mp hy with hy | hy
            · exact hq y hy
            · rw [List.mem_singleton.mp hy]; exact hAx
          exact ⟨rfl, e2.symm, by simp only [e3, e4, e2], h4'⟩
        · rename_i hle
          have hs : xs.length < n := by omega
          have e1 := lastN_short n xs (by omega)
          have e2 := lastN_short n (xs ++ [x]) (by simp; omega)
          refine ⟨rfl, by rw [e1, e2], ?_, h4'⟩
          simp only [e2, h3, e1, ← sum_snoc]
          exact hr _ h4' (by simp; omega)
    | avg =>
      refine ⟨xs, ⟨rfl, ?_, ?_⟩, h1, h2, h3, h4⟩
      · rintro rfl
        simp [step, h2, lastN]
      · intro hne
        have hpos : 0 < xs.length := List.length_pos_iff.mpr hne
        simp only [step, h2, h3, mean]
        rw [if_neg (by omega)]
    | clear => exact ⟨[], ⟨rfl, rfl⟩, h1, by simp [step, lastN], by simp [step, lastN], by simp⟩

/-- A case of C167: the last two of three samples, then cleared. -/
example : (runOps (step id) (make 2) [.insert 1, .insert 4, .insert 7, .avg, .clear, .avg]).2 = [.none, .none, .none, .value (11/2), .none, .zeroDivisionError] := by decide +kernel
example : ∃ xs, History (spec 2) [] [.insert 1, .insert 4, .insert 7, .avg] (runOps (step id) (make 2) [.insert 1, .insert 4, .insert 7, .avg]).2 xs :=
  C167_average id (fun _ => True) 2 (by decide) (by simp) _ (by simp)

/-- Rounding of integers, as that of 64-bit floats for integers below 2^54 other than halves that round up: above 2^53
they are even. -/
def rnd53 (x : Rat) : Rat := if x ≤ 2 ^ 53 then x else 2 * ((x / 2).floor : Rat)

/-- **C168 (violated) for every size.** An average of zero (or fewer) last samples is accepted by the constructor, but
then every insertion raises IndexError. -/
theorem C168_no_samples_violates (rnd : Rat → Rat) (n : Int) (hn : n ≤ 0) (x : Rat) : step rnd (make n) (.insert x) = (make n, .indexError) := by
  simp [step, make, hn]

/-- **C168 (violated) for floats.** A large sample that is gone leaves its rounding error: after 2^53, 1 and 2 the
average of the last two is 1, not 3/2, and it stays wrong until cleared. -/
theorem C168_floats_violates : (runOps (step rnd53) (make 2) [.insert (2 ^ 53), .insert 1, .insert 2, .avg, .insert 2, .insert 2, .avg]).2 =
    [.none, .none, .none, .value 1, .none, .none, .value (3/2)] ∧ mean (lastN 2 [2 ^ 53, 1, 2]) = 3/2 ∧ mean (lastN 2 [2 ^ 53, 1, 2, 2, 2]) = 2 := by decide +kernel

/-- **C168 (partial) integers whose sums are small.** With the rounding of floats the averages are exact if samples are
integers between 0 and a bound, with `n` times the bound at most 2^53. Missing: larger and fractional samples,
sizes that are not positive. -/
theorem C168_small_partial (n : Nat) (hn : 0 < n) (b : Nat) (hb : n * b ≤ 2 ^ 53) (ops : List Op) (ha : ∀ o ∈ ops, ∀ x, o = .insert x → 0 ≤ x ∧ x ≤ (b : Rat)) :
    ∃ xs, History (spec n) [] ops (runOps (step rnd53) (make n) ops).2 xs := by
  refine C167_average rnd53 (fun x => 0 ≤ x ∧ x ≤ (b : Rat)) n hn ?_ ops ha
  intro l hl hlen
  have h1 : l.sum ≤ ((l.length * b : Nat) : Rat) := by
    clear hlen
    induction l with
    | nil => simp
    | cons a l ih =>
      have := ih (fun x hx => hl x (by simp [hx]))
      have h2 := (hl a (by simp)).2
      simp only [List.sum_cons, List.length_cons]
      push_cast at this ⊢
      grind
  have h2 : ((l.length * b : Nat) : Rat) ≤ 2 ^ 53 := by
    have : l.length * b ≤ 2 ^ 53 := Nat.le_trans (Nat.mul_le_mul_right b hlen) hb
    exact_mod_cast this
  simp only [rnd53]
  rw [if_pos (Rat.le_trans h1 h2)]

/-! ## Counting: model -/

variable {κ : Type} [DecidableEq κ]

/-- /repo/satella/coding/structures/dictionaries/counting.py:21-31, `count`. -/
def count (d : Dict κ Int) (e : κ) (pieces : Int) : Dict κ Int :=
  match d.get? e with
  | none => d.set e pieces
  | some v => d.set e (v + pieces)

/-- Calls of a `CountingDict`, /repo/satella/coding/structures/dictionaries/counting.py:18-52. -/
inductive COp (κ : Type) where
  | count (e : κ) (pieces : Int)
  | get (e : κ)
  | clear
  | keys
  | items
  | len
  | truth

/-- What the calls give, /repo/satella/coding/structures/dictionaries/counting.py:18-52. -/
inductive CRes (κ : Type) where
  | none
  | int (v : Int)
  | keyError
  | keys (l : List κ)
  | items (l : List (κ × Int))
  | bool (b : Bool)

/-- /repo/satella/coding/structures/dictionaries/counting.py:13-16, the constructor. -/
def makeCount (l : List κ) : Dict κ Int := l.foldl (fun d e => count d e 1) []

/-- /repo/satella/coding/structures/dictionaries/counting.py:18-52, one call (`keys` is also iterating, line 45-46). -/
def cstep (d : Dict κ Int) : COp κ → Dict κ Int × CRes κ
  | .count e p => (count d e p, .none)
  | .get e => (d, match d.get? e with | some v => .int v | Option.none => .keyError)
  | .clear => ([], .none)
  | .keys => (d, .keys d.keys)
  | .items => (d, .items d)
  | .len => (d, .int d.length)
  | .truth => (d, .bool (!d.isEmpty))

/-! ## Counting: specification -/

/-- How many pieces of `e` there are in what was counted. -/
def pieces (l : List (κ × Int)) (e : κ) : Int := ((l.filter fun p => p.1 = e).map Prod.snd).sum

/-- The elements, in the order they were first counted. -/
def firsts (l : List (κ × Int)) : List κ := setOf (l.map Prod.fst)

/-- What is expected: `l` is all that was counted since the last clearing, one entry for a call. -/
def cspec (l : List (κ × Int)) (o : COp κ) (r : CRes κ) (l' : List (κ × Int)) : Prop :=
  match o with
  | .count e p => r = .none ∧ l' = l ++ [(e, p)]
  | .clear => r = .none ∧ l' = []
  | .get e => l' = l ∧ (e ∈ l.map Prod.fst → r = .int (pieces l e)) ∧ (e ∉ l.map Prod.fst → r = .keyError)
  | .keys => l' = l ∧ r = .keys (firsts l)
  | .items => l' = l ∧ r = .items ((firsts l).map fun e => (e, pieces l e))
  | .len => l' = l ∧ r = .int (firsts l).length
  | .truth => l' = l ∧ r = .bool (decide (l ≠ []))

/-! ## Counting: proofs -/

theorem count_eq (d : Dict κ Int) (e : κ) (p : Int) : count d e p = d.set e ((d.get? e).getD 0 + p) := by
  simp only [count]
  split <;> simp_all

/-- The dictionary that represents what was counted. -/
def table (l : List (κ × Int)) : Dict κ Int := l.foldl (fun d x => count d x.1 x.2) []

theorem table_snoc (l : List (κ × Int)) (e : κ) (p : Int) : table (l ++ [(e, p)]) = count (table l) e p := by
  simp [table]

theorem pieces_snoc (l : List (κ × Int)) (e : κ) (p : Int) (k : κ) : pieces (l ++ [(e, p)]) k = pieces l k + if e = k then p else 0 := by
  simp only [pieces, List.filter_append, List.map_append, List.sum_append]
  by_cases h : e = k <;> simp [h]

theorem firsts_snoc (l : List (κ × Int)) (e : κ) (p : Int) : firsts (l ++ [(e, p)]) = if e ∈ firsts l then firsts l else firsts l ++ [e] := by
  simp only [firsts, setOf, List.map_append, List.foldl_append, List.map_cons, List.map_nil, List.foldl_cons, List.foldl_nil]
  simp only [setAdd]
  split <;> rename_i h <;> simp [h]

theorem mem_firsts (l : List (κ × Int)) (e : κ) : e ∈ firsts l ↔ e ∈ l.map Prod.fst := mem_setOf

theorem pieces_absent (l : List (κ × Int)) (e : κ) (h : e ∉ l.map Prod.fst) : pieces l e = 0 := by
  have : l.filter (fun p => decide (p.1 = e)) = [] := by
    apply List.filter_eq_nil_iff.mpr
    intro a ha hc
    exact h (List.mem_map.mpr ⟨a, ha, by simpa using hc⟩)
  simp [pieces, this]

theorem set_map (l : List κ) (f : κ → Int) (e : κ) (v : Int) (hn : l.Nodup) :
    Dict.set (l.map fun k => (k, f k)) e v = if e ∈ l then l.map (fun k => (k, if e = k then v else f k)) else l.map (fun k => (k, f k)) ++ [(e, v)] := by
  induction l with
  | nil => simp [Dict.set]
  | cons a l ih =>
    obtain ⟨h1, h2⟩ := List.nodup_cons.mp hn
    by_cases ha : a = e
    · subst ha
      simp only [List.map_cons, Dict.set, if_true, List.mem_cons, true_or]
      congr 1
      apply List.map_congr_left
      intro k hk
      have : a ≠ k := fun c => h1 (c ▸ hk)
      simp [this]
    · have ha' : ¬ e = a := fun c => ha c.symm
      simp only [List.map_cons, Dict.set, ha, if_false, ih h2, List.mem_cons, ha', false_or]
      split <;> simp

theorem get_map (l : List κ) (f : κ → Int) (e : κ) : Dict.get? (l.map fun k => (k, f k)) e = if e ∈ l then some (f e) else none := by
  induction l with
  | nil => simp
  | cons a l ih =>
    by_cases ha : a = e
    · subst ha; simp [Dict.get?]
    · have ha' : ¬ e = a := fun c => ha c.symm
      simp [Dict.get?, ha, ha', ih]

theorem snoc_induction {α : Type} {P : List α → Prop} (l : List α) (nil : P []) (snoc : ∀ l a, P l → P (l ++ [a])) : P l := by
  rw [← List.reverse_reverse l]
  induction l.reverse with
  | nil => exact nil
  | cons a r ih => rw [List.reverse_cons]; exact snoc _ a ih

theorem table_eq (l : List (κ × Int)) : table l = (firsts l).map fun e => (e, pieces l e) := by
  induction l using Verif.Rolling.snoc_induction with
  | nil => rfl
  | snoc l a ih =>
    obtain ⟨e, p⟩ := a
    have hn : (firsts l).Nodup := nodup_setOf _
    rw [table_snoc, count_eq, ih, get_map, set_map _ _ _ _ hn, firsts_snoc]
    by_cases he : e ∈ firsts l
    · simp only [he, if_true, Option.getD_some]
      apply List.map_congr_left
      intro k _
      rw [pieces_snoc]
      by_cases hk : e = k <;> simp [hk]
    · have h0 := pieces_absent l e (fun c => he ((mem_firsts l e).mpr c))
      simp only [he, if_false, Option.getD_none, List.map_append, List.map_singleton]
      congr 1
      · apply List.map_congr_left
        intro k hk
        have : e ≠ k := fun c => he (c ▸ hk)
        rw [pieces_snoc, if_neg this]; simp
      · rw [pieces_snoc, h0]; simp

/-- **C169 counting.** For every history of counting, clearing and asking, what is given for an element is the number of
pieces counted since the last clearing, KeyError exactly if it was not counted since; elements are iterated in
the order they were first counted, each once. -/
theorem C169_counts (ops : List (COp κ)) (l : List (κ × Int)) : ∃ l', History cspec l ops (runOps cstep (table l) ops).2 l' := by
  have := history_of_sim (step := cstep) (spec := cspec (κ := κ)) (fun d l => d = table l) (fun _ => True) ?_ (table l) l ops (by simp) rfl
  · obtain ⟨b, h, -⟩ := this
    exact ⟨b, h⟩
  · rintro s l o - rfl
    cases o with
    | count e p => exact ⟨_, ⟨rfl, rfl⟩, (table_snoc l e p).symm⟩
    | clear => exact ⟨_, ⟨rfl, rfl⟩, rfl⟩
    | get e =>
      refine ⟨l, ⟨rfl, fun h => ?_, fun h => ?_⟩, rfl⟩
      · simp only [cstep, table_eq, get_map]
        rw [if_pos ((mem_firsts l e).mpr h)]
      · simp only [cstep, table_eq, get_map]
        rw [if_neg (fun c => h ((mem_firsts l e).mp c))]
    | keys => exact ⟨l, ⟨rfl, by simp [cstep, table_eq, Dict.keys, Function.comp_def]⟩, rfl⟩
    | items => exact ⟨l, ⟨rfl, by simp [cstep, table_eq]⟩, rfl⟩
    | len => exact ⟨l, ⟨rfl, by simp [cstep, table_eq]⟩, rfl⟩
    | truth =>
      refine ⟨l, ⟨rfl, ?_⟩, rfl⟩
      simp only [cstep, table_eq, CRes.bool.injEq]
      cases l with
      | nil => rfl
      | cons a l =>
        have : a.1 ∈ firsts (a :: l) := (mem_firsts _ _).mpr (by simp)
        cases hf : firsts (a :: l) with
        | nil => simp [hf] at this
        | cons b m => simp

/-- **C169 counting a sequence.** A new `CountingDict` of a sequence is as if each of its elements was counted once, and
so gives the number of occurrences of an element. -/
theorem C169_sequence (l : List κ) (ops : List (COp κ)) : ∃ l', History cspec (l.map fun e => (e, 1)) ops (runOps cstep (makeCount l) ops).2 l' := by
  have : makeCount l = table (l.map fun e => (e, 1)) := by
    simp [makeCount, table, List.foldl_map]
  rw [this]
  exact C169_counts ops _

/-- **C169 occurrences.** The number of pieces of an element of a sequence is the number of its occurrences. -/
theorem C169_occurrences (l : List κ) (e : κ) : pieces (l.map fun x => (x, 1)) e = l.count e := by
  induction l with
  | nil => rfl
  | cons a l ih =>
    have h : pieces ((a :: l).map fun x => (x, (1 : Int))) e = (if a = e then 1 else 0) + pieces (l.map fun x => (x, 1)) e := by
      simp only [pieces, List.map_cons, List.filter_cons]
      by_cases h : a = e <;> simp [h]
    rw [h, ih, List.count_cons]
    by_cases h : a = e <;> simp [h] <;> omega

/-- A case of C169. -/
example : (match (runOps cstep (makeCount ["a", "b", "a"]) [.count "c" 3, .get "a", .get "c", .get "d"]).2 with | [.none, .int a, .int c, .keyError] => (a, c) | _ => (0, 0)) = (2, 3) := by decide

end Verif.Rolling
