import Verif.Heap.TimeLemmas
/-!
# C01-C05, C47: properties of the heaps

Every theorem holds for any `heapq` meeting its documented contract (`H : Heapq α`); `cpython α` is
CPython's, and the examples instantiate the theorems with it.
-/
namespace Verif.Heap
open Verif

section
variable {α : Type _} [PyOrd α] [DecidableEq α] (H : Heapq α)

/-- **C01** Any history of calls on a `Heap` built from any list returns what the abstract bag allows
(`BagSpec`): contents are exactly the bag, `pop` returns a least element and removes one occurrence,
IndexError exactly when empty, `pop_item` raises ValueError exactly when absent. -/
theorem C01_heap_refines_bag (init : List α) (ops : List (Op α)) :
    ∃ b, History BagSpec init ops (runOps (Heap.step H) (Heap.init H init) ops).2 b ∧
      (runOps (Heap.step H) (Heap.init H init) ops).1.Perm b := by
  obtain ⟨b, h1, h2⟩ := history_of_sim (step := Heap.step H) RepBag (fun _ => True)
    (fun s b o _ h => heap_step_sim H s b o h) (Heap.init H init) init ops (by simp)
    ⟨H.heapify_heap _, H.heapify_perm _⟩
  exact ⟨b, h1, h2.2⟩

example := C01_heap_refines_bag (cpython Nat) [3, 1, 2] [.push 0, .pop, .popItem 9, .pop]

/-- **C01** emptying a heap by `pop` sorts it: popping as many times as there are elements
returns the elements in non-decreasing order, and the next `pop` raises IndexError. -/
theorem C01_pop_all_sorts (init : List α) :
    ∃ l : List α, Sorted l ∧ l.Perm init ∧
      (runOps (Heap.step H) (Heap.init H init) (List.replicate (init.length + 1) .pop)).2 =
        l.map .val ++ [.exc .indexError] := by
  suffices h : ∀ n (d : List α), IsHeap d → d.length = n → ∃ l : List α, Sorted l ∧ l.Perm d ∧
      (runOps (Heap.step H) d (List.replicate (n + 1) .pop)).2 = l.map .val ++ [.exc .indexError] by
    have hp := H.heapify_perm init
    obtain ⟨l, h1, h2, h3⟩ := h init.length (Heap.init H init) (H.heapify_heap _) hp.length_eq
    exact ⟨l, h1, h2.trans hp, h3⟩
  intro n
  induction n with
  | zero =>
    intro d _ hl
    have : d = [] := List.eq_nil_of_length_eq_zero hl
    subst this
    refine ⟨[], List.Pairwise.nil, .nil, ?_⟩
    simp [runOps, Heap.step, Heap.pop, H.pop_nil]
  | succ n ih =>
    intro d hd hl
    cases hp : H.heappop d with
    | none => have := heappop_none H hp; subst this; simp at hl
    | some q =>
      obtain ⟨x, r⟩ := q
      obtain ⟨h1, h2, h3⟩ := pop_least H hd hp
      have hlr : r.length = n := by have := h2.length_eq; simp at this; omega
      obtain ⟨l, i1, i2, i3⟩ := ih r h3 hlr
      refine ⟨x :: l, List.Pairwise.cons ?_ i1, (i2.cons x).trans h2.symm, ?_⟩
      · intro y hy
        exact h1.2 y (h2.mem_iff.2 (by simp [i2.mem_iff.1 hy]))
      · rw [List.replicate_succ]
        simp only [runOps, Heap.step, Heap.pop, hp, i3]
        rfl

/-- **C02** On every heap reachable by any history, `iter_ascending` yields every element exactly
once in non-decreasing order, `iter_descending` the same sequence reversed, and neither changes the heap. -/
theorem C02_iterators (init : List α) (ops : List (Op α)) :
    let s := (runOps (Heap.step H) (Heap.init H init) ops).1
    ∃ l : List α, Sorted l ∧ l.Perm s ∧
      Heap.step H s .iterAscending = (s, .vals l) ∧
      Heap.step H s .iterDescending = (s, .vals l.reverse) := by
  intro s
  have hs : IsHeap s := by
    obtain ⟨b, _, h2⟩ := history_of_sim (step := Heap.step H) RepBag (fun _ => True)
      (fun s b o _ h => heap_step_sim H s b o h) (Heap.init H init) init ops (by simp)
      ⟨H.heapify_heap _, H.heapify_perm _⟩
    exact h2.1
  obtain ⟨h1, h2⟩ := iterAscending_spec H hs
  exact ⟨_, h1, h2, rfl, rfl⟩

example := C02_iterators (cpython Nat) [2, 2, 1] [.push 0, .pop, .pushMany [5, 2]]

/-! ## C03 SetHeap -/

/-- **C03** (partial: `pop_item` excluded, the constructor list has no duplicates, and `filter_map` maps are
injective) Any history behaves as a set: `in` is exact, pushing a held element changes nothing,
no element is held twice, `pop` raises only on the empty set. Without these restrictions it is
false, see the three theorems below. -/
theorem C03_set_heap_refines_set_partial (init : List α) (hi : init.Nodup) (ops : List (Op α))
    (ho : ∀ o ∈ ops, o.SetSafe) :
    ∃ S, History SetSpec (fun x => x ∈ init) ops
        (runOps (SetHeap.step H) (SetHeap.init H init) ops).2 S ∧
      (runOps (SetHeap.step H) (SetHeap.init H init) ops).1.data.Nodup ∧
      ∀ x, x ∈ (runOps (SetHeap.step H) (SetHeap.init H init) ops).1.data ↔ S x := by
  have h0 : (SetHeap.init H init).Rep (fun x => x ∈ init) := by
    have hp := H.heapify_perm init
    have := SetHeap.rep_of_setOf (H.heapify_heap init) (hp.nodup_iff.2 hi)
    refine ⟨this.1, this.2.1, ?_⟩
    intro y
    simp only [SetHeap.init, Heap.init]
    rw [hp.mem_iff]
  obtain ⟨S, h1, h2⟩ := history_of_sim (step := SetHeap.step H) SetHeap.Rep Op.SetSafe
    (fun s b o ho h => SetHeap.step_sim H s b o ho h) _ _ ops ho h0
  exact ⟨S, h1, h2.1.2.1, fun x => (h2.2.2 x).symm⟩

example : [3, 1].Nodup ∧ ∀ o ∈ ([.push 1, .pop, .contains 1, .filterMap (some (· < 7)) (some (· + 1))] : List (Op Nat)),
    o.SetSafe := by
  simp [Op.SetSafe, Op.Injective]

/-- **C03** (partial: `pop_item` included) as long as the constructor list has no duplicates and
`filter_map` maps are injective, no element is ever held twice and no call raises KeyError - in
particular `pop` never raises on a non-empty heap. -/
theorem C03_no_duplicates_partial (init : List α) (hi : init.Nodup) (ops : List (Op α))
    (ho : ∀ o ∈ ops, o.Injective) :
    (runOps (SetHeap.step H) (SetHeap.init H init) ops).1.data.Nodup ∧
    ∀ r ∈ (runOps (SetHeap.step H) (SetHeap.init H init) ops).2, r ≠ .exc .keyError := by
  have key : ∀ s : SetHeap α, s.Weak → ∀ ops : List (Op α), (∀ o ∈ ops, o.Injective) →
      (runOps (SetHeap.step H) s ops).1.data.Nodup ∧
      ∀ r ∈ (runOps (SetHeap.step H) s ops).2, r ≠ .exc .keyError := by
    intro s hs ops
    induction ops generalizing s with
    | nil => intro _; exact ⟨hs.2.1, by simp [runOps]⟩
    | cons o os ih =>
      intro ho
      have := ih _ (SetHeap.weak_step H hs o (ho o (by simp))) (fun o h => ho o (by simp [h]))
      refine ⟨this.1, ?_⟩
      intro r hr
      rcases List.mem_cons.1 hr with rfl | hr
      · cases o with
        | pop =>
          simp only [SetHeap.step, SetHeap.pop, Heap.pop]
          cases hp : H.heappop s.data with
          | none => simp
          | some q =>
            obtain ⟨x, r⟩ := q
            have hx : x ∈ s.set := hs.2.2.2 x ((H.pop_perm _ _ _ hp).mem_iff.2 (by simp))
            simp [hx]
        | popItem x =>
          simp only [SetHeap.step, Heap.popItem]
          split <;> simp
        | _ => simp [SetHeap.step]
      · exact this.2 r hr
  exact key _ (SetHeap.weak_init H hi) ops ho

example : [3, 1].Nodup ∧ ∀ o ∈ ([.push 1, .popItem 3, .push 3, .pop] : List (Op Nat)),
    o.Injective := by
  simp [Op.Injective]

/-- **C03 is violated** by the constructor: `SetHeap([a, a])` holds `a` twice, and the second `pop` raises
KeyError although the heap is not empty. -/
theorem C03_constructor_duplicates_violate (a : α) :
    (SetHeap.init H [a, a]).data = [a, a] ∧
    (runOps (SetHeap.step H) (SetHeap.init H [a, a]) [.len, .pop, .len, .pop]).2 =
      [.nat 2, .val a, .nat 1, .exc .keyError] := by
  have h := heapify_replicate H 2 a
  simp only [List.replicate] at h
  have h1 := heappop_singleton H a
  have h2 := heappop_pair H a
  simp [runOps, SetHeap.step, SetHeap.init, Heap.init, SetHeap.pop, Heap.pop, h, h1, h2, setOf, setAdd]

/-- **C03 is violated** by `pop_item`: after `pop_item(a)` the element is still reported as held,
and pushing it again is silently ignored. -/
theorem C03_pop_item_violates (a : α) :
    (runOps (SetHeap.step H) (SetHeap.init H [a]) [.popItem a, .contains a, .push a, .len]).2 =
      [.val a, .bool true, .unit, .nat 0] := by
  have h := heapify_replicate H 1 a
  simp only [List.replicate] at h
  have h0 := heapify_replicate H 0 a
  simp only [List.replicate] at h0
  simp [runOps, SetHeap.step, SetHeap.init, Heap.init, SetHeap.push, Heap.popItem, h, h0, setOf,
    setAdd, removeFirst]

/-- **C03 is violated** by `filter_map` with a map that sends two elements to one. -/
theorem C03_filter_map_violates (a b : α) :
    (runOps (SetHeap.step H) (SetHeap.init H [a, b])
      [.filterMap none (some fun _ => a), .len, .pop, .pop]).2 =
      [.unit, .nat 2, .val a, .exc .keyError] := by
  have h := heapify_replicate H 2 a
  simp only [List.replicate] at h
  have h1 := heappop_singleton H a
  have h2 := heappop_pair H a
  have hl : (H.heapify [a, b]).map (fun _ => a) = [a, a] := by
    have := ((H.heapify_perm [a, b]).map (fun _ => a))
    exact List.perm_replicate.1 (show List.Perm _ (List.replicate 2 a) from this)
  simp [runOps, SetHeap.step, SetHeap.init, Heap.init, SetHeap.pop, Heap.pop, Heap.filterMap, optMap,
    optFilter, hl, h, h1, h2, setOf, setAdd]

/-- **C03 is false in full**: the unrestricted statement does not hold (for any heapq). -/
theorem C03_full_statement_is_false (a : α) :
    ¬ ∀ (init : List α) (ops : List (Op α)), init.Nodup →
      ∃ S, History SetSpec (fun x => x ∈ init) ops
        (runOps (SetHeap.step H) (SetHeap.init H init) ops).2 S := by
  intro hall
  obtain ⟨S, h⟩ := hall [a] [.popItem a, .contains a, .push a, .len] (by simp)
  rw [C03_pop_item_violates] at h
  obtain ⟨S1, h1, S2, h2, -⟩ := h
  rcases h1 with ⟨h1, _⟩ | ⟨_, _, h1⟩
  · simp at h1
  · obtain ⟨_, b, hb, hiff⟩ := h2
    simp only [Res.bool.injEq] at hb
    subst hb
    have := (h1 a).1 (hiff.1 rfl)
    exact this.2 rfl

/-- **C47** copying a `Heap` yields a heap with exactly the same elements, on which every history
behaves as on a heap built from those elements. -/
theorem C47_heap_copy (init : List α) (ops ops' : List (Op α)) :
    let s := (runOps (Heap.step H) (Heap.init H init) ops).1
    (Heap.step H s .copy).1.Perm s ∧
    ∃ b, History BagSpec s ops' (runOps (Heap.step H) (Heap.step H s .copy).1 ops').2 b := by
  intro s
  obtain ⟨b, h1, _⟩ := C01_heap_refines_bag H s ops'
  exact ⟨H.heapify_perm _, b, h1⟩

example := C47_heap_copy (cpython Nat) [2, 1] [.pop] [.push 3, .pop]

end

/-! ## C04, C05 time based heaps -/
section
variable {ι : Type _} [PyLinOrd ι] [DecidableEq ι] (H : Heapq (Int × ι))

/-- **C04** On the heap reached by any history of calls, `pop_less_than(t)` fully consumed yields
exactly the entries with timestamp strictly below `t`, in non-decreasing order, and leaves exactly the others. -/
theorem C04_pop_less_than_exact_cut (ops : List (TOp ι)) (t : Int) (n : Nat) :
    let s := (runOps (TimeHeap.step H) (H.heapify []) ops).1
    s.length ≤ n →
    ∃ l s', TimeHeap.step H s (.popLessThan t n) = (s', .entries l) ∧
      Sorted l ∧ (l.map Prod.fst).Pairwise (· ≤ ·) ∧
      l.Perm (s.filter (fun e => decide (e.1 < t))) ∧
      s'.Perm (s.filter (fun e => decide (¬ e.1 < t))) := by
  intro s hn
  have hs : IsHeap s := by
    obtain ⟨b, _, h2⟩ := history_of_sim (step := TimeHeap.step H) RepBag (fun _ => True)
      (fun s b o _ h => time_step_sim H s b o h) (H.heapify []) [] ops (by simp)
      ⟨H.heapify_heap _, H.heapify_perm _⟩
    exact h2.1
  obtain ⟨h1, h2, h3, h4, h5, h6, h7⟩ := popLessThan_spec H t n s hs
  have h8 : ∀ e ∈ (popLessThan H t n s).2, ¬ e.1 < t := by
    rcases h7 with h7 | h7
    · have := h2.length_eq
      simp [h7] at this
      have h0 : (popLessThan H t n s).2 = [] := List.eq_nil_of_length_eq_zero (by omega)
      simp [h0]
    · exact h7
  refine ⟨_, _, rfl, h3, ?_, ?_, ?_⟩
  · rw [List.pairwise_map]
    exact h3.imp le_fst
  · refine List.Perm.symm ((h2.filter _).trans ?_)
    rw [List.filter_append, List.filter_eq_self.2, List.filter_eq_nil_iff.2, List.append_nil]
    · intro e he; simpa using h8 e he
    · intro e he; simpa using h4 e he
  · refine List.Perm.symm ((h2.filter _).trans ?_)
    rw [List.filter_append, List.filter_eq_nil_iff.2, List.filter_eq_self.2, List.nil_append]
    · intro e he; simpa using h8 e he
    · intro e he; simpa using h4 e he

example : (runOps (TimeHeap.step (cpython (Int × Nat))) ((cpython (Int × Nat)).heapify [])
    [.put 3 0, .put 1 7, .put 1 8]).1.length ≤ 3 := by
  obtain ⟨b, h, hp⟩ := history_of_sim (step := TimeHeap.step (cpython (Int × Nat))) RepBag (fun _ => True)
      (fun s b o _ h => time_step_sim _ s b o h) ((cpython (Int × Nat)).heapify []) []
      [.put 3 0, .put 1 7, .put 1 8] (by simp)
      ⟨(cpython (Int × Nat)).heapify_heap _, (cpython (Int × Nat)).heapify_perm _⟩
  rw [hp.2.length_eq]
  obtain ⟨_, ⟨_, rfl⟩, _, ⟨_, rfl⟩, _, ⟨_, rfl⟩, rfl⟩ := h
  simp

/-- **C04** every history of calls on a `TimeBasedHeap` is one of the bag of (timestamp, item)
entries, including partially consumed `pop_less_than`. -/
theorem C04_time_heap_refines_bag (ops : List (TOp ι)) :
    ∃ b, History TimeBagSpec [] ops (runOps (TimeHeap.step H) (H.heapify []) ops).2 b ∧
      (runOps (TimeHeap.step H) (H.heapify []) ops).1.Perm b := by
  obtain ⟨b, h1, h2⟩ := history_of_sim (step := TimeHeap.step H) RepBag (fun _ => True)
    (fun s b o _ h => time_step_sim H s b o h) (H.heapify []) [] ops (by simp)
    ⟨H.heapify_heap _, H.heapify_perm _⟩
  exact ⟨b, h1, h2.2⟩

example := C04_time_heap_refines_bag (cpython (Int × Nat))
  [.put 3 0, .put 1 7, .popLessThan 2 5, .popTimestamp 3, .peekClosest]

/-- `TimeBasedHeap.get_timestamp` never finds the timestamp of an item that is not a sequence. -/
theorem C04_get_timestamp_broken (ts : Int) (x : ι) :
    (runOps (TimeHeap.step H) (H.heapify []) [.put ts x, .getTimestamp x]).2 =
      [.unit, .exc .typeError] := by
  have : H.heappush (H.heapify []) (ts, x) ≠ [] := by
    intro h
    have := (H.push_perm (H.heapify []) (ts, x)).length_eq
    simp [h] at this
  simp [runOps, TimeHeap.step, this]

/-- **C47 is violated** by `TimeBasedHeap`: its copy is empty whatever the original holds. -/
theorem C47_time_heap_copy_violates (ops : List (TOp ι)) :
    let s := (runOps (TimeHeap.step H) (H.heapify []) ops).1
    TimeHeap.copy H s = [] ∧ (s ≠ [] → ¬ (TimeHeap.copy H s).Perm s) := by
  intro s
  have h : TimeHeap.copy H s = [] := List.Perm.eq_nil (H.heapify_perm [])
  refine ⟨h, ?_⟩
  intro hs hp
  rw [h] at hp
  exact hs (List.Perm.nil_eq hp).symm

theorem TSHeap.rep_init : (TSHeap.init H).Rep (fun _ => none) := by
  have h : H.heapify [] = [] := List.Perm.eq_nil (H.heapify_perm [])
  refine ⟨H.heapify_heap _, ?_, ?_, ?_⟩ <;> simp [TSHeap.init, h]

/-- **C05** (partial: histories without `remove`) Any history of calls on a `TimeBasedSetHeap` is one of the
partial map from items to their latest timestamp: each item at most once, `get_timestamp` exact,
re-putting moves, popped items can be put again, no call raises KeyError. -/
theorem C05_time_set_heap_refines_map_partial (ops : List (TOp ι)) (ho : ∀ o ∈ ops, o.NoRemove) :
    ∃ m, History TimeMapSpec (fun _ => none) ops (runOps (TSHeap.step H) (TSHeap.init H) ops).2 m ∧
      ((runOps (TSHeap.step H) (TSHeap.init H) ops).1.data.map Prod.snd).Nodup ∧
      ∀ ts x, (ts, x) ∈ (runOps (TSHeap.step H) (TSHeap.init H) ops).1.data ↔ m x = some ts := by
  obtain ⟨m, h1, h2⟩ := history_of_sim (step := TSHeap.step H) TSHeap.Rep TOp.NoRemove
    (fun s b o ho h => TSHeap.step_sim H s b o ho h) _ _ ops ho (TSHeap.rep_init H)
  refine ⟨m, h1, h2.2.1, ?_⟩
  intro ts x
  rw [h2.2.2.1 (ts, x), h2.2.2.2]

example : ∀ o ∈ ([.put 3 0, .put 5 0, .popLessThan 4 2, .getTimestamp 0, .pop] : List (TOp Nat)),
    o.NoRemove := by simp [TOp.NoRemove]

/-- **C05 is violated** by `remove`: the removed item still has a timestamp, and putting it again
raises ValueError. -/
theorem C05_remove_violates (a b : Int) (x : ι) :
    (runOps (TSHeap.step H) (TSHeap.init H) [.put a x, .remove x, .items, .getTimestamp x, .put b x]).2 =
      [.unit, .unit, .itemList [], .stamp a, .exc .valueError] := by
  have h : H.heapify [] = [] := List.Perm.eq_nil (H.heapify_perm [])
  have h1 : H.heappush [] (a, x) = [(a, x)] := List.perm_singleton.1 (H.push_perm [] (a, x))
  simp [runOps, TSHeap.step, TSHeap.init, TSHeap.push, TSHeap.popItem, removeFirst, h, h1, Dict.has,
    Dict.get?, Dict.set]

end
end Verif.Heap
