import Verif.Metrics.Histogram
/-!
# Model of SummaryMetric and of the simple metrics (satella/instrumentation/metrics/metric_types/summary.py, simple.py), C39

Numbers are integers.  `pct` is `percentile` (satella/coding/transforms/percentile.py), of a sorted list that is not empty.  No label is called `quantile`.
-/
namespace Verif.Metrics
open Verif

variable {σ α : Type}

/-! ## Any metric with submetrics -/

theorem after_fold (c : Cls σ α) {chain : List Nat} (hr : Rooted chain) {ops : List (MOp α)} {xs : List (α × Labels)} (hx : Counted chain ops xs) :
    after c chain ops = xs.foldl (fun m x => m.handle c x.1 x.2) (EM.new c) := by
  obtain ⟨ys, h1, h2⟩ := counted_exists c ops chain hr (EM.new c)
  rw [counted_unique hx h1]
  exact h2

theorem after_embedded (c : Cls σ α) {chain : List Nat} (hr : Rooted chain) {ops : List (MOp α)} {xs : List (α × Labels)} (hx : Counted chain ops xs) :
    (after c chain ops).own = ownFold c false c.init xs ∧ (after c chain ops).embedded = labelled xs := by
  rw [after_fold c hr hx]
  obtain ⟨f1, f2⟩ := fold_own c xs (EM.new c)
  rw [f1, f2]
  exact ⟨rfl, by simp [EM.new]⟩

theorem after_children (c : Cls σ α) {chain : List Nat} (hr : Rooted chain) {ops : List (MOp α)} {xs : List (α × Labels)} (hx : Counted chain ops xs) (hk : Kwargs xs) :
    Dict.WF (after c chain ops).children ∧
    ∀ k s, (k, s) ∈ (after c chain ops).children ↔ ∃ x ∈ xs, x.2 ≠ [] ∧ k = labelKey x.2 ∧ s = (group xs x.2).foldl c.own c.init := by
  rw [after_fold c hr hx]
  exact ⟨(fold_wf c xs (EM.new c) ⟨Dict.wf_nil, by simp [EM.new, Dict.keys]⟩).1, fun k s => children_iff c hk k s⟩

/-- the reports of the submetrics, put together -/
theorem after_report {H : Name × ELabels → Nat} (c : Cls σ α) {rep : Labels → σ → Coll ELabels Int} (ht : Tagged rep) {chain : List Nat} (hr : Rooted chain) {ops : List (MOp α)}
    {xs : List (α × Labels)} (hx : Counted chain ops xs) (hk : Kwargs xs) :
    OnePerKey (childrenReport H rep (after c chain ops).children) ∧
    ∀ x, Has (childrenReport H rep (after c chain ops).children) x ↔ ∃ y ∈ xs, y.2 ≠ [] ∧ Has (rep (labelKey y.2) ((group xs y.2).foldl c.own c.init)) x := by
  obtain ⟨hw, hch⟩ := after_children c hr hx hk
  obtain ⟨h1, h2⟩ := childrenReport_iff (H := H) ht hw
  refine ⟨h1, fun x => (h2 x).trans ⟨?_, ?_⟩⟩
  · rintro ⟨k, s, hks, h⟩
    obtain ⟨y, hy, hne, rfl, rfl⟩ := (hch k s).1 hks
    exact ⟨y, hy, hne, h⟩
  · rintro ⟨y, hy, hne, h⟩
    exact ⟨_, _, (hch _ _).2 ⟨y, hy, hne, rfl, rfl⟩, h⟩

/-! ## Model of the simple metrics -/

/-- `SimpleMetric._handle`, /repo/satella/instrumentation/metrics/metric_types/simple.py:20-23; `CONSTRUCTOR` is the identity on values of its own type -/
def simple (default : Int) : Cls Int Int where
  init := default
  own _ v := v
  par s _ := s

section
variable (H : Name × ELabels → Nat)

/-- `SimpleMetric.to_metric_data`, /repo/satella/instrumentation/metrics/metric_types/simple.py:25-30 -/
def simpleReport (name : Name) (internal : Bool) (m : EM Int) : Coll ELabels Int :=
  if m.embedded then childrenReport H (fun k s => Coll.ofList H [⟨name, s, (k, []), none, false⟩]) m.children
  else Coll.ofList H [⟨name, m.own, ([], []), none, internal⟩]
end

theorem simple_own (d : Int) (vs : List Int) : ∀ s, vs.foldl (simple d).own s = (s :: vs).getLast (by simp) := by
  induction vs with
  | nil => intro s; rfl
  | cons v vs ih => intro s; rw [List.foldl_cons, ih]; simp [simple]

theorem simple_ownFold (d : Int) (xs : List (Int × Labels)) (h : labelled xs = false) : ∀ s, ownFold (simple d) false s xs = (s :: xs.map (·.1)).getLast (by simp) := by
  induction xs with
  | nil => intro s; rfl
  | cons x xs ih =>
    intro s
    simp only [labelled, List.any_cons, Bool.or_eq_false_iff] at h
    rw [ownFold, if_neg (by simp [h.1]), ih h.2]
    simp [simple]

/-- **C39, simple metrics.** The value is the last that was set, the default if none was; with labels, the last for each set of labels. -/
theorem C39_simple {H : Name × ELabels → Nat} (name : Name) (internal : Bool) (d : Int) (chain : List Nat) (hr : Rooted chain) (ops : List (MOp Int)) (xs : List (Int × Labels)) (hx : Counted chain ops xs)
    (hk : Kwargs xs) (x : Entry) :
    Has (simpleReport H name internal (after (simple d) chain ops)) x ↔
      (labelled xs = false ∧ ∃ v, (d :: xs.map (·.1)).getLast? = some v ∧ x = ⟨name, v, ([], []), none, internal⟩) ∨
      (labelled xs = true ∧ ∃ y ∈ xs, y.2 ≠ [] ∧ ∃ v, (group xs y.2).getLast? = some v ∧ x = ⟨name, v, (labelKey y.2, []), none, false⟩) := by
  obtain ⟨h1, h2⟩ := after_embedded (simple d) hr hx
  have ht : Tagged (fun k s => Coll.ofList H [(⟨name, s, (k, []), none, false⟩ : Entry)]) := fun k s =>
    ⟨(built_good (H := H) (.ofList _)).2, fun m hm => by rw [(has_single _ _).1 hm]⟩
  obtain ⟨_, h3⟩ := after_report (H := H) (simple d) ht hr hx hk
  unfold simpleReport
  cases hl : labelled xs with
  | false =>
    rw [h2, h1, hl]
    simp only [Bool.false_eq_true, if_false, has_single, true_and, false_and, or_false]
    have : ownFold (simple d) false (simple d).init xs = (d :: xs.map (·.1)).getLast (by simp) := simple_ownFold d xs hl d
    rw [this, List.getLast?_eq_some_getLast (by simp)]
    constructor
    · rintro rfl; exact ⟨_, rfl, rfl⟩
    · rintro ⟨v, e, rfl⟩; cases e; rfl
  | true =>
    rw [h2, hl]
    simp only [if_true, h3, has_single, reduceCtorEq, false_and, true_and, false_or]
    have hg : ∀ y ∈ xs, (group xs y.2).getLast? = some ((group xs y.2).foldl (simple d).own (simple d).init) := by
      intro y hy
      have : group xs y.2 ≠ [] := List.ne_nil_of_mem (List.mem_map.2 ⟨y, List.mem_filter.2 ⟨hy, by rw [List.isPerm_iff]⟩, rfl⟩)
      rw [simple_own, List.getLast?_eq_some_getLast this, List.getLast_cons this]
    constructor
    · rintro ⟨y, hy, hne, rfl⟩; exact ⟨y, hy, hne, _, hg y hy, rfl⟩
    · rintro ⟨y, hy, hne, v, hv, rfl⟩
      rw [hg y hy] at hv; cases hv
      exact ⟨y, hy, hne, rfl⟩

/-! ## Model of the summary -/

/-- arguments of `SummaryMetric`, /repo/satella/instrumentation/metrics/metric_types/summary.py:28-35 -/
structure SumConf where
  name : Name
  last : Nat
  quantiles : List Int
  aggregate : Bool
  countCalls : Bool
  internal : Bool

/-- state, /repo/satella/instrumentation/metrics/metric_types/summary.py:38-45; `queue` begins with the newest -/
structure SumSt where
  queue : List Int
  calls : Nat
  time : Int
  deriving DecidableEq, Repr

/-- the end of `_handle`, /repo/satella/instrumentation/metrics/metric_types/summary.py:55-58: `pop()` from an empty queue raises -/
def push (last : Nat) (q : List Int) (v : Int) : Except Exc (List Int) :=
  if q.length = last then (if q = [] then .error .indexError else .ok (v :: q.dropLast)) else .ok (v :: q)

/-- counting, /repo/satella/instrumentation/metrics/metric_types/summary.py:48-50 -/
def tally (cf : SumConf) (s : SumSt) (v : Int) : SumSt := if cf.countCalls then { s with calls := s.calls + 1, time := s.time + v } else s

/-- `_handle`, /repo/satella/instrumentation/metrics/metric_types/summary.py:47-58.  That it raises is told by `push`; the queue is then as it was. -/
def summary (cf : SumConf) : Cls SumSt Int where
  init := ⟨[], 0, 0⟩
  own s v := { tally cf s v with queue := match push cf.last s.queue v with | .ok q => q | .error _ => s.queue }
  par s v := tally cf s v

/-- insert into a sorted list -/
def sortIns (v : Int) : List Int → List Int
  | [] => [v]
  | u :: us => if v ≤ u then v :: u :: us else u :: sortIns v us

/-- `sorted`, used at /repo/satella/instrumentation/metrics/metric_types/summary.py:95 -/
def sortInt (l : List Int) : List Int := l.foldr sortIns []

section
variable (H : Name × ELabels → Nat) (pct : List Int → Int → Int)

/-- `calculate_quantiles`, /repo/satella/instrumentation/metrics/metric_types/summary.py:93-104 -/
def quantiles (cf : SumConf) (internal : Bool) (k : Labels) (queue : List Int) : Coll ELabels Int :=
  let sorted := sortInt queue
  cf.quantiles.foldl (fun out q => Coll.addOne H out ⟨cf.name, if sorted = [] then 0 else pct sorted q, (k, [q]), none, internal⟩) []

/-- the entries `.count` and `.sum`, /repo/satella/instrumentation/metrics/metric_types/summary.py:62-66; the same is done a first time at :82-87 -/
def addTally (cf : SumConf) (internal : Bool) (k : Labels) (s : SumSt) (c : Coll ELabels Int) : Coll ELabels Int :=
  if cf.countCalls then
    Coll.addOne H (Coll.addOne H c ⟨cf.name ++ ".count".toList, s.calls, (k, []), none, internal⟩) ⟨cf.name ++ ".sum".toList, s.time, (k, []), none, internal⟩
  else c

/-- `to_metric_data` of a summary without labels, /repo/satella/instrumentation/metrics/metric_types/summary.py:60-67, :90-91 -/
def sumLeaf (cf : SumConf) (internal : Bool) (k : Labels) (s : SumSt) : Coll ELabels Int := addTally H cf internal k s (quantiles H pct cf internal k s.queue)

/-- `to_metric_data`, /repo/satella/instrumentation/metrics/metric_types/summary.py:60-91 -/
def sumReport (cf : SumConf) (m : EM SumSt) : Coll ELabels Int :=
  if m.embedded then
    let k := childrenReport H (sumLeaf H pct cf false) m.children
    let k := if cf.aggregate then Coll.addColl H k ((quantiles H pct cf cf.internal [] (m.children.flatMap (fun c => c.2.queue))).postfixWith "total".toList) else k
    let k := addTally H cf cf.internal [] m.own k
    addTally H cf cf.internal [] m.own k
  else sumLeaf H pct cf cf.internal [] m.own
end

/-! ## Specification -/

/-- the last `n` samples, or all if there are fewer -/
def lastN (n : Nat) (vs : List Int) : List Int := vs.drop (vs.length - n)

/-- the quantiles of the numbers `vs`, by a sorted list of them: 0 when there are none -/
def QuantileEntry (pct : List Int → Int → Int) (cf : SumConf) (name : Name) (internal : Bool) (k : Labels) (vs : List Int) (x : Entry) : Prop :=
  ∃ q ∈ cf.quantiles, ∃ l : List Int, l.Perm vs ∧ l.Pairwise (· ≤ ·) ∧ x = ⟨name, if l = [] then 0 else pct l q, (k, [q]), none, internal⟩

/-- number and sum of the samples `vs` -/
def TallyEntry (cf : SumConf) (internal : Bool) (k : Labels) (vs : List Int) (x : Entry) : Prop :=
  cf.countCalls = true ∧ (x = ⟨cf.name ++ ".count".toList, vs.length, (k, []), none, internal⟩ ∨ x = ⟨cf.name ++ ".sum".toList, vs.sum, (k, []), none, internal⟩)

/-! ## Proofs -/

theorem sortIns_perm (v : Int) (l : List Int) : (sortIns v l).Perm (v :: l) := by
  induction l with
  | nil => exact .refl _
  | cons u us ih =>
    rw [sortIns]
    split
    · exact .refl _
    · exact (List.Perm.cons u ih).trans (List.Perm.swap ..)

theorem sortInt_perm (l : List Int) : (sortInt l).Perm l := by
  induction l with
  | nil => exact .refl _
  | cons v l ih => exact (sortIns_perm v _).trans (List.Perm.cons v ih)

theorem sortIns_sorted (v : Int) (l : List Int) (h : l.Pairwise (· ≤ ·)) : (sortIns v l).Pairwise (· ≤ ·) := by
  induction l with
  | nil => exact List.pairwise_singleton _ _
  | cons u us ih =>
    have h' := List.pairwise_cons.1 h
    rw [sortIns]
    split
    · rename_i hv
      exact List.pairwise_cons.2 ⟨fun w hw => (List.mem_cons.1 hw).elim (fun e => by rw [e]; exact hv) (fun hw => Int.le_trans hv (h'.1 w hw)), h⟩
    · rename_i hv
      refine List.pairwise_cons.2 ⟨fun w hw => ?_, ih h'.2⟩
      rcases List.mem_cons.1 ((sortIns_perm v us).mem_iff.1 hw) with rfl | hw
      · omega
      · exact h'.1 w hw

theorem sortInt_sorted (l : List Int) : (sortInt l).Pairwise (· ≤ ·) := by
  induction l with
  | nil => exact List.Pairwise.nil
  | cons v l ih => exact sortIns_sorted v _ ih

/-- a sorted list is determined by its elements -/
theorem sorted_unique {a b : List Int} (hp : a.Perm b) (ha : a.Pairwise (· ≤ ·)) (hb : b.Pairwise (· ≤ ·)) : a = b :=
  List.Perm.eq_of_pairwise (le := (· ≤ ·)) (fun x y _ _ h1 h2 => Int.le_antisymm h1 h2) ha hb hp

/-- what the queue holds after samples `vs` -/
theorem push_last {n : Nat} (hn : 0 < n) (vs : List Int) (v : Int) : push n (lastN n vs).reverse v = .ok (lastN n (vs ++ [v])).reverse := by
  unfold push
  by_cases h : n ≤ vs.length
  · rw [if_pos (by simp only [List.length_reverse, lastN, List.length_drop]; omega), if_neg (by
      intro e
      have := congrArg List.length e
      simp only [List.length_reverse, lastN, List.length_drop, List.length_nil] at this
      omega)]
    simp only [lastN, List.length_append, List.length_singleton]
    congr 1
    have e : vs.length + 1 - n = (vs.length - n) + 1 := by omega
    rw [e, List.drop_append_of_le_length (by omega), List.reverse_append]
    simp only [List.reverse_singleton, List.singleton_append, List.cons.injEq, true_and]
    rw [← List.tail_drop]
    cases List.drop (vs.length - n) vs with
    | nil => rfl
    | cons a l => simp
  · rw [if_neg (by simp only [List.length_reverse, lastN, List.length_drop]; omega)]
    simp only [lastN, List.length_append, List.length_singleton]
    have e1 : vs.length - n = 0 := by omega
    have e2 : vs.length + 1 - n = 0 := by omega
    rw [e1, e2]
    simp

/-- the state that samples lead to -/
def sumOf (cf : SumConf) (vs : List Int) : SumSt := ⟨(lastN cf.last vs).reverse, if cf.countCalls then vs.length else 0, if cf.countCalls then vs.sum else 0⟩

theorem sum_own_step (cf : SumConf) (hn : 0 < cf.last) (vs : List Int) (v : Int) : (summary cf).own (sumOf cf vs) v = sumOf cf (vs ++ [v]) := by
  have h := push_last hn vs v
  have : (sumOf cf vs).queue = (lastN cf.last vs).reverse := rfl
  simp only [summary, this, h, tally]
  cases hc : cf.countCalls <;> simp [sumOf, hc]

theorem sum_own (cf : SumConf) (hn : 0 < cf.last) (vs : List Int) : ∀ ws, vs.foldl (summary cf).own (sumOf cf ws) = sumOf cf (ws ++ vs) := by
  induction vs with
  | nil => intro ws; simp
  | cons v vs ih => intro ws; rw [List.foldl_cons, sum_own_step cf hn, ih]; simp

theorem sum_init (cf : SumConf) : (summary cf).init = sumOf cf [] := by simp [summary, sumOf, lastN]

/-- **C39**: with `last_calls` at least one, a sample is always accepted. -/
theorem C39_summary_accepts (n : Nat) (hn : 0 < n) (q : List Int) (v : Int) : ∃ q', push n q v = .ok q' := by
  unfold push
  split
  · rename_i h
    rw [if_neg (by rintro rfl; simp at h; omega)]
    exact ⟨_, rfl⟩
  · exact ⟨_, rfl⟩

/-- **C39, violated** for `last_calls=0`: no sample is accepted. -/
theorem C39_summary_zero_violates (v : Int) : push 0 [] v = .error .indexError := rfl

theorem sum_ownFold (cf : SumConf) (hn : 0 < cf.last) (xs : List (Int × Labels)) (h : labelled xs = false) : ∀ ws, ownFold (summary cf) false (sumOf cf ws) xs = sumOf cf (ws ++ xs.map (·.1)) := by
  induction xs with
  | nil => intro ws; simp [ownFold]
  | cons x xs ih =>
    intro ws
    simp only [labelled, List.any_cons, Bool.or_eq_false_iff] at h
    rw [ownFold, if_neg (by simp [h.1]), sum_own_step cf hn, ih h.2]
    simp

theorem sum_ownFold_tally (cf : SumConf) (hc : cf.countCalls = true) (xs : List (Int × Labels)) : ∀ (emb : Bool) (s : SumSt),
    (ownFold (summary cf) emb s xs).calls = s.calls + xs.length ∧ (ownFold (summary cf) emb s xs).time = s.time + (xs.map (·.1)).sum := by
  induction xs with
  | nil => intro emb s; simp [ownFold]
  | cons x xs ih =>
    intro emb s
    rw [ownFold]
    split <;> rw [(ih _ _).1, (ih _ _).2] <;> simp [summary, tally, hc] <;> omega

section
variable {H : Name × ELabels → Nat} {pct : List Int → Int → Int}

theorem has_fold_addOne {β : Type} (f : β → Entry) (hf : ∀ a b, (f a).key = (f b).key → f a = f b) (l : List β) (x : Entry) :
    Built H (l.foldl (fun out q => Coll.addOne H out (f q)) []) ∧ (Has (l.foldl (fun out q => Coll.addOne H out (f q)) []) x ↔ ∃ q ∈ l, x = f q) := by
  have : ∀ (l : List β) (v : Coll ELabels Int) (done : List β), Built H v → (∀ x, Has v x ↔ ∃ q ∈ done, x = f q) →
      Built H (l.foldl (fun out q => Coll.addOne H out (f q)) v) ∧ ∀ x, Has (l.foldl (fun out q => Coll.addOne H out (f q)) v) x ↔ ∃ q ∈ done ++ l, x = f q := by
    intro l
    induction l with
    | nil => intro v done hb hv; exact ⟨hb, by simpa using hv⟩
    | cons q l ih =>
      intro v done hb hv
      rw [List.foldl_cons]
      have := ih (Coll.addOne H v (f q)) (done ++ [q]) (.addOne _ hb) (by
        intro x
        rw [C42_add_entry_partial (H := H) hb, hv]
        constructor
        · rintro (rfl | ⟨⟨q', hq', rfl⟩, _⟩)
          · exact ⟨q, by simp, rfl⟩
          · exact ⟨q', by simp [hq'], rfl⟩
        · rintro ⟨q', hq', rfl⟩
          rcases List.mem_append.1 hq' with hq' | hq'
          · by_cases he : (f q').key = (f q).key
            · exact Or.inl (hf _ _ he)
            · exact Or.inr ⟨⟨q', hq', rfl⟩, he⟩
          · simp only [List.mem_singleton] at hq'
            subst hq'
            exact Or.inl rfl)
      simpa using this
  have h := this l [] [] (.ofList []) (by intro x; simp [Has])
  exact ⟨h.1, by simpa using h.2 x⟩

theorem quantiles_has (cf : SumConf) (internal : Bool) (k : Labels) (q vs : List Int) (hq : q.Perm vs) (x : Entry) :
    Has (quantiles H pct cf internal k q) x ↔ QuantileEntry pct cf cf.name internal k vs x := by
  unfold quantiles
  dsimp only
  rw [(has_fold_addOne (H := H) (fun q' => (⟨cf.name, if sortInt q = [] then 0 else pct (sortInt q) q', (k, [q']), none, internal⟩ : Entry)) ?_ cf.quantiles x).2]
  · constructor
    · rintro ⟨q', h1, rfl⟩
      exact ⟨q', h1, sortInt q, (sortInt_perm q).trans hq, sortInt_sorted q, rfl⟩
    · rintro ⟨q', h1, l, h2, h3, rfl⟩
      have : l = sortInt q := sorted_unique (h2.trans (hq.symm.trans (sortInt_perm q).symm)) h3 (sortInt_sorted q)
      subst this
      exact ⟨q', h1, rfl⟩
  · intro a b h
    have : [a] = [b] := congrArg (fun q => q.2.2) h
    cases this
    rfl

theorem quantiles_built (cf : SumConf) (internal : Bool) (k : Labels) (q : List Int) : Built H (quantiles H pct cf internal k q) := by
  unfold quantiles
  refine (has_fold_addOne (H := H) (fun q' => (⟨cf.name, if sortInt q = [] then 0 else pct (sortInt q) q', (k, [q']), none, internal⟩ : Entry)) ?_ cf.quantiles ⟨[], 0, ([], []), none, false⟩).1
  intro a b h
  have : [a] = [b] := congrArg (fun q => q.2.2) h
  cases this
  rfl

/-- the two entries of a state -/
def Tally2 (cf : SumConf) (internal : Bool) (k : Labels) (s : SumSt) (x : Entry) : Prop :=
  cf.countCalls = true ∧ (x = ⟨cf.name ++ ".count".toList, s.calls, (k, []), none, internal⟩ ∨ x = ⟨cf.name ++ ".sum".toList, s.time, (k, []), none, internal⟩)

/-- adding what is there already -/
theorem addOne_same {c : Coll ELabels Int} {m : Entry} (hb : OnePerKey c) (hm : ⟨H m.key, m⟩ ∈ c) : (Coll.addOne H c m).Perm c := by
  have hc : contains H c m = true := List.any_eq_true.2 ⟨_, hm, by simp [Slot.is]⟩
  have hu : ∀ e ∈ c, e.md.key = m.key → e = ⟨H m.key, m⟩ := by
    intro e he hk
    have h1 := (find_key hb (k := m.key)).2 ⟨he, hk⟩
    rw [(find_key hb (k := m.key)).2 ⟨hm, rfl⟩] at h1
    exact (Option.some.inj h1).symm
  obtain ⟨a, l1, l2, _, hp, h1, h2⟩ := List.exists_of_eraseP (p := fun s : Slot ELabels Int => s.is H m) hm (by simp [Slot.is])
  have ha : a = ⟨H m.key, m⟩ := hu a (by rw [h1]; simp) (by
    simp only [Slot.is, Bool.and_eq_true, decide_eq_true_eq] at hp
    exact hp.2)
  subst ha
  have hrem : Coll.remove H c m = l1 ++ l2 := h2
  have hno : ¬ HasKey (l1 ++ l2) m.key := by
    rintro ⟨m', ⟨s, hs, rfl⟩, hk⟩
    have hp' : OnePerKey (l1 ++ ⟨H m.key, m⟩ :: l2) := h1 ▸ hb
    have hp' := List.pairwise_append.1 hp'
    rcases List.mem_append.1 hs with hs | hs
    · exact hp'.2.2 s hs _ (List.mem_cons_self ..) hk
    · exact (List.pairwise_cons.1 hp'.2.1).1 s hs hk.symm
  unfold Coll.addOne Coll.add
  rw [if_pos hc, hrem, if_neg (fun hc => hno (contains_key hc)), h1]
  exact List.perm_append_comm.trans (by rw [List.singleton_append]; exact List.perm_middle.symm)

theorem one_perm {a b : Coll ELabels Int} (h : a.Perm b) (hb : OnePerKey b) : OnePerKey a :=
  h.symm.pairwise hb (fun h e => h e.symm)

theorem addOne_new_eq {c : Coll ELabels Int} {m : Entry} (h : ¬ HasKey c m.key) : Coll.addOne H c m = c ++ [⟨H m.key, m⟩] := by
  unfold Coll.addOne Coll.add
  rw [if_neg (fun hc => h (contains_key hc)), if_neg (fun hc => h (contains_key hc))]

theorem addTally_new (cf : SumConf) (internal : Bool) (k : Labels) (s : SumSt) (c : Coll ELabels Int) (hb : OnePerKey c) (hn : ∀ n : Name, ¬ HasKey c (n, (k, []))) :
    OnePerKey (addTally H cf internal k s c) ∧ (∀ x, Has (addTally H cf internal k s c) x ↔ Has c x ∨ Tally2 cf internal k s x) ∧
    (addTally H cf internal k s (addTally H cf internal k s c)).Perm (addTally H cf internal k s c) := by
  unfold addTally Tally2
  cases cf.countCalls with
  | false => simp [hb]
  | true =>
    simp only [if_true, true_and]
    have hlen : cf.name ++ ".count".toList ≠ cf.name ++ ".sum".toList := suffix_ne _ _ _ (by decide)
    rw [addOne_new_eq (c := c) (hn _)]
    have hn2 : ¬ HasKey (c ++ [⟨H (cf.name ++ ".count".toList, (k, [])), ⟨cf.name ++ ".count".toList, (s.calls : Int), (k, []), none, internal⟩⟩]) (cf.name ++ ".sum".toList, (k, [])) := by
      rintro ⟨m, ⟨e, he, rfl⟩, hk⟩
      rcases List.mem_append.1 he with he | he
      · exact hn _ ⟨e.md, ⟨e, he, rfl⟩, hk⟩
      · simp only [List.mem_singleton] at he
        subst he
        exact hlen (congrArg Prod.fst hk)
    have e2 := addOne_new_eq (H := H) (m := ⟨cf.name ++ ".sum".toList, s.time, (k, []), none, internal⟩) hn2
    rw [show (MD.key ⟨cf.name ++ ".count".toList, (s.calls : Int), ((k, []) : ELabels), none, internal⟩) = (cf.name ++ ".count".toList, (k, [])) from rfl]
    rw [e2]
    generalize hm1 : (⟨cf.name ++ ".count".toList, (s.calls : Int), (k, []), none, internal⟩ : Entry) = m1 at *
    generalize hm2 : (⟨cf.name ++ ".sum".toList, s.time, (k, []), none, internal⟩ : Entry) = m2 at *
    have k1 : m1.key = (cf.name ++ ".count".toList, (k, [])) := by rw [← hm1]; rfl
    have k2 : m2.key = (cf.name ++ ".sum".toList, (k, [])) := by rw [← hm2]; rfl
    have hone : OnePerKey ((c ++ [⟨H (cf.name ++ ".count".toList, (k, [])), m1⟩]) ++ [⟨H m2.key, m2⟩]) := by
      refine List.pairwise_append.2 ⟨List.pairwise_append.2 ⟨hb, List.pairwise_singleton _ _, fun a ha b hb' hk => ?_⟩, List.pairwise_singleton _ _, fun a ha b hb' hk => ?_⟩
      · simp only [List.mem_singleton] at hb'
        subst hb'
        exact hn _ ⟨a.md, ⟨a, ha, rfl⟩, hk.trans k1⟩
      · simp only [List.mem_singleton] at hb'
        subst hb'
        exact hn2 ⟨a.md, ⟨a, ha, rfl⟩, hk.trans k2⟩
    refine ⟨hone, fun x => ?_, ?_⟩
    · simp only [Has, List.mem_append, List.mem_singleton]
      constructor
      · rintro ⟨e, (he | rfl) | rfl, rfl⟩
        · exact Or.inl ⟨e, he, rfl⟩
        · exact Or.inr (Or.inl rfl)
        · exact Or.inr (Or.inr rfl)
      · rintro (⟨e, he, rfl⟩ | rfl | rfl)
        · exact ⟨e, Or.inl (Or.inl he), rfl⟩
        · exact ⟨_, Or.inl (Or.inr rfl), rfl⟩
        · exact ⟨_, Or.inr rfl, rfl⟩
    · have p1 := addOne_same (H := H) (m := m1) hone (by rw [k1]; simp)
      have p2 := addOne_same (H := H) (m := m2) (one_perm p1 hone) (p1.symm.subset (by simp))
      exact p2.trans p1

theorem sumLeaf_has (cf : SumConf) (internal : Bool) (k : Labels) (s : SumSt) (vs : List Int) (hq : s.queue.Perm vs) (x : Entry) :
    OnePerKey (sumLeaf H pct cf internal k s) ∧ (Has (sumLeaf H pct cf internal k s) x ↔ QuantileEntry pct cf cf.name internal k vs x ∨ Tally2 cf internal k s x) := by
  have hn : ∀ n : Name, ¬ HasKey (quantiles H pct cf internal k s.queue) (n, (k, [])) := by
    rintro n ⟨m, hm, hk⟩
    obtain ⟨q, _, l, _, _, rfl⟩ := (quantiles_has cf internal k s.queue vs hq m).1 hm
    have : [q] = [] := congrArg (fun q => q.2.2) hk
    cases this
  obtain ⟨h1, h2, _⟩ := addTally_new (H := H) cf internal k s _ (built_good (quantiles_built (H := H) (pct := pct) cf internal k s.queue)).2 hn
  refine ⟨h1, ?_⟩
  unfold sumLeaf
  rw [h2, quantiles_has cf internal k s.queue vs hq]

theorem sumLeaf_tagged (cf : SumConf) (internal : Bool) : Tagged (sumLeaf H pct cf internal) := by
  intro k s
  refine ⟨(sumLeaf_has cf internal k s s.queue (.refl _) ⟨[], 0, ([], []), none, false⟩).1, fun m hm => ?_⟩
  rcases (sumLeaf_has cf internal k s s.queue (.refl _) m).2.1 hm with ⟨q, _, l, _, _, rfl⟩ | ⟨_, rfl | rfl⟩ <;> rfl

theorem tally_iff (cf : SumConf) (internal : Bool) (k : Labels) (vs : List Int) (x : Entry) : Tally2 cf internal k (sumOf cf vs) x ↔ TallyEntry cf internal k vs x := by
  unfold Tally2 TallyEntry sumOf
  cases cf.countCalls <;> simp

/-- **C39, summary without labels.** The quantiles are those of exactly the last `last_calls` samples; `.count` and `.sum` cover all. -/
theorem C39_summary_partial (cf : SumConf) (hn : 0 < cf.last) (chain : List Nat) (hr : Rooted chain) (ops : List (MOp Int)) (xs : List (Int × Labels)) (hx : Counted chain ops xs)
    (hl : labelled xs = false) (x : Entry) :
    Has (sumReport H pct cf (after (summary cf) chain ops)) x ↔
      QuantileEntry pct cf cf.name cf.internal [] (lastN cf.last (xs.map (·.1))) x ∨ TallyEntry cf cf.internal [] (xs.map (·.1)) x := by
  obtain ⟨h1, h2⟩ := after_embedded (summary cf) hr hx
  unfold sumReport
  rw [h2, h1, hl]
  simp only [Bool.false_eq_true, if_false]
  rw [sum_init, sum_ownFold cf hn xs hl [], List.nil_append, (sumLeaf_has cf cf.internal [] (sumOf cf _) (lastN cf.last (xs.map (·.1))) (List.reverse_perm _) x).2, tally_iff]

/-- **C39, summary with labels.** For each set of labels, the quantiles of exactly the last `last_calls` samples with these labels, and number and sum of all of them; in total, the quantiles of all these
windows together, and number and sum of all samples, with labels or without. -/
theorem C39_summary_labels_partial (cf : SumConf) (hn : 0 < cf.last) (hne : cf.name ≠ []) (chain : List Nat) (hr : Rooted chain) (ops : List (MOp Int)) (xs : List (Int × Labels)) (hx : Counted chain ops xs)
    (hk : Kwargs xs) (hl : labelled xs = true) (ks : List Labels) (hks : ks.Nodup) (hks' : ∀ k, k ∈ ks ↔ ∃ y ∈ xs, y.2 ≠ [] ∧ k = labelKey y.2) (x : Entry) :
    Has (sumReport H pct cf (after (summary cf) chain ops)) x ↔
      (∃ y ∈ xs, y.2 ≠ [] ∧ (QuantileEntry pct cf cf.name false (labelKey y.2) (lastN cf.last (group xs y.2)) x ∨ TallyEntry cf false (labelKey y.2) (group xs y.2) x)) ∨
      (cf.aggregate = true ∧ QuantileEntry pct cf (cf.name ++ ".total".toList) cf.internal [] (ks.flatMap (fun k => lastN cf.last (group xs k))) x) ∨
      TallyEntry cf cf.internal [] (xs.map (·.1)) x := by
  obtain ⟨h1, h2⟩ := after_embedded (summary cf) hr hx
  obtain ⟨h3, h4⟩ := after_report (H := H) (summary cf) (sumLeaf_tagged (H := H) (pct := pct) cf false) hr hx hk
  obtain ⟨h5, h6⟩ := after_children (summary cf) hr hx hk
  have hgk : ∀ y ∈ xs, group xs (labelKey y.2) = group xs y.2 := by
    intro y hy
    unfold group
    congr 1
    refine List.filter_congr (fun z _ => ?_)
    rw [Bool.eq_iff_iff, List.isPerm_iff, List.isPerm_iff]
    exact ⟨fun h => h.trans (labelKey_perm _), fun h => h.trans (labelKey_perm _).symm⟩
  have hst : ∀ l : Labels, (group xs l).foldl (summary cf).own (summary cf).init = sumOf cf (group xs l) := by
    intro l
    rw [sum_init, sum_own cf hn]
    rfl
  have hkids : ∀ x, Has (childrenReport H (sumLeaf H pct cf false) (after (summary cf) chain ops).children) x ↔
      ∃ y ∈ xs, y.2 ≠ [] ∧ (QuantileEntry pct cf cf.name false (labelKey y.2) (lastN cf.last (group xs y.2)) x ∨ TallyEntry cf false (labelKey y.2) (group xs y.2) x) := by
    intro x
    rw [h4]
    have : ∀ y : Int × Labels, Has (sumLeaf H pct cf false (labelKey y.2) ((group xs y.2).foldl (summary cf).own (summary cf).init)) x ↔
        QuantileEntry pct cf cf.name false (labelKey y.2) (lastN cf.last (group xs y.2)) x ∨ TallyEntry cf false (labelKey y.2) (group xs y.2) x := by
      intro y
      rw [hst, (sumLeaf_has cf false (labelKey y.2) (sumOf cf _) (lastN cf.last (group xs y.2)) (List.reverse_perm _) x).2, tally_iff]
    simp only [this]
  -- the windows of the children, in whatever order
  have hwin : ((after (summary cf) chain ops).children.flatMap (fun c => c.2.queue)).Perm (ks.flatMap (fun k => lastN cf.last (group xs k))) := by
    generalize (after (summary cf) chain ops).children = ch at *
    have hkp : (ch.map Prod.fst).Perm ks := by
      refine (List.perm_ext_iff_of_nodup h5 hks).2 (fun k => ?_)
      rw [hks', List.mem_map]
      constructor
      · rintro ⟨⟨k, s⟩, h, rfl⟩
        obtain ⟨y, hy, hne, e, _⟩ := (h6 k s).1 h
        exact ⟨y, hy, hne, e⟩
      · rintro ⟨y, hy, hne, e⟩
        exact ⟨(k, _), (h6 k _).2 ⟨y, hy, hne, e, rfl⟩, rfl⟩
    have e1 : ∀ l : Dict Labels SumSt, (∀ k s, (k, s) ∈ l → s.queue = (lastN cf.last (group xs k)).reverse) →
        (l.flatMap (fun c => c.2.queue)).Perm ((l.map Prod.fst).flatMap (fun k => lastN cf.last (group xs k))) := by
      intro l
      induction l with
      | nil => intro _; exact .refl _
      | cons c l ih =>
        intro h
        simp only [List.flatMap_cons, List.map_cons]
        refine List.Perm.append ?_ (ih (fun k s hm => h k s (List.mem_cons_of_mem _ hm)))
        rw [h c.1 c.2 (List.mem_cons_self ..)]
        exact List.reverse_perm _
    refine (e1 ch ?_).trans (hkp.flatMap_right _)
    intro k s hm
    obtain ⟨y, hy, hne, rfl, rfl⟩ := (h6 k s).1 hm
    rw [hst, hgk y hy]
    rfl
  have htot : ∀ x, Has ((quantiles H pct cf cf.internal [] ((after (summary cf) chain ops).children.flatMap (fun c => c.2.queue))).postfixWith "total".toList) x ↔
      QuantileEntry pct cf (cf.name ++ ".total".toList) cf.internal [] (ks.flatMap (fun k => lastN cf.last (group xs k))) x := by
    intro x
    have tn : joinName cf.name "total".toList = cf.name ++ ".total".toList := by
      unfold joinName
      rw [if_neg hne]
      rfl
    constructor
    · rintro ⟨e, he, rfl⟩
      obtain ⟨e', he', rfl⟩ := List.mem_map.1 he
      obtain ⟨q, hq, l, hp, hs, e⟩ := (quantiles_has (H := H) (pct := pct) cf cf.internal [] _ _ hwin e'.md).1 ⟨e', he', rfl⟩
      exact ⟨q, hq, l, hp, hs, by simp only [e, tn]⟩
    · rintro ⟨q, hq, l, hp, hs, rfl⟩
      obtain ⟨e, he, h⟩ := (quantiles_has (H := H) (pct := pct) cf cf.internal [] _ _ hwin _).2 ⟨q, hq, l, hp, hs, rfl⟩
      exact ⟨_, List.mem_map.2 ⟨e, he, rfl⟩, by simp only [h, tn]⟩
  have htone : OnePerKey ((quantiles H pct cf cf.internal [] ((after (summary cf) chain ops).children.flatMap (fun c => c.2.queue))).postfixWith "total".toList) := by
    refine List.pairwise_map.2 (List.Pairwise.imp_of_mem ?_ (built_good (quantiles_built (H := H) (pct := pct) cf cf.internal [] _)).2)
    intro a b ha hb hab hk
    obtain ⟨q, _, l, _, _, e1⟩ := (quantiles_has (H := H) (pct := pct) cf cf.internal [] _ _ hwin a.md).1 ⟨a, ha, rfl⟩
    obtain ⟨q', _, l', _, _, e2⟩ := (quantiles_has (H := H) (pct := pct) cf cf.internal [] _ _ hwin b.md).1 ⟨b, hb, rfl⟩
    refine hab ?_
    have : a.md.labels = b.md.labels := congrArg (fun q => q.2) hk
    have n1 : a.md.name = cf.name := by rw [e1]
    have n2 : b.md.name = cf.name := by rw [e2]
    simp only [MD.key, this, n1, n2]
  have hdis : ∀ m, Has (childrenReport H (sumLeaf H pct cf false) (after (summary cf) chain ops).children) m →
      ¬ HasKey ((quantiles H pct cf cf.internal [] ((after (summary cf) chain ops).children.flatMap (fun c => c.2.queue))).postfixWith "total".toList) m.key := by
    rintro m hm ⟨m2, hm2, hkey⟩
    obtain ⟨y, _, hne', hm⟩ := (hkids m).1 hm
    have l1 : m.labels.1 = labelKey y.2 := by rcases hm with ⟨q, _, l, _, _, rfl⟩ | ⟨_, rfl | rfl⟩ <;> rfl
    have l2 : m2.labels.1 = [] := by obtain ⟨q, _, l, _, _, rfl⟩ := (htot m2).1 hm2; rfl
    have : m2.labels.1 = m.labels.1 := congrArg (fun q => q.2.1) hkey
    exact hne' (labelKey_nil.1 (l1.symm.trans (this.symm.trans l2)))
  have hnk : ∀ n : Name, ¬ HasKey (childrenReport H (sumLeaf H pct cf false) (after (summary cf) chain ops).children) (n, ([], [])) := by
    rintro n ⟨m, hm, hkey⟩
    obtain ⟨y, _, hne', hm⟩ := (hkids m).1 hm
    have l1 : m.labels.1 = labelKey y.2 := by rcases hm with ⟨q, _, l, _, _, rfl⟩ | ⟨_, rfl | rfl⟩ <;> rfl
    have : m.labels.1 = [] := congrArg (fun q => q.2.1) hkey
    exact hne' (labelKey_nil.1 (l1.symm.trans this))
  have hnt : ∀ n : Name, ¬ HasKey ((quantiles H pct cf cf.internal [] ((after (summary cf) chain ops).children.flatMap (fun c => c.2.queue))).postfixWith "total".toList) (n, ([], [])) := by
    rintro n ⟨m, hm, hkey⟩
    obtain ⟨q, _, l, _, _, rfl⟩ := (htot m).1 hm
    have : [q] = [] := congrArg (fun q => q.2.2) hkey
    cases this
  have htal : ∀ x, Tally2 cf cf.internal [] (after (summary cf) chain ops).own x ↔ TallyEntry cf cf.internal [] (xs.map (·.1)) x := by
    intro x
    unfold Tally2 TallyEntry
    cases hc : cf.countCalls with
    | false => simp
    | true =>
      obtain ⟨t1, t2⟩ := sum_ownFold_tally cf hc xs false (summary cf).init
      rw [h1, t1, t2]
      simp [summary]
  unfold sumReport
  rw [h2, hl]
  simp only [if_true]
  generalize hK : (if cf.aggregate = true then _ else childrenReport H (sumLeaf H pct cf false) (after (summary cf) chain ops).children) = K
  have hKone : OnePerKey K := by
    rw [← hK]
    split
    · exact one_addColl_new h3 htone hdis
    · exact h3
  have hKhas : ∀ x, Has K x ↔ (∃ y ∈ xs, y.2 ≠ [] ∧ (QuantileEntry pct cf cf.name false (labelKey y.2) (lastN cf.last (group xs y.2)) x ∨ TallyEntry cf false (labelKey y.2) (group xs y.2) x)) ∨
      (cf.aggregate = true ∧ QuantileEntry pct cf (cf.name ++ ".total".toList) cf.internal [] (ks.flatMap (fun k => lastN cf.last (group xs k))) x) := by
    intro x
    rw [← hK]
    split
    · rename_i ha
      rw [has_addColl_new h3 hdis, hkids, htot]
      simp [ha]
    · rename_i ha
      rw [hkids]
      simp [ha]
  have hKn : ∀ n : Name, ¬ HasKey K (n, ([], [])) := by
    rw [← hK]
    split
    · rintro n ⟨m, hm, hkey⟩
      rcases (has_addColl_new h3 hdis m).1 hm with h | h
      · exact hnk n ⟨m, h, hkey⟩
      · exact hnt n ⟨m, h, hkey⟩
    · exact hnk
  obtain ⟨_, a2, a3⟩ := addTally_new (H := H) cf cf.internal [] (after (summary cf) chain ops).own K hKone hKn
  have : ∀ x, Has (addTally H cf cf.internal [] (after (summary cf) chain ops).own (addTally H cf cf.internal [] (after (summary cf) chain ops).own K)) x ↔
      Has (addTally H cf cf.internal [] (after (summary cf) chain ops).own K) x := by
    intro x
    constructor
    · rintro ⟨e, he, rfl⟩; exact ⟨e, a3.subset he, rfl⟩
    · rintro ⟨e, he, rfl⟩; exact ⟨e, a3.symm.subset he, rfl⟩
  rw [this, a2, hKhas, htal, or_assoc]
end

/-- **C39, violated**: once there have been labels, a sample without labels is in no quantile, not even the total, though it is counted. -/
theorem C39_summary_unlabelled_violates : (sumReport (fun _ => 0) (fun l _ => l.length) ⟨"s".toList, 10, [50], true, true, false⟩
    (after (summary ⟨"s".toList, 10, [50], true, true, false⟩) [2] [.handle 2 7 [(1, 1)], .handle 2 8 [], .handle 2 9 []])).map (fun e => (e.md.name, e.md.labels.1, e.md.value)) =
    [("s.total".toList, [], 1), ("s".toList, [(1, 1)], 1), ("s.count".toList, [(1, 1)], 1), ("s.sum".toList, [(1, 1)], 7), ("s.count".toList, [], 3), ("s.sum".toList, [], 24)] := by
  decide +kernel

/-! Concrete cases. -/

/-- a summary of three samples, the "quantile" being the smallest -/
def sc0 : SumConf := ⟨"s".toList, 3, [0], true, true, false⟩
example : 0 < sc0.last ∧ sc0.name ≠ [] := by decide
example : (sumReport (fun _ => 0) (fun l _ => l.headD 0) sc0 (after (summary sc0) [2] [.handle 2 1 [], .handle 2 5 [], .handle 3 0 [], .handle 2 4 [], .handle 2 6 []])).map (fun e => (e.md.name, e.md.value)) =
    [("s".toList, 4), ("s.count".toList, 4), ("s.sum".toList, 16)] := by decide +kernel

end Verif.Metrics
