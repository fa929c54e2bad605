import Verif.Metrics.Embedded
/-!
# Reports of metrics with submetrics; the counter and the simple metrics (satella/instrumentation/metrics/metric_types/base.py, counter.py, simple.py); C39, C60

Numbers are integers (the code has floats as well).  The metric has a name and no labels of its own; the labels of an entry are kept in the order of their names.
-/
namespace Verif.Metrics
open Verif

variable {σ α : Type}

/-! ## The samples of a label set -/

/-- the samples with the same labels.  (Part of the model of `EmbeddedSubmetrics`, /repo/satella/instrumentation/metrics/metric_types/base.py:173-243.) -/
def group (xs : List (α × Labels)) (l : Labels) : List α := (xs.filter (fun y => y.2.isPerm l)).map (·.1)

/-- label names of a sample are distinct, as those of keyword arguments -/
def Kwargs (xs : List (α × Labels)) : Prop := ∀ x ∈ xs, (x.2.map Prod.fst).Nodup

theorem withKey_group {xs : List (α × Labels)} (hk : Kwargs xs) (l : Labels) : withKey xs (labelKey l) = group xs l := by
  unfold withKey group
  congr 1
  refine List.filter_congr (fun x hx => ?_)
  rw [Bool.eq_iff_iff, decide_eq_true_eq, List.isPerm_iff, labelKey_eq (hk x hx)]
  rfl

theorem children_iff (c : Cls σ α) {xs : List (α × Labels)} (hk : Kwargs xs) (k : Labels) (s : σ) :
    (k, s) ∈ (xs.foldl (fun m x => m.handle c x.1 x.2) (EM.new c)).children ↔ ∃ x ∈ xs, x.2 ≠ [] ∧ k = labelKey x.2 ∧ s = (group xs x.2).foldl c.own c.init := by
  have hwf := fold_wf c xs (EM.new c) ⟨Dict.wf_nil, by simp [EM.new, Dict.keys]⟩
  rw [Dict.mem_iff hwf.1]
  constructor
  · intro h
    have hk0 : k ≠ [] := by
      rintro rfl
      refine hwf.2 ((Dict.get?_isSome_iff _ _).1 ?_)
      rw [h]; rfl
    rw [fold_children c xs _ k hk0] at h
    split at h
    · cases h
    · rename_i hne
      obtain ⟨y, hy⟩ := List.exists_mem_of_ne_nil _ hne
      simp only [withKey, List.mem_map, List.mem_filter, decide_eq_true_eq] at hy
      obtain ⟨x, ⟨hx, rfl⟩, _⟩ := hy
      refine ⟨x, hx, fun e => hk0 (labelKey_nil.2 e), rfl, ?_⟩
      rw [← withKey_group hk]
      exact (Option.some.inj h).symm
  · rintro ⟨x, hx, hne, rfl, rfl⟩
    rw [fold_children c xs _ _ (fun e => hne (labelKey_nil.1 e)), withKey_group hk]
    have : group xs x.2 ≠ [] := by
      intro e
      have : x.1 ∈ group xs x.2 := List.mem_map.2 ⟨x, List.mem_filter.2 ⟨hx, by rw [List.isPerm_iff]⟩, rfl⟩
      rw [e] at this; cases this
    rw [if_neg this]
    rfl

/-! ## Reports -/

/-- labels of an entry, and what a kind of metric adds to them: bounds of a bucket, a period, a quantile, an address -/
abbrev ELabels := Labels × List Int

/-- entries -/
abbrev Entry := MD ELabels Int

section
variable (H : Name × ELabels → Nat)

/-- `EmbeddedSubmetrics.to_metric_data` when there are labels, /repo/satella/instrumentation/metrics/metric_types/base.py:219-225.  Children inherit the level, so all are included. -/
def childrenReport (rep : Labels → σ → Coll ELabels Int) (children : Dict Labels σ) : Coll ELabels Int :=
  children.foldl (fun v c => Coll.addColl H v (rep c.1 c.2)) []

variable {H}

theorem contains_key {s : Coll ELabels Int} {m : Entry} (h : contains H s m = true) : HasKey s m.key := by
  simp only [contains, List.any_eq_true, Slot.is, Bool.and_eq_true, decide_eq_true_eq] at h
  obtain ⟨e, he, _, hk⟩ := h
  exact ⟨e.md, ⟨e, he, rfl⟩, hk⟩

theorem has_add_new {s : Coll ELabels Int} {m : Entry} (h : ¬ HasKey s m.key) (x : Entry) : Has (Coll.add H s m) x ↔ Has s x ∨ x = m := by
  unfold Coll.add
  rw [if_neg (fun hc => h (contains_key hc))]
  simp only [Has, List.mem_append, List.mem_singleton]
  constructor
  · rintro ⟨e, he | rfl, rfl⟩
    · exact Or.inl ⟨e, he, rfl⟩
    · exact Or.inr rfl
  · rintro (⟨e, he, rfl⟩ | rfl)
    · exact ⟨e, Or.inl he, rfl⟩
    · exact ⟨_, Or.inr rfl, rfl⟩

theorem has_addOne_new {s : Coll ELabels Int} {m : Entry} (h : ¬ HasKey s m.key) (x : Entry) : Has (Coll.addOne H s m) x ↔ Has s x ∨ x = m := by
  unfold Coll.addOne
  rw [if_neg (fun hc => h (contains_key hc))]
  exact has_add_new h x

theorem has_addColl_new : ∀ {a b : Coll ELabels Int}, OnePerKey a → (∀ m, Has a m → ¬ HasKey b m.key) → ∀ x, Has (Coll.addColl H a b) x ↔ Has a x ∨ Has b x := by
  intro a
  induction a with
  | nil => intro b _ _ x; simp [Coll.addColl, Has]
  | cons e a ih =>
    intro b ha hd x
    have ha' := List.pairwise_cons.1 ha
    have hcons : Has (e :: a) x ↔ x = e.md ∨ Has a x := by
      constructor
      · rintro ⟨e', he', rfl⟩
        rcases List.mem_cons.1 he' with rfl | he'
        · exact Or.inl rfl
        · exact Or.inr ⟨e', he', rfl⟩
      · rintro (rfl | ⟨e', he', rfl⟩)
        · exact ⟨e, List.mem_cons_self .., rfl⟩
        · exact ⟨e', List.mem_cons_of_mem _ he', rfl⟩
    have hnew := hd e.md ⟨e, List.mem_cons_self .., rfl⟩
    rw [addColl_cons, ih ha'.2 ?_ x, has_add_new hnew, hcons]
    · constructor
      · rintro (h | h | h)
        · exact Or.inl (Or.inr h)
        · exact Or.inr h
        · exact Or.inl (Or.inl h)
      · rintro ((h | h) | h)
        · exact Or.inr (Or.inr h)
        · exact Or.inl h
        · exact Or.inr (Or.inl h)
    · rintro m ⟨e', he', rfl⟩ ⟨m2, hm2, hk⟩
      rcases (has_add_new hnew _).1 hm2 with h | rfl
      · exact hd e'.md ⟨e', List.mem_cons_of_mem _ he', rfl⟩ ⟨m2, h, hk⟩
      · exact ha'.1 e' he' hk

theorem one_addColl_new : ∀ {a b : Coll ELabels Int}, OnePerKey a → OnePerKey b → (∀ m, Has a m → ¬ HasKey b m.key) → OnePerKey (Coll.addColl H a b) := by
  intro a
  induction a with
  | nil => intro b _ hb _; exact hb
  | cons e a ih =>
    intro b ha hb hd
    have ha' := List.pairwise_cons.1 ha
    have hnew := hd e.md ⟨e, List.mem_cons_self .., rfl⟩
    rw [addColl_cons]
    refine ih ha'.2 ?_ ?_
    · unfold Coll.add
      rw [if_neg (fun hc => hnew (contains_key hc))]
      refine List.pairwise_append.2 ⟨hb, List.pairwise_singleton _ _, fun e' he' e2 he2 hk => ?_⟩
      simp only [List.mem_singleton] at he2
      subst he2
      exact hnew ⟨e'.md, ⟨e', he', rfl⟩, hk⟩
    · rintro m ⟨e', he', rfl⟩ ⟨m2, hm2, hk⟩
      rcases (has_add_new hnew _).1 hm2 with h | rfl
      · exact hd e'.md ⟨e', List.mem_cons_of_mem _ he', rfl⟩ ⟨m2, h, hk⟩
      · exact ha'.1 e' he' hk

/-- the reports of submetrics: one entry per key, all with the labels of the submetric -/
def Tagged (rep : Labels → σ → Coll ELabels Int) : Prop := ∀ k s, OnePerKey (rep k s) ∧ ∀ m, Has (rep k s) m → m.labels.1 = k

theorem childrenReport_iff {rep : Labels → σ → Coll ELabels Int} (ht : Tagged rep) {ch : Dict Labels σ} (hw : Dict.WF ch) :
    OnePerKey (childrenReport H rep ch) ∧ ∀ x, Has (childrenReport H rep ch) x ↔ ∃ k s, (k, s) ∈ ch ∧ Has (rep k s) x := by
  suffices ∀ (ch : Dict Labels σ) (v : Coll ELabels Int), Dict.WF ch → OnePerKey v → (∀ k s, (k, s) ∈ ch → ∀ m, Has v m → m.labels.1 ≠ k) →
      OnePerKey (ch.foldl (fun v c => Coll.addColl H v (rep c.1 c.2)) v) ∧
      ∀ x, Has (ch.foldl (fun v c => Coll.addColl H v (rep c.1 c.2)) v) x ↔ Has v x ∨ ∃ k s, (k, s) ∈ ch ∧ Has (rep k s) x by
    have h := this ch [] hw List.Pairwise.nil (fun k s _ m hm => by obtain ⟨e, he, _⟩ := hm; cases he)
    refine ⟨h.1, fun x => (h.2 x).trans ⟨fun h => h.resolve_left (fun hm => by obtain ⟨e, he, _⟩ := hm; cases he), Or.inr⟩⟩
  intro ch
  induction ch with
  | nil => intro v _ hv _; exact ⟨hv, fun x => by simp⟩
  | cons c ch ih =>
    intro v hw hv hd
    have hw' := List.nodup_cons.1 hw
    obtain ⟨k, s⟩ := c
    have hdis : ∀ m, Has v m → ¬ HasKey (rep k s) m.key := by
      rintro m hm ⟨m2, hm2, hk⟩
      have h1 := (ht k s).2 m2 hm2
      have h2 := hd k s (List.mem_cons_self ..) m hm
      exact h2 (by rw [← h1]; exact congrArg (fun q => q.2.1) hk.symm)
    have hhas := has_addColl_new (H := H) hv hdis
    rw [List.foldl_cons]
    obtain ⟨h1, h2⟩ := ih (Coll.addColl H v (rep k s)) hw'.2 (one_addColl_new hv (ht k s).1 hdis) (by
      intro k' s' hm' m hm
      rcases (hhas m).1 hm with h | h
      · exact hd k' s' (List.mem_cons_of_mem _ hm') m h
      · rw [(ht k s).2 m h]
        rintro rfl
        exact hw'.1 (List.mem_map.2 ⟨(k, s'), hm', rfl⟩))
    refine ⟨h1, fun x => ?_⟩
    rw [h2, hhas]
    constructor
    · rintro ((h | h) | ⟨k', s', hm, h⟩)
      · exact Or.inl h
      · exact Or.inr ⟨k, s, List.mem_cons_self .., h⟩
      · exact Or.inr ⟨k', s', List.mem_cons_of_mem _ hm, h⟩
    · rintro (h | ⟨k', s', hm, h⟩)
      · exact Or.inl (Or.inl h)
      · rcases List.mem_cons.1 hm with e | hm
        · cases e; exact Or.inl (Or.inr h)
        · exact Or.inr ⟨k', s', hm, h⟩
end

/-! ## The counter -/

/-- arguments of `CounterMetric`, /repo/satella/instrumentation/metrics/metric_types/counter.py:21-25 -/
structure CounterConf where
  name : Name
  sumChildren : Bool
  countCalls : Bool
  internal : Bool

/-- `value` and `calls`, /repo/satella/instrumentation/metrics/metric_types/counter.py:30-31 -/
structure CounterSt where
  value : Int
  calls : Nat
  deriving DecidableEq, Repr

/-- `_handle`, /repo/satella/instrumentation/metrics/metric_types/counter.py:52-60 -/
def counter (cf : CounterConf) : Cls CounterSt Int where
  init := ⟨0, 0⟩
  own s d := ⟨s.value + d, s.calls + 1⟩
  par s d := ⟨if cf.sumChildren then s.value + d else s.value, s.calls + 1⟩

section
variable (H : Name × ELabels → Nat)

/-- the entry `name.sum`, /repo/satella/instrumentation/metrics/metric_types/counter.py:37-38 -/
def counterSum (cf : CounterConf) (s : CounterSt) : Entry := ⟨cf.name ++ ".sum".toList, s.value, ([], []), none, cf.internal⟩

/-- the entry `name.count`, /repo/satella/instrumentation/metrics/metric_types/counter.py:40-41, :47-48 -/
def counterCount (cf : CounterConf) (k : Labels) (internal : Bool) (s : CounterSt) : Entry := ⟨cf.name ++ ".count".toList, s.calls, (k, []), none, internal⟩

/-- `to_metric_data` of a counter without submetrics, /repo/satella/instrumentation/metrics/metric_types/counter.py:44-50 -/
def counterLeaf (cf : CounterConf) (internal : Bool) (k : Labels) (s : CounterSt) : Coll ELabels Int :=
  let p := Coll.ofList H [⟨cf.name, s.value, (k, []), none, internal⟩]
  if cf.countCalls then Coll.addOne H p (counterCount cf k internal s) else p

/-- `to_metric_data`, /repo/satella/instrumentation/metrics/metric_types/counter.py:33-50.  `clone` does not hand on the `internal` flag (base.py:236-243, :191-193), so submetrics are not internal. -/
def counterReport (cf : CounterConf) (m : EM CounterSt) : Coll ELabels Int :=
  if m.embedded then
    let k := childrenReport H (counterLeaf H cf false) m.children
    let k := if cf.sumChildren then Coll.addOne H k (counterSum cf m.own) else k
    if cf.countCalls then Coll.addOne H k (counterCount cf [] cf.internal m.own) else k
  else counterLeaf H cf cf.internal [] m.own

variable {H}

theorem counter_own (ds : List Int) : ∀ (cf : CounterConf) (s : CounterSt), ds.foldl (counter cf).own s = ⟨s.value + ds.sum, s.calls + ds.length⟩ := by
  induction ds with
  | nil => intro cf s; simp
  | cons d ds ih => intro cf s; rw [List.foldl_cons, ih]; simp [counter]; omega

theorem counter_ownFold (cf : CounterConf) (xs : List (Int × Labels)) : ∀ (emb : Bool) (s : CounterSt),
    (ownFold (counter cf) emb s xs).calls = s.calls + xs.length ∧ ((cf.sumChildren = true ∨ (emb || labelled xs) = false) → (ownFold (counter cf) emb s xs).value = s.value + (xs.map (·.1)).sum) := by
  induction xs with
  | nil => intro emb s; simp [ownFold]
  | cons x xs ih =>
    intro emb s
    rw [ownFold]
    split
    · rename_i hc
      obtain ⟨h1, h2⟩ := ih true ((counter cf).par s x.1)
      refine ⟨by rw [h1]; simp [counter]; omega, fun h => ?_⟩
      have hs : cf.sumChildren = true := by
        rcases h with h | h
        · exact h
        · simp only [labelled, List.any_cons, Bool.or_eq_false_iff] at h
          simp [h.1, h.2.1] at hc
      rw [h2 (Or.inl hs)]
      simp [counter, hs]; omega
    · rename_i hc
      obtain ⟨h1, h2⟩ := ih false ((counter cf).own s x.1)
      refine ⟨by rw [h1]; simp [counter]; omega, fun h => ?_⟩
      rw [h2 ?_]
      · simp [counter]; omega
      · rcases h with h | h
        · exact Or.inl h
        · right
          simp only [labelled, List.any_cons, Bool.or_eq_false_iff] at h
          simp [labelled, h.2.2]

theorem name_ne_count (cf : CounterConf) : cf.name ++ ".count".toList ≠ cf.name := by
  intro h
  have := congrArg List.length h
  simp at this

theorem name_ne_sum (cf : CounterConf) : cf.name ++ ".sum".toList ≠ cf.name := by
  intro h
  have := congrArg List.length h
  simp at this

theorem sum_ne_count (cf : CounterConf) : cf.name ++ ".sum".toList ≠ cf.name ++ ".count".toList := by
  intro h
  have := congrArg List.length h
  simp at this

theorem has_single (m x : Entry) : Has (Coll.ofList H [m]) x ↔ x = m := by
  simp [Coll.ofList, Coll.add, contains, Has, eq_comm]

theorem hasKey_single (m : Entry) (k : Name × ELabels) : HasKey (Coll.ofList H [m]) k ↔ m.key = k := by
  constructor
  · rintro ⟨m', h, rfl⟩; rw [(has_single m m').1 h]
  · rintro rfl; exact ⟨m, (has_single m m).2 rfl, rfl⟩

theorem counterLeaf_has (cf : CounterConf) (internal : Bool) (k : Labels) (s : CounterSt) (x : Entry) :
    Has (counterLeaf H cf internal k s) x ↔ x = ⟨cf.name, s.value, (k, []), none, internal⟩ ∨ (cf.countCalls = true ∧ x = counterCount cf k internal s) := by
  unfold counterLeaf
  dsimp only
  cases cf.countCalls with
  | false => simp [has_single]
  | true =>
    simp only [if_true, true_and]
    rw [has_addOne_new, has_single]
    rw [hasKey_single]
    intro h
    exact name_ne_count cf (congrArg Prod.fst h).symm

theorem counterLeaf_tagged (cf : CounterConf) (internal : Bool) : Tagged (counterLeaf H cf internal) := by
  intro k s
  refine ⟨?_, fun m hm => ?_⟩
  · refine (built_good (H := H) ?_).2
    unfold counterLeaf
    dsimp only
    split
    · exact .addOne _ (.ofList _)
    · exact .ofList _
  · rcases (counterLeaf_has cf internal k s m).1 hm with rfl | ⟨_, rfl⟩ <;> rfl

/-- **C39, counter without labels.** Reports the sum of the deltas counted (and how many, if asked). -/
theorem C39_counter (cf : CounterConf) (chain : List Nat) (hr : Rooted chain) (ops : List (MOp Int)) (xs : List (Int × Labels)) (hx : Counted chain ops xs) (hl : labelled xs = false) (x : Entry) :
    Has (counterReport H cf (after (counter cf) chain ops)) x ↔
      x = ⟨cf.name, (xs.map (·.1)).sum, ([], []), none, cf.internal⟩ ∨ (cf.countCalls = true ∧ x = ⟨cf.name ++ ".count".toList, xs.length, ([], []), none, cf.internal⟩) := by
  obtain ⟨ys, h1, h2⟩ := counted_exists (counter cf) ops chain hr (EM.new (counter cf))
  have := counted_unique hx h1
  subst this
  obtain ⟨f1, f2⟩ := fold_own (counter cf) xs (EM.new (counter cf))
  obtain ⟨g1, g2⟩ := counter_ownFold cf xs false ⟨0, 0⟩
  rw [after, h2, counterReport, f2, f1]
  simp only [EM.new, hl, Bool.or_self, Bool.false_eq_true, if_false]
  rw [counterLeaf_has, counterCount]
  have g1' : (ownFold (counter cf) false (counter cf).init xs).calls = xs.length := by rw [← Nat.zero_add xs.length]; exact g1
  have g2' : (ownFold (counter cf) false (counter cf).init xs).value = (xs.map (·.1)).sum := by rw [← Int.zero_add (xs.map (·.1)).sum]; exact g2 (Or.inr (by simpa using hl))
  rw [g1', g2']

/-- **C39, counter with labels.** There is one entry per set of labels, with the sum of the deltas that came with these labels; `.sum` is the sum of all deltas, with labels or without, and `.count`
the number of all samples, of each set of labels and in total. -/
theorem C39_counter_labels (cf : CounterConf) (chain : List Nat) (hr : Rooted chain) (ops : List (MOp Int)) (xs : List (Int × Labels)) (hx : Counted chain ops xs) (hk : Kwargs xs)
    (hl : labelled xs = true) (x : Entry) :
    Has (counterReport H cf (after (counter cf) chain ops)) x ↔
      (∃ y ∈ xs, y.2 ≠ [] ∧ (x = ⟨cf.name, (group xs y.2).sum, (labelKey y.2, []), none, false⟩ ∨
        (cf.countCalls = true ∧ x = ⟨cf.name ++ ".count".toList, (group xs y.2).length, (labelKey y.2, []), none, false⟩))) ∨
      (cf.sumChildren = true ∧ x = ⟨cf.name ++ ".sum".toList, (xs.map (·.1)).sum, ([], []), none, cf.internal⟩) ∨
      (cf.countCalls = true ∧ x = ⟨cf.name ++ ".count".toList, xs.length, ([], []), none, cf.internal⟩) := by
  obtain ⟨ys, h1, h2⟩ := counted_exists (counter cf) ops chain hr (EM.new (counter cf))
  have := counted_unique hx h1
  subst this
  obtain ⟨f1, f2⟩ := fold_own (counter cf) xs (EM.new (counter cf))
  obtain ⟨g1, g2⟩ := counter_ownFold cf xs false ⟨0, 0⟩
  have hwf := fold_wf (counter cf) xs (EM.new (counter cf)) ⟨Dict.wf_nil, by simp [EM.new, Dict.keys]⟩
  have hch := children_iff (counter cf) hk
  rw [after, h2, counterReport, f2, f1]
  simp only [EM.new, hl, Bool.or_true, if_true]
  have g1' : (ownFold (counter cf) false (counter cf).init xs).calls = xs.length := by rw [← Nat.zero_add xs.length]; exact g1
  generalize hm : List.foldl (fun m x => EM.handle (counter cf) m x.1 x.2) (EM.new (counter cf)) xs = m at *
  have hm' : List.foldl (fun m x => EM.handle (counter cf) m x.1 x.2) { own := (counter cf).init, embedded := false, children := [] } xs = m := hm
  rw [hm']
  obtain ⟨_, hrep⟩ := childrenReport_iff (H := H) (counterLeaf_tagged cf false) hwf.1
  have hkids : ∀ x, Has (childrenReport H (counterLeaf H cf false) m.children) x ↔
      ∃ y ∈ xs, y.2 ≠ [] ∧ (x = ⟨cf.name, (group xs y.2).sum, (labelKey y.2, []), none, false⟩ ∨ (cf.countCalls = true ∧ x = ⟨cf.name ++ ".count".toList, (group xs y.2).length, (labelKey y.2, []), none, false⟩)) := by
    intro x
    rw [hrep]
    have hs : ∀ y : Int × Labels, List.foldl (counter cf).own (counter cf).init (group xs y.2) = ⟨(group xs y.2).sum, (group xs y.2).length⟩ := by
      intro y; rw [counter_own]; simp [counter]
    constructor
    · rintro ⟨k, s, hks, hx⟩
      obtain ⟨y, hy, hne, rfl, rfl⟩ := (hch k s).1 hks
      rw [counterLeaf_has, hs] at hx
      exact ⟨y, hy, hne, hx⟩
    · rintro ⟨y, hy, hne, hx⟩
      refine ⟨_, _, (hch _ _).2 ⟨y, hy, hne, rfl, rfl⟩, ?_⟩
      rw [counterLeaf_has, hs]
      exact hx
  have hnokey : ∀ n : Name, ¬ HasKey (childrenReport H (counterLeaf H cf false) m.children) (n, ([], [])) := by
    rintro n ⟨x, hx, hk⟩
    obtain ⟨y, hy, hne, h⟩ := (hkids x).1 hx
    have : labelKey y.2 = [] := by
      rcases h with rfl | ⟨_, rfl⟩
      · exact congrArg (fun q => q.2.1) hk
      · exact congrArg (fun q => q.2.1) hk
    exact hne (labelKey_nil.1 this)
  cases hsc : cf.sumChildren with
  | false =>
    simp only [Bool.false_eq_true, if_false, false_and, false_or]
    cases hcc : cf.countCalls with
    | false => simp only [Bool.false_eq_true, if_false, false_and, or_false]; rw [hkids]; simp [hcc]
    | true =>
      simp only [if_true, true_and]
      rw [has_addOne_new (hnokey _), hkids, counterCount, g1']
      simp only [hcc, true_and]
  | true =>
    have g2' : (ownFold (counter cf) false (counter cf).init xs).value = (xs.map (·.1)).sum := by rw [← Int.zero_add (xs.map (·.1)).sum]; exact g2 (Or.inl hsc)
    simp only [if_true, true_and]
    cases hcc : cf.countCalls with
    | false =>
      simp only [Bool.false_eq_true, if_false, false_and, or_false]
      rw [has_addOne_new (hnokey _), hkids, counterSum, g2']
      simp [hcc]
    | true =>
      simp only [if_true, true_and]
      rw [has_addOne_new, has_addOne_new (hnokey _), hkids, counterSum, counterCount, g1', g2', or_assoc]
      · simp only [hcc, true_and]
      · rintro ⟨y, hy, hkey⟩
        rcases (has_addOne_new (hnokey _) y).1 hy with h | rfl
        · exact hnokey _ ⟨y, h, hkey⟩
        · exact sum_ne_count cf (congrArg Prod.fst hkey)

end

/-- **C60, violated**: the entries of an internal counter for its labels are not internal, so exporters show them. -/
theorem C60_clone_violates (H : Name × ELabels → Nat) :
    (Coll.removeInternals H (counterReport H ⟨"a".toList, true, false, true⟩ (after (counter ⟨"a".toList, true, false, true⟩) [2] [.handle 2 5 [(1, 1)]]))).map (·.md) =
      [⟨"a".toList, 5, ([(1, 1)], []), none, false⟩] := by
  have h : after (counter ⟨"a".toList, true, false, true⟩) [2] [.handle 2 5 [(1, 1)]] = ⟨⟨5, 1⟩, true, [([(1, 1)], ⟨5, 1⟩)]⟩ := by rfl
  rw [h]
  simp [counterReport, childrenReport, counterLeaf, Coll.ofList, Coll.add, contains, Coll.addColl, Coll.addOne, Coll.removeInternals, counterSum, Slot.is, MD.key]

/-- **C60, without labels** (partial: the counter has had no labels). Nothing of an internal counter is left once internal entries are removed, and all of one that is not internal. -/
theorem C60_internal_partial {H : Name × ELabels → Nat} (cf : CounterConf) (m : EM CounterSt) (h : m.embedded = false) (x : Entry) :
    Has (Coll.removeInternals H (counterReport H cf m)) x ↔ cf.internal = false ∧ Has (counterReport H cf m) x := by
  have hint : ∀ e ∈ counterReport H cf m, e.md.internal = cf.internal := by
    intro e he
    have : Has (counterReport H cf m) e.md := ⟨e, he, rfl⟩
    simp only [counterReport, h, Bool.false_eq_true, if_false] at this
    rcases (counterLeaf_has _ _ _ _ _).1 this with h | ⟨_, h⟩ <;> rw [h] <;> rfl
  have hone : OnePerKey (counterReport H cf m) := by
    simp only [counterReport, h, Bool.false_eq_true, if_false]
    exact (counterLeaf_tagged cf cf.internal [] m.own).1
  unfold Coll.removeInternals
  cases hi : cf.internal with
  | true =>
    have : (counterReport H cf m).filter (fun e => !e.md.internal) = [] := List.filter_eq_nil_iff.2 (fun e he => by simp [hint e he, hi])
    rw [this]
    simp [Coll.ofList, Has]
  | false =>
    have hf : (counterReport H cf m).filter (fun e => !e.md.internal) = counterReport H cf m := List.filter_eq_self.2 (fun e he => by simp [hint e he, hi])
    rw [hf]
    simp only [true_and]
    generalize counterReport H cf m = s at hone
    suffices ∀ v : Coll ELabels Int, (∀ m, Has s m → ¬ HasKey v m.key) → (Has ((s.map (·.md)).foldl (Coll.add H) v) x ↔ Has s x ∨ Has v x) by
      have h0 := this [] (by rintro m _ ⟨m', ⟨e, he, _⟩, _⟩; cases he)
      rw [Coll.ofList, h0]
      exact ⟨fun h => h.resolve_right (fun hm => by obtain ⟨e, he, _⟩ := hm; cases he), Or.inl⟩
    intro v hd
    have := has_addColl_new (H := H) hone hd x
    rw [← this]
    have e : ∀ (s v : Coll ELabels Int), (s.map (·.md)).foldl (Coll.add H) v = Coll.addColl H s v := by
      intro s
      induction s with
      | nil => intro v; rfl
      | cons a s ih => intro v; rw [addColl_cons, ← ih]; rfl
    rw [e]

/-! Concrete cases. -/

/-- a counter -/
def cf0 : CounterConf := ⟨"hits".toList, true, true, false⟩
/-- deltas, some with labels -/
def ops1 : List (MOp Int) := [.handle 2 1 [], .handle 2 2 [(7, 1), (3, 0)], .handle 3 100 [], .handle 2 10 [(3, 0), (7, 1)], .handle 2 5 [(3, 1)]]

example : Counted [4, 2] ops1 [(1, []), (2, [(7, 1), (3, 0)]), (10, [(3, 0), (7, 1)]), (5, [(3, 1)])] := by
  have f : InForce [4, 2] 2 := ⟨[4], [], rfl, by decide, by decide⟩
  exact .taken f (by decide) (.taken f (by decide) (.refused f (by decide) (.taken f (by decide) (.taken f (by decide) .nil))))
example : (counterReport (fun _ => 0) cf0 (after (counter cf0) [4, 2] ops1)).map (fun e => (e.md.name, e.md.labels.1, e.md.value)) =
    [("hits".toList, [(3, 1)], 5), ("hits.count".toList, [(3, 1)], 1), ("hits".toList, [(3, 0), (7, 1)], 12), ("hits.count".toList, [(3, 0), (7, 1)], 2),
     ("hits.sum".toList, [], 18), ("hits.count".toList, [], 4)] := by decide +kernel
example : Kwargs [((2 : Int), [(7, (1 : Int)), (3, 0)])] := by simp [Kwargs]

end Verif.Metrics
