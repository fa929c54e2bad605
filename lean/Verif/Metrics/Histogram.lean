import Verif.Metrics.Counter
/-!
# Model of HistogramMetric (satella/instrumentation/metrics/metric_types/histogram.py), C39 and C60 for it

Numbers are integers (the code has floats, of which NaN is not modelled).  No label is called `ge` or `le`.
-/
namespace Verif.Metrics
open Verif

/-- Lower and upper bounds of the buckets, as the loops at /repo/satella/instrumentation/metrics/metric_types/histogram.py:50-55 and :75-83 go through them; no upper bound: infinity -/
def intervals : Int → List Int → List (Int × Option Int)
  | lower, [] => [(lower, none)]
  | lower, u :: us => (lower, some u) :: intervals u us

/-- `lower_bound <= value < upper_bound`, /repo/satella/instrumentation/metrics/metric_types/histogram.py:53 -/
def inBucket (v : Int) (iv : Int × Option Int) : Bool :=
  decide (iv.1 ≤ v) && (match iv.2 with | none => true | some u => decide (v < u))

/-- arguments of `HistogramMetric`, /repo/satella/instrumentation/metrics/metric_types/histogram.py:26-31 -/
structure HistConf where
  name : Name
  limits : List Int
  aggregate : Bool
  internal : Bool

/-- state, /repo/satella/instrumentation/metrics/metric_types/histogram.py:34-38 -/
structure HistSt where
  buckets : List Nat
  count : Nat
  sum : Int
  deriving DecidableEq, Repr

/-- the loop, /repo/satella/instrumentation/metrics/metric_types/histogram.py:50-55 -/
def bump (cf : HistConf) (bs : List Nat) (v : Int) : List Nat := List.zipWith (fun iv b => if inBucket v iv then b + 1 else b) (intervals 0 cf.limits) bs

/-- `_handle`, /repo/satella/instrumentation/metrics/metric_types/histogram.py:40-55 -/
def histogram (cf : HistConf) : Cls HistSt Int where
  init := ⟨List.replicate (cf.limits.length + 1) 0, 0, 0⟩
  own s v := ⟨bump cf s.buckets v, s.count + 1, s.sum + v⟩
  par s v := ⟨if cf.aggregate then bump cf s.buckets v else s.buckets, s.count + 1, s.sum + v⟩

/-- the labels of a bucket, /repo/satella/instrumentation/metrics/metric_types/histogram.py:78-80: first `le`, which is the lower bound, then `ge`, the upper; infinity is left out -/
def ivLabels (iv : Int × Option Int) : List Int := iv.1 :: iv.2.toList

/-- `containers_to_metric_data`, /repo/satella/instrumentation/metrics/metric_types/histogram.py:73-84, before the entries are put in a set -/
def bucketEntries (cf : HistConf) (internal : Bool) (k : Labels) (bs : List Nat) : List Entry :=
  List.zipWith (fun iv (b : Nat) => ⟨cf.name, (b : Int), (k, ivLabels iv), none, internal⟩) (intervals 0 cf.limits) bs

section
variable (H : Name × ELabels → Nat)

/-- `to_metric_data` without labels, /repo/satella/instrumentation/metrics/metric_types/histogram.py:68-71; sum and count are never internal -/
def histLeaf (cf : HistConf) (internal : Bool) (k : Labels) (s : HistSt) : Coll ELabels Int :=
  Coll.addOne H (Coll.addOne H (Coll.ofList H (bucketEntries cf internal k s.buckets)) ⟨cf.name ++ ".sum".toList, s.sum, (k, []), none, false⟩)
    ⟨cf.name ++ ".count".toList, s.count, (k, []), none, false⟩

/-- the totals, /repo/satella/instrumentation/metrics/metric_types/histogram.py:61-64 -/
def histTotal (cf : HistConf) (s : HistSt) : Coll ELabels Int :=
  Coll.addOne H (Coll.addOne H ((Coll.ofList H (bucketEntries cf cf.internal [] s.buckets)).postfixWith "total".toList) ⟨cf.name ++ ".total.sum".toList, s.sum, ([], []), none, false⟩)
    ⟨cf.name ++ ".total.count".toList, s.count, ([], []), none, false⟩

/-- `to_metric_data`, /repo/satella/instrumentation/metrics/metric_types/histogram.py:57-71 -/
def histReport (cf : HistConf) (m : EM HistSt) : Coll ELabels Int :=
  if m.embedded then
    let k := childrenReport H (histLeaf H cf false) m.children
    if cf.aggregate then Coll.addColl H k (histTotal H cf m.own) else k
  else histLeaf H cf cf.internal [] m.own
end

/-! ## Specification -/

/-- limits that are positive and increase -/
def Limits (lower : Int) : List Int → Prop
  | [] => True
  | u :: us => lower < u ∧ Limits u us

/-- the buckets: from 0 to the first limit, from each limit to the next, from the last on -/
def IsBucket (limits : List Int) (iv : Int × Option Int) : Prop :=
  ∃ i : Nat, (0 :: limits)[i]? = some iv.1 ∧ limits[i]? = iv.2

/-- how many samples are at least the lower bound and below the upper -/
def inside (vs : List Int) (iv : Int × Option Int) : Nat := vs.countP (fun v => decide (iv.1 ≤ v ∧ ∀ u ∈ iv.2, v < u))

/-! ## Proofs -/

theorem inBucket_iff (v : Int) (iv : Int × Option Int) : inBucket v iv = true ↔ iv.1 ≤ v ∧ ∀ u ∈ iv.2, v < u := by
  unfold inBucket
  rcases iv with ⟨a, _ | u⟩ <;> simp

theorem inside_eq (vs : List Int) (iv : Int × Option Int) : inside vs iv = vs.countP (fun v => inBucket v iv) := by
  unfold inside
  refine List.countP_congr (fun v _ => ?_)
  rw [decide_eq_true_eq, inBucket_iff]

theorem intervals_iff (limits : List Int) : ∀ (lower : Int) (iv : Int × Option Int), iv ∈ intervals lower limits ↔ ∃ i : Nat, (lower :: limits)[i]? = some iv.1 ∧ limits[i]? = iv.2 := by
  induction limits with
  | nil =>
    intro lower iv
    simp only [intervals, List.mem_singleton]
    constructor
    · rintro rfl; exact ⟨0, rfl, rfl⟩
    · rintro ⟨i, h1, h2⟩
      cases i with
      | zero => obtain ⟨a, b⟩ := iv; simp at h1 h2; simp [h1, ← h2]
      | succ i => simp at h1
  | cons u us ih =>
    intro lower iv
    simp only [intervals, List.mem_cons, ih]
    constructor
    · rintro (rfl | ⟨i, h1, h2⟩)
      · exact ⟨0, rfl, rfl⟩
      · exact ⟨i + 1, by simpa using h1, by simpa using h2⟩
    · rintro ⟨i, h1, h2⟩
      cases i with
      | zero => obtain ⟨a, b⟩ := iv; simp at h1 h2; left; simp [h1, ← h2]
      | succ i => exact Or.inr ⟨i, by simpa using h1, by simpa using h2⟩

theorem intervals_length (limits : List Int) : ∀ lower, (intervals lower limits).length = limits.length + 1 := by
  induction limits with
  | nil => intro l; rfl
  | cons u us ih => intro l; simp [intervals, ih]

theorem zipWith_map_self {β γ δ : Type} (f : β → γ → δ) (g : β → γ) (l : List β) : List.zipWith f l (l.map g) = l.map (fun x => f x (g x)) := by
  induction l with
  | nil => rfl
  | cons a l ih => simp [ih]

theorem bump_count (cf : HistConf) (vs : List Int) (v : Int) :
    bump cf ((intervals 0 cf.limits).map (inside vs)) v = (intervals 0 cf.limits).map (inside (vs ++ [v])) := by
  unfold bump
  rw [zipWith_map_self]
  refine List.map_congr_left (fun iv _ => ?_)
  simp only [inside_eq, List.countP_append, List.countP_cons, List.countP_nil]
  split <;> simp

/-- the state that samples lead to -/
def histOf (cf : HistConf) (vs : List Int) : HistSt := ⟨(intervals 0 cf.limits).map (inside vs), vs.length, vs.sum⟩

theorem hist_init (cf : HistConf) : (histogram cf).init = histOf cf [] := by
  simp only [histogram, histOf, HistSt.mk.injEq, List.length_nil, List.sum_nil, and_true]
  rw [← intervals_length cf.limits 0]
  generalize intervals 0 cf.limits = l
  induction l with
  | nil => rfl
  | cons a l ih => simp [List.replicate_succ, ih, inside]

theorem hist_own_step (cf : HistConf) (vs : List Int) (v : Int) : (histogram cf).own (histOf cf vs) v = histOf cf (vs ++ [v]) := by
  simp only [histogram, histOf, bump_count]
  simp

theorem hist_own (cf : HistConf) (vs : List Int) : ∀ ws, vs.foldl (histogram cf).own (histOf cf ws) = histOf cf (ws ++ vs) := by
  induction vs with
  | nil => intro ws; simp
  | cons v vs ih => intro ws; rw [List.foldl_cons, hist_own_step, ih]; simp

theorem hist_ownFold (cf : HistConf) (xs : List (Int × Labels)) : ∀ (emb : Bool) (ws : List Int), (cf.aggregate = true ∨ (emb || labelled xs) = false) →
    ownFold (histogram cf) emb (histOf cf ws) xs = histOf cf (ws ++ xs.map (·.1)) := by
  induction xs with
  | nil => intro emb ws _; simp [ownFold]
  | cons x xs ih =>
    intro emb ws h
    rw [ownFold]
    split
    · rename_i hc
      have ha : cf.aggregate = true := by
        rcases h with h | h
        · exact h
        · simp only [labelled, List.any_cons, Bool.or_eq_false_iff] at h
          simp [h.1, h.2.1] at hc
      have : (histogram cf).par (histOf cf ws) x.1 = histOf cf (ws ++ [x.1]) := by
        rw [← hist_own_step]; simp [histogram, ha]
      rw [this, ih true _ (Or.inl ha)]
      simp
    · rename_i hc
      rw [hist_own_step, ih false]
      · simp
      · rcases h with h | h
        · exact Or.inl h
        · right
          simp only [labelled, List.any_cons, Bool.or_eq_false_iff] at h
          simp [labelled, h.2.2]

/-- each sample that is not negative is in exactly one bucket; a negative one in none -/
theorem C39_partition (limits : List Int) (h : Limits 0 limits) (v : Int) : (intervals 0 limits).countP (inBucket v) = if 0 ≤ v then 1 else 0 := by
  have : ∀ (limits : List Int) (lower : Int), Limits lower limits → (intervals lower limits).countP (inBucket v) = if lower ≤ v then 1 else 0 := by
    intro limits
    induction limits with
    | nil => intro lower _; simp [intervals, inBucket]
    | cons u us ih =>
      intro lower h
      rw [intervals, List.countP_cons, ih u h.2]
      simp only [inBucket]
      have := h.1
      by_cases h1 : u ≤ v
      · have h2 : lower ≤ v := by omega
        have h3 : ¬ v < u := by omega
        simp [h1, h2, h3]
      · have h3 : v < u := by omega
        simp [h1, h3]
  exact this limits 0 h

/-- **C39, the buckets are a partition.** A sample that is not negative belongs to one bucket and only one; a negative one belongs to none. -/
theorem C39_one_bucket (limits : List Int) (h : Limits 0 limits) (v : Int) :
    (0 ≤ v → ∃ iv, (IsBucket limits iv ∧ iv.1 ≤ v ∧ ∀ u ∈ iv.2, v < u) ∧ ∀ iv', IsBucket limits iv' ∧ iv'.1 ≤ v ∧ (∀ u ∈ iv'.2, v < u) → iv' = iv) ∧
    (v < 0 → ∀ iv, IsBucket limits iv → ¬ (iv.1 ≤ v ∧ ∀ u ∈ iv.2, v < u)) := by
  have hp := C39_partition limits h v
  have hm : ∀ iv, iv ∈ (intervals 0 limits).filter (inBucket v) ↔ IsBucket limits iv ∧ iv.1 ≤ v ∧ ∀ u ∈ iv.2, v < u := by
    intro iv
    rw [List.mem_filter, intervals_iff, inBucket_iff]
    rfl
  rw [List.countP_eq_length_filter] at hp
  constructor
  · intro h0
    rw [if_pos h0] at hp
    obtain ⟨iv, hiv⟩ := List.length_eq_one_iff.1 hp
    rw [hiv] at hm
    exact ⟨iv, (hm iv).1 (List.mem_singleton_self _), fun iv' h' => List.mem_singleton.1 ((hm iv').2 h')⟩
  · intro h0 iv hb hin
    rw [if_neg (by omega)] at hp
    have := (hm iv).2 ⟨hb, hin⟩
    rw [List.length_eq_zero_iff.1 hp] at this
    cases this

/-- **C39**: the counts in the buckets add up to the number of samples that are not negative. -/
theorem C39_buckets_sum (limits : List Int) (h : Limits 0 limits) (vs : List Int) :
    ((intervals 0 limits).map (inside vs)).sum = vs.countP (fun v => decide (0 ≤ v)) := by
  induction vs with
  | nil => 
    generalize intervals 0 limits = l
    induction l with
    | nil => rfl
    | cons a l ih => simpa [inside] using ih
  | cons v vs ih =>
    have hs : ∀ l : List (Int × Option Int), (l.map (inside (v :: vs))).sum = (l.map (inside vs)).sum + l.countP (inBucket v) := by
      intro l
      induction l with
      | nil => rfl
      | cons a l ih2 =>
        simp only [List.map_cons, List.sum_cons, ih2, List.countP_cons, inside_eq]
        omega
    rw [hs, ih, C39_partition limits h v, List.countP_cons]
    by_cases h0 : 0 ≤ v <;> simp [h0]

theorem ivs_pairwise (limits : List Int) : ∀ lower, Limits lower limits → (intervals lower limits).Pairwise (fun a b => a.1 < b.1) := by
  have hge : ∀ (limits : List Int) (lower : Int), Limits lower limits → ∀ iv ∈ intervals lower limits, lower ≤ iv.1 := by
    intro limits
    induction limits with
    | nil => intro lower _ iv hiv; simp [intervals] at hiv; rw [hiv]; exact Int.le_refl _
    | cons u us ih =>
      intro lower h iv hiv
      rcases List.mem_cons.1 hiv with rfl | hiv
      · exact Int.le_refl _
      · have := ih u h.2 iv hiv; have := h.1; omega
  induction limits with
  | nil => intro lower _; exact List.pairwise_singleton _ _
  | cons u us ih =>
    intro lower h
    refine List.pairwise_cons.2 ⟨fun iv hiv => ?_, ih u h.2⟩
    have := hge us u h.2 iv hiv
    have := h.1
    dsimp only
    omega

section
variable {H : Name × ELabels → Nat}

theorem has_ofList {l : List Entry} (h : l.Pairwise (fun a b => a.key ≠ b.key)) (x : Entry) : Has (Coll.ofList H l) x ↔ x ∈ l := by
  have : ∀ (l : List Entry) (v : Coll ELabels Int), l.Pairwise (fun a b => a.key ≠ b.key) → (∀ m ∈ l, ¬ HasKey v m.key) → (Has (l.foldl (Coll.add H) v) x ↔ Has v x ∨ x ∈ l) := by
    intro l
    induction l with
    | nil => intro v _ _; simp
    | cons m l ih =>
      intro v hp hd
      have hp' := List.pairwise_cons.1 hp
      have hn := hd m (List.mem_cons_self ..)
      rw [List.foldl_cons, ih _ hp'.2, has_add_new hn, List.mem_cons, or_assoc]
      rintro m' hm' ⟨m2, h2, hk⟩
      rcases (has_add_new hn m2).1 h2 with h2 | rfl
      · exact hd m' (List.mem_cons_of_mem _ hm') ⟨m2, h2, hk⟩
      · exact hp'.1 m' hm' hk
  rw [Coll.ofList, this l [] h (by rintro m _ ⟨m', ⟨e, he, _⟩, _⟩; cases he)]
  exact ⟨fun h => h.resolve_left (fun hm => by obtain ⟨e, he, _⟩ := hm; cases he), Or.inr⟩

theorem ivLabels_inj {a b : Int × Option Int} (h : ivLabels a = ivLabels b) : a = b := by
  obtain ⟨a1, a2⟩ := a
  obtain ⟨b1, b2⟩ := b
  simp only [ivLabels, List.cons.injEq] at h
  cases a2 <;> cases b2 <;> simp_all

theorem bucketEntries_eq (cf : HistConf) (internal : Bool) (k : Labels) (vs : List Int) :
    bucketEntries cf internal k ((intervals 0 cf.limits).map (inside vs)) = (intervals 0 cf.limits).map (fun iv => ⟨cf.name, (inside vs iv : Int), (k, ivLabels iv), none, internal⟩) := by
  unfold bucketEntries
  rw [zipWith_map_self]

theorem bucketEntries_pairwise (cf : HistConf) (hl : Limits 0 cf.limits) (internal : Bool) (k : Labels) (vs : List Int) :
    (bucketEntries cf internal k ((intervals 0 cf.limits).map (inside vs))).Pairwise (fun a b => a.key ≠ b.key) := by
  rw [bucketEntries_eq, List.pairwise_map]
  refine (ivs_pairwise _ 0 hl).imp (fun {a b} hab hk => ?_)
  have := ivLabels_inj (congrArg (fun q => q.2.2) hk)
  subst this
  omega

/-- the entries of a histogram that has got these samples -/
def HistEntries (cf : HistConf) (name : Name) (internal : Bool) (k : Labels) (vs : List Int) (x : Entry) : Prop :=
  (∃ iv, IsBucket cf.limits iv ∧ x = ⟨name, inside vs iv, (k, ivLabels iv), none, internal⟩) ∨
  x = ⟨name ++ ".sum".toList, vs.sum, (k, []), none, false⟩ ∨ x = ⟨name ++ ".count".toList, vs.length, (k, []), none, false⟩

theorem bucket_has (cf : HistConf) (hl : Limits 0 cf.limits) (internal : Bool) (k : Labels) (vs : List Int) (x : Entry) :
    Has (Coll.ofList H (bucketEntries cf internal k (histOf cf vs).buckets)) x ↔ ∃ iv, IsBucket cf.limits iv ∧ x = ⟨cf.name, inside vs iv, (k, ivLabels iv), none, internal⟩ := by
  show Has (Coll.ofList H (bucketEntries cf internal k ((intervals 0 cf.limits).map (inside vs)))) x ↔ _
  rw [has_ofList (bucketEntries_pairwise cf hl internal k vs), bucketEntries_eq, List.mem_map]
  constructor
  · rintro ⟨iv, h1, rfl⟩; exact ⟨iv, (intervals_iff _ _ _).1 h1, rfl⟩
  · rintro ⟨iv, h1, rfl⟩; exact ⟨iv, (intervals_iff _ _ _).2 h1, rfl⟩

theorem suffix_ne (n : Name) (a b : Name) (h : a ≠ b) : n ++ a ≠ n ++ b := fun e => h (List.append_cancel_left e)

theorem histLeaf_has (cf : HistConf) (hl : Limits 0 cf.limits) (internal : Bool) (k : Labels) (vs : List Int) (x : Entry) :
    Has (histLeaf H cf internal k (histOf cf vs)) x ↔ HistEntries cf cf.name internal k vs x := by
  unfold histLeaf
  have h1 : ∀ n : Name, ¬ HasKey (Coll.ofList H (bucketEntries cf internal k (histOf cf vs).buckets)) (n, (k, [])) := by
    rintro n ⟨m, hm, hk⟩
    obtain ⟨iv, _, rfl⟩ := (bucket_has cf hl internal k vs m).1 hm
    have : ivLabels iv = [] := congrArg (fun q => q.2.2) hk
    simp [ivLabels] at this
  rw [has_addOne_new, has_addOne_new (h1 _), bucket_has cf hl, HistEntries, or_assoc]
  · rfl
  · rintro ⟨m, hm, hk⟩
    rcases (has_addOne_new (h1 _) m).1 hm with h | rfl
    · exact h1 _ ⟨m, h, hk⟩
    · exact suffix_ne cf.name _ _ (by decide) (congrArg Prod.fst hk)

theorem histLeaf_tagged' (cf : HistConf) (internal : Bool) (k : Labels) (s : HistSt) :
    OnePerKey (histLeaf H cf internal k s) := (built_good (H := H) (.addOne _ (.addOne _ (.ofList _)))).2

theorem has_add_sub {s : Coll ELabels Int} {m x : Entry} (h : Has (Coll.add H s m) x) : Has s x ∨ x = m := by
  unfold Coll.add at h
  split at h
  · exact Or.inl h
  · obtain ⟨e, he, rfl⟩ := h
    rcases List.mem_append.1 he with he | he
    · exact Or.inl ⟨e, he, rfl⟩
    · simp only [List.mem_singleton] at he
      subst he
      exact Or.inr rfl

theorem has_addOne_sub {s : Coll ELabels Int} {m x : Entry} (h : Has (Coll.addOne H s m) x) : Has s x ∨ x = m := by
  unfold Coll.addOne at h
  rcases has_add_sub h with h | h
  · split at h
    · obtain ⟨e, he, rfl⟩ := h
      exact Or.inl ⟨e, List.mem_of_mem_eraseP he, rfl⟩
    · exact Or.inl h
  · exact Or.inr h

theorem has_ofList_sub {l : List Entry} {x : Entry} (h : Has (Coll.ofList H l) x) : x ∈ l := by
  have : ∀ (l : List Entry) (v : Coll ELabels Int), Has (l.foldl (Coll.add H) v) x → Has v x ∨ x ∈ l := by
    intro l
    induction l with
    | nil => exact fun v h => Or.inl h
    | cons m l ih =>
      intro v h
      rcases ih _ h with h | h
      · unfold Coll.add at h
        split at h
        · exact Or.inl h
        · obtain ⟨e, he, rfl⟩ := h
          rcases List.mem_append.1 he with he | he
          · exact Or.inl ⟨e, he, rfl⟩
          · simp only [List.mem_singleton] at he; subst he; exact Or.inr (List.mem_cons_self ..)
      · exact Or.inr (List.mem_cons_of_mem _ h)
  rcases this l [] h with ⟨e, he, _⟩ | h
  · cases he
  · exact h

theorem histLeaf_tagged (cf : HistConf) (internal : Bool) : Tagged (histLeaf H cf internal) := by
  intro k s
  refine ⟨histLeaf_tagged' cf internal k s, fun m hm => ?_⟩
  rcases has_addOne_sub hm with hm | rfl
  · rcases has_addOne_sub hm with hm | rfl
    · have := has_ofList_sub hm
      unfold bucketEntries at this
      rw [List.zipWith_eq_zipWith_take_min] at this
      obtain ⟨i, hi, rfl⟩ := List.getElem_of_mem this
      simp
    · rfl
  · rfl

/-- **C39, histogram without labels.** For each bucket, how many samples are in it; `.sum` and `.count` cover all samples. -/
theorem C39_histogram (cf : HistConf) (hl : Limits 0 cf.limits) (chain : List Nat) (hr : Rooted chain) (ops : List (MOp Int)) (xs : List (Int × Labels)) (hx : Counted chain ops xs)
    (hn : labelled xs = false) (x : Entry) :
    Has (histReport H cf (after (histogram cf) chain ops)) x ↔ HistEntries cf cf.name cf.internal [] (xs.map (·.1)) x := by
  obtain ⟨ys, h1, h2⟩ := counted_exists (histogram cf) ops chain hr (EM.new (histogram cf))
  have := counted_unique hx h1
  subst this
  obtain ⟨f1, f2⟩ := fold_own (histogram cf) xs (EM.new (histogram cf))
  rw [after, h2, histReport, f2, f1]
  simp only [EM.new, hn, Bool.or_self, Bool.false_eq_true, if_false]
  rw [hist_init, hist_ownFold cf xs false [] (Or.inr (by simpa using hn)), List.nil_append, histLeaf_has cf hl]

theorem total_name (cf : HistConf) (hne : cf.name ≠ []) : joinName cf.name "total".toList = cf.name ++ ".total".toList := by
  unfold joinName
  rw [if_neg hne]
  rfl

theorem histTotal_has (cf : HistConf) (hl : Limits 0 cf.limits) (hne : cf.name ≠ []) (vs : List Int) (x : Entry) :
    Has (histTotal H cf (histOf cf vs)) x ↔ HistEntries cf (cf.name ++ ".total".toList) cf.internal [] vs x := by
  unfold histTotal
  have hp : ∀ x, Has ((Coll.ofList H (bucketEntries cf cf.internal [] (histOf cf vs).buckets)).postfixWith "total".toList) x ↔
      ∃ iv, IsBucket cf.limits iv ∧ x = ⟨cf.name ++ ".total".toList, inside vs iv, ([], ivLabels iv), none, cf.internal⟩ := by
    intro x
    constructor
    · rintro ⟨e, he, rfl⟩
      obtain ⟨e', he', rfl⟩ := List.mem_map.1 he
      obtain ⟨iv, h1, h2⟩ := (bucket_has (H := H) cf hl cf.internal [] vs e'.md).1 ⟨e', he', rfl⟩
      refine ⟨iv, h1, ?_⟩
      simp only [h2, total_name cf hne]
    · rintro ⟨iv, h1, rfl⟩
      obtain ⟨e, he, h2⟩ := (bucket_has (H := H) cf hl cf.internal [] vs _).2 ⟨iv, h1, rfl⟩
      refine ⟨_, List.mem_map.2 ⟨e, he, rfl⟩, ?_⟩
      simp only [h2, total_name cf hne]
  have h1 : ∀ n : Name, ¬ HasKey ((Coll.ofList H (bucketEntries cf cf.internal [] (histOf cf vs).buckets)).postfixWith "total".toList) (n, ([], [])) := by
    rintro n ⟨m, hm, hk⟩
    obtain ⟨iv, _, rfl⟩ := (hp m).1 hm
    have : ivLabels iv = [] := congrArg (fun q => q.2.2) hk
    simp [ivLabels] at this
  rw [has_addOne_new, has_addOne_new (h1 _), hp, HistEntries, or_assoc]
  · have e1 : cf.name ++ ".total".toList ++ ".sum".toList = cf.name ++ ".total.sum".toList := by rw [List.append_assoc]; rfl
    have e2 : cf.name ++ ".total".toList ++ ".count".toList = cf.name ++ ".total.count".toList := by rw [List.append_assoc]; rfl
    rw [e1, e2]
    rfl
  · rintro ⟨m, hm, hk⟩
    rcases (has_addOne_new (h1 _) m).1 hm with h | rfl
    · exact h1 _ ⟨m, h, hk⟩
    · exact suffix_ne cf.name _ _ (by decide) (congrArg Prod.fst hk)

/-- **C39, histogram with labels.** Each set of labels has its own histogram; with aggregate_children the totals cover all samples, with labels or without. -/
theorem C39_histogram_labels (cf : HistConf) (hl : Limits 0 cf.limits) (hne : cf.name ≠ []) (chain : List Nat) (hr : Rooted chain) (ops : List (MOp Int)) (xs : List (Int × Labels))
    (hx : Counted chain ops xs) (hk : Kwargs xs) (hn : labelled xs = true) (x : Entry) :
    Has (histReport H cf (after (histogram cf) chain ops)) x ↔
      (∃ y ∈ xs, y.2 ≠ [] ∧ HistEntries cf cf.name false (labelKey y.2) (group xs y.2) x) ∨
      (cf.aggregate = true ∧ HistEntries cf (cf.name ++ ".total".toList) cf.internal [] (xs.map (·.1)) x) := by
  obtain ⟨ys, h1, h2⟩ := counted_exists (histogram cf) ops chain hr (EM.new (histogram cf))
  have := counted_unique hx h1
  subst this
  obtain ⟨f1, f2⟩ := fold_own (histogram cf) xs (EM.new (histogram cf))
  have hwf := fold_wf (histogram cf) xs (EM.new (histogram cf)) ⟨Dict.wf_nil, by simp [EM.new, Dict.keys]⟩
  have hch := children_iff (histogram cf) hk
  obtain ⟨hone, hrep⟩ := childrenReport_iff (H := H) (histLeaf_tagged cf false) hwf.1
  have hkids : ∀ x, Has (childrenReport H (histLeaf H cf false) (xs.foldl (fun m x => m.handle (histogram cf) x.1 x.2) (EM.new (histogram cf))).children) x ↔
      ∃ y ∈ xs, y.2 ≠ [] ∧ HistEntries cf cf.name false (labelKey y.2) (group xs y.2) x := by
    intro x
    rw [hrep]
    have hs : ∀ y : Int × Labels, List.foldl (histogram cf).own (histogram cf).init (group xs y.2) = histOf cf (group xs y.2) := by
      intro y; rw [hist_init, hist_own]; rfl
    constructor
    · rintro ⟨k, s, hks, hx⟩
      obtain ⟨y, hy, hne, rfl, rfl⟩ := (hch k s).1 hks
      rw [hs, histLeaf_has cf hl] at hx
      exact ⟨y, hy, hne, hx⟩
    · rintro ⟨y, hy, hne, hx⟩
      refine ⟨_, _, (hch _ _).2 ⟨y, hy, hne, rfl, rfl⟩, ?_⟩
      rw [hs, histLeaf_has cf hl]
      exact hx
  rw [after, h2, histReport, f2, f1]
  have he : (EM.new (histogram cf)).embedded = false := rfl
  have ho : (EM.new (histogram cf)).own = (histogram cf).init := rfl
  simp only [he, ho, hn, Bool.or_true, if_true]
  cases ha : cf.aggregate with
  | false => simp only [Bool.false_eq_true, if_false, false_and, or_false]; exact hkids x
  | true =>
    simp only [if_true, true_and]
    rw [hist_init, hist_ownFold cf xs false [] (Or.inl ha), List.nil_append, has_addColl_new hone, hkids, histTotal_has cf hl hne]
    rintro m hm ⟨m2, hm2, hkey⟩
    obtain ⟨y, _, hne', hm⟩ := (hkids m).1 hm
    have l1 : m.labels.1 = labelKey y.2 := by rcases hm with ⟨iv, _, rfl⟩ | rfl | rfl <;> rfl
    have l2 : m2.labels.1 = [] := by rcases (histTotal_has cf hl hne _ m2).1 hm2 with ⟨iv, _, rfl⟩ | rfl | rfl <;> rfl
    have : m2.labels.1 = m.labels.1 := congrArg (fun q => q.2.1) hkey
    exact hne' (labelKey_nil.1 (l1.symm.trans (this.symm.trans l2)))
end

/-- **C60, violated**: `.sum` and `.count` of an internal histogram are not internal. -/
theorem C60_histogram_violates (H : Name × ELabels → Nat) (cf : HistConf) (s : HistSt) : Has (histLeaf H cf cf.internal [] s) ⟨cf.name ++ ".count".toList, s.count, ([], []), none, false⟩ := by
  exact (C42_add_entry_partial (H := H) (.addOne _ (.ofList _)) _ _).2 (Or.inl rfl)

/-! Concrete cases. -/

/-- a histogram -/
def hc0 : HistConf := ⟨"t".toList, [10, 20], true, false⟩
example : Limits 0 hc0.limits := ⟨by decide, by decide, trivial⟩
example : (histReport (fun _ => 0) hc0 (after (histogram hc0) [2] [.handle 2 10 [], .handle 2 9 [(1, 1)], .handle 2 25 [(1, 1)], .handle 2 (-1) []])).map (fun e => (e.md.name, e.md.labels, e.md.value)) =
    [("t.total".toList, ([], [0, 10]), 1), ("t.total".toList, ([], [10, 20]), 1), ("t.total".toList, ([], [20]), 1), ("t.total.sum".toList, ([], []), 43), ("t.total.count".toList, ([], []), 4),
     ("t".toList, ([(1, 1)], [0, 10]), 1), ("t".toList, ([(1, 1)], [10, 20]), 0), ("t".toList, ([(1, 1)], [20]), 1), ("t.sum".toList, ([(1, 1)], []), 34), ("t.count".toList, ([(1, 1)], []), 2)] := by
  decide +kernel

end Verif.Metrics
