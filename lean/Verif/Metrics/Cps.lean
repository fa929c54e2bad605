import Verif.Metrics.Summary
/-!
# Model of ClicksPerTimeUnitMetric (satella/instrumentation/metrics/metric_types/cps.py), C40

Times and periods are integers.  No label is called `period`.
-/
namespace Verif.Metrics
open Verif

/-- A click: the two times read by `_handle`, /repo/satella/instrumentation/metrics/metric_types/cps.py:38-39; it is the second that is kept -/
structure Click where
  t1 : Int
  t2 : Int
  deriving DecidableEq, Repr

/-- arguments, /repo/satella/instrumentation/metrics/metric_types/cps.py:25-26 -/
structure CpsConf where
  name : Name
  vectors : List Int
  aggregate : Bool
  internal : Bool

/-- `time_unit_vectors or [1]`, /repo/satella/instrumentation/metrics/metric_types/cps.py:28 -/
def CpsConf.periods (cf : CpsConf) : List Int := if cf.vectors = [] then [1] else cf.vectors

/-- the longest period, /repo/satella/instrumentation/metrics/metric_types/cps.py:31 -/
def CpsConf.cutoff (cf : CpsConf) : Int := match cf.periods with | [] => 0 | p :: ps => ps.foldl max p

/-- `_handle`, /repo/satella/instrumentation/metrics/metric_types/cps.py:34-44 -/
def cps (cf : CpsConf) : Cls (List Int) Click where
  init := []
  own s c := (s ++ [c.t2]).dropWhile (fun v => decide (v ≤ c.t1 - cf.cutoff))
  par s _ := s

section
variable (H : Name × ELabels → Nat)

/-- `count_vectors` at a time, /repo/satella/instrumentation/metrics/metric_types/cps.py:63-78 -/
def countVectors (cf : CpsConf) (internal : Bool) (now : Int) (k : Labels) (clicks : List Int) : Coll ELabels Int :=
  Coll.ofList H (cf.periods.map (fun p => ⟨cf.name, clicks.countP (fun v => decide (v ≥ now - p)), (k, [p]), none, internal⟩))

/-- `to_metric_data`, /repo/satella/instrumentation/metrics/metric_types/cps.py:46-61.  `now k` is the time read for labels `k`, `now []` that read for the total or when there are no labels. -/
def cpsReport (cf : CpsConf) (now : Labels → Int) (m : EM (List Int)) : Coll ELabels Int :=
  if m.embedded then
    let k := childrenReport H (fun k s => countVectors H cf false (now k) k s) m.children
    if cf.aggregate then Coll.addColl H k ((countVectors H cf cf.internal (now []) [] (m.children.flatMap (·.2))).postfixWith "total".toList) else k
  else countVectors H cf cf.internal (now []) [] m.own
end

/-! ## Specification -/

/-- `n` is the number of clicks in the period `p` before `now`.  A click at the very start of the period may be counted or not. -/
def InPeriod (clicks : List Click) (now p : Int) (n : Nat) : Prop :=
  clicks.countP (fun c => decide (now - p < c.t2)) ≤ n ∧ n ≤ clicks.countP (fun c => decide (now - p ≤ c.t2))

/-- the clock does not go back -/
def Clock (clicks : List Click) (now : Int) : Prop := clicks.Pairwise (fun a b => a.t2 ≤ b.t1) ∧ ∀ c ∈ clicks, c.t1 ≤ c.t2 ∧ c.t2 ≤ now

/-! ## Proofs -/

theorem le_foldl_max (l : List Int) : ∀ (a : Int), a ≤ l.foldl max a ∧ ∀ p ∈ l, p ≤ l.foldl max a := by
  induction l with
  | nil => intro a; simp
  | cons b l ih =>
    intro a
    have := ih (max a b)
    refine ⟨by have := this.1; simp only [List.foldl_cons]; omega, fun p hp => ?_⟩
    rcases List.mem_cons.1 hp with rfl | hp
    · have := this.1; simp only [List.foldl_cons]; omega
    · exact this.2 p hp

theorem le_cutoff (cf : CpsConf) {p : Int} (hp : p ∈ cf.periods) : p ≤ cf.cutoff := by
  unfold CpsConf.cutoff
  cases h : cf.periods with
  | nil => rw [h] at hp; cases hp
  | cons q ps =>
    rw [h] at hp
    have := le_foldl_max ps q
    rcases List.mem_cons.1 hp with rfl | hp
    · exact this.1
    · exact this.2 p hp

/-- what is kept and what was dropped -/
theorem cps_own (cf : CpsConf) (now : Int) (cs : List Click) (hc : ∀ c ∈ cs, c.t1 ≤ now) : ∀ (s d : List Int), (∀ v ∈ d, v ≤ now - cf.cutoff) →
    ∃ d', (∀ v ∈ d', v ≤ now - cf.cutoff) ∧ d' ++ cs.foldl (cps cf).own s = d ++ s ++ cs.map (·.t2) := by
  induction cs with
  | nil => intro s d hd; exact ⟨d, hd, by simp⟩
  | cons c cs ih =>
    intro s d hd
    have h1 := hc c (List.mem_cons_self ..)
    obtain ⟨d', h2, h3⟩ := ih (fun c hm => hc c (List.mem_cons_of_mem _ hm)) ((cps cf).own s c) (d ++ (s ++ [c.t2]).takeWhile (fun v => decide (v ≤ c.t1 - cf.cutoff))) (by
      intro v hv
      rcases List.mem_append.1 hv with hv | hv
      · exact hd v hv
      · have := List.all_takeWhile (p := fun v => decide (v ≤ c.t1 - cf.cutoff)) (l := s ++ [c.t2])
        have := List.all_eq_true.1 this v hv
        simp only [decide_eq_true_eq] at this
        omega)
    refine ⟨d', h2, ?_⟩
    rw [List.foldl_cons, h3]
    have : d ++ List.takeWhile (fun v => decide (v ≤ c.t1 - cf.cutoff)) (s ++ [c.t2]) ++ (cps cf).own s c = d ++ (s ++ [c.t2]) := by
      rw [List.append_assoc]
      congr 1
      exact List.takeWhile_append_dropWhile
    rw [this]
    simp

theorem cps_period (cf : CpsConf) (now : Int) (cs : List Click) (hc : ∀ c ∈ cs, c.t1 ≤ now) {p : Int} (hp : p ∈ cf.periods) :
    InPeriod cs now p ((cs.foldl (cps cf).own (cps cf).init).countP (fun v => decide (v ≥ now - p))) := by
  obtain ⟨d, h1, h2⟩ := cps_own cf now cs hc [] [] (by simp)
  have hcut := le_cutoff cf hp
  simp only [List.nil_append] at h2
  have e1 : ∀ q : Int → Bool, cs.countP (fun c => q c.t2) = d.countP q + (cs.foldl (cps cf).own []).countP q := by
    intro q
    rw [← List.countP_append, h2, List.countP_map]
    rfl
  constructor
  · rw [e1 (fun v => decide (now - p < v))]
    have : d.countP (fun v => decide (now - p < v)) = 0 := by
      rw [List.countP_eq_zero]
      intro v hv
      have := h1 v hv
      simp only [decide_eq_true_eq]
      omega
    rw [this, Nat.zero_add]
    refine List.countP_mono_left (fun v _ h => ?_)
    simp only [decide_eq_true_eq] at h ⊢
    omega
  · rw [e1 (fun v => decide (now - p ≤ v))]
    exact Nat.le_add_left _ _

section
variable {H : Name × ELabels → Nat}

theorem has_ofList_map {β : Type} (f : β → Entry) (hf : ∀ a b, (f a).key = (f b).key → f a = f b) (l : List β) (x : Entry) : Has (Coll.ofList H (l.map f)) x ↔ ∃ q ∈ l, x = f q := by
  have : ∀ (l : List β) (v : Coll ELabels Int) (done : List β), Fresh H v → (∀ x, Has v x ↔ ∃ q ∈ done, x = f q) →
      ∀ x, Has ((l.map f).foldl (Coll.add H) v) x ↔ ∃ q ∈ done ++ l, x = f q := by
    intro l
    induction l with
    | nil => intro v done _ hv; simpa using hv
    | cons q l ih =>
      intro v done hb hv
      rw [List.map_cons, List.foldl_cons]
      have := ih (Coll.add H v (f q)) (done ++ [q]) (fresh_add hb _) (by
        intro x
        rw [has_add hb, hv]
        constructor
        · rintro (⟨q', hq', rfl⟩ | ⟨rfl, _⟩)
          · exact ⟨q', by simp [hq'], rfl⟩
          · exact ⟨q, by simp, rfl⟩
        · rintro ⟨q', hq', rfl⟩
          rcases List.mem_append.1 hq' with hq' | hq'
          · exact Or.inl ⟨q', hq', rfl⟩
          · simp only [List.mem_singleton] at hq'
            subst hq'
            by_cases hk : HasKey v (f q').key
            · obtain ⟨m, hm, hk⟩ := hk
              obtain ⟨q2, hq2, rfl⟩ := (hv m).1 hm
              exact Or.inl ⟨q2, hq2, (hf _ _ hk).symm⟩
            · exact Or.inr ⟨rfl, hk⟩)
      simpa using this
  have h := this l [] [] (fun e he => by cases he) (by intro x; simp [Has]) x
  simpa [Coll.ofList] using h

theorem countVectors_has (cf : CpsConf) (internal : Bool) (now : Int) (k : Labels) (clicks : List Int) (x : Entry) :
    Has (countVectors H cf internal now k clicks) x ↔ ∃ p ∈ cf.periods, x = ⟨cf.name, clicks.countP (fun v => decide (v ≥ now - p)), (k, [p]), none, internal⟩ := by
  unfold countVectors
  refine has_ofList_map _ ?_ _ _
  intro a b h
  have : [a] = [b] := congrArg (fun q => q.2.2) h
  cases this
  rfl

theorem cps_tagged (cf : CpsConf) (now : Labels → Int) : Tagged (fun k s => countVectors H cf false (now k) k s) := by
  intro k s
  refine ⟨(built_good (H := H) (.ofList _)).2, fun m hm => ?_⟩
  obtain ⟨p, _, rfl⟩ := (countVectors_has _ _ _ _ _ _).1 hm
  rfl

theorem cps_ownFold (cf : CpsConf) (xs : List (Click × Labels)) (h : labelled xs = false) : ∀ s, ownFold (cps cf) false s xs = (xs.map (·.1)).foldl (cps cf).own s := by
  induction xs with
  | nil => intro s; rfl
  | cons x xs ih =>
    intro s
    simp only [labelled, List.any_cons, Bool.or_eq_false_iff] at h
    rw [ownFold, if_neg (by simp [h.1]), ih h.2]
    rfl

/-- **C40, the periods**: those given, or, if none are, one second. -/
theorem C40_periods (cf : CpsConf) (p : Int) : p ∈ cf.periods ↔ (p ∈ cf.vectors ∨ (cf.vectors = [] ∧ p = 1)) := by
  unfold CpsConf.periods
  split
  · rename_i h; simp [h]
  · rename_i h; simp [h]

/-- **C40, without labels** (partial: a click at the very start of a period may be counted or not, see below). For each period there is one entry, with the number of clicks in that period before the
report; there are no others. -/
theorem C40_cps_partial (cf : CpsConf) (now : Labels → Int) (chain : List Nat) (hr : Rooted chain) (ops : List (MOp Click)) (xs : List (Click × Labels)) (hx : Counted chain ops xs)
    (hl : labelled xs = false) (hc : Clock (xs.map (·.1)) (now [])) :
    ∃ val : Int → Nat, (∀ p ∈ cf.periods, InPeriod (xs.map (·.1)) (now []) p (val p)) ∧
      ∀ x, Has (cpsReport H cf now (after (cps cf) chain ops)) x ↔ ∃ p ∈ cf.periods, x = ⟨cf.name, val p, ([], [p]), none, cf.internal⟩ := by
  obtain ⟨h1, h2⟩ := after_embedded (cps cf) hr hx
  refine ⟨fun p => ((xs.map (·.1)).foldl (cps cf).own (cps cf).init).countP (fun v => decide (v ≥ now [] - p)), fun p hp => ?_, fun x => ?_⟩
  · exact cps_period cf _ _ (fun c hm => Int.le_trans (hc.2 c hm).1 (hc.2 c hm).2) hp
  · unfold cpsReport
    rw [h2, h1, hl]
    simp only [Bool.false_eq_true, if_false]
    rw [countVectors_has, cps_ownFold cf xs hl]

/-- all clicks that came with labels -/
def labelledClicks (xs : List (Click × Labels)) : List Click := (xs.filter (fun y => !y.2.isEmpty)).map (·.1)

theorem countP_groups (xs : List (Click × Labels)) (ks : List Labels) (hks : ks.Nodup) (hs : ∀ y ∈ xs, y.2 ≠ [] → labelKey y.2 ∈ ks) (hks' : ∀ k ∈ ks, ∃ y ∈ xs, y.2 ≠ [] ∧ k = labelKey y.2)
    (hk : Kwargs xs) (q : Click → Bool) : (ks.map (fun k => (group xs k).countP q)).sum = (labelledClicks xs).countP q := by
  have hgk : ∀ k ∈ ks, group xs k = (xs.filter (fun y => decide (labelKey y.2 = k))).map (·.1) := by
    intro k hm
    obtain ⟨y, _, _, rfl⟩ := hks' k hm
    have h := withKey_group hk y.2
    have e : group xs (labelKey y.2) = group xs y.2 := by
      unfold group
      congr 1
      refine List.filter_congr (fun z _ => ?_)
      rw [Bool.eq_iff_iff, List.isPerm_iff, List.isPerm_iff]
      exact ⟨fun h => h.trans (labelKey_perm _), fun h => h.trans (labelKey_perm _).symm⟩
    rw [e, ← h]
    rfl
  rw [show ks.map (fun k => (group xs k).countP q) = ks.map (fun k => ((xs.filter (fun y => decide (labelKey y.2 = k))).map (·.1)).countP q) from
    List.map_congr_left (fun k hm => by rw [hgk k hm])]
  have hne : ∀ k ∈ ks, k ≠ [] := by
    intro k hm e
    obtain ⟨y, _, h1, h2⟩ := hks' k hm
    exact h1 (labelKey_nil.1 (h2.symm.trans e))
  clear hgk hks' hk
  induction xs with
  | nil =>
    have : ∀ l : List Labels, (l.map (fun _ => 0)).sum = 0 := by
      intro l
      induction l with
      | nil => rfl
      | cons a l ih => simpa using ih
    simpa [labelledClicks] using this ks
  | cons y xs ih =>
    have ih' := ih (fun y hy => hs y (List.mem_cons_of_mem _ hy))
    have e1 : ∀ k, ((((y :: xs).filter (fun y => decide (labelKey y.2 = k))).map (·.1)).countP q) =
        (if labelKey y.2 = k ∧ q y.1 = true then 1 else 0) + ((xs.filter (fun y => decide (labelKey y.2 = k))).map (·.1)).countP q := by
      intro k
      rw [List.filter_cons]
      by_cases h : labelKey y.2 = k
      · simp only [h, decide_true, if_true, List.map_cons, List.countP_cons, true_and]
        omega
      · simp [h]
    have e2 : ∀ ks : List Labels, (ks.map (fun k => (if labelKey y.2 = k ∧ q y.1 = true then 1 else 0) + ((xs.filter (fun y => decide (labelKey y.2 = k))).map (·.1)).countP q)).sum =
        ks.countP (fun k => decide (labelKey y.2 = k ∧ q y.1 = true)) + (ks.map (fun k => ((xs.filter (fun y => decide (labelKey y.2 = k))).map (·.1)).countP q)).sum := by
      intro ks
      induction ks with
      | nil => rfl
      | cons k ks ih2 =>
        simp only [List.map_cons, List.sum_cons, ih2, List.countP_cons, decide_eq_true_eq]
        omega
    simp only [e1]
    rw [e2, ih']
    have e3 : (labelledClicks (y :: xs)).countP q = (if y.2 ≠ [] ∧ q y.1 = true then 1 else 0) + (labelledClicks xs).countP q := by
      unfold labelledClicks
      rw [List.filter_cons]
      by_cases h : y.2 = []
      · simp [h]
      · simp only [h, ne_eq, not_false_eq_true, true_and, Bool.not_eq_true', List.isEmpty_eq_false_iff, if_true, List.map_cons, List.countP_cons]
        omega
    rw [e3]
    congr 1
    by_cases hq : q y.1 = true
    · simp only [hq, and_true]
      by_cases h : y.2 = []
      · have : ks.countP (fun k => decide (labelKey y.2 = k)) = 0 := by
          rw [List.countP_eq_zero]
          intro k hm
          simp only [decide_eq_true_eq]
          rintro rfl
          exact hne _ hm (labelKey_nil.2 h)
        rw [this, if_neg (by simp [h])]
      · have hm := hs y (List.mem_cons_self ..) h
        rw [if_pos h]
        have : ks.count (labelKey y.2) = 1 := by
          rw [hks.count, if_pos hm]
        rw [← this, List.count]
        refine List.countP_congr (fun k _ => ?_)
        rw [decide_eq_true_eq, beq_iff_eq]
        exact eq_comm
    · simp [hq]

/-- **C40, with labels** (partial likewise): for each set of labels and each period, the number of clicks with these labels; in total, the number of all clicks with labels. -/
theorem C40_cps_labels_partial (cf : CpsConf) (now : Labels → Int) (hne : cf.name ≠ []) (chain : List Nat) (hr : Rooted chain) (ops : List (MOp Click)) (xs : List (Click × Labels)) (hx : Counted chain ops xs)
    (hk : Kwargs xs) (hl : labelled xs = true) (hc : ∀ k, Clock (xs.map (·.1)) (now k)) :
    ∃ val : Labels → Int → Nat, (∀ y ∈ xs, y.2 ≠ [] → ∀ p ∈ cf.periods, InPeriod (group xs y.2) (now (labelKey y.2)) p (val (labelKey y.2) p)) ∧
      (∀ p ∈ cf.periods, InPeriod (labelledClicks xs) (now []) p (val [] p)) ∧
      ∀ x, Has (cpsReport H cf now (after (cps cf) chain ops)) x ↔
        (∃ y ∈ xs, y.2 ≠ [] ∧ ∃ p ∈ cf.periods, x = ⟨cf.name, val (labelKey y.2) p, (labelKey y.2, [p]), none, false⟩) ∨
        (cf.aggregate = true ∧ ∃ p ∈ cf.periods, x = ⟨cf.name ++ ".total".toList, val [] p, ([], [p]), none, cf.internal⟩) := by
  obtain ⟨h1, h2⟩ := after_embedded (cps cf) hr hx
  obtain ⟨h3, h4⟩ := after_report (H := H) (cps cf) (cps_tagged (H := H) cf now) hr hx hk
  obtain ⟨h5, h6⟩ := after_children (cps cf) hr hx hk
  have hgk : ∀ y ∈ xs, group xs (labelKey y.2) = group xs y.2 := by
    intro y hy
    unfold group
    congr 1
    refine List.filter_congr (fun z _ => ?_)
    rw [Bool.eq_iff_iff, List.isPerm_iff, List.isPerm_iff]
    exact ⟨fun h => h.trans (labelKey_perm _), fun h => h.trans (labelKey_perm _).symm⟩
  have hgm : ∀ l k, ∀ c ∈ group xs l, c.t1 ≤ now k := by
    intro l k c hm
    obtain ⟨y, hy, rfl⟩ := List.mem_map.1 hm
    have := (hc k).2 y.1 (List.mem_map.2 ⟨y, (List.mem_filter.1 hy).1, rfl⟩)
    omega
  let val : Labels → Int → Nat := fun k p => if k = [] then ((after (cps cf) chain ops).children.flatMap (·.2)).countP (fun v => decide (v ≥ now [] - p))
    else ((group xs k).foldl (cps cf).own (cps cf).init).countP (fun v => decide (v ≥ now k - p))
  refine ⟨val, ?_, ?_, ?_⟩
  · intro y hy hne' p hp
    have : val (labelKey y.2) p = ((group xs y.2).foldl (cps cf).own (cps cf).init).countP (fun v => decide (v ≥ now (labelKey y.2) - p)) := by
      simp only [val]
      rw [if_neg (fun e => hne' (labelKey_nil.1 e)), hgk y hy]
    rw [this]
    exact cps_period cf _ _ (hgm _ _) hp
  · intro p hp
    have hv : val [] p = (((after (cps cf) chain ops).children.map (·.1)).map (fun k => ((group xs k).foldl (cps cf).own (cps cf).init).countP (fun v => decide (v ≥ now [] - p)))).sum := by
      simp only [val, if_true]
      rw [List.countP_flatMap, List.map_map]
      congr 1
      refine List.map_congr_left (fun c hm => ?_)
      obtain ⟨k, s⟩ := c
      obtain ⟨y, hy, hne', rfl, rfl⟩ := (h6 k s).1 hm
      simp only [Function.comp_apply, hgk y hy]
    have hkeys : ∀ y ∈ xs, y.2 ≠ [] → labelKey y.2 ∈ (after (cps cf) chain ops).children.map (·.1) := fun y hy hne' => List.mem_map.2 ⟨_, (h6 _ _).2 ⟨y, hy, hne', rfl, rfl⟩, rfl⟩
    have hkeys' : ∀ k ∈ (after (cps cf) chain ops).children.map (·.1), ∃ y ∈ xs, y.2 ≠ [] ∧ k = labelKey y.2 := by
      intro k hm
      obtain ⟨⟨k, s⟩, hm', rfl⟩ := List.mem_map.1 hm
      obtain ⟨y, hy, hne', e, _⟩ := (h6 k s).1 hm'
      exact ⟨y, hy, hne', e⟩
    have hcg := countP_groups xs _ h5 hkeys hkeys' hk
    have mono : ∀ (l : List Labels) (f g : Labels → Nat), (∀ k ∈ l, f k ≤ g k) → (l.map f).sum ≤ (l.map g).sum := by
      intro l f g h
      induction l with
      | nil => exact Nat.le_refl _
      | cons a l ih =>
        have := h a (List.mem_cons_self ..)
        have := ih (fun k hk => h k (List.mem_cons_of_mem _ hk))
        simp only [List.map_cons, List.sum_cons]
        omega
    constructor
    · rw [hv, ← hcg]
      exact mono _ _ _ (fun k hm => (cps_period cf (now []) (group xs k) (hgm _ _) hp).1)
    · rw [hv, ← hcg]
      exact mono _ _ _ (fun k hm => (cps_period cf (now []) (group xs k) (hgm _ _) hp).2)
  · intro x
    have hkids : ∀ x, Has (childrenReport H (fun k s => countVectors H cf false (now k) k s) (after (cps cf) chain ops).children) x ↔
        ∃ y ∈ xs, y.2 ≠ [] ∧ ∃ p ∈ cf.periods, x = ⟨cf.name, val (labelKey y.2) p, (labelKey y.2, [p]), none, false⟩ := by
      intro x
      rw [h4]
      constructor
      · rintro ⟨y, hy, hne', h⟩
        obtain ⟨p, hp, rfl⟩ := (countVectors_has _ _ _ _ _ _).1 h
        refine ⟨y, hy, hne', p, hp, ?_⟩
        simp only [val]
        rw [if_neg (fun e => hne' (labelKey_nil.1 e)), hgk y hy]
      · rintro ⟨y, hy, hne', p, hp, rfl⟩
        refine ⟨y, hy, hne', (countVectors_has _ _ _ _ _ _).2 ⟨p, hp, ?_⟩⟩
        simp only [val]
        rw [if_neg (fun e => hne' (labelKey_nil.1 e)), hgk y hy]
    have tn : joinName cf.name "total".toList = cf.name ++ ".total".toList := by
      unfold joinName
      rw [if_neg hne]
      rfl
    have htot : ∀ x, Has ((countVectors H cf cf.internal (now []) [] ((after (cps cf) chain ops).children.flatMap (·.2))).postfixWith "total".toList) x ↔
        ∃ p ∈ cf.periods, x = ⟨cf.name ++ ".total".toList, val [] p, ([], [p]), none, cf.internal⟩ := by
      intro x
      constructor
      · rintro ⟨e, he, rfl⟩
        obtain ⟨e', he', rfl⟩ := List.mem_map.1 he
        obtain ⟨p, hp, e⟩ := (countVectors_has (H := H) cf cf.internal (now []) [] _ e'.md).1 ⟨e', he', rfl⟩
        exact ⟨p, hp, by simp only [e, tn, val, if_true]⟩
      · rintro ⟨p, hp, rfl⟩
        obtain ⟨e, he, h⟩ := (countVectors_has (H := H) cf cf.internal (now []) [] ((after (cps cf) chain ops).children.flatMap (·.2)) _).2 ⟨p, hp, rfl⟩
        exact ⟨_, List.mem_map.2 ⟨e, he, rfl⟩, by simp only [h, tn, val, if_true]⟩
    unfold cpsReport
    rw [h2, hl]
    simp only [if_true]
    split
    · rename_i ha
      rw [has_addColl_new h3, hkids, htot]
      · simp [ha]
      · rintro m hm ⟨m2, hm2, hkey⟩
        obtain ⟨y, _, hne', p, _, rfl⟩ := (hkids m).1 hm
        obtain ⟨p', _, rfl⟩ := (htot m2).1 hm2
        have : ([] : Labels) = labelKey y.2 := congrArg (fun q => q.2.1) hkey
        exact hne' (labelKey_nil.1 this.symm)
    · rename_i ha
      rw [hkids]
      simp [ha]
end

/-- the number is exact when there is no click at the very start of the period -/
theorem C40_exact {clicks : List Click} {now p : Int} {n : Nat} (h : InPeriod clicks now p n) (hno : ∀ c ∈ clicks, c.t2 ≠ now - p) : n = clicks.countP (fun c => decide (now - p ≤ c.t2)) := by
  have : clicks.countP (fun c => decide (now - p < c.t2)) = clicks.countP (fun c => decide (now - p ≤ c.t2)) := by
    refine List.countP_congr (fun c hc => ?_)
    have := hno c hc
    simp only [decide_eq_true_eq]
    omega
  have h1 := h.1
  have h2 := h.2
  omega

/-- **C40, violated at the start of the period**: a click just one period ago is counted, unless there was another click at the time of the report. -/
theorem C40_boundary_violates :
    ((cpsReport (fun _ => 0) ⟨"c".toList, [10], true, false⟩ (fun _ => 10) (after (cps ⟨"c".toList, [10], true, false⟩) [2] [.handle 2 ⟨0, 0⟩ []])).map (·.md.value) = [1]) ∧
    ((cpsReport (fun _ => 0) ⟨"c".toList, [10], true, false⟩ (fun _ => 10) (after (cps ⟨"c".toList, [10], true, false⟩) [2] [.handle 2 ⟨0, 0⟩ [], .handle 2 ⟨10, 10⟩ []])).map (·.md.value) = [1]) := by
  decide +kernel

/-- **C40, violated**: once there have been labels, a click without labels is lost. -/
theorem C40_unlabelled_violates : (cpsReport (fun _ => 0) ⟨"c".toList, [10], true, false⟩ (fun _ => 5)
    (after (cps ⟨"c".toList, [10], true, false⟩) [2] [.handle 2 ⟨1, 1⟩ [(1, 1)], .handle 2 ⟨2, 2⟩ [], .handle 2 ⟨3, 3⟩ []])).map (fun e => (e.md.name, e.md.labels, e.md.value)) =
    [("c.total".toList, ([], [10]), 1), ("c".toList, ([(1, 1)], [10]), 1)] := by
  decide +kernel

/-! Concrete cases. -/

/-- two periods -/
def cc0 : CpsConf := ⟨"c".toList, [2, 5], true, false⟩
example : Clock [⟨1, 1⟩, ⟨4, 4⟩, ⟨8, 9⟩] 10 := by
  constructor
  · simp
  · intro c hc
    simp at hc
    rcases hc with rfl | rfl | rfl <;> decide
example : (cpsReport (fun _ => 0) cc0 (fun _ => 10) (after (cps cc0) [2] [.handle 2 ⟨1, 1⟩ [], .handle 2 ⟨6, 6⟩ [], .handle 2 ⟨8, 9⟩ []])).map (fun e => (e.md.labels.2, e.md.value)) = [([2], 1), ([5], 2)] := by decide +kernel

end Verif.Metrics
