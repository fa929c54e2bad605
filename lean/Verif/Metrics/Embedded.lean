import Verif.Py.Basic
import Verif.Py.Run
import Verif.Metrics.Data
/-!
# Model of metric levels and of metrics with labelled submetrics (satella/instrumentation/metrics/metric_types/base.py)

A metric is handed samples, each at a level and with labels.  What the kinds of metrics do with a sample is a parameter here.
Label names are numbers (any totally ordered type would do).
-/
namespace Verif.Metrics
open Verif

/-! ## Levels -/

/-- MetricLevel, /repo/satella/instrumentation/metrics/metric_types/base.py:9-13: DISABLED 1, RUNTIME 2, DEBUG 3, INHERIT 4 -/
def inherit : Nat := 4

/-- `level`, /repo/satella/instrumentation/metrics/metric_types/base.py:96-101: the chain are the levels of a metric, of its parent, and so on up to the root; `none` when all inherit (the code would fail on the parent of the root) -/
def level : List Nat → Option Nat
  | [] => none
  | l :: up => if l = inherit then level up else some l

/-- `can_process_this_level`, /repo/satella/instrumentation/metrics/metric_types/base.py:114-115 -/
def canProcess (chain : List Nat) (target : Nat) : Bool :=
  match level chain with
  | none => false
  | some l => decide (l ≥ target)

/-! ## Labels -/

/-- keyword arguments; names are distinct.  (Part of the model of `EmbeddedSubmetrics`, /repo/satella/instrumentation/metrics/metric_types/base.py:173-243.) -/
abbrev Labels := List (Nat × Int)

/-- order of items; names being distinct, values are never compared.  (Part of the model of `EmbeddedSubmetrics`, /repo/satella/instrumentation/metrics/metric_types/base.py:173-243.) -/
def itemLe (a b : Nat × Int) : Bool := decide (a.1 ≤ b.1)

/-- puts an item where it belongs.  (Part of the model of `EmbeddedSubmetrics`, /repo/satella/instrumentation/metrics/metric_types/base.py:173-243.) -/
def insertItem (a : Nat × Int) : Labels → Labels
  | [] => [a]
  | b :: l => if itemLe a b then a :: b :: l else b :: insertItem a l

/-- `tuple(sorted(labels.items()))`, /repo/satella/instrumentation/metrics/metric_types/base.py:203 -/
def labelKey (l : Labels) : Labels := l.foldr insertItem []

/-! ## Submetrics -/

/-- What a kind of metric does: its state when new; what it does with a sample that has no labels, when no sample had; what it does for itself with others.  (Part of the model of `LeafMetric`, /repo/satella/instrumentation/metrics/metric_types/base.py:151-170.) -/
structure Cls (σ α : Type) where
  init : σ
  own : σ → α → σ
  par : σ → α → σ

/-- `EmbeddedSubmetrics`, /repo/satella/instrumentation/metrics/metric_types/base.py:166-197: own state, embedded_submetrics_enabled, children_mapping (and children, in the same order).  Children are given no labels, so they have no children. -/
structure EM (σ : Type) where
  own : σ
  embedded : Bool
  children : Dict Labels σ

variable {σ α : Type}

/-- a new metric.  (Part of the model of `EmbeddedSubmetrics`, /repo/satella/instrumentation/metrics/metric_types/base.py:173-243.) -/
def EM.new (c : Cls σ α) : EM σ := { own := c.init, embedded := false, children := [] }

/-- `EmbeddedSubmetrics._handle`, /repo/satella/instrumentation/metrics/metric_types/base.py:199-217; `clone`, :236-243, makes a new metric of the same kind with the same arguments -/
def EM.embed (c : Cls σ α) (m : EM σ) (x : α) (labels : Labels) : EM σ :=
  let key := labelKey labels
  if key = [] then m
  else
    match Dict.get? m.children key with
    | some ch => { m with embedded := true, children := Dict.set m.children key (c.own ch x) }
    | none => { m with embedded := true, children := Dict.set m.children key (c.own c.init x) }

/-- `_handle` of the kinds of metrics, which begin with `if self.embedded_submetrics_enabled or labels`, as /repo/satella/instrumentation/metrics/metric_types/counter.py:52-60 -/
def EM.handle (c : Cls σ α) (m : EM σ) (x : α) (labels : Labels) : EM σ :=
  if m.embedded || !labels.isEmpty then EM.embed c { m with own := c.par m.own x } x labels
  else { m with own := c.own m.own x }

/-- operations: a sample, at a level, with labels; setting the level of the metric (0) or of one above.  (Part of the model of `Metric`, /repo/satella/instrumentation/metrics/metric_types/base.py:26-148.) -/
inductive MOp (α : Type) where
  | handle (lvl : Nat) (x : α) (labels : Labels)
  | setLevel (i : Nat) (lvl : Nat)

/-- a metric and the levels above.  (Part of the model of `Metric`, /repo/satella/instrumentation/metrics/metric_types/base.py:26-148.) -/
structure Node (σ : Type) where
  chain : List Nat
  em : EM σ

/-- `handle`, /repo/satella/instrumentation/metrics/metric_types/base.py:137-142, and the setter of `level`, :103-109: the root cannot inherit -/
def Node.step (c : Cls σ α) (n : Node σ) : MOp α → Node σ
  | .handle lvl x labels => if canProcess n.chain lvl then { n with em := n.em.handle c x labels } else n
  | .setLevel i lvl => if lvl = inherit ∧ i + 1 = n.chain.length then n else { n with chain := n.chain.set i lvl }

/-- all operations.  (Part of the model of `Metric`, /repo/satella/instrumentation/metrics/metric_types/base.py:26-148.) -/
def Node.run (c : Cls σ α) (n : Node σ) (ops : List (MOp α)) : Node σ := ops.foldl (Node.step c) n

/-! ## Specification -/

/-- the level in force: of the nearest that does not inherit -/
def InForce (chain : List Nat) (l : Nat) : Prop := ∃ pre post, chain = pre ++ l :: post ∧ l ≠ inherit ∧ ∀ u ∈ pre, u = inherit

/-- The samples that count: handed in while the level in force was at least theirs.  From levels `chain`, operations `ops` make samples `xs` count. -/
inductive Counted {α : Type} : List Nat → List (MOp α) → List (α × Labels) → Prop
  | nil {chain} : Counted chain [] []
  | taken {chain ops xs l lvl x labels} : InForce chain l → lvl ≤ l → Counted chain ops xs → Counted chain (.handle lvl x labels :: ops) ((x, labels) :: xs)
  | refused {chain ops xs l lvl x labels} : InForce chain l → l < lvl → Counted chain ops xs → Counted chain (.handle lvl x labels :: ops) xs
  | rootInherits {chain ops xs i} : i + 1 = chain.length → Counted chain ops xs → Counted chain (.setLevel i inherit :: ops) xs
  | level {chain ops xs i lvl} : ¬ (lvl = inherit ∧ i + 1 = chain.length) → Counted (chain.set i lvl) ops xs → Counted chain (.setLevel i lvl :: ops) xs

/-- do two samples have the same labels: the same items in any order -/
def SameLabels (a b : Labels) : Prop := a.Perm b

/-! ## Proofs -/

theorem inForce_level {chain : List Nat} {l : Nat} (h : level chain = some l) : InForce chain l := by
  induction chain with
  | nil => cases h
  | cons u up ih =>
    rw [level] at h
    split at h
    · rename_i hu
      obtain ⟨pre, post, rfl, h2, h3⟩ := ih h
      exact ⟨u :: pre, post, rfl, h2, fun v hv => (List.mem_cons.1 hv).elim (fun e => e.trans hu) (h3 v)⟩
    · rename_i hu
      cases h
      exact ⟨[], up, rfl, hu, fun v hv => by cases hv⟩

theorem level_of_inForce {chain : List Nat} {l : Nat} (h : InForce chain l) : level chain = some l := by
  obtain ⟨pre, post, rfl, h2, h3⟩ := h
  induction pre with
  | nil => simp [level, h2]
  | cons u pre ih =>
    rw [List.cons_append, level, if_pos (h3 u (List.mem_cons_self ..))]
    exact ih (fun v hv => h3 v (List.mem_cons_of_mem _ hv))

/-- a chain whose root does not inherit -/
def Rooted (chain : List Nat) : Prop := ∃ r, chain.getLast? = some r ∧ r ≠ inherit

theorem rooted_level {chain : List Nat} (h : Rooted chain) : ∃ l, level chain = some l := by
  obtain ⟨r, hr, hi⟩ := h
  induction chain with
  | nil => cases hr
  | cons u up ih =>
    rw [level]
    split
    · rename_i hu
      cases up with
      | nil => simp at hr; subst hr; exact absurd hu hi
      | cons v up => exact ih (by rwa [List.getLast?_cons_cons] at hr)
    · exact ⟨u, rfl⟩

theorem rooted_set {chain : List Nat} (h : Rooted chain) {i lvl : Nat} (hn : ¬ (lvl = inherit ∧ i + 1 = chain.length)) : Rooted (chain.set i lvl) := by
  obtain ⟨r, hr, hi⟩ := h
  have hlen : (chain.set i lvl).length = chain.length := List.length_set
  have hne : chain ≠ [] := by rintro rfl; cases hr
  have hpos : 0 < chain.length := List.length_pos_iff.2 hne
  rw [List.getLast?_eq_getElem?] at hr
  unfold Rooted
  rw [List.getLast?_eq_getElem?, hlen, List.getElem?_set]
  by_cases h1 : i = chain.length - 1
  · refine ⟨lvl, by simp [h1]; omega, fun hl => hn ⟨hl, by omega⟩⟩
  · exact ⟨r, by simp [h1, hr], hi⟩

theorem counted_exists (c : Cls σ α) (ops : List (MOp α)) : ∀ (chain : List Nat) (_ : Rooted chain) (em : EM σ),
    ∃ xs, Counted chain ops xs ∧ (Node.run c ⟨chain, em⟩ ops).em = xs.foldl (fun m x => m.handle c x.1 x.2) em := by
  induction ops with
  | nil => exact fun chain _ em => ⟨[], .nil, rfl⟩
  | cons op ops ih =>
    intro chain hr em
    cases op with
    | handle lvl x labels =>
      obtain ⟨l, hl⟩ := rooted_level hr
      by_cases hc : lvl ≤ l
      · obtain ⟨xs, h1, h2⟩ := ih chain hr (em.handle c x labels)
        refine ⟨(x, labels) :: xs, .taken (inForce_level hl) hc h1, ?_⟩
        rw [List.foldl_cons, ← h2]
        simp [Node.run, Node.step, canProcess, hl, hc]
      · obtain ⟨xs, h1, h2⟩ := ih chain hr em
        refine ⟨xs, .refused (inForce_level hl) (by omega) h1, ?_⟩
        rw [← h2]
        simp [Node.run, Node.step, canProcess, hl, hc]
    | setLevel i lvl =>
      by_cases hn : lvl = inherit ∧ i + 1 = chain.length
      · obtain ⟨xs, h1, h2⟩ := ih chain hr em
        obtain ⟨rfl, hi⟩ := hn
        refine ⟨xs, .rootInherits hi h1, ?_⟩
        rw [← h2]
        simp [Node.run, Node.step, hi]
      · obtain ⟨xs, h1, h2⟩ := ih (chain.set i lvl) (rooted_set hr hn) em
        refine ⟨xs, .level hn h1, ?_⟩
        rw [← h2]
        simp [Node.run, Node.step, hn]

theorem counted_unique {chain : List Nat} {ops : List (MOp α)} {xs ys : List (α × Labels)} (h : Counted chain ops xs) (h' : Counted chain ops ys) : xs = ys := by
  induction h generalizing ys with
  | nil => cases h'; rfl
  | taken hf hl _ ih =>
    cases h' with
    | taken _ _ h2 => rw [ih h2]
    | refused hf2 hl2 h2 =>
      have := (level_of_inForce hf).symm.trans (level_of_inForce hf2)
      cases this; omega
  | refused hf hl _ ih =>
    cases h' with
    | refused _ _ h2 => rw [ih h2]
    | taken hf2 hl2 h2 =>
      have := (level_of_inForce hf).symm.trans (level_of_inForce hf2)
      cases this; omega
  | rootInherits hi _ ih =>
    cases h' with
    | rootInherits _ h2 => exact ih h2
    | level hn _ => exact absurd ⟨rfl, hi⟩ hn
  | level hn _ ih =>
    cases h' with
    | rootInherits hi _ => exact absurd ⟨rfl, hi⟩ hn
    | level _ h2 => exact ih h2

/-! ### Labels -/

theorem insertItem_perm (a : Nat × Int) (l : Labels) : (insertItem a l).Perm (a :: l) := by
  induction l with
  | nil => exact List.Perm.refl _
  | cons b l ih =>
    rw [insertItem]
    split
    · exact List.Perm.refl _
    · exact (ih.cons b).trans (List.Perm.swap a b l)

theorem labelKey_perm (l : Labels) : (labelKey l).Perm l := by
  induction l with
  | nil => exact List.Perm.refl _
  | cons a l ih => exact (insertItem_perm a _).trans (ih.cons a)

theorem labelKey_nil {l : Labels} : labelKey l = [] ↔ l = [] := by
  constructor
  · intro h
    have := (labelKey_perm l).length_eq
    rw [h] at this
    exact List.eq_nil_of_length_eq_zero this.symm
  · rintro rfl; simp [labelKey]

theorem sorted_perm_eq : ∀ {a b : Labels}, a.Pairwise (fun x y => itemLe x y = true) → b.Pairwise (fun x y => itemLe x y = true) → (a.map Prod.fst).Nodup → a.Perm b → a = b := by
  intro a
  induction a with
  | nil => intro b _ _ _ h; exact (List.nil_perm.1 h).symm
  | cons x a ih =>
    intro b ha hb hn h
    cases b with
    | nil => exact absurd h (by simp)
    | cons y b =>
      have ha' := List.pairwise_cons.1 ha
      have hb' := List.pairwise_cons.1 hb
      have hn' := List.nodup_cons.1 hn
      have hxy : x = y := by
        rcases List.mem_cons.1 (h.mem_iff.1 (List.mem_cons_self ..)) with e | hx
        · exact e
        · rcases List.mem_cons.1 (h.mem_iff.2 (List.mem_cons_self ..)) with e | hy
          · exact e.symm
          · have h1 := hb'.1 x hx
            have h2 := ha'.1 y hy
            simp only [itemLe, decide_eq_true_eq] at h1 h2
            have : x.1 = y.1 := by omega
            exact absurd (List.mem_map.2 ⟨y, hy, this.symm⟩) hn'.1
      subst hxy
      rw [ih ha'.2 hb'.2 hn'.2 (List.Perm.cons_inv h)]

theorem insertItem_sorted (a : Nat × Int) {l : Labels} (h : l.Pairwise (fun x y => itemLe x y = true)) : (insertItem a l).Pairwise (fun x y => itemLe x y = true) := by
  induction l with
  | nil => exact List.pairwise_singleton _ _
  | cons b l ih =>
    have h' := List.pairwise_cons.1 h
    rw [insertItem]
    split
    · rename_i hab
      refine List.pairwise_cons.2 ⟨fun x hx => ?_, h⟩
      rcases List.mem_cons.1 hx with rfl | hx
      · exact hab
      · have := h'.1 x hx
        simp only [itemLe, decide_eq_true_eq] at *
        omega
    · rename_i hab
      refine List.pairwise_cons.2 ⟨fun x hx => ?_, ih h'.2⟩
      rcases List.mem_cons.1 ((insertItem_perm a l).mem_iff.1 hx) with rfl | hx
      · simp only [itemLe, decide_eq_true_eq] at *
        omega
      · exact h'.1 x hx

theorem labelKey_sorted (l : Labels) : (labelKey l).Pairwise (fun x y => itemLe x y = true) := by
  induction l with
  | nil => exact List.Pairwise.nil
  | cons a l ih => exact insertItem_sorted a ih

/-- two samples go to the same submetric exactly if their labels are the same -/
theorem labelKey_eq {a b : Labels} (ha : (a.map Prod.fst).Nodup) : labelKey a = labelKey b ↔ SameLabels a b := by
  constructor
  · intro h
    exact (labelKey_perm a).symm.trans (h ▸ labelKey_perm b)
  · intro h
    refine sorted_perm_eq (labelKey_sorted a) (labelKey_sorted b) ?_ ((labelKey_perm a).trans (h.trans (labelKey_perm b).symm))
    exact (((labelKey_perm a).map Prod.fst).nodup_iff).2 ha

/-! ### Submetrics -/

/-- the samples with this key -/
def withKey (xs : List (α × Labels)) (k : Labels) : List α := (xs.filter (fun x => decide (labelKey x.2 = k))).map (·.1)

/-- has a sample had labels -/
def labelled (xs : List (α × Labels)) : Bool := xs.any (fun x => !x.2.isEmpty)

/-- what the metric itself makes of the samples -/
def ownFold (c : Cls σ α) : Bool → σ → List (α × Labels) → σ
  | _, s, [] => s
  | emb, s, x :: xs => if emb || !x.2.isEmpty then ownFold c true (c.par s x.1) xs else ownFold c false (c.own s x.1) xs

theorem embed_own (c : Cls σ α) (m : EM σ) (x : α) (l : Labels) : (EM.embed c m x l).own = m.own := by
  unfold EM.embed
  dsimp only
  split
  · rfl
  · split <;> rfl

theorem embed_embedded (c : Cls σ α) (m : EM σ) (x : α) (l : Labels) : (EM.embed c m x l).embedded = (m.embedded || !l.isEmpty) := by
  unfold EM.embed
  dsimp only
  split
  · rename_i h; rw [labelKey_nil] at h; simp [h]
  · rename_i h
    have : l.isEmpty = false := by
      cases l with
      | nil => simp [labelKey] at h
      | cons a l => rfl
    split <;> simp [this]

theorem handle_own (c : Cls σ α) (m : EM σ) (x : α) (l : Labels) :
    (m.handle c x l).own = if m.embedded || !l.isEmpty then c.par m.own x else c.own m.own x := by
  unfold EM.handle
  split
  · exact embed_own ..
  · rfl

theorem handle_embedded (c : Cls σ α) (m : EM σ) (x : α) (l : Labels) : (m.handle c x l).embedded = (m.embedded || !l.isEmpty) := by
  unfold EM.handle
  split
  · exact embed_embedded ..
  · rename_i h; simp only [Bool.or_eq_true, not_or, Bool.not_eq_true] at h; simp [h.1, h.2]

theorem fold_own (c : Cls σ α) (xs : List (α × Labels)) : ∀ m : EM σ,
    (xs.foldl (fun m x => m.handle c x.1 x.2) m).own = ownFold c m.embedded m.own xs ∧ (xs.foldl (fun m x => m.handle c x.1 x.2) m).embedded = (m.embedded || labelled xs) := by
  induction xs with
  | nil => intro m; simp [ownFold, labelled]
  | cons x xs ih =>
    intro m
    rw [List.foldl_cons]
    obtain ⟨h1, h2⟩ := ih (m.handle c x.1 x.2)
    rw [h1, h2, handle_own, handle_embedded]
    refine ⟨?_, by simp [labelled, Bool.or_assoc]⟩
    rw [ownFold]
    split
    · rename_i h; rw [h]
    · rename_i h; rw [Bool.not_eq_true] at h; rw [h]

theorem handle_children (c : Cls σ α) (m : EM σ) (x : α) (l : Labels) (k : Labels) (hk : k ≠ []) :
    Dict.get? (m.handle c x l).children k = if labelKey l = k then some (c.own ((Dict.get? m.children k).getD c.init) x) else Dict.get? m.children k := by
  unfold EM.handle
  split
  · unfold EM.embed
    dsimp only
    split
    · rename_i h
      rw [h, if_neg (fun e => hk e.symm)]
    · split
      · rename_i ch hc
        simp only [Dict.get?_set]
        split
        · rename_i e; subst e; simp [hc]
        · rfl
      · rename_i hc
        simp only [Dict.get?_set]
        split
        · rename_i e; subst e; simp [hc]
        · rfl
  · rename_i h
    simp only [Bool.or_eq_true, not_or, Bool.not_eq_true, Bool.not_eq_false', List.isEmpty_iff] at h
    have : ¬ labelKey l = k := by
      intro e
      rw [h.2] at e
      exact hk (by rw [← e]; simp [labelKey])
    rw [if_neg this]

theorem fold_children (c : Cls σ α) (xs : List (α × Labels)) : ∀ (m : EM σ) (k : Labels), k ≠ [] →
    Dict.get? (xs.foldl (fun m x => m.handle c x.1 x.2) m).children k =
      if withKey xs k = [] then Dict.get? m.children k else some ((withKey xs k).foldl c.own ((Dict.get? m.children k).getD c.init)) := by
  induction xs with
  | nil => intro m k _; simp [withKey]
  | cons x xs ih =>
    intro m k hk
    rw [List.foldl_cons, ih _ k hk, handle_children c m x.1 x.2 k hk]
    by_cases he : labelKey x.2 = k
    · have hw : withKey (x :: xs) k = x.1 :: withKey xs k := by simp [withKey, he]
      rw [hw, if_pos he]
      by_cases h0 : withKey xs k = []
      · simp [h0]
      · simp [h0]
    · have hw : withKey (x :: xs) k = withKey xs k := by simp [withKey, he]
      rw [hw, if_neg he]

theorem handle_wf (c : Cls σ α) (m : EM σ) (x : α) (l : Labels) (h : Dict.WF m.children ∧ [] ∉ Dict.keys m.children) :
    Dict.WF (m.handle c x l).children ∧ [] ∉ Dict.keys (m.handle c x l).children := by
  unfold EM.handle
  split
  · unfold EM.embed
    dsimp only
    split
    · exact h
    · rename_i hk
      split
      · exact ⟨Dict.wf_set h.1 _ _, fun hm => (Dict.mem_keys_set.1 hm).elim (fun e => hk e.symm) (fun e => h.2 e)⟩
      · exact ⟨Dict.wf_set h.1 _ _, fun hm => (Dict.mem_keys_set.1 hm).elim (fun e => hk e.symm) (fun e => h.2 e)⟩
  · exact h

theorem fold_wf (c : Cls σ α) (xs : List (α × Labels)) : ∀ (m : EM σ), Dict.WF m.children ∧ [] ∉ Dict.keys m.children →
    Dict.WF (xs.foldl (fun m x => m.handle c x.1 x.2) m).children ∧ [] ∉ Dict.keys (xs.foldl (fun m x => m.handle c x.1 x.2) m).children := by
  induction xs with
  | nil => exact fun m h => h
  | cons x xs ih => exact fun m h => ih _ (handle_wf c m x.1 x.2 h)

/-! ## C39, what submetrics get -/

/-- a metric new under levels `chain`, after operations -/
def after (c : Cls σ α) (chain : List Nat) (ops : List (MOp α)) : EM σ := (Node.run c ⟨chain, EM.new c⟩ ops).em

/-- **C39, submetrics.** Whatever the kind of the metric: after any history there is a submetric for exactly those label sets with which a sample was counted, and it has got exactly the samples with the same labels, in order.
A sample is counted exactly if the level in force when it was handed in was at least its own. -/
theorem C39_submetrics (c : Cls σ α) (chain : List Nat) (hr : Rooted chain) (ops : List (MOp α)) (xs : List (α × Labels)) (hx : Counted chain ops xs) (l : Labels) (hl : (l.map Prod.fst).Nodup)
    (hne : l ≠ []) (p : α × Labels → Bool) (hp : ∀ x ∈ xs, p x = true ↔ SameLabels l x.2) :
    Dict.get? (after c chain ops).children (labelKey l) = if xs.any p then some (((xs.filter p).map (·.1)).foldl c.own c.init) else none := by
  obtain ⟨ys, h1, h2⟩ := counted_exists c ops chain hr (EM.new c)
  have := counted_unique hx h1
  subst this
  have hk : labelKey l ≠ [] := fun h => hne (labelKey_nil.1 h)
  rw [after, h2, fold_children c _ _ _ hk]
  have hf : xs.filter (fun x => decide (labelKey x.2 = labelKey l)) = xs.filter p := by
    refine List.filter_congr (fun x hx => ?_)
    rw [Bool.eq_iff_iff, hp x hx, decide_eq_true_eq, ← labelKey_eq hl]
    exact eq_comm
  rw [withKey, hf]
  by_cases ha : xs.any p = true
  · have hne' : (xs.filter p).map (·.1) ≠ [] := by
      intro h
      obtain ⟨x, hx, hp⟩ := List.any_eq_true.1 ha
      have := List.map_eq_nil_iff.1 h
      have hm : x ∈ xs.filter p := List.mem_filter.2 ⟨hx, hp⟩
      rw [this] at hm; cases hm
    rw [if_neg hne', if_pos ha]
    rfl
  · have he : (xs.filter p).map (·.1) = [] := by
      rw [List.map_eq_nil_iff, List.filter_eq_nil_iff]
      intro x hx hpx
      exact ha (List.any_eq_true.2 ⟨x, hx, hpx⟩)
    rw [if_pos he, if_neg ha]
    rfl

/-! Concrete cases. -/

/-- keeps the samples -/
def keep : Cls (List Nat) Nat := { init := [], own := fun s x => x :: s, par := fun s _ => s }

/-- a history with labels and levels -/
def ops0 : List (MOp Nat) := [.handle 2 1 [], .handle 2 2 [(7, 1), (3, 0)], .setLevel 0 1, .handle 2 3 [(7, 1)], .setLevel 0 inherit, .handle 3 9 [(7, 1)], .handle 2 4 [(3, 0), (7, 1)], .handle 2 5 []]

example : Counted [4, 4, 2] ops0 [(1, []), (2, [(7, 1), (3, 0)]), (4, [(3, 0), (7, 1)]), (5, [])] := by
  have f : InForce [4, 4, 2] 2 := ⟨[4, 4], [], rfl, by decide, by decide⟩
  refine .taken f (by decide) (.taken f (by decide) (.level (by decide) (.refused (l := 1) ⟨[], _, rfl, by decide, by simp⟩ (by decide) (.level (by decide) ?_))))
  exact .refused f (by decide) (.taken f (by decide) (.taken f (by decide) .nil))
example : (after keep [4, 4, 2] ops0).children = [([(3, 0), (7, 1)], [4, 2])] := by decide +kernel
example : Rooted [4, 4, 2] := ⟨2, rfl, by decide⟩

end Verif.Metrics
