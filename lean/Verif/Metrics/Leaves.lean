import Verif.Metrics.Data
/-!
# Callable, uptime and labelled metrics, C212

`/repo/satella/instrumentation/metrics/metric_types/callable.py`, `/repo/satella/instrumentation/metrics/metric_types/uptime.py`
and `/repo/satella/instrumentation/metrics/labeled.py`.  The clock is a part of the state of the world, which callables may change.
-/
namespace Verif.Metrics

/-- Sets of labels: dictionaries that are equal if they have the same entries, and are updated by others.  (Part of the
model of `LabeledMetric`, /repo/satella/instrumentation/metrics/labeled.py:8-38.) -/
structure LabelOps (Λ κ ω : Type) where
  get : Λ → κ → Option ω
  /-- `a.update(b)` -/
  update : Λ → Λ → Λ
  ext : ∀ a b, (∀ k, get a k = get b k) → a = b
  get_update : ∀ a b k, get (update a b) k = (match get b k with | some v => some v | none => get a k)

section
variable {Λ ν κ ω S E : Type} [DecidableEq Λ]

/-- A callable without arguments, of the world as it is.  (Part of the model of `CallableMetric`, /repo/satella/instrumentation/metrics/metric_types/callable.py:11-48.) -/
abbrev Getter (S E ν : Type) := S → Except E ν × S

/-- A callable metric: its name and labels, whether it is internal, its own callable if it has one, and the labelled
metrics registered with it, `/repo/satella/instrumentation/metrics/metric_types/callable.py:23-32`. -/
structure CMetric (Λ ν S E : Type) where
  name : Name
  labels : Λ
  internal : Bool
  own : Option (Getter S E ν)
  labeled : List (Λ × Getter S E ν)

/-- What is to be read, in order: the labelled metrics with their labels over those of the metric, then the
metric itself, `/repo/satella/instrumentation/metrics/metric_types/callable.py:39-46`. -/
def CMetric.sources (L : LabelOps Λ κ ω) (m : CMetric Λ ν S E) : List (Λ × Getter S E ν) :=
  m.labeled.map (fun p => (L.update m.labels p.1, p.2)) ++ (match m.own with | some g => [(m.labels, g)] | none => [])

/-- Reading one after another; `mdc += MetricData(...)`, `/repo/satella/instrumentation/metrics/metric_types/callable.py:39-46`.  -/
def readAll (H : Name × Λ → Nat) (clock : S → Int) (name : Name) (internal : Bool) : List (Λ × Getter S E ν) → Coll Λ ν → S → Except E (Coll Λ ν) × S
  | [], c, s => (.ok c, s)
  | (l, g) :: rest, c, s =>
    match g s with
    | (.error e, s') => (.error e, s')
    | (.ok v, s') => readAll H clock name internal rest (Coll.addOne H c ⟨name, v, l, some (clock s'), internal⟩) s'

/-- `CallableMetric.to_metric_data`, `/repo/satella/instrumentation/metrics/metric_types/callable.py:37-48` -/
def CMetric.toMetricData (L : LabelOps Λ κ ω) (H : Name × Λ → Nat) (clock : S → Int) (m : CMetric Λ ν S E) (s : S) : Except E (Coll Λ ν) × S :=
  readAll H clock m.name m.internal (m.sources L) (Coll.ofList H []) s

/-- `UptimeMetric.to_metric_data`, `/repo/satella/instrumentation/metrics/metric_types/uptime.py:31-36`: `basic` is what the
getter of time gave when the metric was made, `/repo/satella/instrumentation/metrics/metric_types/uptime.py:22-26`. -/
def uptime (H : Name × Λ → Nat) (name : Name) (labels : Λ) (ts : Option Int) (internal : Bool) (getter : S → Int) (basic : Int) (s : S) : Coll Λ Int :=
  Coll.ofList H [⟨name, getter s - basic, labels, ts, internal⟩]

/-- `LabeledMetric.handle`, `/repo/satella/instrumentation/metrics/labeled.py:36-38`, of labelled metrics wrapped in each other,
the outermost first: the labels that the wrapped metric is called with. -/
def forward (L : LabelOps Λ κ ω) : List Λ → Λ → Λ
  | [], kwargs => kwargs
  | l :: inner, kwargs => forward L inner (L.update kwargs l)

/-! ## Specification -/

/-- These readings are made, one after another, each once. -/
inductive Reads (clock : S → Int) (name : Name) (internal : Bool) : S → List (Λ × Getter S E ν) → List (MD Λ ν) → S → Prop
  | nil {s} : Reads clock name internal s [] [] s
  | cons {s l g v s' rest ms s''} : g s = (.ok v, s') → Reads clock name internal s' rest ms s'' →
      Reads clock name internal s ((l, g) :: rest) (⟨name, v, l, some (clock s'), internal⟩ :: ms) s''

/-- Some readings are made and then one raises. -/
inductive Fails (clock : S → Int) (name : Name) (internal : Bool) : S → List (Λ × Getter S E ν) → E → S → Prop
  | now {s l g e s' rest} : g s = (.error e, s') → Fails clock name internal s ((l, g) :: rest) e s'
  | later {s l g v s' rest e s''} : g s = (.ok v, s') → Fails clock name internal s' rest e s'' → Fails clock name internal s ((l, g) :: rest) e s''

/-- It is the last in the list with its name and labels. -/
def LastOfKey (x : MD Λ ν) (l : List (MD Λ ν)) : Prop := ∃ pre post, l = pre ++ x :: post ∧ ∀ y ∈ post, y.key ≠ x.key

/-! ## Properties -/

theorem readAll_spec (H : Name × Λ → Nat) (clock : S → Int) (name : Name) (internal : Bool) (src : List (Λ × Getter S E ν)) : ∀ (c : Coll Λ ν) (s : S), Built H c →
    (∃ ms s' c', Reads clock name internal s src ms s' ∧ readAll H clock name internal src c s = (.ok c', s') ∧ Built H c' ∧
      ∀ x, Has c' x ↔ LastOfKey x ms ∨ (Has c x ∧ ∀ y ∈ ms, y.key ≠ x.key)) ∨
    (∃ e s', Fails clock name internal s src e s' ∧ readAll H clock name internal src c s = (.error e, s')) := by
  induction src with
  | nil =>
    intro c s hc
    refine Or.inl ⟨[], s, c, .nil, rfl, hc, fun x => ?_⟩
    constructor
    · intro h; exact Or.inr ⟨h, by simp⟩
    · rintro (⟨pre, post, h, _⟩ | h)
      · simp at h
      · exact h.1
  | cons p rest ih =>
    obtain ⟨l, g⟩ := p
    intro c s hc
    cases hg : g s with
    | mk r s1 =>
      cases r with
      | error e => exact Or.inr ⟨e, s1, .now hg, by simp only [readAll, hg]⟩
      | ok v =>
        rcases ih (Coll.addOne H c ⟨name, v, l, some (clock s1), internal⟩) s1 (.addOne _ hc) with ⟨ms, s', c', h1, h2, h3, h4⟩ | ⟨e, s', h1, h2⟩
        · refine Or.inl ⟨⟨name, v, l, some (clock s1), internal⟩ :: ms, s', c', .cons hg h1, by simp only [readAll, hg, h2], h3, fun x => ?_⟩
          rw [h4, C42_add_entry_partial hc]
          constructor
          · rintro (⟨pre, post, rfl, hp⟩ | ⟨rfl | ⟨hx, hk⟩, hm⟩)
            · exact Or.inl ⟨_ :: pre, post, rfl, hp⟩
            · exact Or.inl ⟨[], ms, rfl, hm⟩
            · refine Or.inr ⟨hx, ?_⟩
              intro y hy
              rcases List.mem_cons.1 hy with rfl | hy
              · exact fun h => hk h.symm
              · exact hm y hy
          · rintro (⟨pre, post, he, hp⟩ | ⟨hx, hm⟩)
            · cases pre with
              | nil =>
                simp only [List.nil_append, List.cons.injEq] at he
                obtain ⟨rfl, rfl⟩ := he
                exact Or.inr ⟨Or.inl rfl, hp⟩
              | cons q pre =>
                simp only [List.cons_append, List.cons.injEq] at he
                obtain ⟨rfl, rfl⟩ := he
                exact Or.inl ⟨pre, post, rfl, hp⟩
            · exact Or.inr ⟨Or.inr ⟨hx, fun h => hm _ (List.mem_cons_self ..) h.symm⟩, fun y hy => hm y (List.mem_cons_of_mem _ hy)⟩
        · exact Or.inr ⟨e, s', .later hg h1, by simp only [readAll, hg, h2]⟩

/-- **C212 (callable metrics)** The data of a callable metric: each callable, of the labelled metrics in order of
their registration and then its own, is called once. If all give values there is exactly one entry for each set of labels, with
the value given last for it, and the time at which it was given; if one raises, that is raised, and those after it are not called. -/
theorem C212_callable (L : LabelOps Λ κ ω) (H : Name × Λ → Nat) (clock : S → Int) (m : CMetric Λ ν S E) (s : S) :
    let src := m.labeled.map (fun p => (L.update m.labels p.1, p.2)) ++ m.own.toList.map (fun g => (m.labels, g))
    (∃ ms s' c, Reads clock m.name m.internal s src ms s' ∧ m.toMetricData L H clock s = (.ok c, s') ∧ OnePerKey c ∧ ∀ x, Has c x ↔ LastOfKey x ms) ∨
    (∃ e s', Fails clock m.name m.internal s src e s' ∧ m.toMetricData L H clock s = (.error e, s')) := by
  intro src
  have hs : m.sources L = src := by
    simp only [CMetric.sources, src]; cases m.own <;> rfl
  unfold CMetric.toMetricData
  rw [hs]
  rcases readAll_spec H clock m.name m.internal src (Coll.ofList H []) s (.ofList []) with ⟨ms, s', c, h1, h2, h3, h4⟩ | ⟨e, s', h1, h2⟩
  · refine Or.inl ⟨ms, s', c, h1, h2, C42_one_per_key_partial h3, fun x => ?_⟩
    rw [h4]
    constructor
    · rintro (h | ⟨⟨e, he, _⟩, _⟩)
      · exact h
      · cases he
    · exact Or.inl
  · exact Or.inr ⟨e, s', h1, h2⟩

omit [DecidableEq Λ] in
/-- **C212 (labelled metrics)** A labelled metric calls the metric it wraps with its own labels, whatever else the
caller gives; of labelled metrics within each other the innermost that has a label decides, and the labels of the caller are
kept where none has. -/
theorem C212_labeled (L : LabelOps Λ κ ω) (outer inner : List Λ) (l kwargs : Λ) (k : κ) (v : ω) :
    (L.get l k = some v → (∀ j ∈ inner, L.get j k = none) → L.get (forward L (outer ++ l :: inner) kwargs) k = some v) ∧
    ((∀ j ∈ inner, L.get j k = none) → L.get (forward L inner kwargs) k = L.get kwargs k) := by
  have none_ : ∀ (ls : List Λ) kw, (∀ j ∈ ls, L.get j k = none) → L.get (forward L ls kw) k = L.get kw k := by
    intro ls
    induction ls with
    | nil => intro kw _; rfl
    | cons j ls ih =>
      intro kw h
      rw [forward, ih _ (fun i hi => h i (List.mem_cons_of_mem _ hi)), L.get_update, h j (List.mem_cons_self ..)]
  refine ⟨?_, none_ inner kwargs⟩
  intro hl hi
  induction outer generalizing kwargs with
  | nil => rw [List.nil_append, forward, none_ _ _ hi, L.get_update, hl]
  | cons o outer ih => rw [List.cons_append, forward]; exact ih _

/-- **C212 (uptime)** The data of an uptime metric is one entry: how far its time has got since the metric was made. It never
goes down if the time does not. -/
theorem C212_uptime (H : Name × Λ → Nat) (name : Name) (labels : Λ) (ts : Option Int) (internal : Bool) (getter : S → Int) (made s s' : S) :
    (∀ x, Has (uptime H name labels ts internal getter (getter made) s) x ↔ x = ⟨name, getter s - getter made, labels, ts, internal⟩) ∧
    (getter s ≤ getter s' → ∀ x x', Has (uptime H name labels ts internal getter (getter made) s) x → Has (uptime H name labels ts internal getter (getter made) s') x' → x.value ≤ x'.value) := by
  have key : ∀ s x, Has (uptime H name labels ts internal getter (getter made) s) x ↔ x = ⟨name, getter s - getter made, labels, ts, internal⟩ := by
    intro s x
    simp [uptime, Coll.ofList, Coll.add, contains, Has, eq_comm]
  refine ⟨key s, ?_⟩
  intro h x x' hx hx'
  rw [key] at hx hx'
  subst hx hx'
  show getter s - _ ≤ getter s' - _
  omega

end

/-! ## Examples -/

/-- Labels of two names. -/
def twoLabels : LabelOps (Option Nat × Option Nat) Bool Nat where
  get l k := if k then l.1 else l.2
  update a b := (b.1.or a.1, b.2.or a.2)
  ext a b h := by
    have h1 := h true; have h2 := h false
    simp at h1 h2
    exact Prod.ext h1 h2
  get_update a b k := by
    obtain ⟨a1, a2⟩ := a; obtain ⟨b1, b2⟩ := b
    cases k <;> cases b1 <;> cases b2 <;> rfl

/-- A metric with two labelled ones; the world is a counter, and its clock. -/
def someCallable : CMetric (Option Nat × Option Nat) Nat Nat Unit where
  name := ['m']
  labels := (some 1, none)
  internal := false
  own := some (fun s => (.ok (s + 10), s + 1))
  labeled := [((none, some 7), fun s => (.ok s, s + 1)), ((some 1, none), fun s => (.ok s, s + 1))]

example : (someCallable.toMetricData twoLabels (fun _ => 0) (fun (s : Nat) => (s : Int)) 5) =
    (.ok [⟨0, ⟨['m'], 5, (some 1, some 7), some 6, false⟩⟩, ⟨0, ⟨['m'], 17, (some 1, none), some 8, false⟩⟩], 8) := rfl

end Verif.Metrics
