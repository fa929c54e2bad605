import Verif.Metrics.Prometheus
import Verif.Py.Dict
/-!
# The HTTP exporter for Prometheus, C213, C214

`/repo/satella/instrumentation/metrics/exporters/prometheus.py:12-92`: what a request is answered, and how the
thread that serves is terminated.  The server is that of the standard library (`socketserver.BaseServer`).
-/
namespace Verif.Prometheus
open Verif

/-! ## Requests -/

/-- `labels_current.update(labels)`, /repo/satella/instrumentation/metrics/data.py:26-29 -/
def updateLabels : Dict Str Str → Dict Str Str → Dict Str Str
  | ls, [] => ls
  | ls, (k, v) :: extra => updateLabels (ls.set k v) extra

/-- Equality of dictionaries.  (Part of the model of `MetricData.__eq__`, /repo/satella/instrumentation/metrics/data.py:31-32.) -/
def sameDict (a b : Dict Str Str) : Bool :=
  a.all (fun p => decide (Dict.get? b p.1 = Dict.get? a p.1)) && b.all (fun p => decide (Dict.get? a p.1 = Dict.get? b p.1))

/-- Equality of entries, /repo/satella/instrumentation/metrics/data.py:31-32 -/
def sameEntry (m m' : MD) : Bool := decide (m.name = m'.name) && sameDict m.labels m'.labels

/-- `add_labels`, /repo/satella/instrumentation/metrics/data.py:77-82: a new set, that keeps the first of equal entries -/
def addLabels (extra : Dict Str Str) : List MD → List MD → List MD
  | out, [] => out
  | out, m :: ms =>
    let x := { m with labels := updateLabels m.labels extra }
    addLabels extra (if out.any (fun y => sameEntry y x) then out else out ++ [x]) ms

/-- An answer: its status and its text.  (Part of the model of `PrometheusHandler`, /repo/satella/instrumentation/metrics/exporters/prometheus.py:12-28.) -/
structure Answer where
  status : Nat
  text : Str

/-- `do_GET`, /repo/satella/instrumentation/metrics/exporters/prometheus.py:15-28; the flag is whether the export was counted -/
def doGet (extra : Dict Str Str) (data : List MD) (path : String) : Answer × Bool :=
  if path ≠ "/metrics" then (⟨404, []⟩, false)
  else (⟨200, export_ (addLabels extra [] data)⟩, true)

/-! ### Specification -/

/-- The labels with the extra ones: an extra label decides, others are kept. -/
def Extended (extra : Dict Str Str) (ls ls' : Dict Str Str) : Prop :=
  ∀ k, (∀ v, Dict.get? ls' k = some v ↔ (∃ pre post, extra = pre ++ (k, v) :: post ∧ k ∉ post.map Prod.fst) ∨ (k ∉ extra.map Prod.fst ∧ Dict.get? ls k = some v))

/-- The same, but for labels. -/
def ButLabels (m m' : MD) : Prop := m.name = m'.name ∧ m.value = m'.value ∧ m.ts = m'.ts ∧ m.internal = m'.internal

/-- Two sets of labels have the same entries. -/
def Same (a b : Dict Str Str) : Prop := ∀ k, Dict.get? a k = Dict.get? b k

/-! ### Properties -/

theorem updateLabels_spec (extra : Dict Str Str) : ∀ ls, Extended extra ls (updateLabels ls extra) := by
  induction extra with
  | nil => intro ls k v; simp [updateLabels]
  | cons p extra ih =>
    obtain ⟨k0, v0⟩ := p
    intro ls k v
    rw [updateLabels, ih (ls.set k0 v0) k v, Dict.get?_set]
    constructor
    · rintro (⟨pre, post, rfl, h⟩ | ⟨h, h'⟩)
      · exact Or.inl ⟨(k0, v0) :: pre, post, rfl, h⟩
      · split at h'
        · rename_i hk; subst hk; cases h'
          exact Or.inl ⟨[], extra, rfl, h⟩
        · rename_i hk
          refine Or.inr ⟨?_, h'⟩
          simp only [List.map_cons, List.mem_cons, not_or]
          exact ⟨fun e => hk e.symm, h⟩
    · rintro (⟨pre, post, he, h⟩ | ⟨h, h'⟩)
      · cases pre with
        | nil =>
          simp only [List.nil_append, List.cons.injEq, Prod.mk.injEq] at he
          obtain ⟨⟨rfl, rfl⟩, rfl⟩ := he
          exact Or.inr ⟨h, by simp⟩
        | cons q pre =>
          simp only [List.cons_append, List.cons.injEq] at he
          obtain ⟨rfl, rfl⟩ := he
          exact Or.inl ⟨pre, post, rfl, h⟩
      · simp only [List.map_cons, List.mem_cons, not_or] at h
        exact Or.inr ⟨h.2, by rw [if_neg (fun e => h.1 e.symm)]; exact h'⟩

theorem sameDict_iff (a b : Dict Str Str) : sameDict a b = true ↔ Same a b := by
  simp only [sameDict, Bool.and_eq_true, List.all_eq_true, decide_eq_true_eq, Same]
  constructor
  · rintro ⟨h1, h2⟩ k
    by_cases ha : (Dict.get? a k).isSome
    · obtain ⟨p, hp, rfl⟩ := List.mem_map.1 ((Dict.get?_isSome_iff a k).1 ha)
      exact (h1 p hp).symm
    · by_cases hb : (Dict.get? b k).isSome
      · obtain ⟨p, hp, rfl⟩ := List.mem_map.1 ((Dict.get?_isSome_iff b k).1 hb)
        exact h2 p hp
      · simp only [Option.not_isSome_iff_eq_none] at ha hb
        rw [ha, hb]
  · intro h
    exact ⟨fun p _ => (h p.1).symm, fun p _ => h p.1⟩

theorem sameEntry_iff (m m' : MD) : sameEntry m m' = true ↔ m.name = m'.name ∧ Same m.labels m'.labels := by
  simp [sameEntry, sameDict_iff]

theorem addLabels_mem (extra : Dict Str Str) (ms : List MD) : ∀ out,
    (∀ x ∈ addLabels extra out ms, x ∈ out ∨ ∃ m ∈ ms, x = { m with labels := updateLabels m.labels extra }) ∧
    (∀ x ∈ out, x ∈ addLabels extra out ms) ∧
    (∀ m ∈ ms, ∃ x ∈ addLabels extra out ms, x.name = m.name ∧ Same x.labels (updateLabels m.labels extra)) ∧
    ((out.Pairwise fun y z => ¬ (y.name = z.name ∧ Same y.labels z.labels)) → (addLabels extra out ms).Pairwise fun y z => ¬ (y.name = z.name ∧ Same y.labels z.labels)) := by
  induction ms with
  | nil => intro out; exact ⟨fun x hx => Or.inl hx, fun x hx => hx, by simp, id⟩
  | cons m ms ih =>
    intro out
    simp only [addLabels]
    by_cases hc : out.any (fun y => sameEntry y { m with labels := updateLabels m.labels extra }) = true
    · rw [if_pos hc]
      obtain ⟨h1, h2, h3, h4⟩ := ih out
      refine ⟨?_, h2, ?_, h4⟩
      · intro x hx
        rcases h1 x hx with h | ⟨m', hm', rfl⟩
        · exact Or.inl h
        · exact Or.inr ⟨m', List.mem_cons_of_mem _ hm', rfl⟩
      · intro m' hm'
        rcases List.mem_cons.1 hm' with rfl | hm'
        · obtain ⟨y, hy, hs⟩ := List.any_eq_true.1 hc
          rw [sameEntry_iff] at hs
          exact ⟨y, h2 y hy, hs⟩
        · exact h3 m' hm'
    · rw [if_neg hc]
      obtain ⟨h1, h2, h3, h4⟩ := ih (out ++ [{ m with labels := updateLabels m.labels extra }])
      refine ⟨?_, ?_, ?_, ?_⟩
      · intro x hx
        rcases h1 x hx with h | ⟨m', hm', rfl⟩
        · rcases List.mem_append.1 h with h | h
          · exact Or.inl h
          · exact Or.inr ⟨m, List.mem_cons_self .., by simpa using h⟩
        · exact Or.inr ⟨m', List.mem_cons_of_mem _ hm', rfl⟩
      · intro x hx; exact h2 x (List.mem_append_left _ hx)
      · intro m' hm'
        rcases List.mem_cons.1 hm' with rfl | hm'
        · exact ⟨_, h2 _ (List.mem_append_right _ (List.mem_singleton_self _)), rfl, fun _ => rfl⟩
        · exact h3 m' hm'
      · intro hp
        apply h4
        rw [List.pairwise_append]
        refine ⟨hp, List.pairwise_singleton _ _, ?_⟩
        intro y hy z hz hs
        rw [List.mem_singleton] at hz
        subst hz
        exact hc (List.any_eq_true.2 ⟨y, hy, (sameEntry_iff _ _).2 hs⟩)

theorem addLabels_distinct (extra : Dict Str Str) (ms : List MD) : ∀ out,
    (∀ y ∈ out, ∀ m ∈ ms, ¬ (y.name = m.name ∧ Same y.labels (updateLabels m.labels extra))) →
    (ms.Pairwise fun m m' => ¬ (m.name = m'.name ∧ Same (updateLabels m.labels extra) (updateLabels m'.labels extra))) →
    addLabels extra out ms = out ++ ms.map (fun m => { m with labels := updateLabels m.labels extra }) := by
  induction ms with
  | nil => intro out _ _; simp [addLabels]
  | cons m ms ih =>
    intro out h1 h2
    rw [List.pairwise_cons] at h2
    have hc : ¬ out.any (fun y => sameEntry y { m with labels := updateLabels m.labels extra }) = true := by
      intro hc
      obtain ⟨y, hy, hs⟩ := List.any_eq_true.1 hc
      exact h1 y hy m (List.mem_cons_self ..) ((sameEntry_iff _ _).1 hs)
    simp only [addLabels]
    rw [if_neg hc, ih _ ?_ h2.2]
    · simp
    · intro y hy m' hm'
      rcases List.mem_append.1 hy with hy | hy
      · exact h1 y hy m' (List.mem_cons_of_mem _ hm')
      · rw [List.mem_singleton] at hy
        subst hy
        exact h2.1 m' hm'

/-- **C213 (other paths)** A request for any other path is answered 404, and not counted. -/
theorem C213_other_paths (extra : Dict Str Str) (data : List MD) (path : String) (h : path ≠ "/metrics") :
    (doGet extra data path).1.status = 404 ∧ (doGet extra data path).2 = false := by
  simp [doGet, h]

/-- **C213 (the metrics)** A request for the metrics is answered 200, and counted. The text, as read by Prometheus, has one
sample for each of certain entries: they all are entries of the data with the extra labels added; for every entry of the data there is one of the same name and
the labels so extended; and no two have the same name and labels. -/
theorem C213_metrics (extra : Dict Str Str) (data : List MD)
    (hf : ∀ m ∈ data, m.internal = false → Fine m) (he : ∀ p ∈ extra, (∀ c ∈ p.1, nameChar c = true) ∧ '\n' ∉ p.2) :
    (doGet extra data "/metrics").1.status = 200 ∧ (doGet extra data "/metrics").2 = true ∧
    ∃ xs : List MD, text (doGet extra data "/metrics").1.text = some ((xs.filter (fun m => !m.internal)).map sample) ∧
      (∀ x ∈ xs, ∃ m ∈ data, ButLabels m x ∧ Extended extra m.labels x.labels) ∧
      (∀ m ∈ data, ∃ x ∈ xs, x.name = m.name ∧ ∃ ls, Extended extra m.labels ls ∧ Same x.labels ls) ∧
      (xs.Pairwise fun y z => ¬ (y.name = z.name ∧ Same y.labels z.labels)) := by
  refine ⟨rfl, rfl, addLabels extra [] data, ?_, ?_, ?_, ?_⟩
  · show text (export_ _) = _
    apply C125_export_read_back
    intro x hx hi
    rcases (addLabels_mem extra data []).1 x hx with h | ⟨m, hm, rfl⟩
    · cases h
    · have hm' := hf m hm hi
      have key : ∀ (e : Dict Str Str) (ls : Dict Str Str), (∀ p ∈ e, (∀ c ∈ p.1, nameChar c = true) ∧ '\n' ∉ p.2) → (∀ p ∈ ls, (∀ c ∈ p.1, nameChar c = true) ∧ '\n' ∉ p.2) →
          ∀ p ∈ updateLabels ls e, (∀ c ∈ p.1, nameChar c = true) ∧ '\n' ∉ p.2 := by
        intro e
        induction e with
        | nil => intro ls _ h; exact h
        | cons q e ih =>
          intro ls h1 h2
          apply ih _ (fun p hp => h1 p (List.mem_cons_of_mem _ hp))
          intro p hp
          have hs : ∀ (d : Dict Str Str) (k v : Str) p, p ∈ d.set k v → p ∈ d ∨ ((∃ w, (p.1, w) ∈ d) ∧ p.2 = v) ∨ p = (k, v) := by
            intro d k v
            induction d with
            | nil => intro p hp; simp only [Dict.set, List.mem_singleton] at hp; exact Or.inr (Or.inr hp)
            | cons r d ihd =>
              intro p hp
              simp only [Dict.set] at hp
              split at hp
              · rcases List.mem_cons.1 hp with rfl | hp
                · exact Or.inr (Or.inl ⟨⟨r.2, List.mem_cons_self ..⟩, rfl⟩)
                · exact Or.inl (List.mem_cons_of_mem _ hp)
              · rcases List.mem_cons.1 hp with rfl | hp
                · exact Or.inl (List.mem_cons_self ..)
                · rcases ihd p hp with h | ⟨⟨w, h⟩, h'⟩ | h
                  · exact Or.inl (List.mem_cons_of_mem _ h)
                  · exact Or.inr (Or.inl ⟨⟨w, List.mem_cons_of_mem _ h⟩, h'⟩)
                  · exact Or.inr (Or.inr h)
          have hq := h1 q (List.mem_cons_self ..)
          rcases hs ls q.1 q.2 p hp with h | ⟨⟨w, h⟩, h'⟩ | h
          · exact h2 p h
          · exact ⟨(h2 _ h).1, by rw [h']; exact hq.2⟩
          · rw [h]; exact hq
      have h := key extra m.labels he (fun p hp => ⟨hm'.keys p hp, hm'.values p hp⟩)
      exact ⟨hm'.name, fun p hp => (h p hp).1, fun p hp => (h p hp).2, hm'.value, hm'.ts⟩
  · intro x hx
    rcases (addLabels_mem extra data []).1 x hx with h | ⟨m, hm, rfl⟩
    · cases h
    · exact ⟨m, hm, ⟨rfl, rfl, rfl, rfl⟩, updateLabels_spec extra m.labels⟩
  · intro m hm
    obtain ⟨x, hx, h1, h2⟩ := (addLabels_mem extra data []).2.2.1 m hm
    exact ⟨x, hx, h1, _, updateLabels_spec extra m.labels, h2⟩
  · exact (addLabels_mem extra data []).2.2.2 .nil

/-- **C214 (every data point is exported), the violation** Two points that differ in a label that is also an extra one
are exported as one, and a value is lost. -/
theorem C214_lost_violates : ∃ (extra : Dict Str Str) (m m' : MD), m.labels ≠ m'.labels ∧ m.value ≠ m'.value ∧ m.internal = false ∧ m'.internal = false ∧
    text (doGet extra [m, m'] "/metrics").1.text = some [⟨m.name, extra, m.value, none⟩] :=
  ⟨[(['h'], ['x'])], ⟨['a'], [(['h'], ['y'])], ['1'], none, false⟩, ⟨['a'], [(['h'], ['z'])], ['2'], none, false⟩, by decide, by decide, rfl, rfl, by decide⟩

/-- **C214 (every data point is exported), the part that holds** If no two points become equal by the extra labels, every
point is exported, in the order of the data. -/
theorem C214_all_partial (extra : Dict Str Str) (data : List MD)
    (hd : data.Pairwise fun m m' => m.name = m'.name → ∀ ls ls', Extended extra m.labels ls → Extended extra m'.labels ls' → ¬ Same ls ls') :
    ∃ f : MD → MD, (∀ m, ButLabels m (f m) ∧ Extended extra m.labels (f m).labels) ∧ (doGet extra data "/metrics").1.text = export_ (data.map f) := by
  refine ⟨fun m => { m with labels := updateLabels m.labels extra }, fun m => ⟨⟨rfl, rfl, rfl, rfl⟩, updateLabels_spec extra m.labels⟩, ?_⟩
  show export_ (addLabels extra [] data) = _
  rw [addLabels_distinct extra data [] (by simp)]
  · rfl
  · exact hd.imp (fun h hs => h hs.1 _ _ (updateLabels_spec _ _) (updateLabels_spec _ _) hs.2)

/-! ## Termination -/

/-- Where the thread of the server is, `run`, /repo/satella/instrumentation/metrics/exporters/prometheus.py:69-73: not started; about
to bind; about to serve; in the loop of `serve_forever`, between requests or serving one; out of the loop, about to tell; ended; or dead, because the address could not be
bound. -/
inductive Phase where
  | fresh
  | binding
  | ready
  | idle
  | handling (request : Nat)
  | leaving
  | ended
  | dead
  deriving Repr, DecidableEq

/-- The server: `__shutdown_request` and `__is_shut_down` of the standard library; those who called `terminate` and wait, and
those to whom it returned; the requests served.  (Part of the model of `PrometheusHTTPExporterThread`, /repo/satella/instrumentation/metrics/exporters/prometheus.py:31-92.) -/
structure Server where
  phase : Phase := .fresh
  request : Bool := false
  down : Bool := false
  waiting : List Nat := []
  returned : List Nat := []
  served : List Nat := []
  deriving Repr, DecidableEq

/-- What can happen: the thread is started; it binds, or fails to; it takes its next step, perhaps with a request that has
come; somebody calls `terminate`; one that waits is woken.  (Part of the model of `PrometheusHTTPExporterThread`, /repo/satella/instrumentation/metrics/exporters/prometheus.py:31-92.) -/
inductive Act where
  | start
  | bind (ok : Bool)
  | run (request : Option Nat)
  | terminate (caller : Nat)
  | wake (caller : Nat)
  deriving Repr, DecidableEq

/-- One step, /repo/satella/instrumentation/metrics/exporters/prometheus.py:69-73 and `terminate`,
/repo/satella/instrumentation/metrics/exporters/prometheus.py:83-92, with `serve_forever` and `shutdown` of the standard library: `shutdown` sets the request and
waits for the flag; `serve_forever` clears the flag, serves until there is a request, then clears the request and sets the flag. -/
def step (s : Server) : Act → Server
  | .start => if s.phase = .fresh then { s with phase := .binding } else s
  | .bind ok => if s.phase = .binding then { s with phase := if ok then .ready else .dead } else s
  | .run r =>
    match s.phase with
    | .ready => { s with phase := .idle, down := false }
    | .idle =>
      if s.request then { s with phase := .leaving }
      else
        match r with
        | none => s
        | some n => { s with phase := .handling n }
    | .handling n => { s with phase := .idle, served := n :: s.served }
    | .leaving => { s with phase := .ended, request := false, down := true }
    | _ => s
  | .terminate c => if c ∈ s.waiting then s else { s with request := true, waiting := c :: s.waiting }
  | .wake c => if c ∈ s.waiting ∧ s.down = true then { s with waiting := s.waiting.filter (· ≠ c), returned := c :: s.returned } else s

/-- Steps one after another (of `PrometheusHTTPExporterThread`, /repo/satella/instrumentation/metrics/exporters/prometheus.py:31-92). -/
def steps (s : Server) (l : List Act) : Server := l.foldl step s

/-- The invariant. -/
structure Inv (s : Server) : Prop where
  down : s.down = true → s.phase = .ended
  returned : s.returned ≠ [] → s.phase = .ended
  request : s.waiting ≠ [] → s.request = true ∨ s.down = true
  ended : s.phase = .ended → s.down = true

theorem inv_step (s : Server) (a : Act) (h : Inv s) : Inv (step s a) := by
  obtain ⟨p, r, d, w, ret, sv⟩ := s
  obtain ⟨h1, h2, h3, h4⟩ := h
  simp only at h1 h2 h3 h4
  cases a with
  | start =>
    simp only [step]; split
    · rename_i hp; subst hp
      refine ⟨fun h => ?_, fun h => ?_, h3, fun h => ?_⟩
      · exact absurd (h1 h) (by decide)
      · exact absurd (h2 h) (by decide)
      · cases h
    · exact ⟨h1, h2, h3, h4⟩
  | bind ok =>
    simp only [step]; split
    · rename_i hp; subst hp
      refine ⟨fun h => absurd (h1 h) (by decide), fun h => absurd (h2 h) (by decide), h3, fun h => ?_⟩
      cases ok <;> cases h
    · exact ⟨h1, h2, h3, h4⟩
  | run q =>
    cases p with
    | fresh => exact ⟨h1, h2, h3, h4⟩
    | binding => exact ⟨h1, h2, h3, h4⟩
    | dead => exact ⟨h1, h2, h3, h4⟩
    | ended => exact ⟨h1, h2, h3, h4⟩
    | ready =>
      have hd : d = false := by cases d <;> simp_all
      subst hd
      exact ⟨fun h => (by cases h), fun h => absurd (h2 h) (by decide), h3, fun h => (by cases h)⟩
    | idle =>
      have hd : d = false := by cases d <;> simp_all
      subst hd
      simp only [step]; split
      · exact ⟨fun h => (by cases h), fun h => absurd (h2 h) (by decide), h3, fun h => (by cases h)⟩
      · cases q with
        | none => exact ⟨h1, h2, h3, h4⟩
        | some n => exact ⟨fun h => (by cases h), fun h => absurd (h2 h) (by decide), h3, fun h => (by cases h)⟩
    | handling n =>
      have hd : d = false := by cases d <;> simp_all
      subst hd
      exact ⟨fun h => (by cases h), fun h => absurd (h2 h) (by simp), h3, fun h => (by cases h)⟩
    | leaving => exact ⟨fun _ => rfl, fun _ => rfl, fun _ => Or.inr rfl, fun _ => rfl⟩
  | terminate c =>
    simp only [step]; split
    · exact ⟨h1, h2, h3, h4⟩
    · exact ⟨h1, h2, fun _ => Or.inl rfl, h4⟩
  | wake c =>
    simp only [step]; split
    · rename_i hc
      exact ⟨h1, fun _ => h1 hc.2, fun _ => Or.inr hc.2, h4⟩
    · exact ⟨h1, h2, h3, h4⟩

theorem inv_steps (l : List Act) : ∀ s, Inv s → Inv (steps s l) := by
  induction l with
  | nil => intro s h; exact h
  | cons a l ih => intro s h; exact ih _ (inv_step s a h)

theorem inv_init : Inv {} := ⟨fun h => (by cases h), fun h => absurd rfl h, fun h => absurd rfl h, fun h => (by cases h)⟩

theorem step_ended (s : Server) (a : Act) (h : s.phase = .ended) : (step s a).phase = .ended ∧ (step s a).served = s.served := by
  obtain ⟨p, r, d, w, ret, sv⟩ := s
  simp only at h
  subst h
  cases a <;> simp only [step] <;> first | exact ⟨rfl, rfl⟩ | exact ⟨trivial, trivial⟩ | (split <;> first | exact ⟨rfl, rfl⟩ | (rename_i h; cases h))

/-- **C213 (nothing is served after termination)** In every interleaving of the thread with those who terminate it: once
`terminate` has returned to somebody the server has stopped, and serves no further request. -/
theorem C213_terminated (l l' : List Act) (h : (steps {} l).returned ≠ []) :
    (steps {} l).phase = .ended ∧ (steps {} (l ++ l')).served = (steps {} l).served := by
  have hp := (inv_steps l {} inv_init).returned h
  refine ⟨hp, ?_⟩
  have key : ∀ (l' : List Act) s, s.phase = .ended → (steps s l').served = s.served := by
    intro l'
    induction l' with
    | nil => intro s _; rfl
    | cons a l' ih =>
      intro s hs
      have := step_ended s a hs
      show (steps (step s a) l').served = _
      rw [ih _ this.1, this.2]
  have : steps {} (l ++ l') = steps (steps {} l) l' := by simp [steps]
  rw [this]
  exact key l' _ hp

/-- **C213 (requests are served)** After any history: a request that comes when the server waits for one and nobody has asked it to stop is served by the next two steps of the thread, whatever
comes meanwhile and whoever asks it to stop; and only requests that came are served. -/
theorem C213_served (l : List Act) (n : Nat) (l1 : List Act) (r : Option Nat) :
    ((steps {} l).phase = .idle → (steps {} l).request = false → (∀ a ∈ l1, ∀ q, a ≠ .run q) →
      (steps {} (l ++ .run (some n) :: (l1 ++ [.run r]))).served = n :: (steps {} l).served) ∧
    (n ∈ (steps {} l).served → .run (some n) ∈ l) := by
  constructor
  · intro hp hr hl
    have h0 : steps {} (l ++ .run (some n) :: (l1 ++ [.run r])) = step (steps (step (steps {} l) (.run (some n))) l1) (.run r) := by simp [steps]
    rw [h0]
    generalize steps {} l = s at *
    have h1 : step s (.run (some n)) = { s with phase := .handling n } := by simp [step, hp, hr]
    rw [h1]
    have key : ∀ (l1 : List Act) (s' : Server), (∀ a ∈ l1, ∀ q, a ≠ .run q) → s'.phase = .handling n → (steps s' l1).phase = .handling n ∧ (steps s' l1).served = s'.served := by
      intro l1
      induction l1 with
      | nil => intro s' _ h; exact ⟨h, rfl⟩
      | cons a l1 ih =>
        intro s' hl h
        have hs : (step s' a).phase = .handling n ∧ (step s' a).served = s'.served := by
          cases a with
          | run q => exact absurd rfl (hl _ (List.mem_cons_self ..) q)
          | start => simp [step, h]
          | bind ok => simp [step, h]
          | terminate c => simp only [step]; split <;> exact ⟨h, rfl⟩
          | wake c => simp only [step]; split <;> exact ⟨h, rfl⟩
        have := ih (step s' a) (fun b hb => hl b (List.mem_cons_of_mem _ hb)) hs.1
        exact ⟨this.1, this.2.trans hs.2⟩
    have := key l1 { s with phase := .handling n } hl rfl
    simp [step, this.1, this.2]
  · have key : ∀ (l : List Act) (s : Server), (n ∈ (steps s l).served ∨ (steps s l).phase = .handling n) → .run (some n) ∈ l ∨ n ∈ s.served ∨ s.phase = .handling n := by
      intro l
      induction l with
      | nil => intro s h; exact Or.inr h
      | cons a l ih =>
        intro s h
        rcases ih (step s a) h with h | h
        · exact Or.inl (List.mem_cons_of_mem _ h)
        · obtain ⟨p, r, d, w, ret, sv⟩ := s
          cases a with
          | start => simp only [step] at h; split at h <;> simp_all
          | bind ok => simp only [step] at h; split at h <;> cases ok <;> simp_all
          | terminate c => simp only [step] at h; split at h <;> simp_all
          | wake c => simp only [step] at h; split at h <;> simp_all
          | run q =>
            cases p with
            | idle =>
              cases r with
              | true => simp [step] at h; simp [h]
              | false =>
                cases q with
                | none => simp [step] at h; simp [h]
                | some m =>
                  simp [step] at h
                  rcases h with h | h
                  · simp [h]
                  · simp [h]
            | handling m => simp [step] at h; rcases h with rfl | h <;> simp_all
            | _ => simp_all [step]
    intro h
    rcases key l {} (Or.inl h) with h | h | h
    · exact h
    · cases h
    · cases h

/-- A request comes, the server is asked to stop, and the request is still served. -/
example : let s := steps {} [.start, .bind true, .run none]
    s.phase = .idle ∧ s.request = false ∧ (steps {} ([.start, .bind true, .run none] ++ .run (some 7) :: ([.terminate 3] ++ [.run none]))).served = [7] := by decide

/-- **C214 (terminate returns), the violation** Called on a thread that was not started, or that could not bind its
address, `terminate` does not return, whatever happens then, except that the thread is started and binds. -/
theorem C214_never_returns_violates (c : Nat) (l : List Act) (h : .bind true ∉ l) :
    (steps {} (.terminate c :: l)).returned = [] ∧ (steps {} ([.start, .bind false, .terminate c] ++ l)).returned = [] := by
  have key : ∀ (l : List Act) (s : Server), .bind true ∉ l → s.returned = [] → s.down = false → (s.phase = .fresh ∨ s.phase = .binding ∨ s.phase = .dead) → (steps s l).returned = [] := by
    intro l
    induction l with
    | nil => intro s _ h _ _; exact h
    | cons a l ih =>
      intro s hb hr hd hp
      have hb' : .bind true ∉ l := fun h => hb (List.mem_cons_of_mem _ h)
      show (steps (step s a) l).returned = []
      obtain ⟨p, r, d, w, ret, sv⟩ := s
      simp only at hr hd hp
      subst hr hd
      cases a with
      | start =>
        simp only [step]; split
        · exact ih _ hb' rfl rfl (Or.inr (Or.inl rfl))
        · exact ih _ hb' rfl rfl hp
      | bind ok =>
        cases ok with
        | true => exact absurd (List.mem_cons_self ..) hb
        | false =>
          simp only [step]; split
          · exact ih _ hb' rfl rfl (Or.inr (Or.inr rfl))
          · exact ih _ hb' rfl rfl hp
      | run q =>
        rcases hp with rfl | rfl | rfl
        · exact ih _ hb' rfl rfl (Or.inl rfl)
        · exact ih _ hb' rfl rfl (Or.inr (Or.inl rfl))
        · exact ih _ hb' rfl rfl (Or.inr (Or.inr rfl))
      | terminate c =>
        simp only [step]; split
        · exact ih _ hb' rfl rfl hp
        · exact ih _ hb' rfl rfl hp
      | wake c => simp only [step, Bool.false_eq_true, and_false, ↓reduceIte]; exact ih _ hb' rfl rfl hp
  constructor
  · exact key l _ h rfl rfl (Or.inl rfl)
  · exact key l _ h rfl rfl (Or.inr (Or.inr rfl))

/-- **C214 (terminate returns), the part that holds** After any history in which the thread was started and bound its address,
anybody who waits in `terminate` gets out, once the thread has taken four steps more and they are woken: also while requests
keep coming. -/
theorem C214_returns_partial (l : List Act) (c : Nat) (hc : c ∈ (steps {} l).waiting)
    (hp : (steps {} l).phase ≠ .fresh ∧ (steps {} l).phase ≠ .binding ∧ (steps {} l).phase ≠ .dead) (r1 r2 r3 r4 : Option Nat) :
    c ∈ (steps (steps {} l) [.run r1, .run r2, .run r3, .run r4, .wake c]).returned ∧ c ∉ (steps (steps {} l) [.run r1, .run r2, .run r3, .run r4, .wake c]).waiting := by
  have hi := inv_steps l {} inv_init
  generalize steps {} l = s at *
  obtain ⟨p, r, d, w, ret, sv⟩ := s
  obtain ⟨h1, h2, h3, h4⟩ := hi
  simp only at hc hp h1 h3 h4
  have hw : w ≠ [] := by rintro rfl; cases hc
  have hr := h3 hw
  cases p with
  | fresh => exact absurd rfl hp.1
  | binding => exact absurd rfl hp.2.1
  | dead => exact absurd rfl hp.2.2
  | ended => have := h4 rfl; subst this; simp [steps, step, hc]
  | ready =>
    have hd : d = false := by cases d <;> simp_all
    subst hd
    have hr' : r = true := by simpa using hr
    subst hr'
    simp [steps, step, hc]
  | idle =>
    have hd : d = false := by cases d <;> simp_all
    subst hd
    have hr' : r = true := by simpa using hr
    subst hr'
    simp [steps, step, hc]
  | handling n =>
    have hd : d = false := by cases d <;> simp_all
    subst hd
    have hr' : r = true := by simpa using hr
    subst hr'
    simp [steps, step, hc]
  | leaving => simp [steps, step, hc]

/-! ## Examples -/

example : (steps {} [.start, .bind true, .run none, .run (some 1), .terminate 0, .run none, .run (some 2), .run none, .wake 0]) =
    { phase := .ended, request := false, down := true, waiting := [], returned := [0], served := [1] } := rfl
example : (0 ∈ (steps {} [.start, .bind true, .terminate 0]).waiting) ∧ (steps {} [.start, .bind true, .terminate 0]).phase = .ready := by decide
example : text (doGet [(['h'], ['x'])] [⟨['a', '.', 'b'], [], ['1'], none, false⟩] "/metrics").1.text = some [⟨['a', '_', 'b'], [(['h'], ['x'])], ['1'], none⟩] := by decide

end Verif.Prometheus
