import Verif.Metrics.Summary
import Verif.Metrics.Cps
import Verif.Metrics.Linkfail
import Verif.Metrics.Prometheus
/-! # C60 for the other kinds of metrics, and for the Prometheus exporter -/
namespace Verif.Metrics
open Verif

/-- of a report whose entries are all flagged as the metric is, removing internals leaves all or nothing -/
theorem flagged_report {H : Name × ELabels → Nat} {s : Coll ELabels Int} (hs : OnePerKey s) (internal : Bool) (hf : ∀ x, Has s x → x.internal = internal) (x : Entry) :
    Has (Coll.removeInternals H s) x ↔ internal = false ∧ Has s x := by
  rw [C42_internals H hs]
  constructor
  · rintro ⟨h1, h2⟩; exact ⟨by rw [← hf x h1]; exact h2, h1⟩
  · rintro ⟨h1, h2⟩; exact ⟨h2, by rw [hf x h2]; exact h1⟩

/-- **C60, simple metrics, without labels** (partial: it has had no labels). Nothing of an internal metric is left once internal entries are removed, and all of one that is not internal. -/
theorem C60_simple_partial {H : Name × ELabels → Nat} (name : Name) (internal : Bool) (m : EM Int) (h : m.embedded = false) (x : Entry) :
    Has (Coll.removeInternals H (simpleReport H name internal m)) x ↔ internal = false ∧ Has (simpleReport H name internal m) x := by
  have e : simpleReport H name internal m = Coll.ofList H [⟨name, m.own, ([], []), none, internal⟩] := by simp [simpleReport, h]
  rw [e]
  exact flagged_report (built_good (H := H) (.ofList _)).2 internal (fun y hy => by rw [(has_single _ _).1 hy]) x

/-- **C60, clicks per time unit, without labels** (partial: it has had no labels), likewise. -/
theorem C60_cps_partial {H : Name × ELabels → Nat} (cf : CpsConf) (now : Labels → Int) (m : EM (List Int)) (h : m.embedded = false) (x : Entry) :
    Has (Coll.removeInternals H (cpsReport H cf now m)) x ↔ cf.internal = false ∧ Has (cpsReport H cf now m) x := by
  have e : cpsReport H cf now m = countVectors H cf cf.internal (now []) [] m.own := by simp [cpsReport, h]
  rw [e]
  exact flagged_report (built_good (H := H) (.ofList _)).2 cf.internal (fun y hy => by obtain ⟨p, _, rfl⟩ := (countVectors_has _ _ _ _ _ _).1 hy; rfl) x

/-- **C60, summaries, without labels** (partial: it has had no labels), likewise. -/
theorem C60_summary_partial {H : Name × ELabels → Nat} {pct : List Int → Int → Int} (cf : SumConf) (m : EM SumSt) (h : m.embedded = false) (x : Entry) :
    Has (Coll.removeInternals H (sumReport H pct cf m)) x ↔ cf.internal = false ∧ Has (sumReport H pct cf m) x := by
  have e : sumReport H pct cf m = sumLeaf H pct cf cf.internal [] m.own := by simp [sumReport, h]
  rw [e]
  refine flagged_report (sumLeaf_tagged cf cf.internal [] m.own).1 cf.internal (fun y hy => ?_) x
  rcases (sumLeaf_has cf cf.internal [] m.own _ (.refl _) y).2.1 hy with ⟨q, _, l, _, _, rfl⟩ | ⟨_, rfl | rfl⟩ <;> rfl

/-- **C60, links.** Nothing of an internal LinkfailMetric is left once internal entries are removed, and all of one that is not internal, after every history of reports about any addresses. -/
theorem C60_linkfail {H : Name × ELabels → Nat} (cf : LinkConf) (ops : List (Bool × Int)) (order : List Int) (x : Entry) :
    let s := LinkSt.run cf .new ops
    Has (Coll.removeInternals H (linkReport H cf s order)) x ↔ cf.internal = false ∧ Has (linkReport H cf s order) x := by
  intro s
  have key : ∀ (l : List Entry) (v : Coll ELabels Int), Built H v → (∀ y ∈ l, y.internal = cf.internal) → (∀ y, Has v y → y.internal = cf.internal) →
      Built H (l.foldl (Coll.addOne H) v) ∧ ∀ y, Has (l.foldl (Coll.addOne H) v) y → y.internal = cf.internal := by
    intro l
    induction l with
    | nil => intro v hb _ hv; exact ⟨hb, hv⟩
    | cons m l ih =>
      intro v hb hl hv
      refine ih _ (.addOne m hb) (fun y hy => hl y (List.mem_cons_of_mem _ hy)) (fun y hy => ?_)
      rcases (C42_add_entry_partial hb m y).1 hy with rfl | ⟨hy, _⟩
      · exact hl y List.mem_cons_self
      · exact hv y hy
  obtain ⟨h1, h2⟩ := key (order.flatMap (linkEntries cf s)) [] (.ofList []) (by
    intro y hy
    obtain ⟨a, _, hy⟩ := List.mem_flatMap.1 hy
    simp only [linkEntries, List.mem_cons, List.not_mem_nil, or_false] at hy
    rcases hy with rfl | rfl | rfl <;> rfl) (by rintro y ⟨e, he, _⟩; cases he)
  exact flagged_report (built_good h1).2 cf.internal h2 x

/-! Concrete cases: metrics without labels, of which the first is internal; links at two addresses. -/
example : (⟨3, false, []⟩ : EM Int).embedded = false ∧
    (simpleReport (fun _ => 0) ['a'] true ⟨3, false, []⟩).map (·.md) = [⟨['a'], 3, ([], []), none, true⟩] ∧
    (Coll.removeInternals (fun _ => 0) (simpleReport (fun _ => 0) ['a'] true ⟨3, false, []⟩)).map (·.md) = [] ∧
    (Coll.removeInternals (fun _ => 0) (simpleReport (fun _ => 0) ['a'] false ⟨3, false, []⟩)).map (·.md) = [⟨['a'], 3, ([], []), none, false⟩] := by decide
example : (Coll.removeInternals (fun _ => 0) (linkReport (fun _ => 0) ⟨['l'], 1, 1, false⟩ (LinkSt.run ⟨['l'], 1, 1, false⟩ .new [(true, 1), (false, 2)]) [1, 2])).length = 5 ∧
    (Coll.removeInternals (fun _ => 0) (linkReport (fun _ => 0) ⟨['l'], 1, 1, true⟩ (LinkSt.run ⟨['l'], 1, 1, true⟩ .new [(true, 1), (false, 2)]) [1, 2])).length = 0 := by decide +kernel

end Verif.Metrics

namespace Verif.Prometheus

/-- **C60, Prometheus.** An internal entry, wherever it is among the others, makes no difference to what Prometheus reads; and a text that is rendered of internal entries only holds nothing. -/
theorem C60_prometheus (pre post : List MD) (m : MD) (h : m.internal = true) :
    text (export_ (pre ++ m :: post)) = text (export_ (pre ++ post)) ∧ ((∀ x ∈ pre ++ post, x.internal = true) → text (export_ (pre ++ m :: post)) = some []) := by
  have hone : ∀ l : List MD, l ≠ [] → export_ l = (l.filter (fun m => !m.internal)).flatMap renderLine := by
    intro l hl
    cases l with
    | nil => exact absurd rfl hl
    | cons a l => rfl
  have hdrop : (pre ++ m :: post).filter (fun m => !m.internal) = (pre ++ post).filter (fun m => !m.internal) := by simp [h]
  refine ⟨?_, fun hall => ?_⟩
  · rw [hone _ (by simp), hdrop]
    by_cases hn : pre ++ post = []
    · rw [hn]; decide
    · rw [hone _ hn]
  · rw [hone _ (by simp), hdrop, List.filter_eq_nil_iff.2 (fun x hx => by simp [hall x hx])]
    decide

example : text (export_ [⟨['a'], [], ['1'], none, true⟩, ⟨['b'], [], ['2'], none, false⟩]) = some [⟨['b'], [], ['2'], none⟩] := by decide +kernel

end Verif.Prometheus
