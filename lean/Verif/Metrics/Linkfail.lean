import Verif.Metrics.Summary
/-!
# Model of LinkfailMetric (satella/instrumentation/metrics/metric_types/linkfail.py), C41

Links without labels; with labels each set of labels, the address included, has a metric of its own, which sees only address 0 (base.py:199-217).  Callbacks are seen by their log.
-/
namespace Verif.Metrics
open Verif

/-- a defaultdict with one key changed.  (Part of the model of `LinkfailMetric`, /repo/satella/instrumentation/metrics/metric_types/linkfail.py:9-85.) -/
def putAt {β : Type} (f : Int → β) (a : Int) (v : β) : Int → β := fun x => if x = a then v else f x

/-- thresholds, /repo/satella/instrumentation/metrics/metric_types/linkfail.py:28-35 -/
structure LinkConf where
  name : Name
  toOffline : Nat
  toOnline : Nat
  internal : Bool

/-- calls of the callbacks.  (Part of the model of `LinkfailMetric`, /repo/satella/instrumentation/metrics/metric_types/linkfail.py:9-85.) -/
inductive LinkEvent where
  | online (address : Int)
  | offline (address : Int)
  deriving DecidableEq, Repr

/-- state, /repo/satella/instrumentation/metrics/metric_types/linkfail.py:42-44; `keys` are the keys of the two counters, `log` the calls of the callbacks so far -/
structure LinkSt where
  working : Int → Bool
  failures : Int → Nat
  successes : Int → Nat
  keys : List Int
  log : List LinkEvent

/-- a new metric, /repo/satella/instrumentation/metrics/metric_types/linkfail.py:42-44 -/
def LinkSt.new : LinkSt := ⟨fun _ => true, fun _ => 0, fun _ => 0, [], []⟩

/-- `_handle`, /repo/satella/instrumentation/metrics/metric_types/linkfail.py:50-67 -/
def LinkSt.handle (cf : LinkConf) (s : LinkSt) (success : Bool) (a : Int) : LinkSt :=
  let s := { s with keys := setAdd s.keys a }
  if success then
    let s := { s with failures := putAt s.failures a 0, successes := putAt s.successes a (s.successes a + 1) }
    if !s.working a then
      if s.successes a = cf.toOnline then { s with working := putAt s.working a true, log := s.log ++ [.online a] } else s
    else s
  else
    let s := { s with failures := putAt s.failures a (s.failures a + 1), successes := putAt s.successes a 0 }
    if s.working a then
      if s.failures a = cf.toOffline then { s with working := putAt s.working a false, log := s.log ++ [.offline a] } else s
    else s

/-- a history of reports of success and failure.  (Part of the model of `LinkfailMetric`, /repo/satella/instrumentation/metrics/metric_types/linkfail.py:9-85.) -/
def LinkSt.run (cf : LinkConf) (s : LinkSt) (ops : List (Bool × Int)) : LinkSt := ops.foldl (fun s o => s.handle cf o.1 o.2) s

section
variable (H : Name × ELabels → Nat)

/-- the label `address`, left out when 0 is the only address, /repo/satella/instrumentation/metrics/metric_types/linkfail.py:74-76 -/
def addressLabel (keys : List Int) (a : Int) : List Int := if (keys.all (· == 0)) && keys.contains 0 then [] else [a]

/-- the three entries of an address, /repo/satella/instrumentation/metrics/metric_types/linkfail.py:77-84; `.status` has no address -/
def linkEntries (cf : LinkConf) (s : LinkSt) (a : Int) : List Entry :=
  [⟨cf.name ++ ".consecutive_failures".toList, s.failures a, ([], addressLabel s.keys a), none, cf.internal⟩,
   ⟨cf.name ++ ".consecutive_successes".toList, s.successes a, ([], addressLabel s.keys a), none, cf.internal⟩,
   ⟨cf.name ++ ".status".toList, if s.working a then 1 else 0, ([], []), none, cf.internal⟩]

/-- `to_metric_data`, /repo/satella/instrumentation/metrics/metric_types/linkfail.py:69-85; `order` is the order in which the set of addresses is gone through -/
def linkReport (cf : LinkConf) (s : LinkSt) (order : List Int) : Coll ELabels Int :=
  (order.flatMap (linkEntries cf s)).foldl (Coll.addOne H) []
end

/-! ## Specification -/

/-- how many of the latest reports are all `b` -/
def streak (b : Bool) (bs : List Bool) : Nat := (bs.reverse.takeWhile (· == b)).length

/-- the reports on an address -/
def reports (ops : List (Bool × Int)) (a : Int) : List Bool := (ops.filter (fun o => decide (o.2 = a))).map (·.1)

/-- The life of a link: reports so far, whether it is online, and the callbacks so far (`true`: online).  It goes offline exactly when it is online and a run of `F` failures is completed, and online exactly
when it is offline and a run of `S` successes is completed; the callbacks are called then, and only then. -/
inductive Link (F S : Nat) : List Bool → Bool → List Bool → Prop
  | new : Link F S [] true []
  | fails {bs ev} : Link F S bs true ev → streak false (bs ++ [false]) = F → Link F S (bs ++ [false]) false (ev ++ [false])
  | recovers {bs ev} : Link F S bs false ev → streak true (bs ++ [true]) = S → Link F S (bs ++ [true]) true (ev ++ [true])
  | stays {bs w ev b} : Link F S bs w ev → ¬ (w = true ∧ b = false ∧ streak false (bs ++ [b]) = F) → ¬ (w = false ∧ b = true ∧ streak true (bs ++ [b]) = S) → Link F S (bs ++ [b]) w ev

/-- the callbacks for an address: `true` for online -/
def eventsOf (log : List LinkEvent) (a : Int) : List Bool := log.filterMap (fun e => match e with | .online b => if b = a then some true else none | .offline b => if b = a then some false else none)

/-! ## Proofs -/

theorem streak_append (b c : Bool) (bs : List Bool) : streak b (bs ++ [c]) = if c = b then streak b bs + 1 else 0 := by
  unfold streak
  rw [List.reverse_append, List.reverse_singleton, List.singleton_append, List.takeWhile_cons]
  by_cases h : c = b
  · simp [h]
  · simp [h]

theorem eventsOf_append (l : List LinkEvent) (e : LinkEvent) (a : Int) : eventsOf (l ++ [e]) a = eventsOf l a ++ eventsOf [e] a := by
  unfold eventsOf
  rw [List.filterMap_append]

theorem reports_append (ops : List (Bool × Int)) (o : Bool × Int) (a : Int) : reports (ops ++ [o]) a = if o.2 = a then reports ops a ++ [o.1] else reports ops a := by
  unfold reports
  rw [List.filter_append, List.map_append]
  by_cases h : o.2 = a <;> simp [h]

theorem putAt_self {β : Type} (f : Int → β) (a : Int) (v : β) : putAt f a v a = v := by simp [putAt]

/-- the state tells, for each address, the state of its link -/
def LinkRep (cf : LinkConf) (s : LinkSt) (ops : List (Bool × Int)) : Prop :=
  (∀ a, s.failures a = streak false (reports ops a) ∧ s.successes a = streak true (reports ops a) ∧ Link cf.toOffline cf.toOnline (reports ops a) (s.working a) (eventsOf s.log a)) ∧
  s.keys.Nodup ∧ ∀ a, a ∈ s.keys ↔ ∃ b, (b, a) ∈ ops

theorem link_step (cf : LinkConf) (s : LinkSt) (ops : List (Bool × Int)) (h : LinkRep cf s ops) (b : Bool) (a : Int) : LinkRep cf (s.handle cf b a) (ops ++ [(b, a)]) := by
  obtain ⟨h1, h2, h3⟩ := h
  have hk : (s.handle cf b a).keys = setAdd s.keys a := by
    unfold LinkSt.handle
    dsimp only
    split
    · split
      · split <;> rfl
      · rfl
    · split
      · split <;> rfl
      · rfl
  refine ⟨fun x => ?_, ?_⟩
  · rw [reports_append]
    by_cases hx : a = x
    · subst hx
      obtain ⟨f, g, l⟩ := h1 a
      simp only [if_true]
      cases b with
      | true =>
        have f' : streak false (reports ops a ++ [true]) = 0 := by rw [streak_append]; rfl
        have g' : streak true (reports ops a ++ [true]) = s.successes a + 1 := by rw [streak_append, g]; rfl
        rw [f', g']
        simp only [LinkSt.handle, putAt_self, if_true]
        cases hw : s.working a with
        | true =>
          simp only [Bool.not_true, Bool.false_eq_true, if_false, hw, putAt_self, true_and]
          rw [hw] at l
          exact .stays l (by simp) (by simp)
        | false =>
          rw [hw] at l
          simp only [Bool.not_false, if_true]
          split
          · rename_i he
            simp only [putAt_self, true_and]
            rw [eventsOf_append, show eventsOf [LinkEvent.online a] a = [true] from by simp [eventsOf]]
            exact .recovers l (by rw [g']; exact he)
          · rename_i he
            simp only [putAt_self, true_and, hw]
            exact .stays l (by simp) (by rw [g']; exact fun h => he h.2.2)
      | false =>
        have f' : streak false (reports ops a ++ [false]) = s.failures a + 1 := by rw [streak_append, f]; rfl
        have g' : streak true (reports ops a ++ [false]) = 0 := by rw [streak_append]; rfl
        rw [f', g']
        simp only [LinkSt.handle, putAt_self, if_true, Bool.false_eq_true, if_false]
        cases hw : s.working a with
        | false =>
          simp only [Bool.false_eq_true, if_false, hw, putAt_self, true_and]
          rw [hw] at l
          exact .stays l (by simp) (by simp)
        | true =>
          rw [hw] at l
          simp only [if_true]
          split
          · rename_i he
            simp only [putAt_self, true_and]
            rw [eventsOf_append, show eventsOf [LinkEvent.offline a] a = [false] from by simp [eventsOf]]
            exact .fails l (by rw [f']; exact he)
          · rename_i he
            simp only [putAt_self, true_and, hw]
            exact .stays l (by rw [f']; exact fun h => he h.2.2) (by simp)
    · rw [if_neg hx]
      have hx' : ¬ x = a := fun e => hx e.symm
      have e1 : (s.handle cf b a).failures x = s.failures x ∧ (s.handle cf b a).successes x = s.successes x ∧ (s.handle cf b a).working x = s.working x ∧ eventsOf (s.handle cf b a).log x = eventsOf s.log x := by
        unfold LinkSt.handle
        dsimp only
        split
        · split
          · split <;> simp [putAt, hx', hx, eventsOf]
          · simp [putAt, hx']
        · split
          · split <;> simp [putAt, hx', hx, eventsOf]
          · simp [putAt, hx']
      rw [e1.1, e1.2.1, e1.2.2.1, e1.2.2.2]
      exact h1 x
  · rw [hk]
    refine ⟨?_, fun x => ?_⟩
    · unfold setAdd
      split
      · exact h2
      · rename_i hc
        exact List.nodup_append.2 ⟨h2, by simp, fun u hu v hv => by
          simp only [List.mem_singleton] at hv
          subst hv
          rintro rfl
          exact hc hu⟩
    · have : x ∈ setAdd s.keys a ↔ x ∈ s.keys ∨ x = a := by
        unfold setAdd
        split
        · rename_i hc
          constructor
          · exact Or.inl
          · rintro (h | rfl)
            · exact h
            · exact hc
        · simp
      rw [this, h3]
      simp only [List.mem_append, List.mem_singleton, Prod.mk.injEq]
      constructor
      · rintro (⟨b', h⟩ | rfl)
        · exact ⟨b', Or.inl h⟩
        · exact ⟨b, Or.inr ⟨rfl, rfl⟩⟩
      · rintro ⟨b', h | ⟨_, rfl⟩⟩
        · exact Or.inl ⟨b', h⟩
        · exact Or.inr rfl

theorem link_run (cf : LinkConf) (ops : List (Bool × Int)) : LinkRep cf (LinkSt.run cf .new ops) ops := by
  suffices ∀ (ops done : List (Bool × Int)) (s : LinkSt), LinkRep cf s done → LinkRep cf (LinkSt.run cf s ops) (done ++ ops) from
    this ops [] .new ⟨fun a => ⟨rfl, rfl, .new⟩, List.nodup_nil, fun a => by simp [LinkSt.new]⟩
  intro ops
  induction ops with
  | nil => intro done s h; simpa [LinkSt.run] using h
  | cons o ops ih =>
    intro done s h
    have := ih (done ++ [o]) (s.handle cf o.1 o.2) (link_step cf s done h o.1 o.2)
    rw [List.append_assoc] at this
    exact this

/-- **C41.** Whatever reports there are on any number of links, each link goes through the life laid down by the reports on it alone, and the callbacks called for it are exactly those of its
transitions, in order. -/
theorem C41_linkfail (cf : LinkConf) (ops : List (Bool × Int)) (a : Int) :
    Link cf.toOffline cf.toOnline (reports ops a) ((LinkSt.run cf .new ops).working a) (eventsOf (LinkSt.run cf .new ops).log a) := ((link_run cf ops).1 a).2.2

/-- there is only one such life -/
theorem link_unique {F S : Nat} : ∀ {bs : List Bool} {w w' : Bool} {ev ev' : List Bool}, Link F S bs w ev → Link F S bs w' ev' → w = w' ∧ ev = ev' := by
  intro bs w w' ev ev' h
  induction h generalizing w' ev' with
  | new =>
    intro h'
    generalize hb : ([] : List Bool) = bs at h'
    cases h' with
    | new => exact ⟨rfl, rfl⟩
    | fails => simp at hb
    | recovers => simp at hb
    | stays => simp at hb
  | @fails bs ev h1 h2 ih =>
    intro h'
    generalize hb : bs ++ [false] = bs' at h'
    cases h' with
    | new => simp at hb
    | fails h3 h4 => 
      obtain ⟨e, _⟩ := List.append_inj' hb rfl
      subst e
      obtain ⟨_, rfl⟩ := ih h3
      exact ⟨rfl, rfl⟩
    | recovers h3 h4 =>
      obtain ⟨_, e⟩ := List.append_inj' hb rfl
      cases e
    | stays h3 h4 h5 =>
      obtain ⟨e, e'⟩ := List.append_inj' hb rfl
      subst e
      cases e'
      obtain ⟨rfl, rfl⟩ := ih h3
      exact absurd ⟨rfl, rfl, h2⟩ h4
  | @recovers bs ev h1 h2 ih =>
    intro h'
    generalize hb : bs ++ [true] = bs' at h'
    cases h' with
    | new => simp at hb
    | recovers h3 h4 => 
      obtain ⟨e, _⟩ := List.append_inj' hb rfl
      subst e
      obtain ⟨_, rfl⟩ := ih h3
      exact ⟨rfl, rfl⟩
    | fails h3 h4 =>
      obtain ⟨_, e⟩ := List.append_inj' hb rfl
      cases e
    | stays h3 h4 h5 =>
      obtain ⟨e, e'⟩ := List.append_inj' hb rfl
      subst e
      cases e'
      obtain ⟨rfl, rfl⟩ := ih h3
      exact absurd ⟨rfl, rfl, h2⟩ h5
  | @stays bs w ev b h1 h2 h3 ih =>
    intro h'
    generalize hb : bs ++ [b] = bs' at h'
    cases h' with
    | new => simp at hb
    | fails h4 h5 =>
      obtain ⟨e, e'⟩ := List.append_inj' hb rfl
      subst e
      cases e'
      obtain ⟨rfl, rfl⟩ := ih h4
      exact absurd ⟨rfl, rfl, h5⟩ h2
    | recovers h4 h5 =>
      obtain ⟨e, e'⟩ := List.append_inj' hb rfl
      subst e
      cases e'
      obtain ⟨rfl, rfl⟩ := ih h4
      exact absurd ⟨rfl, rfl, h5⟩ h3
    | stays h4 h5 h6 =>
      obtain ⟨e, e'⟩ := List.append_inj' hb rfl
      subst e
      cases e'
      exact ih h4

/-- the callbacks alternate, offline first -/
def Alternates : Bool → List Bool → Prop
  | _, [] => True
  | b, e :: es => e = b ∧ Alternates (!b) es

theorem alternates_append (es : List Bool) : ∀ b, Alternates b es → Alternates b (es ++ [if es.length % 2 = 0 then b else !b]) := by
  induction es with
  | nil => intro b _; simp [Alternates]
  | cons e es ih =>
    intro b h
    obtain ⟨rfl, h⟩ := h
    refine ⟨rfl, ?_⟩
    have := ih _ h
    have e2 : (if (e :: es).length % 2 = 0 then e else !e) = if es.length % 2 = 0 then !e else !!e := by
      simp only [List.length_cons]
      by_cases h2 : es.length % 2 = 0
      · rw [if_neg (by omega), if_pos h2]
      · rw [if_pos (by omega), if_neg h2, Bool.not_not]
    show Alternates (!e) (es ++ [_])
    rw [e2]
    exact this

/-- **C41**: for each link the callbacks alternate, offline first, and the last tells whether it is online. -/
theorem C41_alternate {F S : Nat} {bs : List Bool} {w : Bool} {ev : List Bool} (h : Link F S bs w ev) : Alternates false ev ∧ w = ev.getLast?.getD true := by
  suffices Alternates false ev ∧ w = ev.getLast?.getD true ∧ (w = true ↔ ev.length % 2 = 0) from ⟨this.1, this.2.1⟩
  induction h with
  | new => simp [Alternates]
  | @fails bs ev _ _ ih =>
    have h0 := ih.2.2.1 rfl
    have := alternates_append ev false ih.1
    rw [if_pos h0] at this
    exact ⟨this, by simp, by simp; omega⟩
  | @recovers bs ev _ _ ih =>
    have h0 : ¬ ev.length % 2 = 0 := fun e => by have := ih.2.2.2 e; cases this
    have := alternates_append ev false ih.1
    rw [if_neg h0] at this
    exact ⟨this, by simp, by simp; omega⟩
  | stays _ _ _ ih => exact ih

/-- **C41**: a link whose last `consecutive_failures_to_offline` reports (or more) were failures is offline; one whose last `consecutive_successes_to_online` reports (or more) were successes is online. -/
theorem C41_status {F S : Nat} (hF : 0 < F) (hS : 0 < S) {bs : List Bool} {w : Bool} {ev : List Bool} (h : Link F S bs w ev) :
    (F ≤ streak false bs → w = false) ∧ (S ≤ streak true bs → w = true) := by
  have one : ∀ bs : List Bool, streak false bs = 0 ∨ streak true bs = 0 := by
    intro bs
    rcases List.eq_nil_or_concat bs with rfl | ⟨l, c, rfl⟩
    · exact Or.inl rfl
    · rw [List.concat_eq_append, streak_append, streak_append]
      cases c <;> simp
  induction h with
  | new => simp [streak]; omega
  | @fails bs ev _ h2 _ => 
    refine ⟨fun _ => rfl, fun hs => ?_⟩
    rw [streak_append] at hs
    simp at hs
    omega
  | @recovers bs ev _ h2 _ =>
    refine ⟨fun hs => ?_, fun _ => rfl⟩
    rw [streak_append] at hs
    simp at hs
    omega
  | @stays bs w ev b _ h2 h3 ih =>
    cases b with
    | true =>
      rw [streak_append, streak_append]
      rw [streak_append] at h3
      simp only [Bool.true_eq_false, if_false, if_true] at h3 ⊢
      refine ⟨fun h => absurd h (by omega), fun h => ?_⟩
      cases w with
      | true => rfl
      | false =>
        by_cases he : streak true bs + 1 = S
        · exact absurd ⟨rfl, trivial, he⟩ h3
        · exact ih.2 (by omega)
    | false =>
      rw [streak_append, streak_append]
      rw [streak_append] at h2
      simp only [Bool.false_eq_true, if_false, if_true] at h2 ⊢
      refine ⟨fun h => ?_, fun h => absurd h (by omega)⟩
      cases w with
      | false => rfl
      | true =>
        by_cases he : streak false bs + 1 = F
        · exact absurd ⟨rfl, trivial, he⟩ h2
        · exact ih.1 (by omega)

section
variable {H : Name × ELabels → Nat}

theorem has_foldAdd_mem (l : List Entry) : ∀ (v : Coll ELabels Int), Built H v → (∀ m, Has v m → ∀ m' ∈ l, m.key = m'.key → m = m') → (∀ m ∈ l, ∀ m' ∈ l, m.key = m'.key → m = m') →
    ∀ x, Has (l.foldl (Coll.addOne H) v) x ↔ Has v x ∨ x ∈ l := by
  induction l with
  | nil => intro v _ _ _ x; simp
  | cons m l ih =>
    intro v hb h1 h2 x
    have hadd := C42_add_entry_partial (H := H) hb m
    rw [List.foldl_cons, ih _ (.addOne _ hb), hadd, List.mem_cons]
    · constructor
      · rintro ((rfl | ⟨h, _⟩) | h)
        · exact Or.inr (Or.inl rfl)
        · exact Or.inl h
        · exact Or.inr (Or.inr h)
      · rintro (h | rfl | h)
        · by_cases he : x.key = m.key
          · exact Or.inl (Or.inl (h1 x h m (List.mem_cons_self ..) he))
          · exact Or.inl (Or.inr ⟨h, he⟩)
        · exact Or.inl (Or.inl rfl)
        · exact Or.inr h
    · intro m' hm' m2 hm2 hk
      rcases (hadd m').1 hm' with rfl | ⟨h, _⟩
      · exact h2 _ (List.mem_cons_self ..) _ (List.mem_cons_of_mem _ hm2) hk
      · exact h1 _ h _ (List.mem_cons_of_mem _ hm2) hk
    · exact fun a ha b hb' => h2 a (List.mem_cons_of_mem _ ha) b (List.mem_cons_of_mem _ hb')

/-- **C41, report** (partial: one link only). The entries tell how long the latest runs are and whether the link is online. -/
theorem C41_report_partial (cf : LinkConf) (ops : List (Bool × Int)) (a : Int) (hne : ops ≠ []) (ha : ∀ o ∈ ops, o.2 = a) (order : List Int) (ho : order.Perm (LinkSt.run cf .new ops).keys) (x : Entry) :
    Has (linkReport H cf (LinkSt.run cf .new ops) order) x ↔
      x = ⟨cf.name ++ ".consecutive_failures".toList, streak false (reports ops a), ([], if a = 0 then [] else [a]), none, cf.internal⟩ ∨
      x = ⟨cf.name ++ ".consecutive_successes".toList, streak true (reports ops a), ([], if a = 0 then [] else [a]), none, cf.internal⟩ ∨
      x = ⟨cf.name ++ ".status".toList, if (LinkSt.run cf .new ops).working a then 1 else 0, ([], []), none, cf.internal⟩ := by
  obtain ⟨h1, h2, h3⟩ := link_run cf ops
  have hkeys : (LinkSt.run cf .new ops).keys = [a] := by
    generalize (LinkSt.run cf .new ops).keys = ks at *
    have hmem : ∀ x, x ∈ ks ↔ x = a := by
      intro x
      rw [h3]
      constructor
      · rintro ⟨b, h⟩; exact ha _ h
      · rintro rfl
        obtain ⟨o, ho⟩ := List.exists_mem_of_ne_nil _ hne
        have := ha o ho
        exact ⟨o.1, by rw [← this]; exact ho⟩
    cases ks with
    | nil => exact absurd ((hmem a).2 rfl) (by simp)
    | cons k ks =>
      have hk := (hmem k).1 (List.mem_cons_self ..)
      subst hk
      cases ks with
      | nil => rfl
      | cons k2 ks =>
        have := (hmem k2).1 (by simp)
        subst this
        simp at h2
  rw [hkeys] at ho
  have hord := List.perm_singleton.1 ho
  subst hord
  have hlab : addressLabel (LinkSt.run cf .new ops).keys a = if a = 0 then [] else [a] := by
    rw [hkeys]
    unfold addressLabel
    by_cases h : a = 0 <;> simp [h]
  unfold linkReport
  rw [has_foldAdd_mem _ [] (.ofList [])]
  · simp only [List.flatMap_cons, List.flatMap_nil, List.append_nil, linkEntries, List.mem_cons, List.not_mem_nil, or_false, hlab, (h1 a).1, (h1 a).2.1]
    constructor
    · rintro (⟨e, he, _⟩ | h)
      · cases he
      · exact h
    · exact Or.inr
  · rintro m ⟨e, he, _⟩; cases he
  · have n1 : cf.name ++ ".consecutive_failures".toList ≠ cf.name ++ ".consecutive_successes".toList := suffix_ne _ _ _ (by decide)
    have n2 : cf.name ++ ".consecutive_failures".toList ≠ cf.name ++ ".status".toList := suffix_ne _ _ _ (by decide)
    have n3 : cf.name ++ ".consecutive_successes".toList ≠ cf.name ++ ".status".toList := suffix_ne _ _ _ (by decide)
    intro m hm m' hm' hk
    have hk' : m.name = m'.name := congrArg Prod.fst hk
    simp only [List.flatMap_cons, List.flatMap_nil, List.append_nil, linkEntries, List.mem_cons, List.not_mem_nil, or_false] at hm hm'
    generalize cf.name ++ ".consecutive_failures".toList = N1 at *
    generalize cf.name ++ ".consecutive_successes".toList = N2 at *
    generalize cf.name ++ ".status".toList = N3 at *
    rcases hm with rfl | rfl | rfl <;> rcases hm' with rfl | rfl | rfl <;> first
      | rfl
      | exact absurd hk' n1
      | exact absurd hk' n2
      | exact absurd hk' n3
      | exact absurd hk'.symm n1
      | exact absurd hk'.symm n2
      | exact absurd hk'.symm n3
/-- the entries for any number of addresses: the last status wins, nothing else is lost -/
theorem linkReport_has (cf : LinkConf) (s : LinkSt) (rev : List Int) (hn : rev.Nodup) (hk : ∀ a ∈ rev, a ∈ s.keys) (x : Entry) :
    Built H (linkReport H cf s rev.reverse) ∧
    (Has (linkReport H cf s rev.reverse) x ↔
      (∃ a ∈ rev, x = ⟨cf.name ++ ".consecutive_failures".toList, s.failures a, ([], addressLabel s.keys a), none, cf.internal⟩ ∨
        x = ⟨cf.name ++ ".consecutive_successes".toList, s.successes a, ([], addressLabel s.keys a), none, cf.internal⟩) ∨
      (∃ a, rev.head? = some a ∧ x = ⟨cf.name ++ ".status".toList, if s.working a then 1 else 0, ([], []), none, cf.internal⟩)) := by
  have n1 : cf.name ++ ".consecutive_failures".toList ≠ cf.name ++ ".consecutive_successes".toList := suffix_ne _ _ _ (by decide)
  have n2 : cf.name ++ ".consecutive_failures".toList ≠ cf.name ++ ".status".toList := suffix_ne _ _ _ (by decide)
  have n3 : cf.name ++ ".consecutive_successes".toList ≠ cf.name ++ ".status".toList := suffix_ne _ _ _ (by decide)
  induction rev generalizing x with
  | nil => exact ⟨.ofList [], by simp [linkReport, Has]⟩
  | cons a rev ih =>
    obtain ⟨hn1, hn2⟩ := List.nodup_cons.1 hn
    have ih := fun x => ih hn2 (fun b hb => hk b (List.mem_cons_of_mem _ hb)) x
    have hlab : ∀ b ∈ rev, addressLabel s.keys b ≠ addressLabel s.keys a := by
      intro b hb e
      have hne : b ≠ a := fun e => hn1 (e ▸ hb)
      have h0 : ((s.keys.all (· == 0)) && s.keys.contains 0) = false := by
        rw [Bool.and_eq_false_iff]
        left
        rw [List.all_eq_false]
        by_cases ha0 : a = 0
        · exact ⟨b, hk b (List.mem_cons_of_mem _ hb), by simp; omega⟩
        · exact ⟨a, hk a List.mem_cons_self, by simp [ha0]⟩
      unfold addressLabel at e
      rw [h0] at e
      simp at e
      exact hne e
    have he : linkReport H cf s (a :: rev).reverse =
        Coll.addOne H (Coll.addOne H (Coll.addOne H (linkReport H cf s rev.reverse)
          ⟨cf.name ++ ".consecutive_failures".toList, s.failures a, ([], addressLabel s.keys a), none, cf.internal⟩)
          ⟨cf.name ++ ".consecutive_successes".toList, s.successes a, ([], addressLabel s.keys a), none, cf.internal⟩)
          ⟨cf.name ++ ".status".toList, if s.working a then 1 else 0, ([], []), none, cf.internal⟩ := by
      simp [linkReport, linkEntries, List.foldl_append]
    have hb := (ih x).1
    rw [he]
    refine ⟨.addOne _ (.addOne _ (.addOne _ hb)), ?_⟩
    rw [C42_add_entry_partial (.addOne _ (.addOne _ hb)), C42_add_entry_partial (.addOne _ hb), C42_add_entry_partial hb, (ih x).2]
    generalize cf.name ++ ".consecutive_failures".toList = N1 at *
    generalize cf.name ++ ".consecutive_successes".toList = N2 at *
    generalize cf.name ++ ".status".toList = N3 at *
    simp only [List.head?_cons, Option.some.injEq, List.mem_cons]
    constructor
    · rintro (rfl | ⟨rfl | ⟨rfl | ⟨(⟨b, hb, h⟩ | ⟨b, hb, rfl⟩), h1⟩, h2⟩, h3⟩)
      · exact Or.inr ⟨a, rfl, rfl⟩
      · exact Or.inl ⟨a, Or.inl rfl, Or.inr rfl⟩
      · exact Or.inl ⟨a, Or.inl rfl, Or.inl rfl⟩
      · exact Or.inl ⟨b, Or.inr hb, h⟩
      · exact absurd rfl h3
    · rintro (⟨b, rfl | hb, rfl | rfl⟩ | ⟨b, rfl, rfl⟩)
      · exact Or.inr ⟨Or.inr ⟨Or.inl rfl, fun h => n1 (congrArg Prod.fst h)⟩, fun h => n2 (congrArg Prod.fst h)⟩
      · exact Or.inr ⟨Or.inl rfl, fun h => n3 (congrArg Prod.fst h)⟩
      · exact Or.inr ⟨Or.inr ⟨Or.inr ⟨Or.inl ⟨b, hb, Or.inl rfl⟩, fun h => hlab b hb (congrArg (fun q => q.2.2) h)⟩,
          fun h => n1 (congrArg Prod.fst h)⟩, fun h => n2 (congrArg Prod.fst h)⟩
      · exact Or.inr ⟨Or.inr ⟨Or.inr ⟨Or.inl ⟨b, hb, Or.inr rfl⟩, fun h => n1 (congrArg Prod.fst h).symm⟩,
          fun h => hlab b hb (congrArg (fun q => q.2.2) h)⟩, fun h => n3 (congrArg Prod.fst h)⟩
      · exact Or.inl rfl

/-- **C41, report of any number of links** (partial: the status is told of one of them only). There are the entries that tell how long the latest runs of each link are,
labelled with its address unless 0 is the only one; the one status is that of the address that comes last; and there is nothing else. -/
theorem C41_report_links_partial (cf : LinkConf) (ops : List (Bool × Int)) (order : List Int) (ho : order.Perm (LinkSt.run cf .new ops).keys) (x : Entry) :
    Has (linkReport H cf (LinkSt.run cf .new ops) order) x ↔
      (∃ b a, (b, a) ∈ ops ∧ ∃ label, ((∀ o ∈ ops, o.2 = 0) → label = []) ∧ ((∃ o ∈ ops, o.2 ≠ 0) → label = [a]) ∧
        (x = ⟨cf.name ++ ".consecutive_failures".toList, streak false (reports ops a), ([], label), none, cf.internal⟩ ∨
         x = ⟨cf.name ++ ".consecutive_successes".toList, streak true (reports ops a), ([], label), none, cf.internal⟩)) ∨
      (∃ a, order.getLast? = some a ∧ x = ⟨cf.name ++ ".status".toList, if (LinkSt.run cf .new ops).working a then 1 else 0, ([], []), none, cf.internal⟩) := by
  obtain ⟨h1, h2, h3⟩ := link_run cf ops
  have hn : order.reverse.Nodup := ((List.reverse_perm order).trans ho).nodup_iff.2 h2
  have h := (linkReport_has (H := H) cf (LinkSt.run cf .new ops) order.reverse hn (fun a ha => ho.mem_iff.1 (List.mem_reverse.1 ha)) x).2
  rw [List.reverse_reverse] at h
  rw [h, List.head?_reverse]
  have hlab : ∀ b a, (b, a) ∈ ops → ∀ label, ((∀ o ∈ ops, o.2 = 0) → label = []) → ((∃ o ∈ ops, o.2 ≠ 0) → label = [a]) → addressLabel (LinkSt.run cf .new ops).keys a = label := by
    intro b a hba label hl1 hl2
    unfold addressLabel
    by_cases hz : ∀ o ∈ ops, o.2 = 0
    · rw [hl1 hz, if_pos]
      have : a = 0 := hz _ hba
      subst this
      rw [Bool.and_eq_true, List.all_eq_true]
      refine ⟨fun k hk => ?_, by simpa using (h3 0).2 ⟨b, hba⟩⟩
      obtain ⟨b', hb'⟩ := (h3 k).1 hk
      simpa using hz _ hb'
    · have hz' : ∃ o ∈ ops, o.2 ≠ 0 := by
        refine Classical.byContradiction (fun hc => hz (fun o ho => Classical.byContradiction (fun hne => hc ⟨o, ho, hne⟩)))
      rw [hl2 hz', if_neg]
      obtain ⟨⟨b', a'⟩, ho', hne⟩ := hz'
      intro hc
      rw [Bool.and_eq_true, List.all_eq_true] at hc
      exact hne (by simpa using hc.1 a' ((h3 a').2 ⟨b', ho'⟩))
  have hor : ∀ a, a ∈ order.reverse ↔ ∃ b, (b, a) ∈ ops := fun a => by rw [List.mem_reverse, ho.mem_iff]; exact h3 a
  refine or_congr ⟨?_, ?_⟩ Iff.rfl
  · rintro ⟨a, ha, hx⟩
    obtain ⟨b, hb⟩ := (hor a).1 ha
    rw [(h1 a).1, (h1 a).2.1] at hx
    refine ⟨b, a, hb, addressLabel (LinkSt.run cf .new ops).keys a, fun hz => hlab b a hb [] (fun _ => rfl) (fun ⟨o, ho, hne⟩ => absurd (hz o ho) hne), fun ⟨o, ho, hne⟩ => hlab b a hb [a] (fun hz => absurd (hz o ho) hne) (fun _ => rfl), hx⟩
  · rintro ⟨b, a, hb, label, hl1, hl2, hx⟩
    refine ⟨a, (hor a).2 ⟨b, hb⟩, ?_⟩
    rw [(h1 a).1, (h1 a).2.1, hlab b a hb label hl1 hl2]
    exact hx

/-- two links -/
example : [1, 2].Perm (LinkSt.run ⟨['l'], 1, 1, false⟩ .new [(false, 1), (true, 2), (false, 1)]).keys := by decide
end

/-- **C41, violated in reports**: the status of all links is reported under one name, so all but one are lost. -/
theorem C41_status_violates : (linkReport (fun _ => 0) ⟨"l".toList, 1, 1, false⟩ (LinkSt.run ⟨"l".toList, 1, 1, false⟩ .new [(false, 1), (true, 2)]) [1, 2]).map (fun e => (e.md.name, e.md.labels.2, e.md.value)) =
    [("l.consecutive_failures".toList, [1], 1), ("l.consecutive_successes".toList, [1], 0), ("l.consecutive_failures".toList, [2], 0), ("l.consecutive_successes".toList, [2], 1), ("l.status".toList, [], 1)] := by
  decide +kernel

/-- **C41, violated for thresholds of 0**: the link never goes offline. -/
theorem C41_zero_violates (S : Nat) (bs : List Bool) (w : Bool) (ev : List Bool) (h : Link 0 S bs w ev) : w = true ∧ ev = [] := by
  induction h with
  | new => exact ⟨rfl, rfl⟩
  | fails _ h => rw [streak_append] at h; simp at h
  | recovers _ _ ih => cases ih.1
  | stays _ _ _ ih => exact ih

/-! Concrete cases. -/

example : (LinkSt.run ⟨"l".toList, 2, 2, false⟩ .new [(false, 1), (false, 2), (false, 1), (false, 1), (true, 1), (true, 1), (true, 1)]).log = [.offline 1, .online 1] := by decide
example : streak false [true, false, false] = 2 := by decide

end Verif.Metrics
