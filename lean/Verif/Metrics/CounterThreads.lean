import Verif.Conc.MonitorProps
/-!
# A counter metric used by several threads (satella/instrumentation/metrics/metric_types/counter.py, base.py); C249, C250

Threads call `handle` of one counter, with or without labels, while others do.  No lock is taken, so each reading and each
writing of an attribute, of `children_mapping` and of `children` is a step of its own.  Sets of labels are numbers (the
sorted tuples of items that the code uses as keys).  Deltas are integers (the code has floats as well).
Levels and timestamps are left out; the number of calls of children is not modelled (children count theirs as the parent does).
-/
namespace Verif.Metrics.CounterThreads
open Verif
open Verif.Conc (upd upd_same upd_other)

/-! ## Model -/

/-- a call: its number, its delta and its labels, `handle(delta, **labels)`, /repo/satella/instrumentation/metrics/metric_types/counter.py:52 -/
structure Call where
  id : Nat
  delta : Int
  key : Option Nat

/-- a clone made for labels, /repo/satella/instrumentation/metrics/metric_types/base.py:236-243: its labels and its value -/
structure Child where
  key : Nat
  value : Int
  deriving DecidableEq, Repr

/-- where a thread is in `_handle` of the counter, /repo/satella/instrumentation/metrics/metric_types/counter.py:52-60, in that of the parent class, /repo/satella/instrumentation/metrics/metric_types/base.py:199-217, or in `_handle` of a child -/
inductive Pc where
  | idle
  | enter (c : Call)
  | readV (c : Call)
  | writeV (c : Call) (v : Int)
  | readC (c : Call)
  | writeC (c : Call) (v : Int)
  | embed (c : Call) (k : Nat)
  | check (c : Call) (k : Nat)
  | store (c : Call) (k i : Nat)
  | append (c : Call) (k i : Nat)
  | look (c : Call) (k : Nat)
  | childRead (c : Call) (i : Nat)
  | childWrite (c : Call) (i : Nat) (v : Int)

/-- the counter: `value`, `calls`, `embedded_submetrics_enabled`, all clones ever made, `children_mapping` and `children` (which refer to clones by number), /repo/satella/instrumentation/metrics/metric_types/counter.py:21-31, /repo/satella/instrumentation/metrics/metric_types/base.py:190-197.  The log, not in the code, has the calls made so far: by which thread, with which delta and labels. -/
structure St where
  value : Int := 0
  calls : Int := 0
  embedded : Bool := false
  heap : List Child := []
  mapping : Nat → Option Nat := fun _ => none
  children : List Nat := []
  pcs : Nat → Pc := fun _ => .idle
  log : List (Nat × Int × Option Nat) := []

/-- what happens: a thread calls, or goes on by one step.  (Part of the model of `CounterMetric`, /repo/satella/instrumentation/metrics/metric_types/counter.py:9-60.) -/
inductive Act where
  | call (t : Nat) (delta : Int) (key : Option Nat)
  | go (t : Nat)

/-- the thread goes to the next place.  (Part of the model of `_handle`, /repo/satella/instrumentation/metrics/metric_types/counter.py:52-60.) -/
def St.goto (s : St) (t : Nat) (p : Pc) : St := { s with pcs := upd s.pcs t p }

/-- adding to the value of a clone: writing it.  (`self.value += delta` of a child, /repo/satella/instrumentation/metrics/metric_types/counter.py:59.) -/
def setValue (heap : List Child) (i : Nat) (v : Int) : List Child :=
  match heap[i]? with
  | some ch => heap.set i { ch with value := v }
  | none => heap

/-- A step.  `CounterMetric._handle`, /repo/satella/instrumentation/metrics/metric_types/counter.py:52-60: `self.value += delta` is a reading and a writing; then `EmbeddedSubmetrics._handle`, /repo/satella/instrumentation/metrics/metric_types/base.py:199-217. -/
def step (sum : Bool) (s : St) : Act → St
  | .call t d k =>
    match s.pcs t with
    | .idle => { s with pcs := upd s.pcs t (.enter ⟨s.log.length, d, k⟩), log := s.log ++ [(t, d, k)] }
    | _ => s
  | .go t =>
    match s.pcs t with
    | .idle => s
    | .enter c => if (s.embedded || c.key.isSome) && !sum then s.goto t (.readC c) else s.goto t (.readV c)
    | .readV c => s.goto t (.writeV c s.value)
    | .writeV c v => { s with value := v + c.delta, pcs := upd s.pcs t (.readC c) }
    | .readC c => s.goto t (.writeC c s.calls)
    | .writeC c v =>
      { s with calls := v + 1, pcs := upd s.pcs t (match c.key with | none => .idle | some k => .embed c k) }
    | .embed c k => { s with embedded := true, pcs := upd s.pcs t (.check c k) }
    | .check c k =>
      match s.mapping k with
      | some _ => s.goto t (.look c k)
      | none => { s with heap := s.heap ++ [⟨k, 0⟩], pcs := upd s.pcs t (.store c k s.heap.length) }
    | .store c k i => { s with mapping := upd s.mapping k (some i), pcs := upd s.pcs t (.append c k i) }
    | .append c k i => { s with children := s.children ++ [i], pcs := upd s.pcs t (.look c k) }
    | .look c k =>
      match s.mapping k with
      | some i => s.goto t (.childRead c i)
      | none => s.goto t .idle
    | .childRead c i =>
      match s.heap[i]? with
      | some ch => s.goto t (.childWrite c i ch.value)
      | none => s.goto t .idle
    | .childWrite c i v => { s with heap := setValue s.heap i (v + c.delta), pcs := upd s.pcs t .idle }

/-- everything that happens.  (Part of the model of `_handle`, /repo/satella/instrumentation/metrics/metric_types/counter.py:52-60.) -/
def run (sum : Bool) (s : St) (as : List Act) : St := as.foldl (step sum) s

/-- Joining what children report, /repo/satella/instrumentation/metrics/metric_types/base.py:219-225 with /repo/satella/instrumentation/metrics/data.py:148-155: what is reported later replaces what was reported with the same labels.  A child reports its value with its labels, /repo/satella/instrumentation/metrics/metric_types/counter.py:44-50. -/
def report (heap : List Child) : List Nat → List (Nat × Int) → List (Nat × Int)
  | [], out => out
  | i :: l, out =>
    match heap[i]? with
    | some ch => report heap l ((ch.key, ch.value) :: out.filter (fun e => decide (e.1 ≠ ch.key)))
    | none => report heap l out

/-- what an entry is of: the counter without labels, labels, the sum of all, or the number of calls, /repo/satella/instrumentation/metrics/metric_types/counter.py:33-50 -/
inductive Entry where
  | plain
  | labels (k : Nat)
  | sum
  | count
  deriving DecidableEq, Repr

/-- `to_metric_data`, /repo/satella/instrumentation/metrics/metric_types/counter.py:33-50, of a counter with `sum_children` and `count_calls` as given -/
def shown (sum count : Bool) (s : St) : List (Entry × Int) :=
  (if s.embedded then (report s.heap s.children []).map (fun e => (.labels e.1, e.2)) ++ (if sum then [(.sum, s.value)] else [])
   else [(.plain, s.value)]) ++ (if count then [(.count, s.calls)] else [])

/-! ## Specification -/

/-- `v` is the sum of deltas of some calls made so far, each counted at most once, all of them such as asked for -/
def SumOfSome (log : List (Nat × Int × Option Nat)) (such : Option Nat → Prop) (v : Int) : Prop :=
  ∃ ids : List Nat, ids.Nodup ∧ (∀ n ∈ ids, ∃ t d k, log[n]? = some (t, d, k) ∧ such k) ∧
    v = (ids.map (fun n => match log[n]? with | some (_, d, _) => d | none => 0)).sum

/-- the sum of deltas of all calls with these labels -/
def total (log : List (Nat × Int × Option Nat)) (k : Nat) : Int :=
  ((log.filter (fun e => decide (e.2.2 = some k))).map (fun e => e.2.1)).sum

/-! ## Proofs: what is shown is a part -/

/-- the delta of a call -/
def dl (log : List (Nat × Int × Option Nat)) (n : Nat) : Int := match log[n]? with | some (_, d, _) => d | none => 0

/-- a sum of weights of some of the calls that wrote -/
def Part (w : Nat → Int) (W : List Nat) (v : Int) : Prop := ∃ ids : List Nat, ids.Nodup ∧ (∀ n ∈ ids, n ∈ W) ∧ v = (ids.map w).sum

theorem Part.mono {w w' : Nat → Int} {W W' : List Nat} {v : Int} (h : Part w W v) (hw : ∀ n ∈ W, w' n = w n) (hs : ∀ n ∈ W, n ∈ W') : Part w' W' v := by
  obtain ⟨ids, h1, h2, h3⟩ := h
  refine ⟨ids, h1, fun n hn => hs n (h2 n hn), ?_⟩
  rw [h3]
  congr 1
  exact List.map_congr_left (fun n hn => (hw n (h2 n hn)).symm)

theorem Part.add {w : Nat → Int} {W : List Nat} {v : Int} (h : Part w W v) {n : Nat} (hn : n ∉ W) : Part w (n :: W) (v + w n) := by
  obtain ⟨ids, h1, h2, h3⟩ := h
  refine ⟨n :: ids, List.nodup_cons.2 ⟨fun hm => hn (h2 n hm), h1⟩, ?_, ?_⟩
  · intro m hm
    rcases List.mem_cons.1 hm with rfl | hm
    · exact List.mem_cons_self ..
    · exact List.mem_cons_of_mem _ (h2 m hm)
  · rw [h3, List.map_cons, List.sum_cons]; omega

/-- which calls have written to clones, to the value and to the number of calls -/
structure Ws where
  W : Nat → List Nat
  P : List Nat
  C : List Nat

/-- what holds of a thread where it is -/
def Ok (s : St) (w : Ws) (t : Nat) : Pc → Prop
  | .idle => True
  | .enter c => s.log[c.id]? = some (t, c.delta, c.key) ∧ (∀ i, c.id ∉ w.W i) ∧ c.id ∉ w.C ∧ c.id ∉ w.P
  | .readV c => s.log[c.id]? = some (t, c.delta, c.key) ∧ (∀ i, c.id ∉ w.W i) ∧ c.id ∉ w.C ∧ c.id ∉ w.P
  | .writeV c v => s.log[c.id]? = some (t, c.delta, c.key) ∧ (∀ i, c.id ∉ w.W i) ∧ c.id ∉ w.C ∧ c.id ∉ w.P ∧ Part (dl s.log) w.P v
  | .readC c => s.log[c.id]? = some (t, c.delta, c.key) ∧ (∀ i, c.id ∉ w.W i) ∧ c.id ∉ w.C
  | .writeC c v => s.log[c.id]? = some (t, c.delta, c.key) ∧ (∀ i, c.id ∉ w.W i) ∧ c.id ∉ w.C ∧ Part (fun _ => 1) w.C v
  | .embed c k => s.log[c.id]? = some (t, c.delta, c.key) ∧ (∀ i, c.id ∉ w.W i) ∧ c.key = some k
  | .check c k => s.log[c.id]? = some (t, c.delta, c.key) ∧ (∀ i, c.id ∉ w.W i) ∧ c.key = some k
  | .look c k => s.log[c.id]? = some (t, c.delta, c.key) ∧ (∀ i, c.id ∉ w.W i) ∧ c.key = some k
  | .store c k i => s.log[c.id]? = some (t, c.delta, c.key) ∧ (∀ i, c.id ∉ w.W i) ∧ c.key = some k ∧ ∃ ch, s.heap[i]? = some ch ∧ ch.key = k
  | .append c k i => s.log[c.id]? = some (t, c.delta, c.key) ∧ (∀ i, c.id ∉ w.W i) ∧ c.key = some k ∧ ∃ ch, s.heap[i]? = some ch ∧ ch.key = k
  | .childRead c i => s.log[c.id]? = some (t, c.delta, c.key) ∧ (∀ i, c.id ∉ w.W i) ∧ ∃ ch, s.heap[i]? = some ch ∧ c.key = some ch.key
  | .childWrite c i v => s.log[c.id]? = some (t, c.delta, c.key) ∧ (∀ i, c.id ∉ w.W i) ∧ (∃ ch, s.heap[i]? = some ch ∧ c.key = some ch.key) ∧ Part (dl s.log) (w.W i) v

/-- what always holds -/
structure Inv (s : St) (w : Ws) : Prop where
  valid : ∀ i n, n ∈ w.W i → ∃ ch u d, s.heap[i]? = some ch ∧ s.log[n]? = some (u, d, some ch.key)
  validP : ∀ n ∈ w.P, n < s.log.length
  validC : ∀ n ∈ w.C, n < s.log.length
  cell : ∀ (i : Nat) ch, s.heap[i]? = some ch → Part (dl s.log) (w.W i) ch.value
  cellP : Part (dl s.log) w.P s.value
  cellC : Part (fun _ => 1) w.C s.calls
  map : ∀ k i, s.mapping k = some i → ∃ ch, s.heap[i]? = some ch ∧ ch.key = k
  ok : ∀ t, Ok s w t (s.pcs t)

/-- changes made by thread `t` only -/
structure By (t : Nat) (s : St) (w : Ws) (s' : St) (w' : Ws) : Prop where
  log : ∀ (n : Nat) e, s.log[n]? = some e → s'.log[n]? = some e
  heap : ∀ (i : Nat) ch, s.heap[i]? = some ch → ∃ ch', s'.heap[i]? = some ch' ∧ ch'.key = ch.key
  W : ∀ i n, n ∈ w'.W i → n ∈ w.W i ∨ ∃ d k, s.log[n]? = some (t, d, k)
  P : ∀ n, n ∈ w'.P → n ∈ w.P ∨ ∃ d k, s.log[n]? = some (t, d, k)
  C : ∀ n, n ∈ w'.C → n ∈ w.C ∨ ∃ d k, s.log[n]? = some (t, d, k)
  W' : ∀ i n, n ∈ w.W i → n ∈ w'.W i
  P' : ∀ n ∈ w.P, n ∈ w'.P
  C' : ∀ n ∈ w.C, n ∈ w'.C

theorem dl_eq {log log' : List (Nat × Int × Option Nat)} (h : ∀ (n : Nat) e, log[n]? = some e → log'[n]? = some e) {n : Nat} (hn : n < log.length) : dl log' n = dl log n := by
  unfold dl
  have h1 : log[n]? = some log[n] := List.getElem?_eq_getElem hn
  rw [h1, h n _ h1]

theorem lt_of_some {α : Type} {l : List α} {n : Nat} {e : α} (h : l[n]? = some e) : n < l.length := (List.getElem?_eq_some_iff.1 h).1

theorem ok_other {t u : Nat} {s s' : St} {w w' : Ws} (I : Inv s w) (B : By t s w s' w') (hu : u ≠ t) {p : Pc} (h : Ok s w u p) : Ok s' w' u p := by
  have own : ∀ c : Call, s.log[c.id]? = some (u, c.delta, c.key) → s'.log[c.id]? = some (u, c.delta, c.key) := fun c hc => B.log _ _ hc
  have noW : ∀ c : Call, s.log[c.id]? = some (u, c.delta, c.key) → (∀ i, c.id ∉ w.W i) → ∀ i, c.id ∉ w'.W i := by
    intro c hc hn i hm
    rcases B.W i _ hm with hm | ⟨d, k, hm⟩
    · exact hn i hm
    · rw [hc] at hm; cases hm; exact hu rfl
  have noP : ∀ c : Call, s.log[c.id]? = some (u, c.delta, c.key) → c.id ∉ w.P → c.id ∉ w'.P := by
    intro c hc hn hm
    rcases B.P _ hm with hm | ⟨d, k, hm⟩
    · exact hn hm
    · rw [hc] at hm; cases hm; exact hu rfl
  have noC : ∀ c : Call, s.log[c.id]? = some (u, c.delta, c.key) → c.id ∉ w.C → c.id ∉ w'.C := by
    intro c hc hn hm
    rcases B.C _ hm with hm | ⟨d, k, hm⟩
    · exact hn hm
    · rw [hc] at hm; cases hm; exact hu rfl
  have kk : ∀ {i k : Nat}, (∃ ch, s.heap[i]? = some ch ∧ ch.key = k) → ∃ ch, s'.heap[i]? = some ch ∧ ch.key = k := by
    rintro i k ⟨ch, h1, h2⟩
    obtain ⟨ch', h3, h4⟩ := B.heap i ch h1
    exact ⟨ch', h3, h4.trans h2⟩
  have kc : ∀ {i : Nat} {c : Call}, (∃ ch, s.heap[i]? = some ch ∧ c.key = some ch.key) → ∃ ch, s'.heap[i]? = some ch ∧ c.key = some ch.key := by
    rintro i c ⟨ch, h1, h2⟩
    obtain ⟨ch', h3, h4⟩ := B.heap i ch h1
    exact ⟨ch', h3, h4 ▸ h2⟩
  cases p with
  | idle => trivial
  | enter c => exact ⟨own c h.1, noW c h.1 h.2.1, noC c h.1 h.2.2.1, noP c h.1 h.2.2.2⟩
  | readV c => exact ⟨own c h.1, noW c h.1 h.2.1, noC c h.1 h.2.2.1, noP c h.1 h.2.2.2⟩
  | writeV c v =>
    exact ⟨own c h.1, noW c h.1 h.2.1, noC c h.1 h.2.2.1, noP c h.1 h.2.2.2.1, h.2.2.2.2.mono (fun n hn => dl_eq B.log (I.validP n hn)) B.P'⟩
  | readC c => exact ⟨own c h.1, noW c h.1 h.2.1, noC c h.1 h.2.2⟩
  | writeC c v => exact ⟨own c h.1, noW c h.1 h.2.1, noC c h.1 h.2.2.1, h.2.2.2.mono (fun _ _ => rfl) B.C'⟩
  | embed c k => exact ⟨own c h.1, noW c h.1 h.2.1, h.2.2⟩
  | check c k => exact ⟨own c h.1, noW c h.1 h.2.1, h.2.2⟩
  | look c k => exact ⟨own c h.1, noW c h.1 h.2.1, h.2.2⟩
  | store c k i => exact ⟨own c h.1, noW c h.1 h.2.1, h.2.2.1, kk h.2.2.2⟩
  | append c k i => exact ⟨own c h.1, noW c h.1 h.2.1, h.2.2.1, kk h.2.2.2⟩
  | childRead c i => exact ⟨own c h.1, noW c h.1 h.2.1, kc h.2.2⟩
  | childWrite c i v =>
    refine ⟨own c h.1, noW c h.1 h.2.1, kc h.2.2.1, h.2.2.2.mono (fun n hn => ?_) (B.W' i)⟩
    obtain ⟨_, _, _, _, hl⟩ := I.valid i n hn
    exact dl_eq B.log (lt_of_some hl)

/-- nothing but the place of the thread, the flag, the mapping and the list of children changes -/
theorem By.same {t : Nat} {s s' : St} {w : Ws} (hl : s'.log = s.log) (hh : s'.heap = s.heap) : By t s w s' w where
  log := by rw [hl]; exact fun _ _ h => h
  heap := by rw [hh]; exact fun i ch h => ⟨ch, h, rfl⟩
  W := fun _ _ h => .inl h
  P := fun _ h => .inl h
  C := fun _ h => .inl h
  W' := fun _ _ h => h
  P' := fun _ h => h
  C' := fun _ h => h

theorem oks {t : Nat} {s s' : St} {w w' : Ws} {p : Pc} (I : Inv s w) (B : By t s w s' w') (hp : s'.pcs = upd s.pcs t p) (h : Ok s' w' t p) : ∀ u, Ok s' w' u (s'.pcs u) := by
  intro u
  rw [hp]
  by_cases hu : u = t
  · subst hu; rw [upd_same]; exact h
  · rw [upd_other _ _ hu]; exact ok_other I B hu (I.ok u)

theorem inv_goto {t : Nat} {s s' : St} {w : Ws} {p : Pc} (I : Inv s w) (hv : s'.value = s.value) (hc : s'.calls = s.calls) (hh : s'.heap = s.heap) (hl : s'.log = s.log)
    (hm : ∀ k i, s'.mapping k = some i → s.mapping k = some i ∨ ∃ ch, s.heap[i]? = some ch ∧ ch.key = k) (hp : s'.pcs = upd s.pcs t p) (h : Ok s' w t p) : Inv s' w where
  valid := by rw [hh, hl]; exact I.valid
  validP := by rw [hl]; exact I.validP
  validC := by rw [hl]; exact I.validC
  cell := by rw [hh, hl]; exact I.cell
  cellP := by rw [hv, hl]; exact I.cellP
  cellC := by rw [hc]; exact I.cellC
  map := by
    intro k i h; rw [hh]
    exact (hm k i h).elim (I.map k i) id
  ok := oks I (.same hl hh) hp h

theorem inv_step (sum : Bool) (s : St) (w : Ws) (I : Inv s w) (a : Act) : ∃ w', Inv (step sum s a) w' := by
  cases a with
  | call t d k =>
    cases hpc : s.pcs t with
    | idle =>
      simp only [step, hpc]
      have hlog : ∀ (n : Nat) e, s.log[n]? = some e → (s.log ++ [(t, d, k)])[n]? = some e := by
        intro n e h
        rw [List.getElem?_append_left (lt_of_some h)]; exact h
      have B : By t s w { s with pcs := upd s.pcs t (.enter ⟨s.log.length, d, k⟩), log := s.log ++ [(t, d, k)] } w :=
        ⟨hlog, fun i ch h => ⟨ch, h, rfl⟩, fun _ _ h => .inl h, fun _ h => .inl h, fun _ h => .inl h, fun _ _ h => h, fun _ h => h, fun _ h => h⟩
      refine ⟨w, ?_, ?_, ?_, ?_, ?_, I.cellC, I.map, ?_⟩
      · intro i n hn
        obtain ⟨ch, u, d', h1, h2⟩ := I.valid i n hn
        exact ⟨ch, u, d', h1, hlog _ _ h2⟩
      · intro n hn; have := I.validP n hn; simp; omega
      · intro n hn; have := I.validC n hn; simp; omega
      · intro i ch h
        refine (I.cell i ch h).mono (fun n hn => ?_) (fun _ h => h)
        obtain ⟨_, _, _, _, hl⟩ := I.valid i n hn
        exact dl_eq hlog (lt_of_some hl)
      · exact I.cellP.mono (fun n hn => dl_eq hlog (I.validP n hn)) (fun _ h => h)
      · refine oks I B rfl ⟨by simp, fun i hi => ?_, fun hc => ?_, fun hc => ?_⟩
        · obtain ⟨_, _, _, _, hl⟩ := I.valid i _ hi
          exact absurd (lt_of_some hl) (Nat.lt_irrefl _)
        · exact absurd (I.validC _ hc) (Nat.lt_irrefl _)
        · exact absurd (I.validP _ hc) (Nat.lt_irrefl _)
    | _ => exact ⟨w, by simpa only [step, hpc] using I⟩
  | go t =>
    have hok := I.ok t
    cases hpc : s.pcs t with
    | idle => exact ⟨w, by simpa only [step, hpc] using I⟩
    | enter c =>
      rw [hpc] at hok
      simp only [step, hpc]
      split
      · exact ⟨w, inv_goto (t := t) I rfl rfl rfl rfl (fun _ _ h => .inl h) rfl ⟨hok.1, hok.2.1, hok.2.2.1⟩⟩
      · exact ⟨w, inv_goto (t := t) I rfl rfl rfl rfl (fun _ _ h => .inl h) rfl hok⟩
    | readV c =>
      rw [hpc] at hok
      simp only [step, hpc]
      exact ⟨w, inv_goto (t := t) I rfl rfl rfl rfl (fun _ _ h => .inl h) rfl ⟨hok.1, hok.2.1, hok.2.2.1, hok.2.2.2, I.cellP⟩⟩
    | writeV c v =>
      rw [hpc] at hok
      simp only [step, hpc]
      obtain ⟨h1, h2, h3, h4, h5⟩ := hok
      have hd : dl s.log c.id = c.delta := by unfold dl; rw [h1]
      refine ⟨⟨w.W, c.id :: w.P, w.C⟩, I.valid, ?_, I.validC, I.cell, ?_, I.cellC, I.map, oks I (t := t) ?_ rfl ⟨h1, h2, h3⟩⟩
      · intro n hn
        rcases List.mem_cons.1 hn with rfl | hn
        · exact lt_of_some h1
        · exact I.validP n hn
      · have := h5.add h4
        rw [hd] at this; exact this
      · exact ⟨fun _ _ h => h, fun i ch h => ⟨ch, h, rfl⟩, fun _ _ h => .inl h, fun n hn => (List.mem_cons.1 hn).elim (fun e => .inr ⟨_, _, e ▸ h1⟩) .inl, fun _ h => .inl h, fun _ _ h => h, fun _ h => List.mem_cons_of_mem _ h, fun _ h => h⟩
    | readC c =>
      rw [hpc] at hok
      simp only [step, hpc]
      exact ⟨w, inv_goto (t := t) I rfl rfl rfl rfl (fun _ _ h => .inl h) rfl ⟨hok.1, hok.2.1, hok.2.2, I.cellC⟩⟩
    | writeC c v =>
      rw [hpc] at hok
      simp only [step, hpc]
      obtain ⟨h1, h2, h3, h4⟩ := hok
      refine ⟨⟨w.W, w.P, c.id :: w.C⟩, I.valid, I.validP, ?_, I.cell, I.cellP, h4.add h3, I.map, oks I (t := t) ?_ rfl ?_⟩
      · intro n hn
        rcases List.mem_cons.1 hn with rfl | hn
        · exact lt_of_some h1
        · exact I.validC n hn
      · exact ⟨fun _ _ h => h, fun i ch h => ⟨ch, h, rfl⟩, fun _ _ h => .inl h, fun _ h => .inl h, fun n hn => (List.mem_cons.1 hn).elim (fun e => .inr ⟨_, _, e ▸ h1⟩) .inl, fun _ _ h => h, fun _ h => h, fun _ h => List.mem_cons_of_mem _ h⟩
      · cases hk : c.key with
        | none => trivial
        | some k => exact ⟨h1, h2, hk⟩
    | embed c k =>
      rw [hpc] at hok
      simp only [step, hpc]
      exact ⟨w, inv_goto (t := t) I rfl rfl rfl rfl (fun _ _ h => .inl h) rfl hok⟩
    | check c k =>
      rw [hpc] at hok
      simp only [step, hpc]
      split
      · exact ⟨w, inv_goto (t := t) I rfl rfl rfl rfl (fun _ _ h => .inl h) rfl hok⟩
      · have hheap : ∀ (i : Nat) ch, s.heap[i]? = some ch → (s.heap ++ [⟨k, 0⟩])[i]? = some ch := by
          intro i ch h
          rw [List.getElem?_append_left (lt_of_some h)]; exact h
        refine ⟨w, ?_, I.validP, I.validC, ?_, I.cellP, I.cellC, ?_, oks I (t := t) ?_ rfl ?_⟩
        · intro i n hn
          obtain ⟨ch, u, d', h1, h2⟩ := I.valid i n hn
          exact ⟨ch, u, d', hheap _ _ h1, h2⟩
        · intro i ch h
          by_cases hi : i < s.heap.length
          · rw [List.getElem?_append_left hi] at h; exact I.cell i ch h
          · have hi' : i = s.heap.length := by have := lt_of_some h; simp at this; omega
            subst hi'
            simp at h
            subst h
            exact ⟨[], List.nodup_nil, fun n hn => (by cases hn), rfl⟩
        · intro k' i h
          obtain ⟨ch, h1, h2⟩ := I.map k' i h
          exact ⟨ch, hheap _ _ h1, h2⟩
        · exact ⟨fun _ _ h => h, fun i ch h => ⟨ch, hheap _ _ h, rfl⟩, fun _ _ h => .inl h, fun _ h => .inl h, fun _ h => .inl h, fun _ _ h => h, fun _ h => h, fun _ h => h⟩
        · exact ⟨hok.1, hok.2.1, hok.2.2, ⟨k, 0⟩, by simp, rfl⟩
    | store c k i =>
      rw [hpc] at hok
      simp only [step, hpc]
      refine ⟨w, inv_goto (t := t) I rfl rfl rfl rfl ?_ rfl hok⟩
      intro k' i' h
      dsimp only at h
      by_cases hk : k' = k
      · subst hk
        rw [upd_same] at h; cases h
        exact .inr hok.2.2.2
      · rw [upd_other _ _ hk] at h; exact .inl h
    | append c k i =>
      rw [hpc] at hok
      simp only [step, hpc]
      exact ⟨w, inv_goto (t := t) I rfl rfl rfl rfl (fun _ _ h => .inl h) rfl ⟨hok.1, hok.2.1, hok.2.2.1⟩⟩
    | look c k =>
      rw [hpc] at hok
      simp only [step, hpc]
      split
      · rename_i i hi
        obtain ⟨ch, h1, h2⟩ := I.map k i hi
        exact ⟨w, inv_goto (t := t) I rfl rfl rfl rfl (fun _ _ h => .inl h) rfl ⟨hok.1, hok.2.1, ch, h1, by rw [hok.2.2, h2]⟩⟩
      · exact ⟨w, inv_goto (t := t) (p := .idle) I rfl rfl rfl rfl (fun _ _ h => .inl h) rfl trivial⟩
    | childRead c i =>
      rw [hpc] at hok
      simp only [step, hpc]
      split
      · rename_i ch hch
        exact ⟨w, inv_goto (t := t) I rfl rfl rfl rfl (fun _ _ h => .inl h) rfl ⟨hok.1, hok.2.1, hok.2.2, I.cell i ch hch⟩⟩
      · exact ⟨w, inv_goto (t := t) (p := .idle) I rfl rfl rfl rfl (fun _ _ h => .inl h) rfl trivial⟩
    | childWrite c i v =>
      rw [hpc] at hok
      simp only [step, hpc]
      obtain ⟨h1, h2, ⟨ch, h3, h4⟩, h5⟩ := hok
      have hd : dl s.log c.id = c.delta := by unfold dl; rw [h1]
      have hset : setValue s.heap i (v + c.delta) = s.heap.set i { ch with value := v + c.delta } := by unfold setValue; rw [h3]
      have hheap : ∀ (j : Nat) cj, s.heap[j]? = some cj → ∃ c', (setValue s.heap i (v + c.delta))[j]? = some c' ∧ c'.key = cj.key := by
        intro j cj hj
        rw [hset, List.getElem?_set]
        by_cases e : i = j
        · subst e
          rw [h3] at hj; cases hj
          exact ⟨{ ch with value := v + c.delta }, by simp [lt_of_some h3], rfl⟩
        · exact ⟨cj, by simp [e, hj], rfl⟩
      refine ⟨⟨upd w.W i (c.id :: w.W i), w.P, w.C⟩, ?_, I.validP, I.validC, ?_, I.cellP, I.cellC, ?_, oks I (t := t) ?_ rfl trivial⟩
      · intro j n hn
        dsimp only at hn ⊢
        by_cases e : j = i
        · subst e
          rw [upd_same] at hn
          obtain ⟨c', h6, h7⟩ := hheap j ch h3
          rcases List.mem_cons.1 hn with rfl | hn
          · exact ⟨c', t, c.delta, h6, by rw [h1, h4, h7]⟩
          · obtain ⟨ch2, u, d, h8, h9⟩ := I.valid j n hn
            rw [h3] at h8; cases h8
            exact ⟨c', u, d, h6, by rw [h9, h7]⟩
        · rw [upd_other _ _ e] at hn
          obtain ⟨ch2, u, d, h8, h9⟩ := I.valid j n hn
          obtain ⟨c', h6, h7⟩ := hheap j ch2 h8
          exact ⟨c', u, d, h6, by rw [h9, h7]⟩
      · intro j cj hj
        dsimp only at hj ⊢
        rw [hset, List.getElem?_set] at hj
        by_cases e : i = j
        · subst e
          simp [lt_of_some h3] at hj
          subst hj
          rw [upd_same]
          have := h5.add (h2 i)
          rw [hd] at this; exact this
        · simp [e] at hj
          rw [upd_other _ _ (Ne.symm e)]
          exact I.cell j cj hj
      · intro k j hj
        obtain ⟨cj, h6, h7⟩ := I.map k j hj
        obtain ⟨c', h8, h9⟩ := hheap j cj h6
        exact ⟨c', h8, h9.trans h7⟩
      · refine ⟨fun _ _ h => h, hheap, fun j n hn => ?_, fun _ h => .inl h, fun _ h => .inl h, fun j n hn => ?_, fun _ h => h, fun _ h => h⟩
        · dsimp only at hn
          by_cases e : j = i
          · subst e
            rw [upd_same] at hn
            exact (List.mem_cons.1 hn).elim (fun e => .inr ⟨_, _, e ▸ h1⟩) .inl
          · rw [upd_other _ _ e] at hn; exact .inl hn
        · dsimp only
          by_cases e : j = i
          · subst e; rw [upd_same]; exact List.mem_cons_of_mem _ hn
          · rw [upd_other _ _ e]; exact hn

theorem inv_init : Inv {} ⟨fun _ => [], [], []⟩ where
  valid := fun _ _ h => by cases h
  validP := fun _ h => by cases h
  validC := fun _ h => by cases h
  cell := fun i ch h => by cases i <;> cases h
  cellP := ⟨[], List.nodup_nil, fun n hn => (by cases hn), rfl⟩
  cellC := ⟨[], List.nodup_nil, fun n hn => (by cases hn), rfl⟩
  map := fun _ _ h => by cases h
  ok := fun _ => trivial

theorem inv_run (sum : Bool) (as : List Act) : ∀ s w, Inv s w → ∃ w', Inv (run sum s as) w' := by
  induction as with
  | nil => exact fun s w I => ⟨w, I⟩
  | cons a as ih =>
    intro s w I
    obtain ⟨w1, I1⟩ := inv_step sum s w I a
    exact ih _ w1 I1

theorem mem_report (heap : List Child) : ∀ (l : List Nat) (out : List (Nat × Int)) (e : Nat × Int), e ∈ report heap l out → e ∈ out ∨ ∃ i ∈ l, ∃ ch, heap[i]? = some ch ∧ e = (ch.key, ch.value) := by
  intro l
  induction l with
  | nil => exact fun out e h => .inl h
  | cons i l ih =>
    intro out e h
    unfold report at h
    split at h
    · rename_i ch hch
      rcases ih _ e h with h | ⟨j, hj, c, hc⟩
      · rcases List.mem_cons.1 h with rfl | h
        · exact .inr ⟨i, List.mem_cons_self .., ch, hch, rfl⟩
        · exact .inl (List.mem_filter.1 h).1
      · exact .inr ⟨j, List.mem_cons_of_mem _ hj, c, hc⟩
    · rcases ih _ e h with h | ⟨j, hj, c, hc⟩
      · exact .inl h
      · exact .inr ⟨j, List.mem_cons_of_mem _ hj, c, hc⟩

theorem report_keys (heap : List Child) : ∀ (l : List Nat) (out : List (Nat × Int)), (out.map Prod.fst).Nodup → ((report heap l out).map Prod.fst).Nodup := by
  intro l
  induction l with
  | nil => exact fun out h => h
  | cons i l ih =>
    intro out h
    unfold report
    split
    · refine ih _ (List.nodup_cons.2 ⟨?_, ?_⟩)
      · intro hm
        obtain ⟨e, he, he2⟩ := List.mem_map.1 hm
        have := (List.mem_filter.1 he).2
        simp at this
        exact this he2
      · exact List.Nodup.sublist (List.Sublist.map _ List.filter_sublist) h
    · exact ih _ h

/-! ## Proofs: labels of one thread -/

/-- what the call in progress has yet to add for the labels -/
def pend (k : Nat) : Pc → Int
  | .idle => 0
  | .enter c | .readV c | .writeV c _ | .readC c | .writeC c _ | .embed c _ | .check c _ | .store c _ _ | .append c _ _ | .look c _ | .childRead c _
  | .childWrite c _ _ => if c.key = some k then c.delta else 0

/-- not yet where a clone for the labels was made -/
def Before (k : Nat) : Pc → Prop
  | .store _ k' _ | .append _ k' _ | .look _ k' => k' ≠ k
  | .childRead c _ | .childWrite c _ _ => c.key ≠ some k
  | _ => True

/-- where the clone for the labels is recorded -/
def Place (k : Nat) (s : St) (i : Nat) (v : Int) : Pc → Prop
  | .store _ k' i' => (k' = k → s.mapping k = none ∧ i' = i) ∧ (k' ≠ k → s.mapping k = some i ∧ i ∈ s.children)
  | .append _ k' i' => s.mapping k = some i ∧ (k' = k → i' = i) ∧ (k' ≠ k → i ∈ s.children)
  | .childRead c i' => s.mapping k = some i ∧ i ∈ s.children ∧ (c.key = some k → i' = i)
  | .childWrite c i' v' => s.mapping k = some i ∧ i ∈ s.children ∧ (c.key = some k → i' = i ∧ v' = v)
  | _ => s.mapping k = some i ∧ i ∈ s.children

/-- what holds of labels that one thread uses, which is at `p` -/
def Main (k : Nat) (s : St) (p : Pc) : Prop :=
  (s.mapping k = none ∧ (∀ (i : Nat) v, s.heap[i]? ≠ some ⟨k, v⟩) ∧ total s.log k = pend k p ∧ Before k p) ∨
  ∃ (i : Nat) (v : Int), s.heap[i]? = some ⟨k, v⟩ ∧ (∀ (j : Nat) v', s.heap[j]? = some ⟨k, v'⟩ → j = i) ∧ v + pend k p = total s.log k ∧ Place k s i v p

/-- nothing happened to the labels -/
structure Away (k : Nat) (s s' : St) : Prop where
  map : s'.mapping k = s.mapping k
  heap : ∀ (i : Nat) v, s'.heap[i]? = some ⟨k, v⟩ ↔ s.heap[i]? = some ⟨k, v⟩
  children : ∀ i ∈ s.children, i ∈ s'.children
  log : s'.log = s.log

theorem Away.main {k : Nat} {s s' : St} (A : Away k s s') {p : Pc} (h : Main k s p) : Main k s' p := by
  rcases h with ⟨h1, h2, h3, h4⟩ | ⟨i, v, h1, h2, h3, h4⟩
  · exact .inl ⟨A.map.trans h1, fun i v h => h2 i v ((A.heap i v).1 h), A.log ▸ h3, h4⟩
  · refine .inr ⟨i, v, (A.heap i v).2 h1, fun j v' h => h2 j v' ((A.heap j v').1 h), A.log ▸ h3, ?_⟩
    cases p <;> simp only [Place, A.map] at h4 ⊢
    case store => exact ⟨h4.1, fun e => ⟨(h4.2 e).1, A.children _ (h4.2 e).2⟩⟩
    case append => exact ⟨h4.1, h4.2.1, fun e => A.children _ (h4.2.2 e)⟩
    case childRead => exact ⟨h4.1, A.children _ h4.2.1, h4.2.2⟩
    case childWrite => exact ⟨h4.1, A.children _ h4.2.1, h4.2.2⟩
    all_goals exact ⟨h4.1, A.children _ h4.2⟩

theorem Away.rfl' {k : Nat} {s s' : St} (hm : s'.mapping = s.mapping) (hh : s'.heap = s.heap) (hc : s'.children = s.children) (hl : s'.log = s.log) : Away k s s' :=
  ⟨by rw [hm], by rw [hh]; exact fun _ _ => Iff.rfl, by rw [hc]; exact fun _ h => h, hl⟩

/-- the call a thread is in -/
def inCall : Pc → Option Call
  | .idle => none
  | .enter c | .readV c | .writeV c _ | .readC c | .writeC c _ | .embed c _ | .check c _ | .store c _ _ | .append c _ _ | .look c _ | .childRead c _
  | .childWrite c _ _ => some c

theorem ok_log {s : St} {w : Ws} {t : Nat} {p : Pc} (h : Ok s w t p) {c : Call} (hc : inCall p = some c) : s.log[c.id]? = some (t, c.delta, c.key) := by
  cases p <;> simp only [inCall, Option.some.injEq, reduceCtorEq] at hc <;> subst hc <;> exact h.1

theorem heap_set {heap : List Child} {i k : Nat} {ch : Child} (h : heap[i]? = some ch) (hk : ch.key ≠ k) (x : Int) (j : Nat) (v : Int) :
    (setValue heap i x)[j]? = some ⟨k, v⟩ ↔ heap[j]? = some ⟨k, v⟩ := by
  unfold setValue
  rw [h]
  dsimp only
  rw [List.getElem?_set]
  by_cases e : i = j
  · subst e
    simp only [lt_of_some h, if_true, h, Option.some.injEq]
    constructor
    · intro e; exact absurd (congrArg Child.key e) hk
    · intro e; exact absurd (congrArg Child.key e) hk
  · simp [e]

theorem away_go (sum : Bool) {s : St} {w : Ws} (I : Inv s w) (k t : Nat) (hk : ∀ c, inCall (s.pcs t) = some c → c.key ≠ some k) : Away k s (step sum s (.go t)) := by
  have hok := I.ok t
  cases hpc : s.pcs t with
  | idle => simpa only [step, hpc] using Away.rfl' rfl rfl rfl rfl
  | enter c => simp only [step, hpc]; split <;> exact .rfl' rfl rfl rfl rfl
  | readV c => simp only [step, hpc]; exact .rfl' rfl rfl rfl rfl
  | writeV c v => simp only [step, hpc]; exact .rfl' rfl rfl rfl rfl
  | readC c => simp only [step, hpc]; exact .rfl' rfl rfl rfl rfl
  | writeC c v => simp only [step, hpc]; exact .rfl' rfl rfl rfl rfl
  | embed c k' => simp only [step, hpc]; exact .rfl' rfl rfl rfl rfl
  | check c k' =>
    rw [hpc] at hok hk
    simp only [step, hpc]
    split
    · exact .rfl' rfl rfl rfl rfl
    · have hne : k' ≠ k := by rintro rfl; exact hk c rfl hok.2.2
      refine ⟨rfl, fun i v => ?_, fun _ h => h, rfl⟩
      by_cases hi : i < s.heap.length
      · rw [List.getElem?_append_left hi]
      · have h0 : s.heap[i]? = none := List.getElem?_eq_none (by omega)
        rw [h0]
        constructor
        · intro h
          have : i = s.heap.length := by have := lt_of_some h; simp at this; omega
          subst this
          simp at h
          exact absurd h.1 hne
        · intro h; cases h
  | store c k' i =>
    rw [hpc] at hok hk
    simp only [step, hpc]
    have hne : k ≠ k' := by rintro rfl; exact hk c rfl hok.2.2.1
    exact ⟨upd_other _ _ hne, fun _ _ => Iff.rfl, fun _ h => h, rfl⟩
  | append c k' i => simp only [step, hpc]; exact ⟨rfl, fun _ _ => Iff.rfl, fun _ h => List.mem_append_left _ h, rfl⟩
  | look c k' => simp only [step, hpc]; split <;> exact .rfl' rfl rfl rfl rfl
  | childRead c i => simp only [step, hpc]; split <;> exact .rfl' rfl rfl rfl rfl
  | childWrite c i v =>
    rw [hpc] at hok hk
    simp only [step, hpc]
    obtain ⟨ch, h1, h2⟩ := hok.2.2.1
    exact ⟨rfl, heap_set h1 (fun e => hk c rfl (by rw [h2, e])) _, fun _ h => h, rfl⟩

/-- a step after which what is recorded is the same -/
theorem Main.goto {k : Nat} {s : St} {p p' : Pc} (h : Main k s p) (h1 : pend k p' = pend k p) (h2 : Before k p → Before k p') (h3 : ∀ i v, Place k s i v p → Place k s i v p') : Main k s p' := by
  rcases h with ⟨a1, a2, a3, a4⟩ | ⟨i, v, a1, a2, a3, a4⟩
  · exact .inl ⟨a1, a2, h1 ▸ a3, h2 a4⟩
  · exact .inr ⟨i, v, a1, a2, h1 ▸ a3, h3 i v a4⟩

theorem main_go (sum : Bool) {s : St} {w : Ws} (I : Inv s w) (k a : Nat) (h : Main k s (s.pcs a)) : Main k (step sum s (.go a)) ((step sum s (.go a)).pcs a) := by
  have hok := I.ok a
  cases hpc : s.pcs a with
  | idle => simpa only [step, hpc] using hpc ▸ h
  | enter c =>
    rw [hpc] at h
    simp only [step, hpc]
    split
    · simp only [St.goto, upd_same]
      exact Away.main (.rfl' rfl rfl rfl rfl) (h.goto rfl id (fun _ _ => id))
    · simp only [St.goto, upd_same]
      exact Away.main (.rfl' rfl rfl rfl rfl) (h.goto rfl id (fun _ _ => id))
  | readV c =>
    rw [hpc] at h
    simp only [step, hpc, St.goto, upd_same]
    exact Away.main (.rfl' rfl rfl rfl rfl) (h.goto rfl id (fun _ _ => id))
  | writeV c v =>
    rw [hpc] at h
    simp only [step, hpc, upd_same]
    exact Away.main (.rfl' rfl rfl rfl rfl) (h.goto rfl id (fun _ _ => id))
  | readC c =>
    rw [hpc] at h
    simp only [step, hpc, St.goto, upd_same]
    exact Away.main (.rfl' rfl rfl rfl rfl) (h.goto rfl id (fun _ _ => id))
  | writeC c v =>
    rw [hpc] at h
    simp only [step, hpc, upd_same]
    refine Away.main (.rfl' rfl rfl rfl rfl) (h.goto (p' := match c.key with | none => .idle | some k => .embed c k) ?_ ?_ ?_)
    · cases hk : c.key <;> simp [pend, hk]
    · cases hk : c.key <;> simp [Before]
    · cases hk : c.key <;> exact fun _ _ => id
  | embed c k' =>
    rw [hpc] at h
    simp only [step, hpc, upd_same]
    exact Away.main (.rfl' rfl rfl rfl rfl) (h.goto rfl id (fun _ _ => id))
  | check c k' =>
    rw [hpc] at h hok
    cases hm : s.mapping k' with
    | some j =>
      simp only [step, hpc, hm, St.goto, upd_same]
      refine Away.main (.rfl' rfl rfl rfl rfl) ?_
      rcases h with ⟨a1, a2, a3, a4⟩ | ⟨i, v, a1, a2, a3, a4⟩
      · exact .inl ⟨a1, a2, a3, by rintro rfl; rw [hm] at a1; cases a1⟩
      · exact .inr ⟨i, v, a1, a2, a3, a4⟩
    | none =>
      simp only [step, hpc, hm, upd_same]
      have hlast : ∀ (j : Nat) (v' : Int), (s.heap ++ [(⟨k', 0⟩ : Child)])[j]? = some ⟨k, v'⟩ → s.heap[j]? = some ⟨k, v'⟩ ∨ (j = s.heap.length ∧ k' = k) := by
        intro j v' hj
        by_cases hi : j < s.heap.length
        · rw [List.getElem?_append_left hi] at hj; exact .inl hj
        · have : j = s.heap.length := by have := lt_of_some hj; simp at this; omega
          subst this
          simp at hj
          exact .inr ⟨rfl, hj.1⟩
      by_cases hk : k' = k
      · subst hk
        rcases h with ⟨a1, a2, a3, a4⟩ | ⟨i, v, a1, a2, a3, a4⟩
        · refine .inr ⟨s.heap.length, 0, by simp, ?_, ?_, fun _ => ⟨hm, rfl⟩, fun e => absurd rfl e⟩
          · intro j v' hj
            rcases hlast j v' hj with hj | hj
            · exact absurd hj (a2 j v')
            · exact hj.1
          · rw [Int.zero_add]; exact a3.symm
        · simp only [Place] at a4
          rw [hm] at a4; cases a4.1
      · rcases h with ⟨a1, a2, a3, a4⟩ | ⟨i, v, a1, a2, a3, a4⟩
        · refine .inl ⟨a1, fun i v hi => ?_, a3, hk⟩
          rcases hlast i v hi with hi | hi
          · exact a2 i v hi
          · exact hk hi.2
        · refine .inr ⟨i, v, ?_, ?_, a3, fun e => absurd e hk, fun _ => a4⟩
          · dsimp only; rw [List.getElem?_append_left (lt_of_some a1)]; exact a1
          · intro j v' hj
            rcases hlast j v' hj with hj | hj
            · exact a2 j v' hj
            · exact absurd hj.2 hk
  | store c k' i' =>
    rw [hpc] at h
    simp only [step, hpc, upd_same]
    rcases h with ⟨a1, a2, a3, a4⟩ | ⟨i, v, a1, a2, a3, a4⟩
    · have hk : k ≠ k' := Ne.symm a4
      exact .inl ⟨by dsimp only; rw [upd_other _ _ hk]; exact a1, a2, a3, a4⟩
    · refine .inr ⟨i, v, a1, a2, a3, ?_⟩
      simp only [Place] at a4 ⊢
      by_cases hk : k' = k
      · subst hk
        exact ⟨by rw [upd_same, (a4.1 rfl).2], fun _ => (a4.1 rfl).2, fun e => absurd rfl e⟩
      · exact ⟨by rw [upd_other _ _ (Ne.symm hk)]; exact (a4.2 hk).1, fun e => absurd e hk, fun _ => (a4.2 hk).2⟩
  | append c k' i' =>
    rw [hpc] at h
    simp only [step, hpc, upd_same]
    rcases h with ⟨a1, a2, a3, a4⟩ | ⟨i, v, a1, a2, a3, a4⟩
    · exact .inl ⟨a1, a2, a3, a4⟩
    · refine .inr ⟨i, v, a1, a2, a3, ?_⟩
      simp only [Place] at a4 ⊢
      refine ⟨a4.1, ?_⟩
      by_cases hk : k' = k
      · rw [a4.2.1 hk]; simp
      · exact List.mem_append_left _ (a4.2.2 hk)
  | look c k' =>
    rw [hpc] at h hok
    cases hm : s.mapping k' with
    | some j =>
      simp only [step, hpc, hm, St.goto, upd_same]
      refine Away.main (.rfl' rfl rfl rfl rfl) ?_
      rcases h with ⟨a1, a2, a3, a4⟩ | ⟨i, v, a1, a2, a3, a4⟩
      · exact .inl ⟨a1, a2, a3, fun e => a4 (by rw [hok.2.2] at e; exact Option.some.inj e)⟩
      · refine .inr ⟨i, v, a1, a2, a3, a4.1, a4.2, fun e => ?_⟩
        rw [hok.2.2] at e
        cases e
        have := a4.1
        rw [hm] at this
        exact Option.some.inj this
    | none =>
      simp only [step, hpc, hm, St.goto, upd_same]
      refine Away.main (.rfl' rfl rfl rfl rfl) ?_
      rcases h with ⟨a1, a2, a3, a4⟩ | ⟨i, v, a1, a2, a3, a4⟩
      · have hk : c.key ≠ some k := fun e => a4 (by rw [hok.2.2] at e; exact Option.some.inj e)
        exact .inl ⟨a1, a2, by simpa [pend, hk] using a3, trivial⟩
      · have hk : c.key ≠ some k := by
          intro e
          rw [hok.2.2] at e; cases e
          have := a4.1
          rw [hm] at this; cases this
        exact .inr ⟨i, v, a1, a2, by simpa [pend, hk] using a3, a4⟩
  | childRead c i' =>
    rw [hpc] at h hok
    obtain ⟨ch, h1, h2⟩ := hok.2.2
    simp only [step, hpc, h1, St.goto, upd_same]
    refine Away.main (.rfl' rfl rfl rfl rfl) ?_
    rcases h with ⟨a1, a2, a3, a4⟩ | ⟨i, v, a1, a2, a3, a4⟩
    · exact .inl ⟨a1, a2, a3, a4⟩
    · refine .inr ⟨i, v, a1, a2, a3, a4.1, a4.2.1, fun e => ⟨a4.2.2 e, ?_⟩⟩
      have hi := a4.2.2 e
      subst hi
      rw [h1] at a1; cases a1; rfl
  | childWrite c i' v' =>
    rw [hpc] at h hok
    obtain ⟨ch, h1, h2⟩ := hok.2.2.1
    by_cases hk : c.key = some k
    · have hkey : ch.key = k := by rw [h2] at hk; exact Option.some.inj hk
      simp only [step, hpc, upd_same]
      rcases h with ⟨a1, a2, a3, a4⟩ | ⟨i, v, a1, a2, a3, a4⟩
      · exact absurd hk a4
      · obtain ⟨b1, b2, b3⟩ := a4
        obtain ⟨rfl, rfl⟩ := b3 hk
        have hset : setValue s.heap i' (v' + c.delta) = s.heap.set i' ⟨k, v' + c.delta⟩ := by
          unfold setValue; rw [h1]; dsimp only; rw [hkey]
        simp only [pend, hk, if_true] at a3
        refine .inr ⟨i', v' + c.delta, ?_, ?_, ?_, b1, b2⟩
        · dsimp only; rw [hset, List.getElem?_set]; simp [lt_of_some h1]
        · intro j x hj
          dsimp only at hj
          rw [hset, List.getElem?_set] at hj
          by_cases e : i' = j
          · exact e.symm
          · simp [e] at hj
            exact a2 j x hj
        · simp only [pend, Int.add_zero]; exact a3
    · have A := away_go sum I k a (by rw [hpc]; intro c' hc; cases hc; exact hk)
      have hp : (step sum s (.go a)).pcs a = .idle := by simp only [step, hpc, upd_same]
      rw [hp]
      refine A.main (h.goto (by simp [pend, hk]) (fun _ => trivial) (fun i v hp => ⟨hp.1, hp.2.1⟩))

/-- calls with the labels are of one thread -/
def Mine (k a : Nat) (s : St) : Prop := ∀ (n t : Nat) d, s.log[n]? = some (t, d, some k) → t = a

/-- labels show only once the flag is set -/
def Flag (s : St) : Prop := (s.heap ≠ [] ∨ ∃ t c k, s.pcs t = .check c k) → s.embedded = true

theorem total_append (log : List (Nat × Int × Option Nat)) (t : Nat) (d : Int) (key : Option Nat) (k : Nat) :
    total (log ++ [(t, d, key)]) k = total log k + (if key = some k then d else 0) := by
  unfold total
  by_cases h : key = some k <;> simp [List.filter_append, h, List.sum_append]

theorem pcs_other (sum : Bool) (s : St) (t u : Nat) (h : u ≠ t) : (step sum s (.go t)).pcs u = s.pcs u := by
  unfold step
  dsimp only
  split <;> (try split) <;> simp [St.goto, upd_other _ _ h]

theorem own_step (sum : Bool) {s : St} {w : Ws} (I : Inv s w) (k a : Nat) (hm : Mine k a s) (h : Main k s (s.pcs a)) (x : Act) (hx : ∀ t d, x = .call t d (some k) → t = a) :
    Mine k a (step sum s x) ∧ Main k (step sum s x) ((step sum s x).pcs a) := by
  cases x with
  | go t =>
    have hl : (step sum s (.go t)).log = s.log := by
      unfold step
      dsimp only
      split <;> (try split) <;> rfl
    refine ⟨by unfold Mine; rw [hl]; exact hm, ?_⟩
    by_cases ht : t = a
    · subst ht; exact main_go sum I k t h
    · rw [pcs_other sum s t a (Ne.symm ht)]
      refine (away_go sum I k t (fun c hc hk => ht ?_)).main h
      have := ok_log (I.ok t) hc
      rw [hk] at this
      exact hm _ _ _ this
  | call t d key =>
    cases hpc : s.pcs t with
    | idle =>
      simp only [step, hpc]
      constructor
      · intro n u d' hn
        dsimp only at hn
        by_cases hi : n < s.log.length
        · rw [List.getElem?_append_left hi] at hn; exact hm n u d' hn
        · have : n = s.log.length := by have := lt_of_some hn; simp at this; omega
          subst this
          simp at hn
          obtain ⟨rfl, rfl, rfl⟩ := hn
          exact hx t d rfl
      · by_cases ht : t = a
        · subst ht
          rw [upd_same]
          rw [hpc] at h
          rcases h with ⟨a1, a2, a3, a4⟩ | ⟨i, v, a1, a2, a3, a4⟩
          · refine .inl ⟨a1, a2, ?_, trivial⟩
            simp only [total_append, a3, pend, Int.zero_add]
          · refine .inr ⟨i, v, a1, a2, ?_, a4⟩
            simp only [pend, Int.add_zero] at a3
            simp only [total_append, pend, ← a3]
        · rw [upd_other _ _ (Ne.symm ht)]
          have hk : key ≠ some k := by rintro rfl; exact ht (hx t d rfl)
          rcases h with ⟨a1, a2, a3, a4⟩ | ⟨i, v, a1, a2, a3, a4⟩
          · exact .inl ⟨a1, a2, by simp only [total_append, hk, if_false, Int.add_zero]; exact a3, a4⟩
          · refine .inr ⟨i, v, a1, a2, by simp only [total_append, hk, if_false, Int.add_zero]; exact a3, ?_⟩
            cases hp : s.pcs a <;> simp only [hp, Place] at a4 ⊢ <;> exact a4
    | _ => exact ⟨by simpa only [step, hpc] using hm, by simpa only [step, hpc] using h⟩

theorem flag_step (sum : Bool) (s : St) (h : Flag s) (x : Act) : Flag (step sum s x) := by
  have pc : ∀ {t : Nat} {p : Pc} {u : Nat} {c : Call} {k : Nat}, (∀ c' k', p ≠ .check c' k') → upd s.pcs t p u = .check c k → s.embedded = true := by
    intro t p u c k hp hu
    by_cases e : u = t
    · subst e; rw [upd_same] at hu; exact absurd hu (hp _ _)
    · rw [upd_other _ _ e] at hu; exact h (.inr ⟨u, c, k, hu⟩)
  have heap : s.heap ≠ [] → s.embedded = true := fun e => h (.inl e)
  cases x with
  | call t d key =>
    cases hpc : s.pcs t with
    | idle =>
      simp only [step, hpc]
      rintro (e | ⟨u, c, k, e⟩)
      · exact heap e
      · exact pc (by intros; simp) e
    | _ => simpa only [step, hpc] using h
  | go t =>
    cases hpc : s.pcs t with
    | idle => simpa only [step, hpc] using h
    | enter c =>
      simp only [step, hpc]
      split <;> (rintro (e | ⟨u, c, k, e⟩); exact heap e; exact pc (by intros; simp) e)
    | writeC c v =>
      simp only [step, hpc]
      rintro (e | ⟨u, c', k, e⟩)
      · exact heap e
      · exact pc (by intros; split <;> simp) e
    | embed c k => simp only [step, hpc]; exact fun _ => rfl
    | check c k =>
      have he : s.embedded = true := h (.inr ⟨t, c, k, hpc⟩)
      simp only [step, hpc]
      split <;> exact fun _ => he
    | look c k =>
      simp only [step, hpc]
      split <;> (rintro (e | ⟨u, c, k, e⟩); exact heap e; exact pc (by intros; simp) e)
    | childRead c i =>
      simp only [step, hpc]
      split <;> (rintro (e | ⟨u, c, k, e⟩); exact heap e; exact pc (by intros; simp) e)
    | childWrite c i v =>
      simp only [step, hpc]
      rintro (e | ⟨u, c, k, e⟩)
      · refine heap ?_
        rintro he
        apply e
        simp [setValue, he]
      · exact pc (by intros; simp) e
    | _ =>
      simp only [step, hpc]
      rintro (e | ⟨u, c, k, e⟩)
      · exact heap e
      · exact pc (by intros; simp) e

/-- in a call with these labels, before a clone is looked for -/
def Early (k : Nat) : Pc → Prop
  | .enter c | .readV c | .writeV c _ | .readC c | .writeC c _ => c.key = some k
  | .embed _ k' | .check _ k' => k' = k
  | _ => False

/-- labels used have clones, clones have labels used, and all clones are, or are about to be, in the list of children -/
structure Ent (s : St) : Prop where
  used : ∀ (n t : Nat) d k, s.log[n]? = some (t, d, some k) → Early k (s.pcs t) ∨ ∃ (i : Nat) (v : Int), s.heap[i]? = some ⟨k, v⟩
  real : ∀ (i k : Nat) v, s.heap[i]? = some ⟨k, v⟩ → ∃ (n t : Nat) (d : Int), s.log[n]? = some (t, d, some k)
  kept : ∀ (i k : Nat) v, s.heap[i]? = some ⟨k, v⟩ → i ∈ s.children ∨ ∃ t c k', s.pcs t = .store c k' i ∨ s.pcs t = .append c k' i

theorem Ent.go {s s' : St} {t : Nat} {p' : Pc} (E : Ent s) (hl : s'.log = s.log) (hp : s'.pcs = upd s.pcs t p')
    (hm : ∀ (i k : Nat) v, s.heap[i]? = some ⟨k, v⟩ → ∃ v', s'.heap[i]? = some ⟨k, v'⟩)
    (hr : ∀ (i k : Nat) v, s'.heap[i]? = some ⟨k, v⟩ → (∃ v', s.heap[i]? = some ⟨k, v'⟩) ∨ ∃ c, p' = .store c k i ∧ ∃ (n t : Nat) (d : Int), s.log[n]? = some (t, d, some k))
    (he : ∀ k, Early k (s.pcs t) → Early k p' ∨ ∃ (i : Nat) (v : Int), s'.heap[i]? = some ⟨k, v⟩)
    (hc : ∀ i ∈ s.children, i ∈ s'.children)
    (hs : ∀ c k i, (s.pcs t = .store c k i ∨ s.pcs t = .append c k i) → i ∈ s'.children ∨ ∃ c' k', p' = .append c' k' i) : Ent s' where
  used n u d k h := by
    rw [hl] at h
    rcases E.used n u d k h with h1 | ⟨i, v, h1⟩
    · by_cases hu : u = t
      · subst hu
        rw [hp, upd_same]
        exact he k h1
      · rw [hp, upd_other _ _ hu]; exact .inl h1
    · obtain ⟨v', h2⟩ := hm i k v h1
      exact .inr ⟨i, v', h2⟩
  real i k v h := by
    rw [hl]
    rcases hr i k v h with ⟨v', h1⟩ | ⟨_, _, h1⟩
    · exact E.real i k v' h1
    · exact h1
  kept i k v h := by
    rcases hr i k v h with ⟨v', h1⟩ | ⟨c, h1, _⟩
    · rcases E.kept i k v' h1 with h2 | ⟨u, c, k', h2⟩
      · exact .inl (hc i h2)
      · by_cases hu : u = t
        · subst hu
          rcases hs c k' i h2 with h3 | ⟨c', k'', h3⟩
          · exact .inl h3
          · exact .inr ⟨u, c', k'', .inr (by rw [hp, upd_same, h3])⟩
        · exact .inr ⟨u, c, k', by rw [hp, upd_other _ _ hu]; exact h2⟩
    · exact .inr ⟨t, c, k, .inl (by rw [hp, upd_same, h1])⟩

theorem ent_step (sum : Bool) {s : St} {w : Ws} (I : Inv s w) (E : Ent s) (x : Act) : Ent (step sum s x) := by
  cases x with
  | call t d key =>
    cases hpc : s.pcs t with
    | idle =>
      simp only [step, hpc]
      constructor
      · intro n u d' k hn
        dsimp only at hn ⊢
        by_cases hi : n < s.log.length
        · rw [List.getElem?_append_left hi] at hn
          rcases E.used n u d' k hn with h1 | h1
          · by_cases hu : u = t
            · subst hu; rw [hpc] at h1; exact h1.elim
            · rw [upd_other _ _ hu]; exact .inl h1
          · exact .inr h1
        · have : n = s.log.length := by have := lt_of_some hn; simp at this; omega
          subst this
          simp at hn
          obtain ⟨rfl, rfl, rfl⟩ := hn
          rw [upd_same]
          exact .inl rfl
      · intro i k v h
        obtain ⟨n, u, d', h1⟩ := E.real i k v h
        exact ⟨n, u, d', by dsimp only; rw [List.getElem?_append_left (lt_of_some h1)]; exact h1⟩
      · intro i k v h
        refine (E.kept i k v h).imp id ?_
        rintro ⟨u, c, k', h1⟩
        refine ⟨u, c, k', ?_⟩
        have hu : u ≠ t := by rintro rfl; rw [hpc] at h1; rcases h1 with h1 | h1 <;> cases h1
        dsimp only
        rw [upd_other _ _ hu]; exact h1
    | _ => simpa only [step, hpc] using E
  | go t =>
    have same : ∀ (i k : Nat) v, s.heap[i]? = some ⟨k, v⟩ → ∃ v', s.heap[i]? = some ⟨k, v'⟩ := fun _ _ v h => ⟨v, h⟩
    cases hpc : s.pcs t with
    | idle => simpa only [step, hpc] using E
    | enter c =>
      simp only [step, hpc]
      split
      · exact E.go (t := t) rfl rfl same (fun _ _ v h => .inl ⟨v, h⟩) (by rw [hpc]; exact fun k h => .inl h) (fun _ h => h) (by rw [hpc]; rintro _ _ _ (h | h) <;> cases h)
      · exact E.go (t := t) rfl rfl same (fun _ _ v h => .inl ⟨v, h⟩) (by rw [hpc]; exact fun k h => .inl h) (fun _ h => h) (by rw [hpc]; rintro _ _ _ (h | h) <;> cases h)
    | readV c =>
      simp only [step, hpc]
      exact E.go (t := t) rfl rfl same (fun _ _ v h => .inl ⟨v, h⟩) (by rw [hpc]; exact fun k h => .inl h) (fun _ h => h) (by rw [hpc]; rintro _ _ _ (h | h) <;> cases h)
    | writeV c v =>
      simp only [step, hpc]
      exact E.go (t := t) rfl rfl same (fun _ _ v h => .inl ⟨v, h⟩) (by rw [hpc]; exact fun k h => .inl h) (fun _ h => h) (by rw [hpc]; rintro _ _ _ (h | h) <;> cases h)
    | readC c =>
      simp only [step, hpc]
      exact E.go (t := t) rfl rfl same (fun _ _ v h => .inl ⟨v, h⟩) (by rw [hpc]; exact fun k h => .inl h) (fun _ h => h) (by rw [hpc]; rintro _ _ _ (h | h) <;> cases h)
    | writeC c v =>
      simp only [step, hpc]
      refine E.go (t := t) rfl rfl same (fun _ _ v h => .inl ⟨v, h⟩) ?_ (fun _ h => h) (by rw [hpc]; rintro _ _ _ (h | h) <;> cases h)
      rw [hpc]
      intro k h
      simp only [Early] at h
      rw [h]
      exact .inl rfl
    | embed c k =>
      simp only [step, hpc]
      exact E.go (t := t) rfl rfl same (fun _ _ v h => .inl ⟨v, h⟩) (by rw [hpc]; exact fun k h => .inl h) (fun _ h => h) (by rw [hpc]; rintro _ _ _ (h | h) <;> cases h)
    | check c k =>
      simp only [step, hpc]
      cases hk : s.mapping k with
      | some i =>
        refine E.go (t := t) rfl rfl same (fun _ _ v h => .inl ⟨v, h⟩) ?_ (fun _ h => h) (by rw [hpc]; rintro _ _ _ (h | h) <;> cases h)
        rw [hpc]
        rintro k' h
        simp only [Early] at h
        subst h
        obtain ⟨ch, h1, h2⟩ := I.map k i hk
        exact .inr ⟨i, ch.value, by show s.heap[i]? = _; rw [h1, ← h2]⟩
      | none =>
        have ho := I.ok t
        rw [hpc] at ho
        refine E.go (t := t) rfl rfl ?_ ?_ ?_ (fun _ h => h) (by rw [hpc]; rintro _ _ _ (h | h) <;> cases h)
        · exact fun i k' v h => ⟨v, by dsimp only; rw [List.getElem?_append_left (lt_of_some h)]; exact h⟩
        · intro i k' v h
          dsimp only at h
          by_cases hi : i < s.heap.length
          · rw [List.getElem?_append_left hi] at h; exact .inl ⟨v, h⟩
          · have : i = s.heap.length := by have := lt_of_some h; simp at this; omega
            subst this
            simp at h
            obtain ⟨rfl, rfl⟩ := h
            exact .inr ⟨c, rfl, c.id, t, c.delta, by rw [ho.1, ho.2.2]⟩
        · rw [hpc]
          intro k' h
          simp only [Early] at h
          subst h
          exact .inr ⟨s.heap.length, 0, by simp⟩
    | store c k i =>
      simp only [step, hpc]
      refine E.go (t := t) rfl rfl same (fun _ _ v h => .inl ⟨v, h⟩) (by rw [hpc]; exact fun k h => h.elim) (fun _ h => h) ?_
      rw [hpc]
      rintro _ _ _ (h | h) <;> cases h
      exact .inr ⟨c, k, rfl⟩
    | append c k i =>
      simp only [step, hpc]
      refine E.go (t := t) rfl rfl same (fun _ _ v h => .inl ⟨v, h⟩) (by rw [hpc]; exact fun k h => h.elim) (fun _ h => List.mem_append_left _ h) ?_
      rw [hpc]
      rintro _ _ _ (h | h) <;> cases h
      exact .inl (List.mem_append_right _ (List.mem_singleton.2 rfl))
    | look c k =>
      simp only [step, hpc]
      split <;> exact E.go (t := t) rfl rfl same (fun _ _ v h => .inl ⟨v, h⟩) (by rw [hpc]; exact fun k h => h.elim) (fun _ h => h) (by rw [hpc]; rintro _ _ _ (h | h) <;> cases h)
    | childRead c i =>
      simp only [step, hpc]
      split <;> exact E.go (t := t) rfl rfl same (fun _ _ v h => .inl ⟨v, h⟩) (by rw [hpc]; exact fun k h => h.elim) (fun _ h => h) (by rw [hpc]; rintro _ _ _ (h | h) <;> cases h)
    | childWrite c i v =>
      simp only [step, hpc]
      refine E.go (t := t) rfl rfl ?_ ?_ (by rw [hpc]; exact fun k h => h.elim) (fun _ h => h) (by rw [hpc]; rintro _ _ _ (h | h) <;> cases h)
      · intro j k v' h
        dsimp only [setValue]
        split
        · rename_i ch hch
          by_cases hj : i = j
          · subst hj
            rw [hch] at h; cases h
            exact ⟨v + c.delta, by rw [List.getElem?_set_self (lt_of_some hch)]⟩
          · exact ⟨v', by rw [List.getElem?_set_ne hj]; exact h⟩
        · exact ⟨v', h⟩
      · intro j k v' h
        dsimp only [setValue] at h
        split at h
        · rename_i ch hch
          by_cases hj : i = j
          · subst hj
            rw [List.getElem?_set_self (lt_of_some hch)] at h; cases h
            exact .inl ⟨ch.value, hch⟩
          · rw [List.getElem?_set_ne hj] at h; exact .inl ⟨v', h⟩
        · exact .inl ⟨v', h⟩

theorem all_run (sum : Bool) (as : List Act) : ∀ s w, Inv s w → Ent s → Flag s → ∃ w', Inv (run sum s as) w' ∧ Ent (run sum s as) ∧ Flag (run sum s as) := by
  induction as with
  | nil => exact fun s w I E f => ⟨w, I, E, f⟩
  | cons x as ih =>
    intro s w I E f
    obtain ⟨w1, I1⟩ := inv_step sum s w I x
    exact ih _ w1 I1 (ent_step sum I E x) (flag_step sum s f x)

theorem ent_init : Ent {} := ⟨fun n t d k h => by simp at h, fun i k v h => by simp at h, fun i k v h => by simp at h⟩

theorem report_some (heap : List Child) (i k : Nat) (v : Int) (hi : heap[i]? = some ⟨k, v⟩) :
    ∀ (l : List Nat) (out : List (Nat × Int)), ((∃ x, (k, x) ∈ out) ∨ i ∈ l) → ∃ x, (k, x) ∈ report heap l out := by
  intro l
  induction l with
  | nil => exact fun out h => h.elim id (fun h => by cases h)
  | cons j l ih =>
    intro out h
    unfold report
    by_cases hj : j = i
    · subst hj
      rw [hi]
      exact ih _ (.inl ⟨v, List.mem_cons_self ..⟩)
    · have h' : (∃ x, (k, x) ∈ out) ∨ i ∈ l := h.imp id (fun h => (List.mem_cons.1 h).elim (fun e => absurd e.symm hj) id)
      split
      · rename_i ch hch
        refine ih _ (h'.imp (fun ⟨x, ho⟩ => ?_) id)
        by_cases e : ch.key = k
        · exact ⟨ch.value, by rw [e]; exact List.mem_cons_self ..⟩
        · exact ⟨x, List.mem_cons_of_mem _ (List.mem_filter.2 ⟨ho, by simpa using fun h => e h.symm⟩)⟩
      · exact ih _ h'

theorem own_run (sum : Bool) (k a : Nat) (as : List Act) (hx : ∀ t d, Act.call t d (some k) ∈ as → t = a) : ∀ s w, Inv s w → Mine k a s → Main k s (s.pcs a) →
    ∃ w', Inv (run sum s as) w' ∧ Main k (run sum s as) ((run sum s as).pcs a) ∧ Mine k a (run sum s as) := by
  induction as with
  | nil => exact fun s w I m h => ⟨w, I, h, m⟩
  | cons x as ih =>
    intro s w I m h
    obtain ⟨w1, I1⟩ := inv_step sum s w I x
    obtain ⟨m1, h1⟩ := own_step sum I k a m h x (fun t d e => hx t d (e ▸ List.mem_cons_self ..))
    exact ih (fun t d e => hx t d (List.mem_cons_of_mem _ e)) _ w1 I1 m1 h1

theorem report_has (heap : List Child) (i k : Nat) (v : Int) (hi : heap[i]? = some ⟨k, v⟩) (hu : ∀ (j : Nat) v', heap[j]? = some ⟨k, v'⟩ → j = i) :
    ∀ (l : List Nat) (out : List (Nat × Int)), ((k, v) ∈ out ∨ i ∈ l) → (k, v) ∈ report heap l out := by
  intro l
  induction l with
  | nil => exact fun out h => h.elim id (fun h => by cases h)
  | cons j l ih =>
    intro out h
    unfold report
    by_cases hj : j = i
    · subst hj
      rw [hi]
      exact ih _ (.inl (List.mem_cons_self ..))
    · have h' : (k, v) ∈ out ∨ i ∈ l := h.imp id (fun h => (List.mem_cons.1 h).elim (fun e => absurd e.symm hj) id)
      split
      · rename_i ch hch
        refine ih _ (h'.imp (fun ho => List.mem_cons_of_mem _ (List.mem_filter.2 ⟨ho, ?_⟩)) id)
        simp only [decide_eq_true_eq]
        intro e
        exact hj (hu j ch.value (by rw [hch, e]))
      · exact ih _ h'

theorem length_le_of_lt : ∀ (n : Nat) (l : List Nat), l.Nodup → (∀ x ∈ l, x < n) → l.length ≤ n := by
  intro n
  induction n with
  | zero =>
    intro l _ h
    cases l with
    | nil => exact Nat.le_refl _
    | cons x l => exact absurd (h x (List.mem_cons_self ..)) (Nat.not_lt_zero _)
  | succ n ih =>
    intro l hn h
    have h1 := ih (l.erase n) (hn.erase n) (fun x hx => by
      have := h x (List.mem_of_mem_erase hx)
      have h2 : x ≠ n := fun e => by subst e; exact (hn.not_mem_erase hx)
      omega)
    have h3 : l.length ≤ (l.erase n).length + 1 := by rw [List.length_erase]; split <;> omega
    omega

theorem shown_labels {sum count : Bool} {s : St} {k : Nat} {x : Int} (h : (Entry.labels k, x) ∈ shown sum count s) :
    ∃ i, i ∈ s.children ∧ s.embedded = true ∧ s.heap[i]? = some ⟨k, x⟩ := by
  unfold shown at h
  rcases List.mem_append.1 h with h | h
  · split at h
    · rename_i he
      rcases List.mem_append.1 h with h | h
      · obtain ⟨e', hr, h⟩ := List.mem_map.1 h
        cases h
        rcases mem_report _ _ _ _ hr with hr | ⟨i, hi, ch, hch, hr⟩
        · cases hr
        · refine ⟨i, hi, he, ?_⟩
          rw [hch, hr]
      · split at h <;> simp at h
    · simp at h
  · split at h <;> simp at h

theorem labels_shown {sum count : Bool} {s : St} {k : Nat} {x : Int} (he : s.embedded = true) (h : (k, x) ∈ report s.heap s.children []) :
    (Entry.labels k, x) ∈ shown sum count s := by
  unfold shown
  rw [if_pos he]
  exact List.mem_append_left _ (List.mem_append_left _ (List.mem_map.2 ⟨(k, x), h, rfl⟩))

/-! ## C249 -/

/-- **C249 nothing is shown that was not counted.** Whatever threads do at the same time: what a counter shows for labels is the
sum of deltas of some calls made so far with these labels, each counted at most once; what it shows as the sum, or without labels,
is the sum of deltas of some calls; the number of calls it shows is not negative and no greater than that of calls made; and
there is one entry for labels at most. -/
theorem C249_some (sum count : Bool) (as : List Act) :
    let s := run sum {} as
    ((shown sum count s).map Prod.fst).Nodup ∧ ∀ e x, (e, x) ∈ shown sum count s →
      (∀ k, e = .labels k → SumOfSome s.log (· = some k) x) ∧ ((e = .sum ∨ e = .plain) → SumOfSome s.log (fun _ => True) x) ∧
      (e = .count → 0 ≤ x ∧ x ≤ s.log.length) := by
  intro s
  obtain ⟨w, I⟩ := inv_run sum as {} _ inv_init
  change Inv s w at I
  have hval : SumOfSome s.log (fun _ => True) s.value := by
    obtain ⟨ids, h1, h2, h3⟩ := I.cellP
    refine ⟨ids, h1, fun n hn => ?_, h3⟩
    have hl := I.validP n (h2 n hn)
    exact ⟨s.log[n].1, s.log[n].2.1, s.log[n].2.2, List.getElem?_eq_getElem hl, trivial⟩
  have hcalls : 0 ≤ s.calls ∧ s.calls ≤ s.log.length := by
    obtain ⟨ids, h1, h2, h3⟩ := I.cellC
    have h4 : (ids.map (fun _ => (1 : Int))).sum = ids.length := by
      clear h1 h2 h3
      induction ids with
      | nil => rfl
      | cons x l ih => simp only [List.map_cons, List.sum_cons, ih, List.length_cons]; omega
    have h5 := length_le_of_lt s.log.length ids h1 (fun n hn => I.validC n (h2 n hn))
    rw [h3, h4]; omega
  refine ⟨?_, ?_⟩
  · unfold shown
    have hk := report_keys s.heap s.children [] List.nodup_nil
    have hk2 : ((report s.heap s.children []).map (fun e => Entry.labels e.1)).Nodup := by
      have : (report s.heap s.children []).map (fun e => Entry.labels e.1) = ((report s.heap s.children []).map Prod.fst).map Entry.labels := by simp
      rw [this]
      exact List.Pairwise.map _ (fun a b h e => h (Entry.labels.inj e)) hk
    split <;> cases sum <;> cases count <;> simp [List.nodup_append, Function.comp_def, hk2] <;> (rintro a k v - rfl; simp)
  · intro e x h
    unfold shown at h
    rcases List.mem_append.1 h with h | h
    · split at h
      · rcases List.mem_append.1 h with h | h
        · obtain ⟨e', he, h⟩ := List.mem_map.1 h
          cases h
          refine ⟨fun k hk => ?_, fun h => (by rcases h with h | h <;> cases h), fun h => (by cases h)⟩
          cases hk
          rcases mem_report _ _ _ _ he with he | ⟨i, _, ch, hch, he⟩
          · cases he
          · obtain ⟨ids, h1, h2, h3⟩ := I.cell i ch hch
            refine ⟨ids, h1, fun n hn => ?_, by rw [he]; exact h3⟩
            obtain ⟨ch', u, d, h4, h5⟩ := I.valid i n (h2 n hn)
            rw [hch] at h4; cases h4
            exact ⟨u, d, _, h5, by rw [he]⟩
        · split at h
          · rw [List.mem_singleton] at h; cases h
            exact ⟨fun k hk => (by cases hk), fun _ => hval, fun h => (by cases h)⟩
          · cases h
      · rw [List.mem_singleton] at h; cases h
        exact ⟨fun k hk => (by cases hk), fun _ => hval, fun h => (by cases h)⟩
    · split at h
      · rw [List.mem_singleton] at h; cases h
        exact ⟨fun k hk => (by cases hk), fun h => (by rcases h with h | h <;> cases h), fun _ => hcalls⟩
      · cases h

/-- **C249 labels shown are those used.** Labels are shown only if a call was made with them, and when no thread is in a call, all
labels that calls were made with are shown. -/
theorem C249_labels (sum count : Bool) (as : List Act) (k : Nat) :
    let s := run sum {} as
    ((∃ x, (.labels k, x) ∈ shown sum count s) → ∃ t d, (t, d, some k) ∈ s.log) ∧
    ((∀ t, s.pcs t = .idle) → (∃ t d, (t, d, some k) ∈ s.log) → ∃ x, (.labels k, x) ∈ shown sum count s) := by
  intro s
  obtain ⟨w, I, E, F⟩ := all_run sum as {} _ inv_init ent_init (by rintro (h | ⟨_, _, _, h⟩) <;> simp at h)
  change Inv s w at I
  change Ent s at E
  change Flag s at F
  constructor
  · rintro ⟨x, h⟩
    obtain ⟨i, _, _, hi⟩ := shown_labels h
    obtain ⟨n, t, d, h1⟩ := E.real i k x hi
    exact ⟨t, d, List.mem_of_getElem? h1⟩
  · rintro hidle ⟨t, d, h⟩
    obtain ⟨n, hn⟩ := List.mem_iff_getElem?.1 h
    rcases E.used n t d k hn with h1 | ⟨i, v, h1⟩
    · rw [hidle t] at h1; exact h1.elim
    · rcases E.kept i k v h1 with h2 | ⟨u, c, k', h2⟩
      · obtain ⟨x, hx⟩ := report_some s.heap i k v h1 s.children [] (.inr h2)
        exact ⟨x, labels_shown (F (.inl (by intro e; rw [e] at h1; simp at h1))) hx⟩
      · rw [hidle u] at h2; rcases h2 with h2 | h2 <;> cases h2

/-- **C249 labels of one thread are exact.** If all calls with some labels are made by one thread, then whatever other threads do
with other labels or without any: whenever that thread is not in a call, the counter shows for these labels exactly the sum of the
deltas of all calls made with them, and shows nothing for them if there were none. -/
theorem C249_own (sum count : Bool) (as : List Act) (k a : Nat) (hx : ∀ t d, Act.call t d (some k) ∈ as → t = a)
    (hidle : (run sum {} as).pcs a = .idle) (x : Int) :
    (.labels k, x) ∈ shown sum count (run sum {} as) ↔ (∃ t d, (t, d, some k) ∈ (run sum {} as).log) ∧ x = total (run sum {} as).log k := by
  have F0 : Flag {} := by rintro (h | ⟨_, _, _, h⟩) <;> simp at h
  obtain ⟨w, I, E, F⟩ := all_run sum as {} _ inv_init ent_init F0
  obtain ⟨_, _, M, mine⟩ := own_run sum k a as hx {} _ inv_init (fun n t d h => by simp at h) (.inl ⟨rfl, fun i v h => by simp at h, rfl, trivial⟩)
  rw [hidle] at M
  constructor
  · intro h
    obtain ⟨i, _, _, hi⟩ := shown_labels h
    obtain ⟨n, t, d, h1⟩ := E.real i k x hi
    refine ⟨⟨t, d, List.mem_of_getElem? h1⟩, ?_⟩
    rcases M with ⟨_, h2, _⟩ | ⟨j, v, h2, h3, h4, _⟩
    · exact absurd hi (h2 i x)
    · have := h3 i x hi
      subst this
      rw [h2] at hi; cases hi
      simpa [pend] using h4
  · rintro ⟨⟨t, d, h⟩, rfl⟩
    obtain ⟨n, hn⟩ := List.mem_iff_getElem?.1 h
    have ht : t = a := mine n t d hn
    subst ht
    rcases E.used n t d k hn with h1 | ⟨i, v, h1⟩
    · rw [hidle] at h1; exact h1.elim
    · rcases M with ⟨_, h2, _⟩ | ⟨j, v', h2, h3, h4, h5⟩
      · exact absurd h1 (h2 i v)
      · simp only [pend, Int.add_zero] at h4
        subst h4
        exact labels_shown (F (.inl (by intro e; rw [e] at h1; simp at h1))) (report_has _ j k _ h2 h3 _ _ (.inr h5.2))

/-! ## Proofs: the sum of calls of one thread -/

/-- what the thread has yet to add to the value -/
def lagV : Pc → Int
  | .enter c | .readV c | .writeV c _ => c.delta
  | _ => 0

/-- what the thread has yet to add to the number of calls -/
def lagC : Pc → Int
  | .enter _ | .readV _ | .writeV _ _ | .readC _ | .writeC _ _ => 1
  | _ => 0

/-- the call has no labels -/
def bare : Pc → Prop
  | .idle => True
  | .enter c | .readV c | .writeV c _ | .readC c | .writeC c _ => c.key = none
  | _ => False

/-- past setting the flag -/
def late : Pc → Prop
  | .check _ _ | .store _ _ _ | .append _ _ _ | .look _ _ | .childRead _ _ | .childWrite _ _ _ => True
  | _ => False

/-- the sum of the deltas of all calls -/
def totalAll (log : List (Nat × Int × Option Nat)) : Int := (log.map (fun e => e.2.1)).sum

/-- what holds if one thread makes all calls -/
structure Alone (sum : Bool) (a : Nat) (s : St) : Prop where
  others : ∀ u, u ≠ a → s.pcs u = .idle
  value : sum = true ∨ (s.embedded = false ∧ bare (s.pcs a)) → s.value + lagV (s.pcs a) = totalAll s.log
  calls : s.calls + lagC (s.pcs a) = s.log.length
  readV : ∀ c v, s.pcs a = .writeV c v → v = s.value
  readC : ∀ c v, s.pcs a = .writeC c v → v = s.calls
  emb : late (s.pcs a) → s.embedded = true

theorem alone_step (sum : Bool) (a : Nat) {s : St} (h : Alone sum a s) (x : Act) (hx : ∀ t d key, x = .call t d key → t = a) : Alone sum a (step sum s x) := by
  have oth : ∀ p u, u ≠ a → upd s.pcs a p u = .idle := fun p u hu => by rw [upd_other _ _ hu]; exact h.others u hu
  cases x with
  | call t d key =>
    have := hx t d key rfl
    subst this
    have hv := h.value
    have hc := h.calls
    cases hpc : s.pcs t with
    | idle =>
      rw [hpc] at hv hc
      simp only [step, hpc]
      refine ⟨oth _, ?_, ?_, ?_, ?_, ?_⟩
      · dsimp only
        rw [upd_same]
        intro h1
        have := hv (h1.imp id (fun h2 => ⟨h2.1, trivial⟩))
        simp only [lagV] at this ⊢
        simp only [totalAll, List.map_append, List.sum_append, List.map_cons, List.map_nil, List.sum_cons, List.sum_nil] at this ⊢
        omega
      · dsimp only
        rw [upd_same]
        simp only [lagC, List.length_append, List.length_singleton] at hc ⊢
        omega
      · intro c v e; dsimp only at e; rw [upd_same] at e; cases e
      · intro c v e; dsimp only at e; rw [upd_same] at e; cases e
      · intro e; dsimp only at e; rw [upd_same] at e; exact e.elim
    | _ => simpa only [step, hpc] using h
  | go t =>
    rcases Decidable.em (t = a) with ht | ht
    case inr => simpa only [step, h.others t ht] using h
    subst ht
    have hv := h.value
    have hc := h.calls
    have hrV := h.readV
    have hrC := h.readC
    cases hpc : s.pcs t with
    | idle => simpa only [step, hpc] using h
    | enter c =>
      rw [hpc] at hv hc
      simp only [step, hpc]
      split
      · rename_i hcond
        refine ⟨oth _, ?_, by simpa [St.goto, lagC] using hc, by simp [St.goto], by simp [St.goto], by simp [St.goto, late]⟩
        simp only [St.goto, upd_same]
        rintro (h1 | ⟨h1, h2⟩)
        · rw [h1] at hcond; simp at hcond
        · simp only [bare] at h2
          rw [h1, h2] at hcond; simp at hcond
      · refine ⟨oth _, ?_, by simpa [St.goto, lagC] using hc, by simp [St.goto], by simp [St.goto], by simp [St.goto, late]⟩
        simpa only [St.goto, upd_same, lagV, bare] using hv
    | readV c =>
      rw [hpc] at hv hc
      simp only [step, hpc]
      refine ⟨oth _, by simpa only [St.goto, upd_same, lagV, bare] using hv, by simpa [St.goto, lagC] using hc, ?_, by simp [St.goto], by simp [St.goto, late]⟩
      intro c' v' e
      simp only [St.goto, upd_same] at e
      cases e; rfl
    | writeV c v =>
      have := hrV c v hpc
      subst this
      rw [hpc] at hv hc
      simp only [step, hpc]
      refine ⟨oth _, ?_, by simpa [lagC] using hc, by simp, by simp, by simp [late]⟩
      simpa only [upd_same, lagV, Int.add_zero, bare] using hv
    | readC c =>
      rw [hpc] at hv hc
      simp only [step, hpc]
      refine ⟨oth _, by simpa only [St.goto, upd_same, lagV, bare] using hv, by simpa [St.goto, lagC] using hc, by simp [St.goto], ?_, by simp [St.goto, late]⟩
      intro c' v' e
      simp only [St.goto, upd_same] at e
      cases e; rfl
    | writeC c v =>
      have := hrC c v hpc
      subst this
      rw [hpc] at hv hc
      simp only [step, hpc]
      refine ⟨oth _, ?_, ?_, ?_, ?_, ?_⟩
      · dsimp only
        rw [upd_same]
        cases hk : c.key with
        | none => simpa only [lagV, bare, hk] using hv
        | some k => simpa only [lagV, bare, hk] using fun h1 => hv (h1.imp id (fun h2 => h2.2.elim))
      · dsimp only
        rw [upd_same]
        cases hk : c.key <;> simpa [lagC] using hc
      · intro c' v' e; dsimp only at e; rw [upd_same] at e; cases hk : c.key <;> rw [hk] at e <;> cases e
      · intro c' v' e; dsimp only at e; rw [upd_same] at e; cases hk : c.key <;> rw [hk] at e <;> cases e
      · intro e; dsimp only at e; rw [upd_same] at e; cases hk : c.key <;> rw [hk] at e <;> exact e.elim
    | embed c k =>
      rw [hpc] at hv hc
      simp only [step, hpc]
      refine ⟨oth _, ?_, by simpa [lagC] using hc, by simp, by simp, by simp [late]⟩
      simpa [lagV, bare] using hv
    | check c k =>
      rw [hpc] at hv hc
      have hb := h.emb (by rw [hpc]; trivial)
      have hv' : sum = true → s.value = totalAll s.log := fun e => by simpa [lagV] using hv (.inl e)
      have hc' : s.calls = s.log.length := by simpa [lagC] using hc
      simp only [step, hpc]
      split
      · exact ⟨oth _, by simpa [St.goto, lagV, bare] using hv', by simpa [St.goto, lagC] using hc', by simp [St.goto], by simp [St.goto], fun _ => hb⟩
      · exact ⟨oth _, by simpa [lagV, bare] using hv', by simpa [lagC] using hc', by simp, by simp, fun _ => hb⟩
    | store c k i =>
      rw [hpc] at hv hc
      simp only [step, hpc]
      exact ⟨oth _, by simpa [lagV, bare] using hv, by simpa [lagC] using hc, by simp, by simp, fun _ => h.emb (by rw [hpc]; trivial)⟩
    | append c k i =>
      rw [hpc] at hv hc
      simp only [step, hpc]
      exact ⟨oth _, by simpa [lagV, bare] using hv, by simpa [lagC] using hc, by simp, by simp, fun _ => h.emb (by rw [hpc]; trivial)⟩
    | look c k =>
      rw [hpc] at hv hc
      have hb := h.emb (by rw [hpc]; trivial)
      have hv' : sum = true → s.value = totalAll s.log := fun e => by simpa [lagV] using hv (.inl e)
      have hc' : s.calls = s.log.length := by simpa [lagC] using hc
      simp only [step, hpc]
      split <;> exact ⟨oth _, by simpa [St.goto, lagV, bare, hb] using hv', by simpa [St.goto, lagC] using hc', by simp [St.goto], by simp [St.goto], fun _ => hb⟩
    | childRead c i =>
      rw [hpc] at hv hc
      have hb := h.emb (by rw [hpc]; trivial)
      have hv' : sum = true → s.value = totalAll s.log := fun e => by simpa [lagV] using hv (.inl e)
      have hc' : s.calls = s.log.length := by simpa [lagC] using hc
      simp only [step, hpc]
      split <;> exact ⟨oth _, by simpa [St.goto, lagV, bare, hb] using hv', by simpa [St.goto, lagC] using hc', by simp [St.goto], by simp [St.goto], fun _ => hb⟩
    | childWrite c i v =>
      rw [hpc] at hv hc
      have hb := h.emb (by rw [hpc]; trivial)
      have hv' : sum = true → s.value = totalAll s.log := fun e => by simpa [lagV] using hv (.inl e)
      have hc' : s.calls = s.log.length := by simpa [lagC] using hc
      simp only [step, hpc]
      exact ⟨oth _, by simpa [lagV, bare, hb] using hv', by simpa [lagC] using hc', by simp, by simp, fun _ => hb⟩

theorem alone_run (sum : Bool) (a : Nat) (as : List Act) (hx : ∀ t d key, Act.call t d key ∈ as → t = a) : ∀ s, Alone sum a s → Alone sum a (run sum s as) := by
  induction as with
  | nil => exact fun s h => h
  | cons x as ih =>
    intro s h
    exact ih (fun t d key e => hx t d key (List.mem_cons_of_mem _ e)) _ (alone_step sum a h x (fun t d key e => hx t d key (e ▸ List.mem_cons_self ..)))

/-! ## C250 -/

/-- **C250 calls of one thread are all counted (part).** If one thread makes all calls, then when it is not in a call, the sum
shown, or the value without labels, is that of the deltas of all calls, and the number of calls shown is theirs.  Missing: several
threads; see `C250_violates_lost` and `C250_violates_stuck`. -/
theorem C250_one_thread_partial (sum count : Bool) (as : List Act) (a : Nat) (hx : ∀ t d key, Act.call t d key ∈ as → t = a)
    (hidle : (run sum {} as).pcs a = .idle) (e : Entry) (x : Int) (h : (e, x) ∈ shown sum count (run sum {} as)) :
    ((e = .sum ∨ e = .plain) → x = ((run sum {} as).log.map (fun e => e.2.1)).sum) ∧ (e = .count → x = (run sum {} as).log.length) := by
  have A := alone_run sum a as hx {} ⟨fun _ _ => rfl, fun _ => rfl, rfl, fun _ _ h => by simp at h, fun _ _ h => by simp at h, fun h => h.elim⟩
  have hv := A.value
  have hc := A.calls
  rw [hidle] at hv hc
  simp only [lagV, lagC, Int.add_zero, bare, and_true] at hv hc
  unfold shown at h
  rcases List.mem_append.1 h with h | h
  · split at h
    · rcases List.mem_append.1 h with h | h
      · obtain ⟨e', hr, h⟩ := List.mem_map.1 h
        cases h
        exact ⟨by (rintro (h | h) <;> cases h), by (intro h; cases h)⟩
      · split at h
        · rename_i hs
          rw [List.mem_singleton] at h; cases h
          exact ⟨fun _ => hv (.inl hs), by intro h; cases h⟩
        · cases h
    · rename_i he
      rw [List.mem_singleton] at h; cases h
      exact ⟨fun _ => hv (.inr (by simpa using he)), by intro h; cases h⟩
  · split at h
    · rw [List.mem_singleton] at h; cases h
      exact ⟨by (rintro (h | h) <;> cases h), fun _ => hc⟩
    · cases h

/-- a thread makes a whole call -/
def whole (t : Nat) (d : Int) (key : Option Nat) : List Act := .call t d key :: List.replicate 12 (.go t)

/-- two threads of which each reads the value before the other writes it -/
def overlap : List Act :=
  [.call 0 5 none, .call 1 7 none, .go 0, .go 1, .go 0, .go 1, .go 0, .go 1, .go 0, .go 1, .go 0, .go 1]

/-- **C250 calls of two threads may be lost (violation).** After two calls of `handle`, of 5 and of 7, both of which returned, the
counter may show 7, and one call. -/
theorem C250_violates_lost : ∃ as, (∀ t, (run true {} as).pcs t = .idle) ∧ (run true {} as).log = [(0, 5, none), (1, 7, none)] ∧
    shown true true (run true {} as) = [(.plain, 7), (.count, 1)] := by
  refine ⟨overlap, ?_, by decide +kernel, by decide +kernel⟩
  intro t
  by_cases h0 : t = 0
  · subst h0; rfl
  · by_cases h1 : t = 1
    · subst h1; rfl
    · simp [overlap, run, step, St.goto, upd, h0, h1]

/-- two threads that both find no clone for labels 0: each makes one; that recorded last is put first into the list of children -/
def twoClones : List Act :=
  [.call 0 5 (some 0), .call 1 7 (some 0)] ++ List.replicate 6 (.go 0) ++ List.replicate 6 (.go 1) ++
  [.go 0, .go 1, .go 0, .go 1, .go 1, .go 0, .go 0, .go 0, .go 0, .go 1, .go 1, .go 1]

/-- no thread touches the first clone or makes another for labels 0 -/
def Off : Pc → Prop
  | .store _ k i => k ≠ 0 ∧ 2 ≤ i
  | .append _ _ i => 2 ≤ i
  | .childRead _ i | .childWrite _ i _ => i ≠ 0
  | _ => True

/-- the first clone is the last for labels 0 in the list of children, and is not the one recorded -/
structure Stuck (s : St) : Prop where
  map : s.mapping 0 = some 1
  maps : ∀ k, s.mapping k ≠ some 0
  first : s.heap[0]? = some ⟨0, 0⟩
  two : 2 ≤ s.heap.length
  rest : ∀ (i : Nat) ch, 2 ≤ i → s.heap[i]? = some ch → ch.key ≠ 0
  children : ∃ l, s.children = 1 :: 0 :: l ∧ ∀ i ∈ l, 2 ≤ i
  flag : s.embedded = true
  off : ∀ t, Off (s.pcs t)

theorem stuck_off {s : St} (h : Stuck s) (t : Nat) (p : Pc) (hp : Off p) (u : Nat) : Off (upd s.pcs t p u) := by
  by_cases hu : u = t
  · subst hu; rw [upd_same]; exact hp
  · rw [upd_other _ _ hu]; exact h.off u

theorem stuck_step (sum : Bool) {s : St} (h : Stuck s) (x : Act) : Stuck (step sum s x) := by
  cases x with
  | call t d key =>
    cases hpc : s.pcs t with
    | idle => simp only [step, hpc]; exact { h with off := stuck_off h t _ trivial }
    | _ => simpa only [step, hpc] using h
  | go t =>
    have ht := h.off t
    cases hpc : s.pcs t with
    | idle => simpa only [step, hpc] using h
    | enter c => simp only [step, hpc]; split <;> exact { h with off := stuck_off h t _ trivial }
    | readV c => simp only [step, hpc]; exact { h with off := stuck_off h t _ trivial }
    | writeV c v => simp only [step, hpc]; exact { h with off := stuck_off h t _ trivial }
    | readC c => simp only [step, hpc]; exact { h with off := stuck_off h t _ trivial }
    | writeC c v => simp only [step, hpc]; exact { h with off := stuck_off h t _ (by split <;> trivial) }
    | embed c k => simp only [step, hpc]; exact { h with flag := rfl, off := stuck_off h t _ trivial }
    | check c k =>
      simp only [step, hpc]
      cases hk : s.mapping k with
      | some i => exact { h with off := stuck_off h t _ trivial }
      | none =>
        have hk0 : k ≠ 0 := by rintro rfl; rw [h.map] at hk; cases hk
        refine { h with first := ?_, two := ?_, rest := ?_, off := stuck_off h t _ ⟨hk0, h.two⟩ }
        · dsimp only; rw [List.getElem?_append_left (lt_of_some h.first)]; exact h.first
        · have := h.two; simp; omega
        · intro i ch hi hch
          dsimp only at hch
          by_cases hl : i < s.heap.length
          · rw [List.getElem?_append_left hl] at hch; exact h.rest i ch hi hch
          · have : i = s.heap.length := by have := lt_of_some hch; simp at this; omega
            subst this
            simp at hch
            subst hch
            exact hk0
    | store c k i =>
      rw [hpc] at ht
      simp only [step, hpc]
      refine { h with map := ?_, maps := ?_, off := stuck_off h t _ ht.2 }
      · dsimp only; rw [upd_other _ _ (Ne.symm ht.1)]; exact h.map
      · intro k'
        dsimp only
        by_cases e : k' = k
        · subst e; rw [upd_same]; intro e; cases e; exact absurd ht.2 (by decide)
        · rw [upd_other _ _ e]; exact h.maps k'
    | append c k i =>
      rw [hpc] at ht
      simp only [step, hpc]
      obtain ⟨l, h1, h2⟩ := h.children
      refine { h with children := ⟨l ++ [i], by dsimp only; rw [h1]; rfl, ?_⟩, off := stuck_off h t _ trivial }
      intro j hj
      rcases List.mem_append.1 hj with hj | hj
      · exact h2 j hj
      · rw [List.mem_singleton] at hj; subst hj; exact ht
    | look c k =>
      simp only [step, hpc]
      split
      · rename_i i hi
        exact { h with off := stuck_off h t _ (by rintro rfl; exact h.maps k hi) }
      · exact { h with off := stuck_off h t _ trivial }
    | childRead c i =>
      rw [hpc] at ht
      simp only [step, hpc]
      split
      · exact { h with off := stuck_off h t _ ht }
      · exact { h with off := stuck_off h t _ trivial }
    | childWrite c i v =>
      rw [hpc] at ht
      simp only [step, hpc]
      refine { h with first := ?_, two := ?_, rest := ?_, off := stuck_off h t _ trivial }
      · dsimp only [setValue]
        split
        · rw [List.getElem?_set_ne ht]; exact h.first
        · exact h.first
      · dsimp only [setValue]
        split
        · rw [List.length_set]; exact h.two
        · exact h.two
      · intro j ch hj hch
        dsimp only [setValue] at hch
        split at hch
        · rename_i ch' hch'
          by_cases e : i = j
          · subst e
            rw [List.getElem?_set_self (lt_of_some hch')] at hch; cases hch
            exact h.rest i ch' hj hch'
          · rw [List.getElem?_set_ne e] at hch; exact h.rest j ch hj hch
        · exact h.rest j ch hj hch

theorem stuck_run (sum : Bool) (as : List Act) : ∀ s, Stuck s → Stuck (run sum s as) := by
  induction as with
  | nil => exact fun s h => h
  | cons x as ih => exact fun s h => ih _ (stuck_step sum h x)

theorem report_keep (heap : List Child) (k : Nat) (v : Int) : ∀ (l : List Nat) (out : List (Nat × Int)), (∀ i ∈ l, ∀ ch, heap[i]? = some ch → ch.key ≠ k) → (k, v) ∈ out →
    (k, v) ∈ report heap l out := by
  intro l
  induction l with
  | nil => exact fun out _ h => h
  | cons j l ih =>
    intro out hl h
    unfold report
    split
    · rename_i ch hch
      refine ih _ (fun i hi => hl i (List.mem_cons_of_mem _ hi)) (List.mem_cons_of_mem _ (List.mem_filter.2 ⟨h, ?_⟩))
      simpa using fun e => hl j (List.mem_cons_self ..) ch hch e.symm
    · exact ih _ (fun i hi => hl i (List.mem_cons_of_mem _ hi)) h

/-- **C250 labels may be stuck (violation).** After two calls of `handle` with the same labels by two threads, both of which
returned, it may be that the counter shows 0 for these labels, and shows 0 for them ever after, whatever calls are made. -/
theorem C250_violates_stuck : ∃ as, (∀ t, (run true {} as).pcs t = .idle) ∧ (run true {} as).log = [(0, 5, some 0), (1, 7, some 0)] ∧
    ∀ count later, (.labels 0, 0) ∈ shown true count (run true {} (as ++ later)) := by
  have hidle : ∀ t, (run true {} twoClones).pcs t = .idle := by
    intro t
    by_cases h0 : t = 0
    · subst h0; rfl
    · by_cases h1 : t = 1
      · subst h1; rfl
      · simp [twoClones, List.replicate, run, step, St.goto, setValue, upd, h0, h1]
  refine ⟨twoClones, hidle, by decide +kernel, ?_⟩
  intro count later
  have h0 : Stuck (run true {} twoClones) := by
    refine ⟨by decide +kernel, ?_, by decide +kernel, by decide +kernel, ?_, ⟨[], by decide +kernel, by simp⟩, by decide +kernel, fun t => by rw [hidle t]; trivial⟩
    · intro k
      by_cases hk : k = 0
      · subst hk; decide +kernel
      · have : (run true {} twoClones).mapping k = none := by simp [twoClones, List.replicate, run, step, St.goto, setValue, upd, hk]
        rw [this]; simp
    · intro i ch hi hch
      have hl : (run true {} twoClones).heap.length = 2 := by decide +kernel
      have := lt_of_some hch
      omega
  have h1 : Stuck (run true {} (twoClones ++ later)) := by
    have : run true {} (twoClones ++ later) = run true (run true {} twoClones) later := by simp [run, List.foldl_append]
    rw [this]
    exact stuck_run true later _ h0
  obtain ⟨l, h2, h3⟩ := h1.children
  refine labels_shown h1.flag ?_
  rw [h2]
  unfold report
  split
  · unfold report
    rw [h1.first]
    exact report_keep _ _ _ l _ (fun i hi => fun ch => h1.rest i ch (h3 i hi)) (List.mem_cons_self ..)
  · unfold report
    rw [h1.first]
    exact report_keep _ _ _ l _ (fun i hi => fun ch => h1.rest i ch (h3 i hi)) (List.mem_cons_self ..)

/-! ## Examples -/

/-- C249: two threads of which each uses its own labels, step by step in turn, and one that uses none -/
def turns : List Act :=
  [.call 0 5 (some 0), .call 1 7 (some 1), .call 2 1 none] ++ (List.replicate 12 [Act.go 0, .go 1, .go 2]).flatten ++ [.call 0 3 (some 0)] ++ (List.replicate 12 [Act.go 0]).flatten

example : shown true true (run true {} turns) = [(.labels 1, 7), (.labels 0, 8), (.sum, 4), (.count, 2)] := by decide +kernel

example : (∀ t d, Act.call t d (some 0) ∈ turns → t = 0) ∧ total (run true {} turns).log 0 = 8 := by
  refine ⟨?_, by decide +kernel⟩
  intro t d h
  simp [turns] at h
  rcases h with h | h <;> exact h.1

example : (run true {} turns).pcs 0 = .idle := rfl

/-- C249: the sum is that of some calls only -/
example : SumOfSome (run true {} turns).log (fun _ => True) 4 := ⟨[2, 3], by decide, by
  intro n hn
  have : (run true {} turns).log = [(0, 5, some 0), (1, 7, some 1), (2, 1, none), (0, 3, some 0)] := by decide +kernel
  rw [this]
  simp at hn
  rcases hn with rfl | rfl
  · exact ⟨2, 1, none, rfl, trivial⟩
  · exact ⟨0, 3, some 0, rfl, trivial⟩, by decide +kernel⟩

/-- C249: what is shown for labels is not the sum of just anything -/
example : ¬ SumOfSome [(0, 5, some 0), (1, 7, some 1)] (· = some 0) 7 := by
  rintro ⟨ids, h1, h2, h3⟩
  have : ∀ n ∈ ids, n = 0 := by
    intro n hn
    obtain ⟨t, d, k, h4, h5⟩ := h2 n hn
    match n, h4 with
    | 0, _ => rfl
    | 1, h4 => simp at h4; subst h5; simp at h4
  match ids, h1, this, h3 with
  | [], _, _, h3 => simp at h3
  | [n], _, h, h3 => have := h n (by simp); subst this; simp at h3
  | n :: m :: l, h1, h, _ => have := h n (by simp); have := h m (by simp); subst n m; simp at h1

/-- C250: one thread, with and without labels -/
example : shown true true (run true {} (whole 0 5 (some 0) ++ whole 0 2 none ++ whole 0 7 (some 1) ++ whole 0 (-1) (some 0))) =
    [(.labels 1, 7), (.labels 0, 4), (.sum, 13), (.count, 4)] := by decide +kernel

example : shown true true (run true {} (whole 0 5 none ++ whole 0 2 none)) = [(.plain, 7), (.count, 2)] := by decide +kernel

end Verif.Metrics.CounterThreads
