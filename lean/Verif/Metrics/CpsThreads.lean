import Verif.Metrics.Cps
import Verif.Conc.MonitorProps
/-!
# Clicks per time unit, used by several threads (satella/instrumentation/metrics/metric_types/cps.py); C253, C254

Threads call `handle` and `to_metric_data` of one metric without labels, while others do.  No lock is taken: reading the clock, appending,
looking at the oldest click, `popleft` and each step of iterating over the deque are steps of their own.  A deque that was changed
since an iteration began makes its next step raise `RuntimeError` (so does CPython, by a counter of changes).
Times and periods are integers.  Levels and timestamps are left out.
-/
namespace Verif.Metrics.CpsThreads
open Verif
open Verif.Conc (upd upd_same upd_other)

/-! ## Model -/

/-- where a thread is: in `_handle`, /repo/satella/instrumentation/metrics/metric_types/cps.py:34-44, before reading the clock at line 38, before reading it at line 39, before appending, before looking at the oldest, before `popleft`; or in `to_metric_data`, /repo/satella/instrumentation/metrics/metric_types/cps.py:61-78, before reading the clock, before the loop, and within it, with the changes counted when it began and the clicks seen -/
inductive Pc where
  | idle
  | time1
  | time2 (m : Int)
  | append (m v : Int)
  | look (m : Int)
  | pop (m : Int)
  | rtime
  | riter (now : Int)
  | rnext (now : Int) (ver : Nat) (seen : List Int)
  deriving DecidableEq, Repr

/-- what is seen: `handle` begins, its click is there, it ends; `to_metric_data` begins, gives the numbers for the periods before the time `now`, or raises `RuntimeError`; `at_` is the time when that happens.  (Part of the model of `ClicksPerTimeUnitMetric`, /repo/satella/instrumentation/metrics/metric_types/cps.py:34-78.) -/
inductive Ev where
  | handle (t : Nat) (at_ : Int)
  | click (t : Nat) (at_ v : Int)
  | ended (t : Nat)
  | ask (t : Nat) (at_ : Int)
  | answer (t : Nat) (at_ now : Int) (out : List (Int × Nat))
  | failed (t : Nat)
  deriving DecidableEq, Repr

/-- the metric: the clock, `last_clicks`, the number of changes made to that deque, the threads, and what was seen (not in the code), /repo/satella/instrumentation/metrics/metric_types/cps.py:25-32 -/
structure St where
  now : Int := 0
  clicks : List Int := []
  ver : Nat := 0
  pcs : Nat → Pc := fun _ => .idle
  log : List Ev := []

/-- what happens: time passes, a thread calls `handle` or `to_metric_data`, or goes on by one step.  (Part of the model of `ClicksPerTimeUnitMetric`, /repo/satella/instrumentation/metrics/metric_types/cps.py:34-78.) -/
inductive Act where
  | tick (d : Nat)
  | handle (t : Nat)
  | ask (t : Nat)
  | go (t : Nat)
  deriving DecidableEq, Repr

/-- the thread goes to the next place.  (Part of the model of `_handle`, /repo/satella/instrumentation/metrics/metric_types/cps.py:34-44.) -/
def St.goto (s : St) (t : Nat) (p : Pc) : St := { s with pcs := upd s.pcs t p }

/-- the numbers for the periods, /repo/satella/instrumentation/metrics/metric_types/cps.py:64-74.  The code adds one to each number as it goes over the clicks; here they are counted when the loop has ended. -/
def counts (cf : CpsConf) (now : Int) (clicks : List Int) : List (Int × Nat) :=
  cf.periods.map (fun p => (p, clicks.countP (fun v => decide (v ≥ now - p))))

/-- A step: `_handle`, /repo/satella/instrumentation/metrics/metric_types/cps.py:38-44, where looking at and removing the oldest of no clicks is an `IndexError` that ends it; and `count_vectors`, /repo/satella/instrumentation/metrics/metric_types/cps.py:63-78. -/
def step (cf : CpsConf) (s : St) : Act → St
  | .tick d => { s with now := s.now + d }
  | .handle t =>
    match s.pcs t with
    | .idle => { s with pcs := upd s.pcs t .time1, log := s.log ++ [.handle t s.now] }
    | _ => s
  | .ask t =>
    match s.pcs t with
    | .idle => { s with pcs := upd s.pcs t .rtime, log := s.log ++ [.ask t s.now] }
    | _ => s
  | .go t =>
    match s.pcs t with
    | .idle => s
    | .time1 => s.goto t (.time2 s.now)
    | .time2 m => s.goto t (.append m s.now)
    | .append m v => { s with clicks := s.clicks ++ [v], ver := s.ver + 1, pcs := upd s.pcs t (.look m), log := s.log ++ [.click t s.now v] }
    | .look m =>
      match s.clicks with
      | [] => { s with pcs := upd s.pcs t .idle, log := s.log ++ [.ended t] }
      | v :: _ => if v ≤ m - cf.cutoff then s.goto t (.pop m) else { s with pcs := upd s.pcs t .idle, log := s.log ++ [.ended t] }
    | .pop m =>
      match s.clicks with
      | [] => { s with pcs := upd s.pcs t .idle, log := s.log ++ [.ended t] }
      | _ :: l => { s with clicks := l, ver := s.ver + 1, pcs := upd s.pcs t (.look m) }
    | .rtime => s.goto t (.riter s.now)
    | .riter now => s.goto t (.rnext now s.ver [])
    | .rnext now ver seen =>
      if ver ≠ s.ver then { s with pcs := upd s.pcs t .idle, log := s.log ++ [.failed t] }
      else
        match s.clicks[seen.length]? with
        | some v => s.goto t (.rnext now ver (seen ++ [v]))
        | none => { s with pcs := upd s.pcs t .idle, log := s.log ++ [.answer t s.now now (counts cf now seen)] }

/-- everything that happens, the clock being 0 in the beginning.  (Part of the model of `ClicksPerTimeUnitMetric`, /repo/satella/instrumentation/metrics/metric_types/cps.py:34-78.) -/
def run (cf : CpsConf) (as : List Act) : St := as.foldl (step cf) {}

/-! ## Specification -/

/-- the times of the clicks made, the oldest first -/
def made (log : List Ev) : List Int := log.filterMap (fun e => match e with | .click _ _ v => some v | _ => none)

/-- the number of calls that began and did not end -/
def running (log : List Ev) : Int :=
  (log.map (fun e => match e with | .handle .. => (1 : Int) | .ask .. => 1 | .click .. => 0 | .ended _ => -1 | .answer .. => -1 | .failed _ => -1)).sum

/-- when the last call of the thread began -/
def began (t : Nat) (log : List Ev) : Option Int :=
  (log.filterMap (fun e => match e with | .handle u a => if u = t then some a else none | .ask u a => if u = t then some a else none | _ => none)).getLast?

/-- how many calls of `handle` the thread began -/
def handles (t : Nat) (log : List Ev) : Nat := log.countP (fun e => match e with | .handle u _ => decide (u = t) | _ => false)

/-- how many clicks of the thread there are -/
def clicksOf (t : Nat) (log : List Ev) : Nat := log.countP (fun e => match e with | .click u _ _ => decide (u = t) | _ => false)

/-- never more than `n` calls at once -/
def AtMost (cf : CpsConf) (n : Nat) (as : List Act) : Prop := ∀ p, p <+: as → running (run cf p).log ≤ n

/-- the last `k` of a list -/
def latest (k : Nat) (vs : List Int) : List Int := vs.drop (vs.length - k)

/-- clicks at the time or later -/
def since (from_ : Int) (clicks : List Int) : Nat := clicks.countP (fun v => decide (from_ ≤ v))

/-- clicks later than the time -/
def after (from_ : Int) (clicks : List Int) : Nat := clicks.countP (fun v => decide (from_ < v))

/-! ## Proofs -/

theorem running_snoc (l : List Ev) (e : Ev) :
    running (l ++ [e]) = running l + (match e with | .handle .. => (1 : Int) | .ask .. => 1 | .click .. => 0 | .ended _ => -1 | .answer .. => -1 | .failed _ => -1) := by
  simp [running]

theorem made_snoc (l : List Ev) (e : Ev) : made (l ++ [e]) = made l ++ (match e with | .click _ _ v => [v] | _ => []) := by
  cases e <;> simp [made]

theorem run_snoc (cf : CpsConf) (as : List Act) (a : Act) : run cf (as ++ [a]) = step cf (run cf as) a := by simp [run]

theorem snoc_ind {α : Type} {P : List α → Prop} (h0 : P []) (h1 : ∀ l a, P l → P (l ++ [a])) (l : List α) : P l := by
  rw [← List.reverse_reverse l]
  induction l.reverse with
  | nil => exact h0
  | cons a l ih => rw [List.reverse_cons]; exact h1 _ _ ih

/-- what holds of an iteration -/
def Ok (ver : Nat) (clicks : List Int) : Pc → Prop
  | .rnext _ w seen => w ≤ ver ∧ (w = ver → seen = clicks.take seen.length)
  | _ => True

theorem Ok.mono {ver ver' : Nat} {clicks clicks' : List Int} (hv : ver < ver') {p : Pc} (h : Ok ver clicks p) : Ok ver' clicks' p := by
  cases p <;> simp only [Ok] at *
  exact ⟨by omega, fun e => by omega⟩

/-- a good report: that of the latest clicks of those made before -/
def Report (cf : CpsConf) (pre : List Ev) (now : Int) (out : List (Int × Nat)) : Prop :=
  ∃ k, out = counts cf now (latest k (made pre))

/-- what always holds -/
structure Inv (cf : CpsConf) (s : St) : Prop where
  kept : ∃ d, made s.log = d ++ s.clicks
  ok : ∀ t, Ok s.ver s.clicks (s.pcs t)
  answers : ∀ pre t at_ now out post, s.log = pre ++ .answer t at_ now out :: post → Report cf pre now out

theorem answers_snoc {P : List Ev → Int → List (Int × Nat) → Prop} {log : List Ev} (h : ∀ pre t at_ now out post, log = pre ++ Ev.answer t at_ now out :: post → P pre now out) {e : Ev}
    (he : ∀ t at_ now out, e = .answer t at_ now out → P log now out) : ∀ pre t at_ now out post, log ++ [e] = pre ++ Ev.answer t at_ now out :: post → P pre now out := by
  intro pre t at_ now out post hl
  rcases List.eq_nil_or_concat post with rfl | ⟨post', x, rfl⟩
  · have h1 := List.append_inj' hl rfl
    rw [← h1.1]
    exact he t at_ now out (List.singleton_inj.1 h1.2)
  · have h1 : log ++ [e] = (pre ++ Ev.answer t at_ now out :: post') ++ [x] := by rw [hl]; simp
    exact h pre t at_ now out post' (List.append_inj' h1 rfl).1

theorem oks {ver : Nat} {clicks : List Int} {pcs : Nat → Pc} (h : ∀ t, Ok ver clicks (pcs t)) (t : Nat) {p : Pc} (hp : Ok ver clicks p) : ∀ u, Ok ver clicks (upd pcs t p u) := by
  intro u
  by_cases hu : u = t
  · subst hu; rw [upd_same]; exact hp
  · rw [upd_other _ _ hu]; exact h u

theorem latest_of_append {vs q d : List Int} (h : vs = d ++ q) : q = latest q.length vs := by
  unfold latest
  rw [h]
  have : (d ++ q).length - q.length = d.length := by simp
  rw [this, List.drop_left]

theorem seen_all {clicks seen : List Int} (h : seen = clicks.take seen.length) (hn : clicks[seen.length]? = none) : seen = clicks := by
  rw [List.getElem?_eq_none_iff] at hn
  rwa [List.take_of_length_le hn] at h

theorem inv_step {cf : CpsConf} {s : St} (I : Inv cf s) (a : Act) : Inv cf (step cf s a) := by
  obtain ⟨⟨d, hd⟩, ok, ans⟩ := I
  have I : Inv cf s := ⟨⟨d, hd⟩, ok, ans⟩
  cases a with
  | tick n => exact ⟨⟨d, hd⟩, ok, ans⟩
  | handle t =>
    cases hpc : s.pcs t with
    | idle =>
      simp only [step, hpc]
      exact ⟨⟨d, by simp [made_snoc, hd]⟩, oks ok t (by simp [Ok]), answers_snoc ans (by simp)⟩
    | _ => simpa only [step, hpc] using I
  | ask t =>
    cases hpc : s.pcs t with
    | idle =>
      simp only [step, hpc]
      exact ⟨⟨d, by simp [made_snoc, hd]⟩, oks ok t (by simp [Ok]), answers_snoc ans (by simp)⟩
    | _ => simpa only [step, hpc] using I
  | go t =>
    have done : ∀ e : Ev, (∀ u at_ v, e ≠ .click u at_ v) → (∀ u at_ now out, e = .answer u at_ now out → Report cf s.log now out) →
        Inv cf { s with pcs := upd s.pcs t .idle, log := s.log ++ [e] } := by
      intro e h1 h2
      refine ⟨⟨d, ?_⟩, oks ok t (by simp [Ok]), answers_snoc ans h2⟩
      rw [made_snoc]
      cases e with
      | click u at_ v => exact absurd rfl (h1 u at_ v)
      | _ => simpa using hd
    cases hpc : s.pcs t with
    | idle => simpa only [step, hpc] using I
    | time1 => simp only [step, hpc]; exact ⟨⟨d, hd⟩, oks ok t (by simp [Ok]), ans⟩
    | time2 m => simp only [step, hpc]; exact ⟨⟨d, hd⟩, oks ok t (by simp [Ok]), ans⟩
    | append m v =>
      simp only [step, hpc]
      refine ⟨⟨d, by simp [made_snoc, hd]⟩, oks (fun u => (ok u).mono (Nat.lt_succ_self _)) t (by simp [Ok]), answers_snoc ans (by simp)⟩
    | look m =>
      simp only [step, hpc]
      split
      · exact done _ (by simp) (by simp)
      · split
        · exact ⟨⟨d, hd⟩, oks ok t (by simp [Ok]), ans⟩
        · exact done _ (by simp) (by simp)
    | pop m =>
      simp only [step, hpc]
      split
      · exact done _ (by simp) (by simp)
      · next v l hc =>
        exact ⟨⟨d ++ [v], by simp [hd, hc]⟩, oks (fun u => (ok u).mono (Nat.lt_succ_self _)) t (by simp [Ok]), ans⟩
    | rtime => simp only [step, hpc]; exact ⟨⟨d, hd⟩, oks ok t (by simp [Ok]), ans⟩
    | riter now => simp only [step, hpc]; exact ⟨⟨d, hd⟩, oks ok t (by simp [Ok]), ans⟩
    | rnext now ver seen =>
      have hok := ok t
      rw [hpc] at hok
      simp only [step, hpc]
      split
      · exact done _ (by simp) (by simp)
      · next hv =>
        have hv : ver = s.ver := Decidable.not_not.1 hv
        have hs := hok.2 hv
        split
        · next v hg =>
          refine ⟨⟨d, hd⟩, oks ok t ⟨hok.1, fun _ => ?_⟩, ans⟩
          rw [List.length_append, List.length_singleton, List.take_add_one, hg, ← hs]; rfl
        · next hg =>
          refine done _ (by simp) ?_
          rintro u at_ now' out ⟨⟩
          refine ⟨s.clicks.length, ?_⟩
          rw [← latest_of_append hd, seen_all hs hg]

theorem inv_run (cf : CpsConf) (as : List Act) : Inv cf (run cf as) := by
  induction as using snoc_ind with
  | h0 => exact ⟨⟨[], rfl⟩, fun _ => trivial, by simp [run]⟩
  | h1 l a ih => rw [run_snoc]; exact inv_step ih a

/-- **C253 (reports)**  Whatever threads do, a report that is given has one number for each period, and these are the numbers of clicks in the periods, by the time at which the report was begun, of the latest `k` clicks made before it was given, for some `k`. -/
theorem C253_latest (cf : CpsConf) (as : List Act) (pre post : List Ev) (t : Nat) (at_ now : Int) (out : List (Int × Nat)) (h : (run cf as).log = pre ++ .answer t at_ now out :: post) :
    ∃ k, out = cf.periods.map (fun p => (p, since (now - p) (latest k (made pre)))) :=
  (inv_run cf as).answers pre t at_ now out post h

/-- **C253 (no click is made up)**  So no number is greater than that of the clicks made in the period. -/
theorem C253_at_most (cf : CpsConf) (as : List Act) (pre post : List Ev) (t : Nat) (at_ now : Int) (out : List (Int × Nat)) (h : (run cf as).log = pre ++ .answer t at_ now out :: post) :
    out.map (·.1) = cf.periods ∧ ∀ e ∈ out, e.2 ≤ since (now - e.1) (made pre) := by
  obtain ⟨k, rfl⟩ := C253_latest cf as pre post t at_ now out h
  refine ⟨by simp [List.map_map, Function.comp_def], ?_⟩
  intro e he
  obtain ⟨p, _, rfl⟩ := List.mem_map.1 he
  exact (List.drop_sublist _ _).countP_le

/-! ### Times -/

theorem began_snoc (t : Nat) (l : List Ev) (e : Ev) :
    began t (l ++ [e]) = match e with | .handle u a => (if u = t then some a else began t l) | .ask u a => (if u = t then some a else began t l) | _ => began t l := by
  cases e with
  | handle u a => simp only [began, List.filterMap_append]; by_cases h : u = t <;> simp [h]
  | ask u a => simp only [began, List.filterMap_append]; by_cases h : u = t <;> simp [h]
  | _ => simp [began]

theorem handles_snoc (t : Nat) (l : List Ev) (e : Ev) : handles t (l ++ [e]) = handles t l + match e with | .handle u _ => (if u = t then 1 else 0) | _ => 0 := by
  cases e <;> simp [handles, List.countP_cons]

theorem clicksOf_snoc (t : Nat) (l : List Ev) (e : Ev) : clicksOf t (l ++ [e]) = clicksOf t l + match e with | .click u _ _ => (if u = t then 1 else 0) | _ => 0 := by
  cases e <;> simp [clicksOf, List.countP_cons]

/-- what holds of the times a thread has read -/
def TOk (now : Int) (log : List Ev) (t : Nat) : Pc → Prop
  | .idle => handles t log = clicksOf t log
  | .time1 => handles t log = clicksOf t log + 1 ∧ ∃ b, began t log = some b ∧ b ≤ now
  | .time2 m => handles t log = clicksOf t log + 1 ∧ ∃ b, began t log = some b ∧ b ≤ m ∧ m ≤ now
  | .append m v => handles t log = clicksOf t log + 1 ∧ m ≤ v ∧ ∃ b, began t log = some b ∧ b ≤ m ∧ v ≤ now
  | .look m => handles t log = clicksOf t log ∧ m ≤ now
  | .pop m => handles t log = clicksOf t log ∧ m ≤ now
  | .rtime => handles t log = clicksOf t log ∧ ∃ b, began t log = some b ∧ b ≤ now
  | .riter n => handles t log = clicksOf t log ∧ ∃ b, began t log = some b ∧ b ≤ n ∧ n ≤ now
  | .rnext n _ _ => handles t log = clicksOf t log ∧ ∃ b, began t log = some b ∧ b ≤ n ∧ n ≤ now

/-- what holds of what is seen -/
def EOk (pre : List Ev) : Ev → Prop
  | .click t a v => ∃ b, began t pre = some b ∧ b ≤ v ∧ v ≤ a
  | .answer t a now _ => ∃ b, began t pre = some b ∧ b ≤ now ∧ now ≤ a
  | .ended t => handles t pre = clicksOf t pre
  | _ => True

theorem each_snoc {P : List Ev → Ev → Prop} {log : List Ev} (h : ∀ pre e post, log = pre ++ e :: post → P pre e) {e : Ev} (he : P log e) :
    ∀ pre x post, log ++ [e] = pre ++ x :: post → P pre x := by
  intro pre x post hl
  rcases List.eq_nil_or_concat post with rfl | ⟨post', y, rfl⟩
  · have h1 := List.append_inj' hl rfl
    rw [← h1.1, ← List.singleton_inj.1 h1.2]
    exact he
  · have h1 : log ++ [e] = (pre ++ x :: post') ++ [y] := by rw [hl]; simp
    exact h pre x post' (List.append_inj' h1 rfl).1

/-- what always holds of times -/
structure TInv (s : St) : Prop where
  pcs : ∀ t, TOk s.now s.log t (s.pcs t)
  each : ∀ pre e post, s.log = pre ++ e :: post → EOk pre e

theorem TOk.later {now now' : Int} {log : List Ev} {t : Nat} (h : now ≤ now') {p : Pc} (hp : TOk now log t p) : TOk now' log t p := by
  cases p with
  | idle => exact hp
  | time1 => obtain ⟨h1, b, h2, h3⟩ := hp; exact ⟨h1, b, h2, by omega⟩
  | time2 m => obtain ⟨h1, b, h2, h3, h4⟩ := hp; exact ⟨h1, b, h2, h3, by omega⟩
  | append m v => obtain ⟨h0, h1, b, h2, h3, h4⟩ := hp; exact ⟨h0, h1, b, h2, h3, by omega⟩
  | look m => exact ⟨hp.1, Int.le_trans hp.2 h⟩
  | pop m => exact ⟨hp.1, Int.le_trans hp.2 h⟩
  | rtime => obtain ⟨h1, b, h2, h3⟩ := hp; exact ⟨h1, b, h2, by omega⟩
  | riter n => obtain ⟨h1, b, h2, h3, h4⟩ := hp; exact ⟨h1, b, h2, h3, by omega⟩
  | rnext n _ _ => obtain ⟨h1, b, h2, h3, h4⟩ := hp; exact ⟨h1, b, h2, h3, by omega⟩

/-- what is seen of another thread changes nothing -/
theorem TOk.other {now : Int} {log : List Ev} {u : Nat} {e : Ev} (h1 : began u (log ++ [e]) = began u log) (h2 : handles u (log ++ [e]) = handles u log) (h3 : clicksOf u (log ++ [e]) = clicksOf u log)
    {p : Pc} (hp : TOk now log u p) : TOk now (log ++ [e]) u p := by
  cases p <;> simp only [TOk, h1, h2, h3] at * <;> exact hp

theorem toks {now : Int} {log : List Ev} {pcs : Nat → Pc} (h : ∀ u, TOk now log u (pcs u)) (t : Nat) {p : Pc} (hp : TOk now log t p) : ∀ u, TOk now log u (upd pcs t p u) := by
  intro u
  by_cases hu : u = t
  · subst hu; rw [upd_same]; exact hp
  · rw [upd_other _ _ hu]; exact h u

theorem toks_ev {now : Int} {log : List Ev} {pcs : Nat → Pc} (h : ∀ u, TOk now log u (pcs u)) (t : Nat) {p : Pc} {e : Ev} (hp : TOk now (log ++ [e]) t p)
    (h1 : ∀ u, u ≠ t → began u (log ++ [e]) = began u log) (h2 : ∀ u, u ≠ t → handles u (log ++ [e]) = handles u log) (h3 : ∀ u, u ≠ t → clicksOf u (log ++ [e]) = clicksOf u log) :
    ∀ u, TOk now (log ++ [e]) u (upd pcs t p u) := by
  intro u
  by_cases hu : u = t
  · subst hu; rw [upd_same]; exact hp
  · rw [upd_other _ _ hu]; exact (h u).other (h1 u hu) (h2 u hu) (h3 u hu)

theorem tinv_step {cf : CpsConf} {s : St} (I : TInv s) (a : Act) : TInv (step cf s a) := by
  obtain ⟨hp, he⟩ := I
  have I : TInv s := ⟨hp, he⟩
  have ne : ∀ {u t : Nat}, u ≠ t → ¬ t = u := fun h e => h e.symm
  cases a with
  | tick n => exact ⟨fun t => (hp t).later (by show s.now ≤ s.now + n; omega), he⟩
  | handle t =>
    have ht := hp t
    cases hpc : s.pcs t with
    | idle =>
      rw [hpc] at ht
      simp only [step, hpc]
      refine ⟨toks_ev hp t ?_ (fun u hu => by simp [began_snoc, ne hu]) (fun u hu => by simp [handles_snoc, ne hu]) (fun u hu => by simp [clicksOf_snoc]), each_snoc he trivial⟩
      refine ⟨?_, s.now, ?_, Int.le_refl _⟩
      · simp only [handles_snoc, clicksOf_snoc, if_true]; simp only [TOk] at ht; omega
      · simp [began_snoc]
    | _ => simpa only [step, hpc] using I
  | ask t =>
    have ht := hp t
    cases hpc : s.pcs t with
    | idle =>
      rw [hpc] at ht
      simp only [step, hpc]
      refine ⟨toks_ev hp t ?_ (fun u hu => by simp [began_snoc, ne hu]) (fun u hu => by simp [handles_snoc]) (fun u hu => by simp [clicksOf_snoc]), each_snoc he trivial⟩
      refine ⟨?_, s.now, ?_, Int.le_refl _⟩
      · simpa [TOk, handles_snoc, clicksOf_snoc] using ht
      · simp [began_snoc]
    | _ => simpa only [step, hpc] using I
  | go t =>
    have ht := hp t
    have hend : handles t s.log = clicksOf t s.log → TInv { s with pcs := upd s.pcs t .idle, log := s.log ++ [.ended t] } := by
      intro h
      refine ⟨toks_ev hp t ?_ (fun u hu => by simp [began_snoc]) (fun u hu => by simp [handles_snoc]) (fun u hu => by simp [clicksOf_snoc]), each_snoc he h⟩
      simpa [TOk, handles_snoc, clicksOf_snoc] using h
    cases hpc : s.pcs t with
    | idle => simpa only [step, hpc] using I
    | time1 =>
      rw [hpc] at ht
      obtain ⟨h1, b, h2, h3⟩ := ht
      simp only [step, hpc]; exact ⟨toks hp t ⟨h1, b, h2, h3, Int.le_refl _⟩, he⟩
    | time2 m =>
      rw [hpc] at ht
      obtain ⟨h1, b, h2, h3, h4⟩ := ht
      simp only [step, hpc]; exact ⟨toks hp t ⟨h1, h4, b, h2, h3, Int.le_refl _⟩, he⟩
    | append m v =>
      rw [hpc] at ht
      obtain ⟨h0, h1, b, h2, h3, h4⟩ := ht
      simp only [step, hpc]
      refine ⟨toks_ev hp t ?_ (fun u hu => by simp [began_snoc]) (fun u hu => by simp [handles_snoc]) (fun u hu => by simp [clicksOf_snoc, ne hu]), each_snoc he ⟨b, h2, by omega, h4⟩⟩
      refine ⟨?_, by show m ≤ s.now; omega⟩
      simp only [handles_snoc, clicksOf_snoc, if_true]; omega
    | look m =>
      rw [hpc] at ht
      simp only [step, hpc]
      split
      · exact hend ht.1
      · split
        · exact ⟨toks hp t ht, he⟩
        · exact hend ht.1
    | pop m =>
      rw [hpc] at ht
      simp only [step, hpc]
      split
      · exact hend ht.1
      · exact ⟨toks hp t ht, he⟩
    | rtime =>
      rw [hpc] at ht
      obtain ⟨h1, b, h2, h3⟩ := ht
      simp only [step, hpc]; exact ⟨toks hp t ⟨h1, b, h2, h3, Int.le_refl _⟩, he⟩
    | riter now =>
      rw [hpc] at ht
      simp only [step, hpc]; exact ⟨toks hp t ht, he⟩
    | rnext now ver seen =>
      rw [hpc] at ht
      obtain ⟨h1, b, h2, h3, h4⟩ := ht
      simp only [step, hpc]
      split
      · refine ⟨toks_ev hp t ?_ (fun u hu => by simp [began_snoc]) (fun u hu => by simp [handles_snoc]) (fun u hu => by simp [clicksOf_snoc]), each_snoc he trivial⟩
        simpa [TOk, handles_snoc, clicksOf_snoc] using h1
      · split
        · exact ⟨toks hp t ⟨h1, b, h2, h3, h4⟩, he⟩
        · refine ⟨toks_ev hp t ?_ (fun u hu => by simp [began_snoc]) (fun u hu => by simp [handles_snoc]) (fun u hu => by simp [clicksOf_snoc]), each_snoc he ⟨b, h2, h3, h4⟩⟩
          simpa [TOk, handles_snoc, clicksOf_snoc] using h1

theorem tinv_run (cf : CpsConf) (as : List Act) : TInv (run cf as) := by
  induction as using snoc_ind with
  | h0 => exact ⟨fun t => by simp [run, TOk, handles, clicksOf], by simp [run]⟩
  | h1 l a ih => rw [run_snoc]; exact tinv_step ih a

/-- **C253 (times)**  A click is counted with a time at which its call was running, and a report is about the periods before a time at which it was running. -/
theorem C253_times (cf : CpsConf) (as : List Act) (pre post : List Ev) (t : Nat) (at_ : Int) :
    (∀ v, (run cf as).log = pre ++ .click t at_ v :: post → ∃ b, began t pre = some b ∧ b ≤ v ∧ v ≤ at_) ∧
    (∀ now out, (run cf as).log = pre ++ .answer t at_ now out :: post → ∃ b, began t pre = some b ∧ b ≤ now ∧ now ≤ at_) :=
  ⟨fun _ h => (tinv_run cf as).each pre _ post h, fun _ _ h => (tinv_run cf as).each pre _ post h⟩

/-- **C253 (one click for each call)**  When a call of `handle` ends, its thread has made as many clicks as it began calls. -/
theorem C253_one_click (cf : CpsConf) (as : List Act) (pre post : List Ev) (t : Nat) (h : (run cf as).log = pre ++ .ended t :: post) : handles t pre = clicksOf t pre :=
  (tinv_run cf as).each pre _ post h

/-! ### One call at a time -/

/-- the threads within a call -/
structure AInv (s : St) (A : List Nat) : Prop where
  nodup : A.Nodup
  mem : ∀ t, t ∈ A ↔ s.pcs t ≠ .idle
  len : running s.log = A.length

theorem length_filter_ne {A : List Nat} (h : A.Nodup) {t : Nat} (ht : t ∈ A) : (A.filter (· ≠ t)).length + 1 = A.length := by
  induction A with
  | nil => cases ht
  | cons a A ih =>
    rw [List.nodup_cons] at h
    by_cases hat : a = t
    · subst hat
      have : A.filter (· ≠ a) = A := List.filter_eq_self.2 (fun x hx => by simp; rintro rfl; exact h.1 hx)
      simp only [List.filter_cons, ne_eq, not_true_eq_false, decide_false, List.length_cons]
      simpa using congrArg List.length this
    · have h2 := ih h.2 (by rcases List.mem_cons.1 ht with e | e; exact absurd e.symm hat; exact e)
      simp only [List.filter_cons, ne_eq, hat, not_false_eq_true, decide_true, List.length_cons, if_true]
      simp only [ne_eq] at h2
      omega

theorem AInv.stay {s s' : St} {A : List Nat} {t : Nat} {p : Pc} (I : AInv s A) (ht : s.pcs t ≠ .idle) (hp : p ≠ .idle) (h : s'.pcs = upd s.pcs t p) (hl : running s'.log = running s.log) : AInv s' A where
  nodup := I.nodup
  mem := by
    intro u
    rw [h]
    by_cases hu : u = t
    · subst hu; rw [upd_same, I.mem]; simp [ht, hp]
    · rw [upd_other _ _ hu]; exact I.mem u
  len := hl.trans I.len

theorem AInv.leave {s s' : St} {A : List Nat} {t : Nat} (I : AInv s A) (ht : s.pcs t ≠ .idle) (h : s'.pcs = upd s.pcs t .idle) (hl : running s'.log = running s.log + -1) : AInv s' (A.filter (· ≠ t)) where
  nodup := I.nodup.filter _
  mem := by
    intro u
    rw [h]
    by_cases hu : u = t
    · subst hu; simp
    · rw [upd_other _ _ hu, ← I.mem u]; simp [hu]
  len := by
    have := length_filter_ne I.nodup ((I.mem t).2 ht)
    rw [hl, I.len]; omega

theorem AInv.enter {s s' : St} {A : List Nat} {t : Nat} {p : Pc} (I : AInv s A) (ht : s.pcs t = .idle) (hp : p ≠ .idle) (h : s'.pcs = upd s.pcs t p) (hl : running s'.log = running s.log + 1) : AInv s' (t :: A) where
  nodup := List.nodup_cons.2 ⟨fun h => (I.mem t).1 h ht, I.nodup⟩
  mem := by
    intro u
    rw [h]
    by_cases hu : u = t
    · subst hu; simp [hp]
    · simp only [List.mem_cons, hu, false_or, upd_other _ _ hu]; exact I.mem u
  len := by rw [hl, I.len]; simp

theorem ainv_step {cf : CpsConf} {s : St} {A : List Nat} (I : AInv s A) (a : Act) : ∃ A', AInv (step cf s a) A' := by
  cases a with
  | tick n => exact ⟨A, I.nodup, I.mem, I.len⟩
  | handle t =>
    cases hpc : s.pcs t with
    | idle => simp only [step, hpc]; exact ⟨_, I.enter hpc (p := .time1) (by simp) rfl (by simp [running_snoc])⟩
    | _ => exact ⟨A, by simpa only [step, hpc] using I⟩
  | ask t =>
    cases hpc : s.pcs t with
    | idle => simp only [step, hpc]; exact ⟨_, I.enter hpc (p := .rtime) (by simp) rfl (by simp [running_snoc])⟩
    | _ => exact ⟨A, by simpa only [step, hpc] using I⟩
  | go t =>
    have stay : ∀ {s' : St} (p : Pc), p ≠ .idle → s.pcs t ≠ .idle → s'.pcs = upd s.pcs t p → running s'.log = running s.log → ∃ A', AInv s' A' :=
      fun p hp ht h hl => ⟨A, I.stay ht hp h hl⟩
    have leave : ∀ {s' : St}, s.pcs t ≠ .idle → s'.pcs = upd s.pcs t .idle → running s'.log = running s.log + -1 → ∃ A', AInv s' A' :=
      fun ht h hl => ⟨_, I.leave ht h hl⟩
    have hne : ∀ {p : Pc}, s.pcs t = p → p ≠ .idle → s.pcs t ≠ .idle := fun h hp => by rw [h]; exact hp
    cases hpc : s.pcs t with
    | idle => exact ⟨A, by simpa only [step, hpc] using I⟩
    | time1 => simp only [step, hpc]; exact stay (.time2 s.now) (by simp) (hne hpc (by simp)) rfl rfl
    | time2 m => simp only [step, hpc]; exact stay (.append m s.now) (by simp) (hne hpc (by simp)) rfl rfl
    | append m v => simp only [step, hpc]; exact stay (.look m) (by simp) (hne hpc (by simp)) rfl (by simp [running_snoc])
    | look m =>
      simp only [step, hpc]
      split
      · exact leave (hne hpc (by simp)) rfl (by simp [running_snoc])
      · split
        · exact stay (.pop m) (by simp) (hne hpc (by simp)) rfl rfl
        · exact leave (hne hpc (by simp)) rfl (by simp [running_snoc])
    | pop m =>
      simp only [step, hpc]
      split
      · exact leave (hne hpc (by simp)) rfl (by simp [running_snoc])
      · exact stay (.look m) (by simp) (hne hpc (by simp)) rfl rfl
    | rtime => simp only [step, hpc]; exact stay (.riter s.now) (by simp) (hne hpc (by simp)) rfl rfl
    | riter now => simp only [step, hpc]; exact stay (.rnext now s.ver []) (by simp) (hne hpc (by simp)) rfl rfl
    | rnext now ver seen =>
      simp only [step, hpc]
      split
      · exact leave (hne hpc (by simp)) rfl (by simp [running_snoc])
      · split
        · next v _ => exact stay (.rnext now ver (seen ++ [v])) (by simp) (hne hpc (by simp)) rfl rfl
        · exact leave (hne hpc (by simp)) rfl (by simp [running_snoc])

theorem ainv_run (cf : CpsConf) (as : List Act) : ∃ A, AInv (run cf as) A := by
  induction as using snoc_ind with
  | h0 => exact ⟨[], .nil, by simp [run], rfl⟩
  | h1 l a ih => obtain ⟨A, I⟩ := ih; rw [run_snoc]; exact ainv_step I a

/-- what holds of a thread when there is no other -/
def OOk (cf : CpsConf) (s : St) (d : List Int) : Pc → Prop
  | .pop m => ∃ v l, s.clicks = v :: l ∧ v ≤ m - cf.cutoff
  | .riter n => ∀ v ∈ d, v ≤ n - cf.cutoff
  | .rnext n w _ => w = s.ver ∧ ∀ v ∈ d, v ≤ n - cf.cutoff
  | _ => True

/-- a report of all clicks -/
def Full (pre : List Ev) : Ev → Prop
  | .answer _ _ now out => ∀ e ∈ out, after (now - e.1) (made pre) ≤ e.2 ∧ e.2 ≤ since (now - e.1) (made pre)
  | .failed _ => False
  | _ => True

/-- what holds when there is one call at a time -/
structure OInv (cf : CpsConf) (s : St) (d : List Int) : Prop where
  kept : made s.log = d ++ s.clicks
  old : ∀ v ∈ d, v ≤ s.now - cf.cutoff
  pcs : ∀ t, OOk cf s d (s.pcs t)
  each : ∀ pre e post, s.log = pre ++ e :: post → Full pre e

theorem full_answer {cf : CpsConf} {log : List Ev} {d clicks : List Int} (h : made log = d ++ clicks) {now : Int} (hd : ∀ v ∈ d, v ≤ now - cf.cutoff) (t : Nat) (a : Int) :
    Full log (.answer t a now (counts cf now clicks)) := by
  intro e he
  obtain ⟨p, hp, rfl⟩ := List.mem_map.1 he
  have hc := le_cutoff cf hp
  have h0 : d.countP (fun v => decide (now - p < v)) = 0 := List.countP_eq_zero.2 (fun v hv => by
    have := hd v hv
    simp only [decide_eq_true_eq]; omega)
  simp only [after, since, h, List.countP_append, h0]
  refine ⟨?_, by simp only [ge_iff_le]; omega⟩
  rw [Nat.zero_add]
  exact List.countP_mono_left (fun v _ hv => by simp only [decide_eq_true_eq] at *; omega)

theorem oinv_run (cf : CpsConf) (as : List Act) (h : AtMost cf 1 as) : ∃ d, OInv cf (run cf as) d := by
  induction as using snoc_ind with
  | h0 => exact ⟨[], rfl, by simp, fun _ => trivial, by simp [run]⟩
  | h1 l a ih =>
    obtain ⟨d, I⟩ := ih (fun p hp => h p (hp.trans (List.prefix_append l [a])))
    obtain ⟨A, IA⟩ := ainv_run cf l
    have hr := h l (List.prefix_append l [a])
    have T := tinv_run cf l
    have R := inv_run cf l
    rw [run_snoc]
    generalize run cf l = s at *
    rw [IA.len] at hr
    have only : ∀ t u, s.pcs t ≠ .idle → u ≠ t → s.pcs u = .idle := by
      intro t u ht hu
      refine Decidable.byContradiction (fun hh => hu ?_)
      have h1 := (IA.mem t).2 ht
      have h2 := (IA.mem u).2 hh
      match A, hr with
      | [], _ => cases h1
      | [x], _ => simp at h1 h2; rw [h1, h2]
      | _ :: _ :: _, hr => simp at hr; omega
    have others : ∀ (s' : St) (d' : List Int) t p, s.pcs t ≠ .idle → s'.pcs = upd s.pcs t p → OOk cf s' d' p → ∀ u, OOk cf s' d' (s'.pcs u) := by
      intro s' d' t p ht hp hk u
      rw [hp]
      by_cases hu : u = t
      · subst hu; rw [upd_same]; exact hk
      · rw [upd_other _ _ hu, only t u ht hu]; trivial
    obtain ⟨k1, k2, k3, k4⟩ := I
    have I : OInv cf s d := ⟨k1, k2, k3, k4⟩
    have starts : ∀ (s' : St) t p, s.pcs t = .idle → s'.pcs = upd s.pcs t p → s'.clicks = s.clicks → s'.ver = s.ver → OOk cf s' d p → ∀ u, OOk cf s' d (s'.pcs u) := by
      intro s' t p ht hp hc hv hk u
      rw [hp]
      by_cases hu : u = t
      · subst hu; rw [upd_same]; exact hk
      · rw [upd_other _ _ hu]
        have := k3 u
        cases hq : s.pcs u <;> rw [hq] at this <;> simp only [OOk, hc, hv] at * <;> exact this
    cases a with
    | tick n =>
      refine ⟨d, k1, fun v hv => ?_, fun t => ?_, k4⟩
      · have := k2 v hv; show v ≤ s.now + n - cf.cutoff; omega
      · have := k3 t
        show OOk cf (step cf s (.tick n)) d (s.pcs t)
        cases hq : s.pcs t <;> rw [hq] at this <;> exact this
    | handle t =>
      cases hpc : s.pcs t with
      | idle =>
        simp only [step, hpc]
        exact ⟨d, by simpa [made_snoc] using k1, k2, starts _ t .time1 hpc rfl rfl rfl trivial, each_snoc k4 trivial⟩
      | _ => exact ⟨d, by simpa only [step, hpc] using I⟩
    | ask t =>
      cases hpc : s.pcs t with
      | idle =>
        simp only [step, hpc]
        exact ⟨d, by simpa [made_snoc] using k1, k2, starts _ t .rtime hpc rfl rfl rfl trivial, each_snoc k4 trivial⟩
      | _ => exact ⟨d, by simpa only [step, hpc] using I⟩
    | go t =>
      have ht := T.pcs t
      have hk := k3 t
      have hok := R.ok t
      have hne : ∀ {p : Pc}, s.pcs t = p → p ≠ .idle → s.pcs t ≠ .idle := fun h hp => by rw [h]; exact hp
      have hend : s.pcs t ≠ .idle → ∃ d, OInv cf { s with pcs := upd s.pcs t .idle, log := s.log ++ [.ended t] } d := fun hp =>
        ⟨d, by simpa [made_snoc] using k1, k2, others _ _ t .idle hp rfl trivial, each_snoc k4 trivial⟩
      cases hpc : s.pcs t with
      | idle => exact ⟨d, by simpa only [step, hpc] using I⟩
      | time1 => simp only [step, hpc]; exact ⟨d, k1, k2, others _ _ t (.time2 s.now) (hne hpc (by simp)) rfl trivial, k4⟩
      | time2 m => simp only [step, hpc]; exact ⟨d, k1, k2, others _ _ t (.append m s.now) (hne hpc (by simp)) rfl trivial, k4⟩
      | append m v =>
        simp only [step, hpc]
        exact ⟨d, by simp [made_snoc, k1], k2, others _ _ t (.look m) (hne hpc (by simp)) rfl trivial, each_snoc k4 trivial⟩
      | look m =>
        simp only [step, hpc]
        split
        · exact hend (hne hpc (by simp))
        · next v l hc =>
          split
          · next hv => exact ⟨d, k1, k2, others _ _ t (.pop m) (hne hpc (by simp)) rfl ⟨v, l, hc, hv⟩, k4⟩
          · exact hend (hne hpc (by simp))
      | pop m =>
        rw [hpc] at hk ht
        obtain ⟨v, l, hc, hv⟩ := hk
        simp only [step, hpc]
        split
        · exact hend (hne hpc (by simp))
        · next v' l' hc' =>
          rw [hc] at hc'; cases hc'
          refine ⟨d ++ [v], by simp [k1, hc], ?_, others _ _ t (.look m) (hne hpc (by simp)) rfl trivial, k4⟩
          intro w hw
          rcases List.mem_append.1 hw with hw | hw
          · exact k2 w hw
          · rw [List.mem_singleton.1 hw]
            have := ht.2
            show v ≤ s.now - cf.cutoff
            omega
      | rtime => simp only [step, hpc]; exact ⟨d, k1, k2, others _ _ t (.riter s.now) (hne hpc (by simp)) rfl k2, k4⟩
      | riter now =>
        rw [hpc] at hk
        simp only [step, hpc]; exact ⟨d, k1, k2, others _ _ t (.rnext now s.ver []) (hne hpc (by simp)) rfl ⟨rfl, hk⟩, k4⟩
      | rnext now ver seen =>
        rw [hpc] at hk hok
        simp only [step, hpc]
        split
        · next hv => exact absurd hk.1 hv
        · next hv =>
          have hs := hok.2 hk.1
          split
          · next v _ => exact ⟨d, k1, k2, others _ _ t (.rnext now ver (seen ++ [v])) (hne hpc (by simp)) rfl hk, k4⟩
          · next hg =>
            refine ⟨d, by simpa [made_snoc] using k1, k2, others _ _ t .idle (hne hpc (by simp)) rfl trivial, each_snoc k4 ?_⟩
            rw [seen_all hs hg]
            exact full_answer k1 hk.2 t s.now

/-- **C254 (partial: one call at a time)**  If no call begins while another is running, every report is given, and has, for each period, the number of all clicks made in it (one at the very start of the period may be counted or not). -/
theorem C254_one_thread_partial (cf : CpsConf) (as : List Act) (h : AtMost cf 1 as) :
    (∀ t, .failed t ∉ (run cf as).log) ∧
    ∀ pre post t at_ now out, (run cf as).log = pre ++ .answer t at_ now out :: post →
      out.map (·.1) = cf.periods ∧ ∀ e ∈ out, after (now - e.1) (made pre) ≤ e.2 ∧ e.2 ≤ since (now - e.1) (made pre) := by
  obtain ⟨d, I⟩ := oinv_run cf as h
  refine ⟨fun t ht => ?_, fun pre post t at_ now out hl => ⟨(C253_at_most cf as pre post t at_ now out hl).1, I.each pre _ post hl⟩⟩
  obtain ⟨pre, post, hl⟩ := List.append_of_mem ht
  exact I.each pre _ post hl

/-! ### More calls at once -/

theorem atMost_of_take {cf : CpsConf} {n : Nat} {as : List Act} (h : ∀ k, k < as.length + 1 → running (run cf (as.take k)).log ≤ n) : AtMost cf n as := by
  intro p hp
  rw [List.prefix_iff_eq_take.1 hp]
  exact h _ (Nat.lt_succ_of_le hp.length_le)

/-- clicks of the last second -/
def second : CpsConf := ⟨[], [], true, false⟩

/-- **C254 (violation: a click is lost)**  Two threads click at the same time, 5, the last click before these having been at 0.  Both find that one to be old, and both remove the oldest click, the second of which is one made just now.  A report begun at the same time, when no other call is running, has one click in the last second, where there were two. -/
theorem C254_violates_lost : ∃ as pre, AtMost second 2 as ∧ running (run second as).log = 0 ∧ (run second as).log = pre ++ [.answer 0 5 5 [(1, 1)]] ∧
    made pre = [0, 5, 5] ∧ running pre = 1 ∧ after (5 - 1) (made pre) = 2 := by
  refine ⟨[.handle 0, .go 0, .go 0, .go 0, .go 0, .tick 5, .handle 0, .handle 1, .go 0, .go 1, .go 0, .go 1, .go 0, .go 1, .go 0, .go 1, .go 0, .go 1, .go 0, .go 1,
    .ask 0, .go 0, .go 0, .go 0, .go 0],
    [.handle 0 0, .click 0 0 0, .ended 0, .handle 0 5, .handle 1 5, .click 0 5 5, .click 1 5 5, .ended 0, .ended 1, .ask 0 5],
    atMost_of_take (by decide +kernel), by decide +kernel, by decide +kernel, by decide +kernel, by decide +kernel, by decide +kernel⟩

/-- **C254 (violation: a report raises)**  A report raises `RuntimeError` if a click is made while it is being prepared. -/
theorem C254_violates_raise : ∃ as, AtMost second 2 as ∧ (run second as).log = [.ask 0 0, .handle 1 0, .click 1 0 0, .failed 0] :=
  ⟨[.ask 0, .go 0, .go 0, .handle 1, .go 1, .go 1, .go 1, .go 0], atMost_of_take (by decide +kernel), by decide +kernel⟩

/-! ## Examples -/

/-- two threads, one call at a time: clicks at 0, 1 and 5, and a report at 5 -/
def demo : List Act :=
  [.handle 0, .go 0, .go 0, .go 0, .go 0, .tick 1, .handle 1, .go 1, .go 1, .go 1, .go 1, .go 1, .go 1, .tick 4, .handle 0, .go 0, .go 0, .go 0, .go 0, .go 0, .go 0,
   .ask 1, .go 1, .go 1, .go 1, .go 1]

/-- a report of clicks of two threads which were at the same time -/
def demo2 : List Act := [.handle 0, .handle 1, .go 0, .go 1, .tick 1, .go 0, .go 1, .go 1, .go 0, .ask 2, .go 1, .go 0, .go 2, .go 2, .go 2, .go 2, .go 2]

-- hypotheses of C254_one_thread_partial; of the clicks in the deque one was dropped
example : AtMost second 1 demo ∧ ∃ pre, (run second demo).log = pre ++ [.answer 1 5 5 [(1, 1)]] ∧ made pre = [0, 1, 5] :=
  ⟨atMost_of_take (by decide +kernel), (run second demo).log.dropLast, by decide +kernel, by decide +kernel⟩
-- hypotheses of C253_latest, C253_at_most, C253_times and C253_one_click, with two calls at once
example : ∃ pre, (run second demo2).log = pre ++ [.answer 2 1 1 [(1, 2)]] ∧ made pre = [1, 1] ∧ began 2 pre = some 1 ∧ began 1 pre = some 0 :=
  ⟨(run second demo2).log.dropLast, by decide +kernel, by decide +kernel, by decide +kernel, by decide +kernel⟩
example : ∃ pre post, (run second demo2).log = pre ++ .ended 1 :: post ∧ handles 1 pre = 1 :=
  ⟨[.handle 0 0, .handle 1 0, .click 1 1 1, .click 0 1 1, .ask 2 1], [.ended 0, .answer 2 1 1 [(1, 2)]], by decide +kernel, by decide +kernel⟩

end Verif.Metrics.CpsThreads
