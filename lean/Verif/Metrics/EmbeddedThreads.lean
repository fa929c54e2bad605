import Verif.Conc.MonitorProps
/-!
# Labelled values of a metric, given by several threads (satella/instrumentation/metrics/metric_types/base.py); C259, C260

A metric that is given values with labels keeps a metric of its own for each set of labels.  Here threads call `handle` with labels, and
`to_metric_data`, at once.  No lock is taken, so each look at or change of `children_mapping` and `children` is a step of its own.  What a metric
made for a set of labels does with a value is one step here (the kinds of metrics are the subject of C249 to C254): it is kept, with those it got before.
A set of labels is a number, and so is a value.  Metrics made for labels are numbers in the order in which they were made.
-/
namespace Verif.Metrics.EmbeddedThreads
open Verif
open Verif.Conc (upd upd_same upd_other)

/-! ## Model -/

/-- where a thread is: in `_handle`, /repo/satella/instrumentation/metrics/metric_types/base.py:199-217, before line 205, 209, 213, 214, 215, reading the mapping at 211 or 217, and calling `_handle` of what was read; or in `to_metric_data`, lines 219-227, at the `i`th
of `children`, with what it has so far -/
inductive Pc where
  | idle
  | enable (k x : Nat)
  | look (k x : Nat)
  | clone (k x : Nat)
  | store (k x c : Nat)
  | append (k x c : Nat)
  | get (k x : Nat)
  | give (k x c : Nat)
  | check
  | rep (i : Nat) (rows : List (Nat × List Nat))
  deriving DecidableEq, Repr

/-- what is seen: a value is given with labels, this ends; data are asked for, and given: for each entry its labels and values.  (Part of the model of `EmbeddedSubmetrics`, /repo/satella/instrumentation/metrics/metric_types/base.py:173-243.) -/
inductive Ev where
  | called (t k x : Nat)
  | ended (t k x : Nat)
  | asked (t : Nat)
  | reported (t : Nat) (rows : List (Nat × List Nat))
  deriving DecidableEq, Repr

/-- `embedded_submetrics_enabled`, `children_mapping` and `children`, /repo/satella/instrumentation/metrics/metric_types/base.py:190-197; how many metrics were made for labels, their labels and values; the threads; and what was seen (not in the code) -/
structure St where
  enabled : Bool := false
  map : Nat → Option Nat := fun _ => none
  children : List Nat := []
  made : Nat := 0
  key : Nat → Nat := fun _ => 0
  got : Nat → List Nat := fun _ => []
  pcs : Nat → Pc := fun _ => .idle
  log : List Ev := []

/-- what happens: a thread calls `handle` with labels, or `to_metric_data`, or goes on by one step.  (Part of the model of `EmbeddedSubmetrics`, /repo/satella/instrumentation/metrics/metric_types/base.py:173-243.) -/
inductive Act where
  | handle (t k x : Nat)
  | ask (t : Nat)
  | go (t : Nat)
  deriving DecidableEq, Repr

/-- a thread goes on.  (Part of the model of `EmbeddedSubmetrics`, /repo/satella/instrumentation/metrics/metric_types/base.py:173-243.) -/
def St.goto (s : St) (t : Nat) (p : Pc) : St := { s with pcs := upd s.pcs t p }

/-- A step of `_handle`, with `clone`, and of `to_metric_data`, /repo/satella/instrumentation/metrics/metric_types/base.py:199-227 and :236-243.  Metrics made for labels inherit their level, so all are shown; while no value had labels, none is. -/
def step (s : St) : Act → St
  | .handle t k x =>
    match s.pcs t with
    | .idle => { s with pcs := upd s.pcs t (.enable k x), log := s.log ++ [.called t k x] }
    | _ => s
  | .ask t =>
    match s.pcs t with
    | .idle => { s with pcs := upd s.pcs t .check, log := s.log ++ [.asked t] }
    | _ => s
  | .go t =>
    match s.pcs t with
    | .idle => s
    | .enable k x => { s with enabled := true, pcs := upd s.pcs t (.look k x) }
    | .look k x => if s.map k = none then s.goto t (.clone k x) else s.goto t (.get k x)
    | .clone k x => { s with made := s.made + 1, key := upd s.key s.made k, got := upd s.got s.made [], pcs := upd s.pcs t (.store k x s.made) }
    | .store k x c => { s with map := upd s.map k (some c), pcs := upd s.pcs t (.append k x c) }
    | .append k x c => { s with children := s.children ++ [c], pcs := upd s.pcs t (.get k x) }
    | .get k x =>
      match s.map k with
      | some c => s.goto t (.give k x c)
      | none => s
    | .give k x c => { s with got := upd s.got c (s.got c ++ [x]), pcs := upd s.pcs t .idle, log := s.log ++ [.ended t k x] }
    | .check => if s.enabled then s.goto t (.rep 0 []) else { s with pcs := upd s.pcs t .idle, log := s.log ++ [.reported t []] }
    | .rep i rows =>
      match s.children[i]? with
      | some c => s.goto t (.rep (i + 1) (rows ++ [(s.key c, s.got c)]))
      | none => { s with pcs := upd s.pcs t .idle, log := s.log ++ [.reported t rows] }

/-- everything that happens.  (Part of the model of `EmbeddedSubmetrics`, /repo/satella/instrumentation/metrics/metric_types/base.py:173-243.) -/
def run (as : List Act) : St := as.foldl step {}

/-! ## Specification -/

/-- how often the value was given with the labels, by calls that ended -/
def given (k x : Nat) (log : List Ev) : Nat := log.countP (fun e => match e with | .ended _ k' x' => decide (k' = k ∧ x' = x) | _ => false)

/-- how often the value is in entries with the labels -/
def shown (k x : Nat) : List (Nat × List Nat) → Nat
  | [] => 0
  | (k', xs) :: rows => (if k' = k then xs.count x else 0) + shown k x rows

/-- how many entries have the labels -/
def entries (k : Nat) (rows : List (Nat × List Nat)) : Nat := rows.countP (fun r => decide (r.1 = k))

/-- calls of a thread -/
def nCalled (t : Nat) (log : List Ev) : Nat := log.countP (fun e => match e with | .called u _ _ => decide (u = t) | .asked u => decide (u = t) | _ => false)

/-- calls of a thread that ended -/
def nEnded (t : Nat) (log : List Ev) : Nat := log.countP (fun e => match e with | .ended u _ _ => decide (u = t) | .reported u _ => decide (u = t) | _ => false)

/-- every call ended -/
def Quiet (log : List Ev) : Prop := ∀ t, nCalled t log = nEnded t log

/-- no call begins while another thread is in one -/
def OneAtATime (as : List Act) : Prop := ∀ p, p <+: as → ∀ t u, nCalled t (run p).log ≠ nEnded t (run p).log → nCalled u (run p).log ≠ nEnded u (run p).log → t = u

/-! ## Proofs -/

theorem run_snoc (as : List Act) (a : Act) : run (as ++ [a]) = step (run as) a := by simp [run]

theorem snoc_ind {α : Type} {P : List α → Prop} (h0 : P []) (h1 : ∀ l a, P l → P (l ++ [a])) (l : List α) : P l := by
  rw [← List.reverse_reverse l]
  induction l.reverse with
  | nil => exact h0
  | cons a l ih => rw [List.reverse_cons]; exact h1 _ _ ih

/-! ### Who is in a call -/

/-- a thread is in a call if and only if it began one more than it ended -/
def Counted (s : St) : Prop := ∀ t, nCalled t s.log = nEnded t s.log + (if s.pcs t = .idle then 0 else 1)

theorem counted_move {s s' : St} {t : Nat} {p : Pc} (h : Counted s) (ht : s.pcs t ≠ .idle) (hp : p ≠ .idle) (h1 : s'.pcs = upd s.pcs t p) (h2 : s'.log = s.log) : Counted s' := by
  intro u
  rw [h1, h2, h u]
  by_cases hu : u = t
  · subst hu; rw [upd_same]; simp [ht, hp]
  · rw [upd_other _ _ hu]

theorem counted_end {s s' : St} {t : Nat} {e : Ev} (h : Counted s) (ht : s.pcs t ≠ .idle) (h1 : s'.pcs = upd s.pcs t .idle) (h2 : s'.log = s.log ++ [e])
    (he : (∃ k x, e = .ended t k x) ∨ ∃ r, e = .reported t r) : Counted s' := by
  intro u
  have := h u
  rw [h1, h2]
  by_cases hu : u = t
  · subst hu
    rcases he with ⟨k, x, rfl⟩ | ⟨r, rfl⟩ <;> simp [upd_same, nCalled, nEnded, List.countP_append, ht] at * <;> omega
  · have hu' : t ≠ u := fun e => hu e.symm
    rcases he with ⟨k, x, rfl⟩ | ⟨r, rfl⟩ <;> simp [nCalled, nEnded, List.countP_append, upd_other _ _ hu, hu'] at * <;> omega

theorem counted_begin {s s' : St} {t : Nat} {p : Pc} {e : Ev} (h : Counted s) (ht : s.pcs t = .idle) (hp : p ≠ .idle) (h1 : s'.pcs = upd s.pcs t p) (h2 : s'.log = s.log ++ [e])
    (he : (∃ k x, e = .called t k x) ∨ e = .asked t) : Counted s' := by
  intro u
  have := h u
  rw [h1, h2]
  by_cases hu : u = t
  · subst hu
    rcases he with ⟨k, x, rfl⟩ | rfl <;> simp [upd_same, nCalled, nEnded, List.countP_append, ht, hp] at * <;> omega
  · have hu' : t ≠ u := fun e => hu e.symm
    rcases he with ⟨k, x, rfl⟩ | rfl <;> simp [nCalled, nEnded, List.countP_append, upd_other _ _ hu, hu'] at * <;> omega

theorem counted_step {s : St} (h : Counted s) (a : Act) : Counted (step s a) := by
  cases a with
  | handle t k x =>
    cases hpc : s.pcs t with
    | idle => simp only [step, hpc]; exact counted_begin (p := .enable k x) h hpc (by simp) rfl rfl (.inl ⟨k, x, rfl⟩)
    | _ => simpa only [step, hpc] using h
  | ask t =>
    cases hpc : s.pcs t with
    | idle => simp only [step, hpc]; exact counted_begin (p := .check) h hpc (by simp) rfl rfl (.inr rfl)
    | _ => simpa only [step, hpc] using h
  | go t =>
    have hne : ∀ {p : Pc}, s.pcs t = p → p ≠ .idle → s.pcs t ≠ .idle := fun h hp => by rw [h]; exact hp
    cases hpc : s.pcs t with
    | idle => simpa only [step, hpc] using h
    | enable k x => simp only [step, hpc]; exact counted_move (p := .look k x) h (hne hpc (by simp)) (by simp) rfl rfl
    | look k x =>
      simp only [step, hpc]
      split
      · exact counted_move (p := .clone k x) h (hne hpc (by simp)) (by simp) rfl rfl
      · exact counted_move (p := .get k x) h (hne hpc (by simp)) (by simp) rfl rfl
    | clone k x => simp only [step, hpc]; exact counted_move (p := .store k x s.made) h (hne hpc (by simp)) (by simp) rfl rfl
    | store k x c => simp only [step, hpc]; exact counted_move (p := .append k x c) h (hne hpc (by simp)) (by simp) rfl rfl
    | append k x c => simp only [step, hpc]; exact counted_move (p := .get k x) h (hne hpc (by simp)) (by simp) rfl rfl
    | get k x =>
      simp only [step, hpc]
      split
      · next c _ => exact counted_move (p := .give k x c) h (hne hpc (by simp)) (by simp) rfl rfl
      · exact h
    | give k x c => simp only [step, hpc]; exact counted_end h (hne hpc (by simp)) rfl rfl (.inl ⟨k, x, rfl⟩)
    | check =>
      simp only [step, hpc]
      split
      · exact counted_move (p := .rep 0 []) h (hne hpc (by simp)) (by simp) rfl rfl
      · exact counted_end h (hne hpc (by simp)) rfl rfl (.inr ⟨[], rfl⟩)
    | rep i rows =>
      simp only [step, hpc]
      split
      · next c _ => exact counted_move (p := .rep (i + 1) (rows ++ [(s.key c, s.got c)])) h (hne hpc (by simp)) (by simp) rfl rfl
      · exact counted_end h (hne hpc (by simp)) rfl rfl (.inr ⟨rows, rfl⟩)

theorem counted_run (as : List Act) : Counted (run as) := by
  induction as using snoc_ind with
  | h0 => intro t; simp [run, nCalled, nEnded]
  | h1 l a ih => rw [run_snoc]; exact counted_step ih a

theorem idle_of_quiet {s : St} (h : Counted s) (hq : Quiet s.log) (t : Nat) : s.pcs t = .idle := by
  have h1 := h t
  have h2 := hq t
  refine Decidable.byContradiction (fun hh => ?_)
  rw [if_neg hh] at h1; omega

/-! ### Where values are -/

/-- how often the value is in these metrics, if they have the labels -/
def within (s : St) (k x : Nat) (l : List Nat) : Nat := shown k x (l.map (fun c => (s.key c, s.got c)))

theorem shown_append (k x : Nat) (l m : List (Nat × List Nat)) : shown k x (l ++ m) = shown k x l + shown k x m := by
  induction l with
  | nil => simp [shown]
  | cons r l ih => obtain ⟨k', xs⟩ := r; simp [shown, ih]; omega

theorem shown_perm (k x : Nat) {l m : List (Nat × List Nat)} (h : l.Perm m) : shown k x l = shown k x m := by
  induction h with
  | nil => rfl
  | cons r _ ih => obtain ⟨k', xs⟩ := r; simp [shown, ih]
  | swap r r' l => obtain ⟨k', xs⟩ := r; obtain ⟨k'', xs'⟩ := r'; simp [shown]; omega
  | trans _ _ h1 h2 => rw [h1, h2]

theorem within_le {s : St} {k x : Nat} : ∀ {l m : List Nat}, l.Nodup → (∀ c ∈ l, c ∈ m) → within s k x l ≤ within s k x m := by
  intro l
  induction l with
  | nil => intro m _ _; simp [within, shown]
  | cons c l ih =>
    intro m hn hm
    rw [List.nodup_cons] at hn
    have hc := hm c (by simp)
    have hp := (List.perm_cons_erase hc)
    have e : within s k x m = within s k x (c :: m.erase c) := shown_perm k x (hp.map _)
    rw [e]
    have := ih (m := m.erase c) hn.2 (fun d hd => (List.mem_erase_of_ne (fun (e : d = c) => hn.1 (e ▸ hd))).2 (hm d (by simp [hd])))
    simp only [within, List.map_cons, shown] at *
    omega

theorem within_congr {s s' : St} {k x : Nat} {l : List Nat} (h : ∀ c ∈ l, s'.key c = s.key c ∧ s'.got c = s.got c) : within s' k x l = within s k x l := by
  unfold within
  congr 1
  exact List.map_congr_left (fun c hc => by rw [(h c hc).1, (h c hc).2])

/-- one more value in one of them -/
theorem within_give {s s' : St} {c x : Nat} (hk : s'.key = s.key) (hg : s'.got = upd s.got c (s.got c ++ [x])) (k y : Nat) : ∀ {l : List Nat}, l.Nodup → c ∈ l →
    within s' k y l = within s k y l + if s.key c = k ∧ x = y then 1 else 0 := by
  intro l
  induction l with
  | nil => intro _ h; cases h
  | cons d l ih =>
    intro hn hc
    rw [List.nodup_cons] at hn
    by_cases e : c = d
    · subst e
      have rest : within s' k y l = within s k y l := within_congr (fun d hd => ⟨by rw [hk], by rw [hg, upd_other]; exact fun e => hn.1 (e ▸ hd)⟩)
      simp only [within, List.map_cons, shown] at *
      rw [rest, hk, hg, upd_same]
      by_cases h1 : s.key c = k <;> by_cases h2 : x = y <;> simp [h1, h2] <;> omega
    · have hc' : c ∈ l := by rcases List.mem_cons.1 hc with h | h; exact absurd h e; exact h
      have := ih hn.2 hc'
      simp only [within, List.map_cons, shown] at *
      rw [this, hk, hg, upd_other _ _ (fun h => e h.symm)]
      omega

/-- the metric that a thread made and did not yet append -/
def Pc.holds (c : Nat) : Pc → Bool
  | .store _ _ c' => decide (c' = c)
  | .append _ _ c' => decide (c' = c)
  | _ => false

/-- what holds of a thread -/
def Ok (s : St) : Pc → Prop
  | .look _ _ => s.enabled = true
  | .clone _ _ => s.enabled = true
  | .store k _ c => s.enabled = true ∧ c < s.made ∧ s.key c = k ∧ c ∉ s.children
  | .append k _ c => s.enabled = true ∧ c < s.made ∧ s.key c = k ∧ c ∉ s.children ∧ s.map k ≠ none
  | .get k _ => s.enabled = true ∧ s.map k ≠ none
  | .give k _ c => s.enabled = true ∧ s.map k ≠ none ∧ c < s.made ∧ s.key c = k
  | .rep i rows => s.enabled = true ∧ i ≤ s.children.length ∧ rows.map (·.1) = (s.children.take i).map s.key ∧ ∀ k x, shown k x rows ≤ within s k x (s.children.take i)
  | _ => True

/-- what always holds -/
structure Inv (s : St) : Prop where
  pcs : ∀ t, Ok s (s.pcs t)
  map : ∀ k c, s.map k = some c → c < s.made ∧ s.key c = k
  lt : ∀ c ∈ s.children, c < s.made
  nodup : s.children.Nodup
  all : ∀ c, c < s.made → c ∈ s.children ∨ ∃ t, (s.pcs t).holds c = true
  own : ∀ t u c, (s.pcs t).holds c = true → (s.pcs u).holds c = true → t = u
  given : ∀ k x, within s k x (List.range s.made) = given k x s.log
  used : ∀ t k x, .ended t k x ∈ s.log → s.enabled = true ∧ s.map k ≠ none
  reports : ∀ pre t rows post, s.log = pre ++ .reported t rows :: post → ∀ k x, shown k x rows ≤ EmbeddedThreads.given k x pre

theorem within_children {s : St} (I : Inv s) (k x : Nat) : within s k x s.children ≤ given k x s.log := by
  rw [← I.given]
  exact within_le I.nodup (fun c hc => List.mem_range.2 (I.lt c hc))

theorem within_mono {s s' : St} {k x : Nat} {l : List Nat} (h : ∀ c ∈ l, s'.key c = s.key c ∧ (s.got c).count x ≤ (s'.got c).count x) : within s k x l ≤ within s' k x l := by
  induction l with
  | nil => simp [within, shown]
  | cons c l ih =>
    have h1 := ih (fun d hd => h d (by simp [hd]))
    have h2 := h c (by simp)
    simp only [within, List.map_cons, shown] at *
    rw [h2.1]
    split <;> omega

theorem ok_mono {s s' : St} {p : Pc} (he : s.enabled = true → s'.enabled = true) (hm : s.made ≤ s'.made) (hk : ∀ c, c < s.made → s'.key c = s.key c)
    (ext : List Nat) (hc : s'.children = s.children ++ ext) (hx : ∀ c, p.holds c = true → c ∉ ext) (hmap : ∀ k, s.map k ≠ none → s'.map k ≠ none)
    (hg : ∀ c, c < s.made → ∀ x, (s.got c).count x ≤ (s'.got c).count x) (lt : ∀ c ∈ s.children, c < s.made) (h : Ok s p) : Ok s' p := by
  cases p with
  | idle => trivial
  | enable k x => trivial
  | check => trivial
  | look k x => exact he h
  | clone k x => exact he h
  | store k x c =>
    obtain ⟨h1, h2, h3, h4⟩ := h
    refine ⟨he h1, by omega, (hk c h2).trans h3, ?_⟩
    rw [hc]
    intro h
    rcases List.mem_append.1 h with h | h
    · exact h4 h
    · exact hx c (by simp [Pc.holds]) h
  | append k x c =>
    obtain ⟨h1, h2, h3, h4, h5⟩ := h
    refine ⟨he h1, by omega, (hk c h2).trans h3, ?_, hmap k h5⟩
    rw [hc]
    intro h
    rcases List.mem_append.1 h with h | h
    · exact h4 h
    · exact hx c (by simp [Pc.holds]) h
  | get k x => exact ⟨he h.1, hmap k h.2⟩
  | give k x c => exact ⟨he h.1, hmap k h.2.1, by have := h.2.2.1; omega, (hk c h.2.2.1).trans h.2.2.2⟩
  | rep i rows =>
    obtain ⟨h1, h2, h3, h4⟩ := h
    have ht : s'.children.take i = s.children.take i := by rw [hc, List.take_append_of_le_length h2]
    have hlt : ∀ c ∈ s.children.take i, c < s.made := fun c hc => lt c (List.mem_of_mem_take hc)
    refine ⟨he h1, by rw [hc]; simp; omega, ?_, fun k x => ?_⟩
    · rw [ht, h3]
      exact List.map_congr_left (fun c hc => (hk c (hlt c hc)).symm)
    · rw [ht]
      exact Nat.le_trans (h4 k x) (within_mono (fun c hc => ⟨hk c (hlt c hc), hg c (hlt c hc) x⟩))

/-- the log after a step: nothing, or an event that is no end of `handle`, and shows no more than was given if it is a report -/
def Adds (log log' : List Ev) : Prop :=
  log' = log ∨ ∃ e, log' = log ++ [e] ∧ (∀ t k x, e ≠ .ended t k x) ∧ ∀ t rows, e = .reported t rows → ∀ k x, shown k x rows ≤ given k x log

theorem Adds.given {log log' : List Ev} (h : Adds log log') (k x : Nat) : EmbeddedThreads.given k x log' = EmbeddedThreads.given k x log := by
  rcases h with rfl | ⟨e, rfl, h, _⟩
  · rfl
  · cases e with
    | ended t k x => exact absurd rfl (h t k x)
    | _ => simp [EmbeddedThreads.given, List.countP_append]

theorem Adds.mem {log log' : List Ev} (h : Adds log log') {t k x : Nat} (he : .ended t k x ∈ log') : .ended t k x ∈ log := by
  rcases h with rfl | ⟨e, rfl, h, _⟩
  · exact he
  · rcases List.mem_append.1 he with he | he
    · exact he
    · exact absurd (List.mem_singleton.1 he).symm (h t k x)

/-- reports show no more than was given before -/
def Fair (log : List Ev) : Prop := ∀ pre t rows post, log = pre ++ .reported t rows :: post → ∀ k x, shown k x rows ≤ given k x pre

theorem fair_snoc {log : List Ev} {e : Ev} (h : Fair log) (he : ∀ t rows, e = .reported t rows → ∀ k x, shown k x rows ≤ given k x log) : Fair (log ++ [e]) := by
  intro pre t rows post hl
  rcases List.eq_nil_or_concat post with rfl | ⟨post', e', rfl⟩
  · obtain ⟨h1, h2⟩ := List.append_inj' hl rfl
    simp only [List.cons.injEq, and_true] at h2
    subst h1
    exact he t rows h2
  · have : log ++ [e] = (pre ++ .reported t rows :: post') ++ [e'] := by simpa using hl
    obtain ⟨h1, _⟩ := List.append_inj' this rfl
    exact h pre t rows post' h1

theorem Adds.fair {log log' : List Ev} (h : Adds log log') (hf : Fair log) : Fair log' := by
  rcases h with rfl | ⟨e, rfl, _, h⟩
  · exact hf
  · exact fair_snoc hf h

/-- a step that changes no metric -/
theorem inv_move {s s' : St} {t : Nat} {p : Pc} (I : Inv s) (h1 : s'.pcs = upd s.pcs t p) (h2 : s'.map = s.map) (h3 : s'.children = s.children) (h4 : s'.made = s.made) (h5 : s'.key = s.key) (h6 : s'.got = s.got)
    (h7 : s.enabled = true → s'.enabled = true) (h8 : Adds s.log s'.log) (hp : Ok s' p) (hh : ∀ c, p.holds c = false) (ht : ∀ c, (s.pcs t).holds c = false) : Inv s' := by
  have holds : ∀ {u c}, (s'.pcs u).holds c = true → (s.pcs u).holds c = true := by
    intro u c h
    rw [h1] at h
    by_cases hu : u = t
    · rw [hu, upd_same, hh c] at h; cases h
    · rw [upd_other _ _ hu] at h; exact h
  refine ⟨fun u => ?_, ?_, ?_, ?_, ?_, ?_, ?_, ?_, h8.fair I.reports⟩
  · rw [h1]
    by_cases hu : u = t
    · rw [hu, upd_same]; exact hp
    · rw [upd_other _ _ hu]
      exact ok_mono (s := s) h7 (by omega) (fun c _ => by rw [h5]) [] (by simp [h3]) (fun _ _ h => by cases h) (fun k h => by rw [h2]; exact h) (fun c _ x => by rw [h6]; exact Nat.le_refl _) I.lt (I.pcs u)
  · rw [h2, h4, h5]; exact I.map
  · rw [h3, h4]; exact I.lt
  · rw [h3]; exact I.nodup
  · rw [h3, h4]
    intro c hc
    rcases I.all c hc with h | ⟨u, h⟩
    · exact .inl h
    · have hu : u ≠ t := fun e => by rw [e, ht c] at h; cases h
      exact .inr ⟨u, by rw [h1, upd_other _ _ hu]; exact h⟩
  · intro u v c hu hv
    exact I.own u v c (holds hu) (holds hv)
  · intro k x
    rw [h4, h8.given, ← I.given k x]
    exact within_congr (fun c _ => ⟨by rw [h5], by rw [h6]⟩)
  · intro u k x h
    rw [h2]
    exact ⟨h7 (I.used u k x (h8.mem h)).1, (I.used u k x (h8.mem h)).2⟩

theorem inv_step {s : St} (I : Inv s) (a : Act) : Inv (step s a) := by
  cases a with
  | handle t k x =>
    cases hpc : s.pcs t with
    | idle =>
      simp only [step, hpc]
      exact inv_move (p := .enable k x) I rfl rfl rfl rfl rfl rfl id (.inr ⟨_, rfl, by simp, by simp⟩) trivial (fun _ => rfl) (fun _ => by rw [hpc]; rfl)
    | _ => simpa only [step, hpc] using I
  | ask t =>
    cases hpc : s.pcs t with
    | idle =>
      simp only [step, hpc]
      exact inv_move (p := .check) I rfl rfl rfl rfl rfl rfl id (.inr ⟨_, rfl, by simp, by simp⟩) trivial (fun _ => rfl) (fun _ => by rw [hpc]; rfl)
    | _ => simpa only [step, hpc] using I
  | go t =>
    have hok := I.pcs t
    have hne : ∀ {u c}, (s.pcs u).holds c = true → (s.pcs t).holds c = false → u ≠ t := fun h h' e => by rw [e, h'] at h; cases h
    cases hpc : s.pcs t with
    | idle => simpa only [step, hpc] using I
    | enable k x =>
      simp only [step, hpc]
      exact inv_move (p := .look k x) I rfl rfl rfl rfl rfl rfl (fun _ => rfl) (.inl rfl) rfl (fun _ => rfl) (fun _ => by rw [hpc]; rfl)
    | look k x =>
      rw [hpc] at hok
      simp only [step, hpc]
      split
      · exact inv_move (p := .clone k x) I rfl rfl rfl rfl rfl rfl id (.inl rfl) hok (fun _ => rfl) (fun _ => by rw [hpc]; rfl)
      · next h => exact inv_move (p := .get k x) I rfl rfl rfl rfl rfl rfl id (.inl rfl) ⟨hok, h⟩ (fun _ => rfl) (fun _ => by rw [hpc]; rfl)
    | clone k x =>
      rw [hpc] at hok
      simp only [step, hpc]
      have hkey : ∀ c, c < s.made → upd s.key s.made k c = s.key c := fun c hc => upd_other _ _ (by omega)
      have hgot : ∀ c, c < s.made → upd s.got s.made [] c = s.got c := fun c hc => upd_other _ _ (by omega)
      have hlt : ∀ {u c}, (s.pcs u).holds c = true → c < s.made := by
        intro u c h
        have := I.pcs u
        cases hu : s.pcs u with
        | store k x d => rw [hu] at h this; simp [Pc.holds] at h; subst h; exact this.2.1
        | append k x d => rw [hu] at h this; simp [Pc.holds] at h; subst h; exact this.2.1
        | _ => rw [hu] at h; simp [Pc.holds] at h
      refine ⟨fun u => ?_, ?_, ?_, I.nodup, ?_, ?_, ?_, I.used, I.reports⟩
      · dsimp only
        by_cases hu : u = t
        · rw [hu, upd_same]
          exact ⟨hok, Nat.lt_succ_self _, upd_same _ _ _, fun h => absurd (I.lt _ h) (by omega)⟩
        · rw [upd_other _ _ hu]
          exact ok_mono (s := s) id (Nat.le_succ _) hkey [] (by simp) (fun _ _ h => by cases h) (fun _ h => h) (fun c hc x => by dsimp only; rw [hgot c hc]; exact Nat.le_refl _) I.lt (I.pcs u)
      · intro k' c h
        obtain ⟨h1, h2⟩ := I.map k' c h
        exact ⟨Nat.lt_succ_of_lt h1, (hkey c h1).trans h2⟩
      · intro c hc; exact Nat.lt_succ_of_lt (I.lt c hc)
      · intro c hc
        by_cases e : c = s.made
        · exact .inr ⟨t, by dsimp only; rw [upd_same]; simp [Pc.holds, e]⟩
        · rcases I.all c (by dsimp only at hc; omega) with h | ⟨u, h⟩
          · exact .inl h
          · exact .inr ⟨u, by dsimp only; rw [upd_other _ _ (hne h (by rw [hpc]; rfl))]; exact h⟩
      · intro u v c hu hv
        dsimp only at hu hv
        by_cases eu : u = t <;> by_cases ev : v = t
        · rw [eu, ev]
        · rw [eu, upd_same] at hu
          rw [upd_other _ _ ev] at hv
          have h1 := hlt hv
          simp [Pc.holds] at hu
          omega
        · rw [ev, upd_same] at hv
          rw [upd_other _ _ eu] at hu
          have h1 := hlt hu
          simp [Pc.holds] at hv
          omega
        · rw [upd_other _ _ eu] at hu
          rw [upd_other _ _ ev] at hv
          exact I.own u v c hu hv
      · intro k' x'
        dsimp only
        rw [List.range_succ]
        unfold within
        rw [List.map_append, shown_append, ← I.given k' x']
        have e1 : shown k' x' (List.map (fun c => (upd s.key s.made k c, upd s.got s.made [] c)) [s.made]) = 0 := by simp [shown]
        have e2 : List.map (fun c => (upd s.key s.made k c, upd s.got s.made [] c)) (List.range s.made) = List.map (fun c => (s.key c, s.got c)) (List.range s.made) :=
          List.map_congr_left (fun c hc => by rw [hkey c (List.mem_range.1 hc), hgot c (List.mem_range.1 hc)])
        rw [e1, e2]
        rfl
    | store k x c =>
      rw [hpc] at hok
      obtain ⟨h1, h2, h3, h4⟩ := hok
      simp only [step, hpc]
      have hmap : ∀ k', s.map k' ≠ none → upd s.map k (some c) k' ≠ none := by
        intro k' h
        by_cases e : k' = k
        · rw [e, upd_same]; simp
        · rw [upd_other _ _ e]; exact h
      have same : ∀ {u d}, (upd s.pcs t (.append k x c) u).holds d = (s.pcs u).holds d := by
        intro u d
        by_cases e : u = t
        · rw [e, upd_same, hpc]; rfl
        · rw [upd_other _ _ e]
      refine ⟨fun u => ?_, ?_, I.lt, I.nodup, ?_, ?_, I.given, fun u k' x' h => ⟨(I.used u k' x' h).1, hmap k' (I.used u k' x' h).2⟩, I.reports⟩
      · dsimp only
        by_cases hu : u = t
        · rw [hu, upd_same]
          exact ⟨h1, h2, h3, h4, by dsimp only; rw [upd_same]; simp⟩
        · rw [upd_other _ _ hu]
          exact ok_mono (s := s) id (Nat.le_refl _) (fun _ _ => rfl) [] (by simp) (fun _ _ h => by cases h) hmap (fun _ _ _ => Nat.le_refl _) I.lt (I.pcs u)
      · intro k' d h
        dsimp only at h
        by_cases e : k' = k
        · rw [e, upd_same] at h; cases h; exact ⟨h2, h3.trans e.symm⟩
        · rw [upd_other _ _ e] at h; exact I.map k' d h
      · intro d hd
        rcases I.all d hd with h | ⟨u, h⟩
        · exact .inl h
        · exact .inr ⟨u, same.trans h⟩
      · intro u v d hu hv
        exact I.own u v d (same.symm.trans hu) (same.symm.trans hv)
    | append k x c =>
      rw [hpc] at hok
      obtain ⟨h1, h2, h3, h4, h5⟩ := hok
      have hold : (s.pcs t).holds c = true := by rw [hpc]; simp [Pc.holds]
      simp only [step, hpc]
      have other : ∀ {u d}, (upd s.pcs t (.get k x) u).holds d = true → u ≠ t ∧ (s.pcs u).holds d = true := by
        intro u d h
        by_cases e : u = t
        · rw [e, upd_same] at h; cases h
        · rw [upd_other _ _ e] at h; exact ⟨e, h⟩
      refine ⟨fun u => ?_, I.map, ?_, ?_, ?_, ?_, I.given, I.used, I.reports⟩
      · dsimp only
        by_cases hu : u = t
        · rw [hu, upd_same]; exact ⟨h1, h5⟩
        · rw [upd_other _ _ hu]
          refine ok_mono (s := s) id (Nat.le_refl _) (fun _ _ => rfl) [c] rfl (fun d hd h => ?_) (fun _ h => h) (fun _ _ _ => Nat.le_refl _) I.lt (I.pcs u)
          rw [List.mem_singleton.1 h] at hd
          exact hu (I.own u t c hd hold)
      · intro d hd
        rcases List.mem_append.1 hd with h | h
        · exact I.lt d h
        · rw [List.mem_singleton.1 h]; exact h2
      · refine List.nodup_append.2 ⟨I.nodup, by simp, ?_⟩
        intro a ha b hb e
        rw [List.mem_singleton.1 hb] at e
        exact h4 (e ▸ ha)
      · intro d hd
        rcases I.all d hd with h | ⟨u, h⟩
        · exact .inl (List.mem_append_left _ h)
        · by_cases e : u = t
          · rw [e, hpc] at h
            simp [Pc.holds] at h
            exact .inl (by simp [h])
          · exact .inr ⟨u, by dsimp only; rw [upd_other _ _ e]; exact h⟩
      · intro u v d hu hv
        exact I.own u v d (other hu).2 (other hv).2
    | get k x =>
      rw [hpc] at hok
      simp only [step, hpc]
      split
      · next c hc => exact inv_move (p := .give k x c) I rfl rfl rfl rfl rfl rfl id (.inl rfl) ⟨hok.1, hok.2, I.map k c hc⟩ (fun _ => rfl) (fun _ => by rw [hpc]; rfl)
      · exact I
    | give k x c =>
      rw [hpc] at hok
      obtain ⟨h1, h0, h2, h3⟩ := hok
      simp only [step, hpc]
      have other : ∀ {u d}, (upd s.pcs t .idle u).holds d = true → (s.pcs u).holds d = true := by
        intro u d h
        by_cases e : u = t
        · rw [e, upd_same] at h; cases h
        · rw [upd_other _ _ e] at h; exact h
      refine ⟨fun u => ?_, I.map, I.lt, I.nodup, ?_, fun u v d hu hv => I.own u v d (other hu) (other hv), ?_, ?_, fair_snoc I.reports (by simp)⟩
      · dsimp only
        by_cases hu : u = t
        · rw [hu, upd_same]; trivial
        · rw [upd_other _ _ hu]
          refine ok_mono (s := s) id (Nat.le_refl _) (fun _ _ => rfl) [] (by simp) (fun _ _ h => by cases h) (fun _ h => h) (fun d _ y => ?_) I.lt (I.pcs u)
          dsimp only
          by_cases e : d = c
          · rw [e, upd_same]; simp
          · rw [upd_other _ _ e]; exact Nat.le_refl _
      · intro d hd
        rcases I.all d hd with h | ⟨u, h⟩
        · exact .inl h
        · exact .inr ⟨u, by dsimp only; rw [upd_other _ _ (hne h (by rw [hpc]; rfl))]; exact h⟩
      · intro k' y
        have := within_give (s := s) (s' := { s with got := upd s.got c (s.got c ++ [x]), pcs := upd s.pcs t .idle, log := s.log ++ [.ended t k x] }) (c := c) (x := x) rfl rfl k' y
          (List.nodup_range (n := s.made)) (List.mem_range.2 h2)
        dsimp only at this ⊢
        rw [this, I.given k' y, h3]
        simp [given, List.countP_append, List.countP_cons]
      · intro u k' y h
        rcases List.mem_append.1 h with h | h
        · exact I.used u k' y h
        · cases List.mem_singleton.1 h
          exact ⟨h1, h0⟩
    | check =>
      simp only [step, hpc]
      split
      · next h => exact inv_move (p := .rep 0 []) I rfl rfl rfl rfl rfl rfl id (.inl rfl) ⟨h, Nat.zero_le _, by simp, fun k x => by simp [shown]⟩ (fun _ => rfl) (fun _ => by rw [hpc]; rfl)
      · exact inv_move (p := .idle) I rfl rfl rfl rfl rfl rfl id (.inr ⟨_, rfl, by simp, by simp [shown]⟩) trivial (fun _ => rfl) (fun _ => by rw [hpc]; rfl)
    | rep i rows =>
      rw [hpc] at hok
      obtain ⟨h1, h2, h3, h4⟩ := hok
      simp only [step, hpc]
      split
      · next c hc =>
        have hi : i < s.children.length := by
          rcases Nat.lt_or_ge i s.children.length with h | h
          · exact h
          · rw [List.getElem?_eq_none h] at hc; cases hc
        have ht : s.children.take (i + 1) = s.children.take i ++ [c] := by rw [List.take_add_one, hc]; rfl
        refine inv_move (p := .rep (i + 1) (rows ++ [(s.key c, s.got c)])) I rfl rfl rfl rfl rfl rfl id (.inl rfl) ⟨h1, hi, ?_, fun k x => ?_⟩ (fun _ => rfl) (fun _ => by rw [hpc]; rfl)
        · show List.map _ _ = List.map s.key (s.children.take (i + 1))
          rw [ht, List.map_append, List.map_append, h3]; simp
        · show _ ≤ within s k x (s.children.take (i + 1))
          rw [ht, shown_append]
          unfold within
          rw [List.map_append, shown_append]
          exact Nat.add_le_add (h4 k x) (Nat.le_refl _)
      · refine inv_move (p := .idle) I rfl rfl rfl rfl rfl rfl id (.inr ⟨_, rfl, by simp, ?_⟩) trivial (fun _ => rfl) (fun _ => by rw [hpc]; rfl)
        intro u r e k x
        cases e
        refine Nat.le_trans (h4 k x) (Nat.le_trans ?_ (within_children I k x))
        exact within_le (I.nodup.sublist (List.take_sublist _ _)) (fun c hc => List.mem_of_mem_take hc)

theorem inv_run (as : List Act) : Inv (run as) := by
  induction as using snoc_ind with
  | h0 =>
    exact ⟨fun _ => trivial, fun _ _ h => (by cases h), fun _ h => (by cases h), List.nodup_nil, fun _ h => (by cases h), fun _ _ _ h => (by cases h), fun _ _ => rfl, fun _ _ _ h => (by cases h),
      fun pre _ _ _ h => by have := congrArg List.length h; simp [run] at this⟩
  | h1 l a ih => rw [run_snoc]; exact inv_step ih a

/-- **C259 (never too much)** Whichever threads give values and ask for data, however they interleave: for every labels and value, what data show of it, in all entries with these labels together, is not more than calls that ended before gave. -/
theorem C259_at_most (as : List Act) (pre post : List Ev) (t : Nat) (rows : List (Nat × List Nat)) (h : (run as).log = pre ++ .reported t rows :: post) (k x : Nat) : shown k x rows ≤ given k x pre :=
  (inv_run as).reports pre t rows post h k x

/-! ### When no call is running -/

/-- nobody gives values any more; what is shown is `full` -/
structure Still (s : St) (full : List (Nat × List Nat)) (n : Nat) : Prop where
  shows : s.children.map (fun c => (s.key c, s.got c)) = full
  off : s.enabled = false → full = []
  pcs : ∀ t, s.pcs t = .idle ∨ s.pcs t = .check ∨ ∃ i, i ≤ s.children.length ∧ s.pcs t = .rep i (full.take i)
  log : ∀ t rows, .reported t rows ∈ s.log.drop n → rows = full
  len : n ≤ s.log.length

theorem still_step {s : St} {full : List (Nat × List Nat)} {n : Nat} (I : Still s full n) (a : Act) (ha : ∀ t k x, a ≠ .handle t k x) : Still (step s a) full n := by
  obtain ⟨h1, h2, h3, h4, h5⟩ := I
  have pcs : ∀ {t : Nat} {p : Pc}, (p = .idle ∨ p = .check ∨ ∃ i, i ≤ s.children.length ∧ p = .rep i (full.take i)) →
      ∀ u, upd s.pcs t p u = .idle ∨ upd s.pcs t p u = .check ∨ ∃ i, i ≤ s.children.length ∧ upd s.pcs t p u = .rep i (full.take i) := by
    intro t p hp u
    by_cases hu : u = t
    · rw [hu, upd_same]; exact hp
    · rw [upd_other _ _ hu]; exact h3 u
  have log : ∀ {e : Ev}, (∀ t rows, e = .reported t rows → rows = full) → ∀ t rows, .reported t rows ∈ (s.log ++ [e]).drop n → rows = full := by
    intro e he t rows h
    rw [List.drop_append_of_le_length h5] at h
    rcases List.mem_append.1 h with h | h
    · exact h4 t rows h
    · exact he t rows (List.mem_singleton.1 h).symm
  cases a with
  | handle t k x => exact absurd rfl (ha t k x)
  | ask t =>
    cases hpc : s.pcs t with
    | idle => simp only [step, hpc]; exact ⟨h1, h2, pcs (.inr (.inl rfl)), log (by simp), by simp; omega⟩
    | _ => simp only [step, hpc]; exact ⟨h1, h2, h3, h4, h5⟩
  | go t =>
    rcases h3 t with hpc | hpc | ⟨i, hi, hpc⟩
    · simp only [step, hpc]; exact ⟨h1, h2, h3, h4, h5⟩
    · simp only [step, hpc]
      split
      · exact ⟨h1, h2, pcs (.inr (.inr ⟨0, Nat.zero_le _, by simp⟩)), h4, h5⟩
      · next h =>
        refine ⟨h1, h2, pcs (.inl rfl), log (fun u rows e => ?_), by simp; omega⟩
        cases e
        exact (h2 (by simpa using h)).symm
    · simp only [step, hpc]
      split
      · next c hc =>
        have hi' : i < s.children.length := by
          rcases Nat.lt_or_ge i s.children.length with h | h
          · exact h
          · rw [List.getElem?_eq_none h] at hc; cases hc
        refine ⟨h1, h2, pcs (.inr (.inr ⟨i + 1, hi', ?_⟩)), h4, h5⟩
        have : full[i]? = some (s.key c, s.got c) := by rw [← h1, List.getElem?_map, hc]; rfl
        rw [List.take_add_one, this]; rfl
      · next hc =>
        refine ⟨h1, h2, pcs (.inl rfl), log (fun u rows e => ?_), by simp; omega⟩
        cases e
        refine List.take_of_length_le ?_
        rw [← h1, List.length_map]
        exact List.getElem?_eq_none_iff.1 hc

/-- while no value had labels, there are no metrics for labels -/
theorem enabled_run (as : List Act) (h : (run as).enabled = false) : (run as).children = [] := by
  have I := inv_run as
  cases hc : (run as).children with
  | nil => rfl
  | cons c l =>
    exfalso
    suffices h' : ∀ as, (run as).children ≠ [] → (run as).enabled = true by rw [h' as (by rw [hc]; simp)] at h; cases h
    clear h hc I
    intro as
    induction as using snoc_ind with
    | h0 => intro h; exact absurd rfl h
    | h1 l a ih =>
      have I := inv_run l
      rw [run_snoc]
      generalize run l = s at ih I
      cases a with
      | handle t k x => cases hpc : s.pcs t <;> simpa only [step, hpc] using ih
      | ask t => cases hpc : s.pcs t <;> simpa only [step, hpc] using ih
      | go t =>
        have hok := I.pcs t
        cases hpc : s.pcs t with
        | append k x c => intro _; rw [hpc] at hok; simp only [step, hpc]; exact hok.1
        | enable k x => intro _; simp only [step, hpc]
        | _ => simp only [step, hpc] <;> (try split) <;> exact ih

/-- **C259 (nothing lost)** Once no call is running: as long as no more values are given, data show, whoever asks, for every labels and value all of what was given before, in all entries with these labels together, and nothing else. -/
theorem C259_all (as bs : List Act) (hq : Quiet (run as).log) (hb : ∀ a ∈ bs, ∀ t k x, a ≠ .handle t k x) (t : Nat) (rows : List (Nat × List Nat))
    (h : .reported t rows ∈ (run (as ++ bs)).log.drop (run as).log.length) (k x : Nat) : shown k x rows = given k x (run as).log := by
  have I := inv_run as
  have idle := idle_of_quiet (counted_run as) hq
  have S : Still (run (as ++ bs)) ((run as).children.map (fun c => ((run as).key c, (run as).got c))) (run as).log.length := by
    clear h
    induction bs using snoc_ind with
    | h0 =>
      rw [List.append_nil]
      exact ⟨rfl, fun h => by rw [enabled_run as h]; rfl, fun u => .inl (idle u), fun _ _ h => by simp at h, Nat.le_refl _⟩
    | h1 l a ih => rw [← List.append_assoc, run_snoc]; exact still_step (ih (fun a ha => hb a (by simp [ha]))) a (hb a (by simp))
  rw [S.log t rows h, ← I.given k x]
  refine shown_perm k x (List.Perm.map _ ?_)
  refine (List.perm_ext_iff_of_nodup I.nodup List.nodup_range).2 (fun c => ?_)
  rw [List.mem_range]
  refine ⟨I.lt c, fun hc => ?_⟩
  rcases I.all c hc with h | ⟨u, h⟩
  · exact h
  · rw [idle u] at h; cases h

/-- labels for which no entry is made any more -/
structure Fixed (s : St) (k m n : Nat) : Prop where
  map : s.map k ≠ none
  on : s.enabled = true
  pcs : ∀ t, match s.pcs t with | .clone k' _ => k' ≠ k | .store k' _ _ => k' ≠ k | .append k' _ _ => k' ≠ k | _ => True
  count : (s.children.map s.key).count k = m
  log : ∀ t rows, .reported t rows ∈ s.log.drop n → entries k rows = m
  len : n ≤ s.log.length

theorem fixed_move {s s' : St} {t k m n : Nat} {p : Pc} (F : Fixed s k m n) (h1 : s'.pcs = upd s.pcs t p) (h2 : s'.map k ≠ none) (h3 : s'.enabled = true) (h4 : s'.children.map s'.key = s.children.map s.key)
    (h5 : s'.log = s.log ∨ ∃ e, s'.log = s.log ++ [e] ∧ ∀ u rows, e = .reported u rows → entries k rows = m)
    (hp : match p with | .clone k' _ => k' ≠ k | .store k' _ _ => k' ≠ k | .append k' _ _ => k' ≠ k | _ => True) : Fixed s' k m n := by
  refine ⟨h2, h3, fun u => ?_, by rw [h4]; exact F.count, ?_, ?_⟩
  · rw [h1]
    by_cases hu : u = t
    · rw [hu, upd_same]; exact hp
    · rw [upd_other _ _ hu]; exact F.pcs u
  · intro u rows h
    rcases h5 with h5 | ⟨e, h5, he⟩
    · rw [h5] at h; exact F.log u rows h
    · rw [h5, List.drop_append_of_le_length F.len] at h
      rcases List.mem_append.1 h with h | h
      · exact F.log u rows h
      · exact he u rows (List.mem_singleton.1 h).symm
  · rcases h5 with h5 | ⟨e, h5, _⟩
    · rw [h5]; exact F.len
    · rw [h5]; have := F.len; simp; omega

theorem entries_eq (k : Nat) (rows : List (Nat × List Nat)) : entries k rows = (rows.map (·.1)).count k := by
  induction rows with
  | nil => rfl
  | cons r rows ih => simp only [entries, List.countP_cons, List.map_cons, List.count_cons] at *; rw [ih]; simp

theorem fixed_step {s : St} {k m n : Nat} (I : Inv s) (F : Fixed s k m n) (a : Act) : Fixed (step s a) k m n := by
  cases a with
  | handle t k' x =>
    cases hpc : s.pcs t with
    | idle => simp only [step, hpc]; exact fixed_move (p := .enable k' x) F rfl F.map F.on rfl (.inr ⟨_, rfl, by simp⟩) trivial
    | _ => simpa only [step, hpc] using F
  | ask t =>
    cases hpc : s.pcs t with
    | idle => simp only [step, hpc]; exact fixed_move (p := .check) F rfl F.map F.on rfl (.inr ⟨_, rfl, by simp⟩) trivial
    | _ => simpa only [step, hpc] using F
  | go t =>
    have hf := F.pcs t
    have hok := I.pcs t
    cases hpc : s.pcs t with
    | idle => simpa only [step, hpc] using F
    | enable k' x => simp only [step, hpc]; exact fixed_move (p := .look k' x) F rfl F.map rfl rfl (.inl rfl) trivial
    | look k' x =>
      simp only [step, hpc]
      split
      · next h => exact fixed_move (p := .clone k' x) F rfl F.map F.on rfl (.inl rfl) (fun e => by rw [e] at h; exact F.map h)
      · exact fixed_move (p := .get k' x) F rfl F.map F.on rfl (.inl rfl) trivial
    | clone k' x =>
      rw [hpc] at hf
      simp only [step, hpc]
      refine fixed_move (p := .store k' x s.made) F rfl F.map F.on ?_ (.inl rfl) hf
      exact List.map_congr_left (fun c hc => upd_other _ _ (by have := I.lt c hc; omega))
    | store k' x c =>
      rw [hpc] at hf
      simp only [step, hpc]
      refine fixed_move (p := .append k' x c) F rfl ?_ F.on rfl (.inl rfl) hf
      dsimp only
      rw [upd_other _ _ (fun e => hf e.symm)]; exact F.map
    | append k' x c =>
      rw [hpc] at hf hok
      simp only [step, hpc]
      refine ⟨F.map, F.on, fun u => ?_, ?_, F.log, F.len⟩
      · dsimp only
        by_cases hu : u = t
        · rw [hu, upd_same]; trivial
        · rw [upd_other _ _ hu]; exact F.pcs u
      · dsimp only
        have hk : s.key c ≠ k := by rw [hok.2.2.1]; exact hf
        rw [List.map_append, List.count_append, F.count]
        simp [hk]
    | get k' x =>
      simp only [step, hpc]
      split
      · next c _ => exact fixed_move (p := .give k' x c) F rfl F.map F.on rfl (.inl rfl) trivial
      · exact F
    | give k' x c => simp only [step, hpc]; exact fixed_move (p := .idle) F rfl F.map F.on rfl (.inr ⟨_, rfl, by simp⟩) trivial
    | check =>
      simp only [step, hpc, F.on, if_true]
      exact fixed_move (p := .rep 0 []) F rfl F.map (by simp [St.goto, F.on]) rfl (.inl rfl) trivial
    | rep i rows =>
      rw [hpc] at hok
      obtain ⟨_, h2, h3, _⟩ := hok
      simp only [step, hpc]
      split
      · next c _ => exact fixed_move (p := .rep (i + 1) (rows ++ [(s.key c, s.got c)])) F rfl F.map F.on rfl (.inl rfl) trivial
      · next hc =>
        refine fixed_move (p := .idle) F rfl F.map F.on rfl (.inr ⟨_, rfl, fun u r e => ?_⟩) trivial
        cases e
        rw [entries_eq, h3, List.take_of_length_le (List.getElem?_eq_none_iff.1 hc)]
        exact F.count

/-- **C259 (entries are settled)** Once a value was given with the labels and no call is running, no further entries are made for these labels: all later data have the same number of them, which is not zero. -/
theorem C259_settled (as : List Act) (hq : Quiet (run as).log) (t k x : Nat) (h : .ended t k x ∈ (run as).log) :
    ∃ m, 0 < m ∧ ∀ bs u rows, .reported u rows ∈ (run (as ++ bs)).log.drop (run as).log.length → entries k rows = m := by
  have I := inv_run as
  have idle := idle_of_quiet (counted_run as) hq
  obtain ⟨hon, hmap⟩ := I.used t k x h
  refine ⟨((run as).children.map (run as).key).count k, ?_, fun bs u rows hr => ?_⟩
  · obtain ⟨c, hc⟩ := Option.ne_none_iff_exists'.1 hmap
    obtain ⟨h1, h2⟩ := I.map k c hc
    have : c ∈ (run as).children := by
      rcases I.all c h1 with h | ⟨v, h⟩
      · exact h
      · rw [idle v] at h; cases h
    exact List.count_pos_iff.2 (List.mem_map.2 ⟨c, this, h2⟩)
  · suffices F : Fixed (run (as ++ bs)) k (((run as).children.map (run as).key).count k) (run as).log.length from F.log u rows hr
    clear hr
    induction bs using snoc_ind with
    | h0 => rw [List.append_nil]; exact ⟨hmap, hon, fun u => by rw [idle u]; trivial, rfl, fun _ _ h => by simp at h, Nat.le_refl _⟩
    | h1 l a ih => rw [← List.append_assoc, run_snoc]; exact fixed_step (inv_run _) ih a

/-- The hypotheses of the theorems above are met: two threads give values with the same labels at once, then data are asked for; they show both values, in two entries. -/
example : Quiet (run [.handle 0 7 1, .go 0, .go 0, .handle 1 7 1, .go 1, .go 1, .go 0, .go 0, .go 0, .go 1, .go 1, .go 1, .go 0, .go 0, .go 1, .go 1]).log ∧
    (run ([.handle 0 7 1, .go 0, .go 0, .handle 1 7 1, .go 1, .go 1, .go 0, .go 0, .go 0, .go 1, .go 1, .go 1, .go 0, .go 0, .go 1, .go 1] ++ [.ask 2, .go 2, .go 2, .go 2, .go 2])).log
      = [.called 0 7 1, .called 1 7 1, .ended 0 7 1, .ended 1 7 1, .asked 2, .reported 2 [(7, []), (7, [1, 1])]] := by
  refine ⟨fun t => ?_, by decide +kernel⟩
  have h : (run [.handle 0 7 1, .go 0, .go 0, .handle 1 7 1, .go 1, .go 1, .go 0, .go 0, .go 0, .go 1, .go 1, .go 1, .go 0, .go 0, .go 1, .go 1]).log
      = [.called 0 7 1, .called 1 7 1, .ended 0 7 1, .ended 1 7 1] := by decide +kernel
  rw [h]
  simp [nCalled, nEnded, List.countP_cons]

/-! ### C260: what does not hold -/

/-- **C260 (violation: one entry for each labels)** Two threads give a value each with the same labels, which are new: each finds that there is no metric for them and makes one.  From then on all data have two entries with the same labels. -/
theorem C260_violates_two : ∃ as t rows, (∀ a ∈ as, ∀ u k x, a = .handle u k x → k = 7) ∧ .reported t rows ∈ (run as).log ∧ entries 7 rows = 2 ∧
    (run as).log.countP (fun e => match e with | .called _ _ _ => true | _ => false) = 2 := by
  refine ⟨[.handle 0 7 1, .go 0, .go 0, .handle 1 7 1, .go 1, .go 1, .go 0, .go 0, .go 0, .go 1, .go 1, .go 1, .go 0, .go 0, .go 1, .go 1, .ask 2, .go 2, .go 2, .go 2, .go 2],
    2, [(7, []), (7, [1, 1])], ?_, by decide +kernel, by decide, by decide +kernel⟩
  intro a ha u k x e
  subst e
  have : u = 0 ∧ k = 7 ∧ x = 1 ∨ u = 1 ∧ k = 7 ∧ x = 1 := by simpa using ha
  omega

/-- **C260 (violation: a value that was given is in data asked for afterwards)** A thread stored the metric it made for the labels, but did not yet list it: another gives a value with these labels, this ends, and data it asks for then do not have the value. -/
theorem C260_violates_missing : ∃ as pre mid, (run as).log = pre ++ .asked 1 :: mid ++ [.reported 1 []] ∧ .ended 1 7 2 ∈ pre := by
  refine ⟨[.handle 0 7 1, .go 0, .go 0, .go 0, .go 0, .handle 1 7 2, .go 1, .go 1, .go 1, .go 1, .ask 1, .go 1, .go 1], [.called 0 7 1, .called 1 7 2, .ended 1 7 2], [], by decide +kernel, by simp⟩

/-! ### C260: one call at a time -/

/-- what is known of a thread, if only it is in a call -/
def Alone (s : St) : Pc → Prop
  | .clone k _ => s.map k = none
  | .store k _ _ => s.map k = none
  | .append k _ c => s.map k = some c
  | .rep i rows => rows = (s.children.take i).map (fun c => (s.key c, s.got c))
  | _ => True

structure OInv (s : St) : Prop where
  pcs : ∀ t, Alone s (s.pcs t)
  uniq : ∀ c ∈ s.children, s.map (s.key c) = some c
  born : ∀ c ∈ s.children, (∃ t x, .ended t (s.key c) x ∈ s.log) ∨ ∃ t x, s.pcs t = .get (s.key c) x ∨ ∃ d, s.pcs t = .give (s.key c) x d
  log : ∀ pre t rows post, s.log = pre ++ .reported t rows :: post →
    (∀ k, (∃ u x, .ended u k x ∈ pre) → entries k rows = 1) ∧ (∀ k, (¬ ∃ u x, .ended u k x ∈ pre) → entries k rows = 0) ∧ ∀ k x, shown k x rows = given k x pre

theorem split_snoc {α : Type} {l pre post : List α} {e x : α} (h : l ++ [e] = pre ++ x :: post) : (∃ post', l = pre ++ x :: post') ∨ (pre = l ∧ x = e) := by
  rcases List.eq_nil_or_concat post with rfl | ⟨q, y, rfl⟩
  · have := List.append_inj' h rfl
    exact .inr ⟨this.1.symm, by simpa using this.2.symm⟩
  · left
    have : l ++ [e] = (pre ++ x :: q) ++ [y] := by rw [h]; simp
    exact ⟨q, (List.append_inj' this rfl).1⟩

theorem count_map_le {l : List Nat} {f : Nat → Nat} (hn : l.Nodup) (hi : ∀ c ∈ l, ∀ d ∈ l, f c = f d → c = d) (k : Nat) : (l.map f).count k ≤ 1 := by
  induction l with
  | nil => simp
  | cons c l ih =>
    rw [List.nodup_cons] at hn
    have h1 := ih hn.2 (fun a ha b hb => hi a (by simp [ha]) b (by simp [hb]))
    rw [List.map_cons, List.count_cons]
    split
    · next h =>
      have h : f c = k := by simpa using h
      have : (l.map f).count k = 0 := List.count_eq_zero.2 (fun hm => by
        obtain ⟨d, hd, e⟩ := List.mem_map.1 hm
        have := hi c (by simp) d (by simp [hd]) (h.trans e.symm)
        exact hn.1 (this ▸ hd))
      omega
    · omega

theorem oinv_step {s : St} (I : Inv s) (O : OInv s) (alone : ∀ t u, s.pcs t ≠ .idle → s.pcs u ≠ .idle → t = u) (a : Act) : OInv (step s a) := by
  obtain ⟨h1, h2, h3, h4⟩ := O
  have logE : ∀ {e : Ev}, (∀ t rows, e ≠ .reported t rows) → ∀ pre t rows post, s.log ++ [e] = pre ++ .reported t rows :: post →
      (∀ k, (∃ u x, .ended u k x ∈ pre) → entries k rows = 1) ∧ (∀ k, (¬ ∃ u x, .ended u k x ∈ pre) → entries k rows = 0) ∧ ∀ k x, shown k x rows = given k x pre := by
    intro e he pre t rows post h
    rcases split_snoc h with ⟨p, h⟩ | ⟨_, h⟩
    · exact h4 pre t rows p h
    · exact absurd h.symm (he t rows)
  have rest : ∀ {t : Nat} {p : Pc} {s' : St}, (s.pcs t ≠ .idle ∨ ∀ u, Alone s (s.pcs u) → Alone s' (s.pcs u)) → s'.pcs = upd s.pcs t p → Alone s' p → ∀ u, Alone s' (s'.pcs u) := by
    intro t p s' ht e hp u
    rw [e]
    by_cases hu : u = t
    · rw [hu, upd_same]; exact hp
    · rw [upd_other _ _ hu]
      rcases ht with ht | ht
      · have : s.pcs u = .idle := Decidable.byContradiction (fun h => hu (alone u t h ht))
        rw [this]; trivial
      · exact ht u (h1 u)
  have bornE : ∀ {t : Nat} {p : Pc} {s' : St}, s'.pcs = upd s.pcs t p → s'.children = s.children → (∀ c ∈ s.children, s'.key c = s.key c) → (∃ l, s'.log = s.log ++ l) →
      (∀ k x, s.pcs t = .get k x → (∃ d, p = .give k x d)) → (∀ k x d, s.pcs t = .give k x d → .ended t k x ∈ s'.log) →
      ∀ c ∈ s'.children, (∃ t x, .ended t (s'.key c) x ∈ s'.log) ∨ ∃ t x, s'.pcs t = .get (s'.key c) x ∨ ∃ d, s'.pcs t = .give (s'.key c) x d := by
    intro t p s' e1 e2 e3 e4 e5 e6 c hc
    rw [e2] at hc
    rw [e3 c hc]
    obtain ⟨l, e4⟩ := e4
    rcases h3 c hc with ⟨u, x, h⟩ | ⟨u, x, h⟩
    · exact .inl ⟨u, x, by rw [e4]; exact List.mem_append_left _ h⟩
    · by_cases hu : u = t
      · subst hu
        rcases h with h | ⟨d, h⟩
        · obtain ⟨d, e⟩ := e5 _ _ h
          exact .inr ⟨u, x, .inr ⟨d, by rw [e1, upd_same, e]⟩⟩
        · exact .inl ⟨u, x, e6 _ _ _ h⟩
      · exact .inr ⟨u, x, by rw [e1, upd_other _ _ hu]; exact h⟩
  have full : ∀ {t : Nat}, s.pcs t ≠ .idle → (∀ c, (s.pcs t).holds c ≠ true) → ∀ c, c < s.made → c ∈ s.children := by
    intro t ht hh c hc
    rcases I.all c hc with h | ⟨u, h⟩
    · exact h
    · have : u = t := alone u t (fun e => by rw [e] at h; cases h) ht
      rw [this] at h; exact absurd h (hh c)
  cases a with
  | handle t k x =>
    cases hpc : s.pcs t with
    | idle =>
      simp only [step, hpc]
      exact ⟨rest (p := .enable k x) (.inr (fun u h => by cases hu : s.pcs u <;> rw [hu] at h <;> exact h)) rfl trivial, h2,
        bornE (p := .enable k x) rfl rfl (fun _ _ => rfl) ⟨_, rfl⟩ (by simp [hpc]) (by simp [hpc]), logE (by simp)⟩
    | _ => simp only [step, hpc]; exact ⟨h1, h2, h3, h4⟩
  | ask t =>
    cases hpc : s.pcs t with
    | idle =>
      simp only [step, hpc]
      exact ⟨rest (p := .check) (.inr (fun u h => by cases hu : s.pcs u <;> rw [hu] at h <;> exact h)) rfl trivial, h2,
        bornE (p := .check) rfl rfl (fun _ _ => rfl) ⟨_, rfl⟩ (by simp [hpc]) (by simp [hpc]), logE (by simp)⟩
    | _ => simp only [step, hpc]; exact ⟨h1, h2, h3, h4⟩
  | go t =>
    have ha := h1 t
    have hok := I.pcs t
    cases hpc : s.pcs t with
    | idle => simp only [step, hpc]; exact ⟨h1, h2, h3, h4⟩
    | enable k x =>
      have ht : s.pcs t ≠ .idle := by rw [hpc]; simp
      simp only [step, hpc]
      exact ⟨rest (p := .look k x) (.inl ht) rfl trivial, h2, bornE (p := .look k x) rfl rfl (fun _ _ => rfl) ⟨[], by simp⟩ (by simp [hpc]) (by simp [hpc]), h4⟩
    | look k x =>
      have ht : s.pcs t ≠ .idle := by rw [hpc]; simp
      simp only [step, hpc]
      split
      · next h => exact ⟨rest (p := .clone k x) (.inl ht) rfl h, h2, bornE (p := .clone k x) rfl rfl (fun _ _ => rfl) ⟨[], by simp [St.goto]⟩ (by simp [hpc]) (by simp [hpc]), h4⟩
      · exact ⟨rest (p := .get k x) (.inl ht) rfl trivial, h2, bornE (p := .get k x) rfl rfl (fun _ _ => rfl) ⟨[], by simp [St.goto]⟩ (by simp [hpc]) (by simp [hpc]), h4⟩
    | clone k x =>
      have ht : s.pcs t ≠ .idle := by rw [hpc]; simp
      rw [hpc] at ha
      simp only [step, hpc]
      have hk : ∀ c ∈ s.children, upd s.key s.made k c = s.key c := fun c hc => upd_other _ _ (by have := I.lt c hc; omega)
      exact ⟨rest (p := .store k x s.made) (.inl ht) rfl ha, fun c hc => by dsimp only at *; rw [hk c hc]; exact h2 c hc,
        bornE (p := .store k x s.made) rfl rfl hk ⟨[], by simp⟩ (by simp [hpc]) (by simp [hpc]), h4⟩
    | store k x c =>
      have ht : s.pcs t ≠ .idle := by rw [hpc]; simp
      rw [hpc] at ha
      simp only [step, hpc]
      refine ⟨rest (p := .append k x c) (.inl ht) rfl (upd_same _ _ _), fun d hd => ?_, bornE (p := .append k x c) rfl rfl (fun _ _ => rfl) ⟨[], by simp⟩ (by simp [hpc]) (by simp [hpc]), h4⟩
      dsimp only at *
      have := h2 d hd
      rw [upd_other _ _ (fun e => by rw [e] at this; rw [show s.map k = none from ha] at this; cases this)]
      exact this
    | append k x c =>
      have ht : s.pcs t ≠ .idle := by rw [hpc]; simp
      rw [hpc] at ha hok
      have hkey : s.key c = k := hok.2.2.1
      simp only [step, hpc]
      refine ⟨rest (p := .get k x) (.inl ht) rfl trivial, fun d hd => ?_, fun d hd => ?_, h4⟩
      · rcases List.mem_append.1 hd with hd | hd
        · exact h2 d hd
        · rw [List.mem_singleton.1 hd]; dsimp only; rw [hkey]; exact ha
      · dsimp only at *
        rcases List.mem_append.1 hd with hd | hd
        · rcases h3 d hd with h | ⟨u, y, h⟩
          · exact .inl h
          · refine .inr ⟨u, y, ?_⟩
            have hu : u ≠ t := fun e => by rw [e, hpc] at h; simp at h
            rw [upd_other _ _ hu]; exact h
        · rw [List.mem_singleton.1 hd, hkey]
          exact .inr ⟨t, x, .inl (upd_same _ _ _)⟩
    | get k x =>
      have ht : s.pcs t ≠ .idle := by rw [hpc]; simp
      simp only [step, hpc]
      split
      · next c _ => exact ⟨rest (p := .give k x c) (.inl ht) rfl trivial, h2, bornE (p := .give k x c) rfl rfl (fun _ _ => rfl) ⟨[], by simp [St.goto]⟩ (by rw [hpc]; intro _ _ e; cases e; exact ⟨c, rfl⟩) (by simp [hpc]), h4⟩
      · exact ⟨h1, h2, h3, h4⟩
    | give k x c =>
      have ht : s.pcs t ≠ .idle := by rw [hpc]; simp
      simp only [step, hpc]
      exact ⟨rest (p := .idle) (.inl ht) rfl trivial, h2, bornE (p := .idle) rfl rfl (fun _ _ => rfl) ⟨_, rfl⟩ (by simp [hpc]) (by rw [hpc]; intro _ _ _ e; cases e; simp), logE (by simp)⟩
    | check =>
      have ht : s.pcs t ≠ .idle := by rw [hpc]; simp
      simp only [step, hpc]
      split
      · exact ⟨rest (p := .rep 0 []) (.inl ht) rfl (by simp [Alone]), h2, bornE (p := .rep 0 []) rfl rfl (fun _ _ => rfl) ⟨[], by simp [St.goto]⟩ (by simp [hpc]) (by simp [hpc]), h4⟩
      · next hoff =>
        refine ⟨rest (p := .idle) (.inl ht) rfl trivial, h2, bornE (p := .idle) rfl rfl (fun _ _ => rfl) ⟨_, rfl⟩ (by simp [hpc]) (by simp [hpc]), ?_⟩
        intro pre u rows post h
        have hno : ∀ u k x, .ended u k x ∉ s.log := fun u k x h => hoff (I.used u k x h).1
        rcases split_snoc h with ⟨p, h⟩ | ⟨rfl, he⟩
        · exact h4 pre u rows p h
        · cases he
          refine ⟨fun k ⟨v, x, h⟩ => absurd h (hno v k x), fun k _ => rfl, fun k x => ?_⟩
          symm
          refine List.countP_eq_zero.2 (fun e he => ?_)
          cases e with
          | ended v k' x' => exact absurd he (hno v k' x')
          | _ => simp
    | rep i rows =>
      have ht : s.pcs t ≠ .idle := by rw [hpc]; simp
      rw [hpc] at ha
      have ha : rows = (s.children.take i).map (fun c => (s.key c, s.got c)) := ha
      simp only [step, hpc]
      split
      · next c hc =>
        refine ⟨rest (p := .rep (i + 1) (rows ++ [(s.key c, s.got c)])) (.inl ht) rfl ?_, h2, bornE (p := .rep (i + 1) (rows ++ [(s.key c, s.got c)])) rfl rfl (fun _ _ => rfl) ⟨[], by simp [St.goto]⟩ (by simp [hpc]) (by simp [hpc]), h4⟩
        show _ = ((s.children.take (i + 1)).map (fun c => (s.key c, s.got c)))
        rw [List.take_add_one, hc, ha]; simp
      · next hc =>
        refine ⟨rest (p := .idle) (.inl ht) rfl trivial, h2, bornE (p := .idle) rfl rfl (fun _ _ => rfl) ⟨_, rfl⟩ (by simp [hpc]) (by simp [hpc]), ?_⟩
        intro pre u rows' post h
        rcases split_snoc h with ⟨p, h⟩ | ⟨rfl, he⟩
        · exact h4 pre u rows' p h
        · cases he
          have hall := full ht (by rw [hpc]; intro c h; cases h)
          rw [List.take_of_length_le (List.getElem?_eq_none_iff.1 hc)] at ha
          have hr : rows.map (·.1) = s.children.map s.key := by rw [ha, List.map_map]; rfl
          refine ⟨fun k ⟨v, x, h⟩ => ?_, fun k h => ?_, fun k x => ?_⟩
          · rw [entries_eq, hr]
            obtain ⟨c, hc⟩ := Option.ne_none_iff_exists'.1 (I.used v k x h).2
            obtain ⟨e1, e2⟩ := I.map k c hc
            have p1 : 0 < (s.children.map s.key).count k := List.count_pos_iff.2 (List.mem_map.2 ⟨c, hall c e1, e2⟩)
            have p2 := count_map_le I.nodup (f := s.key) (fun c hc d hd e => by
              have e1 := h2 c hc
              rw [e, h2 d hd] at e1
              exact (Option.some.inj e1).symm) k
            omega
          · rw [entries_eq, hr]
            refine List.count_eq_zero.2 (fun hm => h ?_)
            obtain ⟨c, hc, rfl⟩ := List.mem_map.1 hm
            rcases h3 c hc with h | ⟨v, x, h⟩
            · exact h
            · have : v = t := alone v t (fun e => by rw [e] at h; simp at h) ht
              rw [this, hpc] at h; simp at h
          · rw [← I.given k x, ha]
            refine shown_perm k x (List.Perm.map _ ?_)
            refine (List.perm_ext_iff_of_nodup I.nodup List.nodup_range).2 (fun c => ?_)
            rw [List.mem_range]
            exact ⟨I.lt c, hall c⟩

theorem oinv_run {as : List Act} (h : OneAtATime as) : OInv (run as) := by
  induction as using snoc_ind with
  | h0 => exact ⟨fun _ => trivial, fun _ h => (by cases h), fun _ h => (by cases h), fun pre _ _ _ h => by have := congrArg List.length h; simp [run] at this⟩
  | h1 l a ih =>
    rw [run_snoc]
    refine oinv_step (inv_run l) (ih (fun p hp => h p (hp.trans (List.prefix_append _ _)))) (fun t u ht hu => ?_) a
    have c := counted_run l
    refine h l (List.prefix_append _ _) t u ?_ ?_
    · have := c t; rw [if_neg ht] at this; omega
    · have := c u; rw [if_neg hu] at this; omega

/-- **C260, the part that holds** If no call begins while another thread is in one: data have one entry for each labels with which a value was given before, and no others, and in it all values given with these labels, as often as they were given. -/
theorem C260_one_at_a_time_partial (as : List Act) (h : OneAtATime as) (pre post : List Ev) (t : Nat) (rows : List (Nat × List Nat)) (hr : (run as).log = pre ++ .reported t rows :: post) (k : Nat) :
    ((∃ u x, .ended u k x ∈ pre) → entries k rows = 1) ∧ ((¬ ∃ u x, .ended u k x ∈ pre) → entries k rows = 0) ∧ ∀ x, shown k x rows = given k x pre := by
  obtain ⟨h1, h2, h3⟩ := (oinv_run h).log pre t rows post hr
  exact ⟨h1 k, h2 k, h3 k⟩

/-- The hypotheses are met: one thread gives a value with labels, then another asks for data. -/
example : ∃ as, OneAtATime as ∧ (run as).log = [.called 0 7 1, .ended 0 7 1, .asked 1, .reported 1 [(7, [1])]] := by
  refine ⟨[.handle 0 7 1, .go 0, .go 0, .go 0, .go 0, .go 0, .go 0, .go 0, .ask 1, .go 1, .go 1, .go 1], ?_, by decide +kernel⟩
  intro p hp t u ht hu
  have c := counted_run p
  have ht : (run p).pcs t ≠ .idle := fun e => by have := c t; rw [if_pos e] at this; omega
  have hu : (run p).pcs u ≠ .idle := fun e => by have := c u; rw [if_pos e] at this; omega
  rw [List.prefix_iff_eq_take] at hp
  generalize p.length = n at hp
  subst hp
  have hs : (∀ v, (run (List.take n [.handle 0 7 1, .go 0, .go 0, .go 0, .go 0, .go 0, .go 0, .go 0, .ask 1, .go 1, .go 1, .go 1])).pcs v ≠ .idle → v = 0) ∨
      ∀ v, (run (List.take n [.handle 0 7 1, .go 0, .go 0, .go 0, .go 0, .go 0, .go 0, .go 0, .ask 1, .go 1, .go 1, .go 1])).pcs v ≠ .idle → v = 1 := by
    match n with
    | 0 | 1 | 2 | 3 | 4 | 5 | 6 | 7 | 8 => exact .inl (fun v hv => Decidable.byContradiction (fun h0 => by simp [run, step, upd, h0, St.goto] at hv))
    | n + 9 => exact .inr (fun v hv => Decidable.byContradiction (fun h1 => by match n with | 0 | 1 | 2 | n + 3 => by_cases h0 : v = 0 <;> simp [run, step, upd, h0, h1, St.goto] at hv))
  rcases hs with hs | hs
  · rw [hs t ht, hs u hu]
  · rw [hs t ht, hs u hu]

end Verif.Metrics.EmbeddedThreads
