import Verif.Conc.Monitor
/-!
# Model of Timer and its background thread (satella/coding/concurrent/timer.py), C69

Times are integers of some unit, `sec` of them in a second.  The heap of timers is the sorted list of its content (C02 relates heaps to their content); entries with the same deadline are treated at the end.  The items to execute come from a
generator, so they leave the heap one by one, between executions.  An exception of the function is logged and swallowed, so it makes no difference; a function executed in a separate thread counts as executed when that thread is started.
-/
namespace Verif.Timer
open Verif Verif.Conc

/-- where the background thread is: at the top of its loop, sleeping until some time, or executing the timers with a deadline before `less`.  (Part of the model of `Timer`, /repo/satella/coding/concurrent/timer.py:15-64.) -/
inductive Pc where
  | top
  | sleeping (until_ : Int)
  | draining (less : Int)
  deriving DecidableEq, Repr

/-- what happens: timer `t` is started with this deadline, is cancelled, its function is executed, or it leaves the heap without being executed.  (Part of the model of `Timer`, /repo/satella/coding/concurrent/timer.py:15-64.) -/
inductive Ev where
  | began (t : Nat) (deadline : Int)
  | cancelled (t : Nat)
  | ran (t : Nat) (deadline at_ : Int)
  | skipped (t : Nat) (deadline : Int)
  deriving DecidableEq, Repr

/-- the clock, `timer_objects`, `cancelled` of each timer, /repo/satella/coding/concurrent/timer.py:34-42,69-73, the background thread, what happened -/
structure St where
  now : Int
  heap : List (Int × Nat)
  cancelled : Nat → Bool
  pc : Pc
  log : List Ev

/-- no timer was started yet.  (Part of the model of `Timer`, /repo/satella/coding/concurrent/timer.py:15-90.) -/
def St.init : St := ⟨0, [], fun _ => false, .top, []⟩

/-- time passes; timer `t` is started with this interval; it is cancelled; the background thread makes a step.  (Part of the model of `Timer`, /repo/satella/coding/concurrent/timer.py:15-90.) -/
inductive Act where
  | tick (d : Nat)
  | start (t : Nat) (interval : Int)
  | cancel (t : Nat)
  | bg
  deriving DecidableEq, Repr

/-- `put`: into the sorted content of the heap, /repo/satella/coding/structures/heaps/time.py:85-98 -/
def put (x : Int × Nat) : List (Int × Nat) → List (Int × Nat)
  | [] => [x]
  | y :: l => if x.1 < y.1 then x :: y :: l else y :: put x l

/-- how long to sleep, /repo/satella/coding/concurrent/timer.py:77-83 -/
def delay (sec : Int) (s : St) : Int :=
  match s.heap with
  | [] => sec
  | (ts, _) :: _ => max 0 (min (ts - s.now) sec)

/-- `run` of the background thread, /repo/satella/coding/concurrent/timer.py:75-90, with `_try_execute`, /repo/satella/coding/concurrent/timer.py:57-64, and `pop_less_than`, /repo/satella/coding/structures/heaps/time.py:108-127 -/
def St.bg (sec : Int) (s : St) : St :=
  match s.pc with
  | .top => { s with pc := .sleeping (s.now + delay sec s) }
  | .sleeping u => if u ≤ s.now then { s with pc := .draining s.now } else s
  | .draining less =>
    match s.heap with
    | [] => { s with pc := .top }
    | (ts, t) :: r =>
      if less ≤ ts then { s with pc := .top }
      else if s.cancelled t then { s with heap := r, log := s.log ++ [.skipped t ts] }
      else { s with heap := r, log := s.log ++ [.ran t ts s.now] }

/-- a step; `start`, `cancel`, /repo/satella/coding/concurrent/timer.py:44-55 -/
def St.step (sec : Int) (s : St) : Act → St
  | .tick d => { s with now := s.now + d }
  | .start t i => { s with heap := put (s.now + i, t) s.heap, log := s.log ++ [.began t (s.now + i)] }
  | .cancel t => { s with cancelled := upd s.cancelled t true, log := s.log ++ [.cancelled t] }
  | .bg => s.bg sec

/-- a schedule.  (Part of the model of `Timer`, /repo/satella/coding/concurrent/timer.py:15-64.) -/
def St.run (sec : Int) (s : St) (as : List Act) : St := as.foldl (St.step sec) s

/-! ## Specification -/

/-- the timers started, with their deadlines -/
def begun (log : List Ev) : List (Int × Nat) := log.filterMap (fun e => match e with | .began t d => some (d, t) | _ => none)

/-- the timers that were executed or, having been cancelled, dropped -/
def through (log : List Ev) : List (Int × Nat) := log.filterMap (fun e => match e with | .ran t d _ => some (d, t) | .skipped t d => some (d, t) | _ => none)

/-- two timers are not given the same deadline while both wait -/
def Distinct (s : St) : Act → Prop
  | .start _ i => ∀ e ∈ s.heap, e.1 ≠ s.now + i
  | _ => True

/-- the guard holds all along the schedule -/
def DistinctAll (sec : Int) : St → List Act → Prop
  | _, [] => True
  | s, a :: as => Distinct s a ∧ DistinctAll sec (s.step sec a) as

/-- the log is right: a timer runs after its deadline, if it was not cancelled before, and is dropped only if it was -/
def LogOk (log : List Ev) : Prop :=
  ∀ l e r, log = l ++ e :: r →
    match e with
    | .ran t d at_ => d < at_ ∧ .cancelled t ∉ l ∧ .began t d ∈ l
    | .skipped t d => .cancelled t ∈ l ∧ .began t d ∈ l
    | _ => True

structure Inv (s : St) : Prop where
  sorted : s.heap.Pairwise (fun a b => a.1 < b.1)
  perm : (s.heap ++ through s.log).Perm (begun s.log)
  ok : LogOk s.log
  canc : ∀ t, s.cancelled t = true ↔ .cancelled t ∈ s.log
  less : ∀ l, s.pc = .draining l → l ≤ s.now
  mem : ∀ e ∈ s.heap, .began e.2 e.1 ∈ s.log

/-! ## Proofs -/

theorem put_perm (x : Int × Nat) (l : List (Int × Nat)) : (put x l).Perm (x :: l) := by
  induction l with
  | nil => exact List.Perm.refl _
  | cons y l ih =>
    unfold put
    split
    · exact List.Perm.refl _
    · exact (List.Perm.cons y ih).trans (List.Perm.swap x y l)

theorem put_sorted (x : Int × Nat) (l : List (Int × Nat)) (h : l.Pairwise (fun a b => a.1 < b.1)) (hx : ∀ e ∈ l, e.1 ≠ x.1) :
    (put x l).Pairwise (fun a b => a.1 < b.1) := by
  induction l with
  | nil => simp [put]
  | cons y l ih =>
    rw [List.pairwise_cons] at h
    unfold put
    split
    · rename_i hxy
      rw [List.pairwise_cons, List.pairwise_cons]
      refine ⟨?_, h⟩
      intro b hb
      rcases List.mem_cons.1 hb with rfl | hb
      · exact hxy
      · have := h.1 b hb; omega
    · rename_i hxy
      rw [List.pairwise_cons]
      refine ⟨?_, ih h.2 (fun e he => hx e (List.mem_cons_of_mem _ he))⟩
      intro b hb
      rcases List.mem_cons.1 ((put_perm x l).mem_iff.1 hb) with rfl | hb
      · have := hx y (List.mem_cons_self ..); omega
      · exact h.1 b hb

theorem begun_append (a b : List Ev) : begun (a ++ b) = begun a ++ begun b := List.filterMap_append ..
theorem through_append (a b : List Ev) : through (a ++ b) = through a ++ through b := List.filterMap_append ..

theorem logOk_append (log : List Ev) (e : Ev) (h : LogOk log)
    (he : match e with
      | .ran t d at_ => d < at_ ∧ .cancelled t ∉ log ∧ .began t d ∈ log
      | .skipped t d => .cancelled t ∈ log ∧ .began t d ∈ log
      | _ => True) : LogOk (log ++ [e]) := by
  intro l x r hx
  rcases List.eq_nil_or_concat r with rfl | ⟨r', y, rfl⟩
  · have := List.append_inj' hx rfl
    obtain ⟨h1, h2⟩ := this
    injection h2 with h2
    subst h1 h2
    exact he
  · have hx' : log ++ [e] = (l ++ x :: r') ++ [y] := by rw [hx]; simp
    obtain ⟨h1, _⟩ := List.append_inj' hx' rfl
    exact h l x r' h1

theorem inv_init : Inv St.init := by
  refine ⟨List.Pairwise.nil, List.Perm.refl _, ?_, by simp [St.init], by simp [St.init], by simp [St.init]⟩
  intro l e r h
  cases l <;> cases h

theorem inv_step (sec : Int) (s : St) (a : Act) (h : Inv s) (ha : Distinct s a) : Inv (s.step sec a) := by
  cases a with
  | tick d =>
    refine ⟨h.sorted, h.perm, h.ok, h.canc, ?_, h.mem⟩
    intro l hl
    have := h.less l hl
    show l ≤ s.now + d
    omega
  | start t i =>
    refine ⟨put_sorted _ _ h.sorted ha, ?_, logOk_append _ _ h.ok trivial, ?_, h.less, ?_⟩
    · show (put (s.now + i, t) s.heap ++ through (s.log ++ [.began t (s.now + i)])).Perm (begun (s.log ++ [.began t (s.now + i)]))
      rw [through_append, begun_append]
      have h1 : through [.began t (s.now + i)] = [] := rfl
      have h2 : begun [.began t (s.now + i)] = [(s.now + i, t)] := rfl
      rw [h1, h2, List.append_nil]
      refine ((put_perm _ _).append_right _).trans ?_
      rw [List.cons_append]
      exact (List.perm_append_singleton _ _).symm.trans ((h.perm.append_right _))
    · intro u
      rw [show (s.step sec (.start t i)).cancelled = s.cancelled from rfl, h.canc u]
      show _ ↔ Ev.cancelled u ∈ s.log ++ [.began t (s.now + i)]
      simp
    · intro e he
      show Ev.began e.2 e.1 ∈ s.log ++ [.began t (s.now + i)]
      rcases List.mem_cons.1 ((put_perm _ _).mem_iff.1 he) with rfl | he
      · simp
      · exact List.mem_append_left _ (h.mem e he)
  | cancel t =>
    refine ⟨h.sorted, ?_, logOk_append _ _ h.ok trivial, ?_, h.less, ?_⟩
    · show (s.heap ++ through (s.log ++ [.cancelled t])).Perm (begun (s.log ++ [.cancelled t]))
      rw [through_append, begun_append]
      have h1 : through [.cancelled t] = [] := rfl
      have h2 : begun [.cancelled t] = [] := rfl
      rw [h1, h2, List.append_nil, List.append_nil]
      exact h.perm
    · intro u
      show upd s.cancelled t true u = true ↔ Ev.cancelled u ∈ s.log ++ [.cancelled t]
      unfold upd
      split
      · rename_i e; subst e; simp
      · rename_i hne
        rw [h.canc u]
        simp [hne]
    · intro e he
      exact List.mem_append_left _ (h.mem e he)
  | bg =>
    simp only [St.step, St.bg]
    split
    · exact ⟨h.sorted, h.perm, h.ok, h.canc, by simp, h.mem⟩
    · split
      · refine ⟨h.sorted, h.perm, h.ok, h.canc, ?_, h.mem⟩
        intro l hl
        injection hl with hl
        rw [← hl]
        exact Int.le_refl _
      · exact h
    · rename_i less hpc
      split
      · exact ⟨h.sorted, h.perm, h.ok, h.canc, by simp, h.mem⟩
      · rename_i ts t r hh
        have hperm : ∀ e, begun [e] = [] → through [e] = [(ts, t)] → (r ++ through (s.log ++ [e])).Perm (begun (s.log ++ [e])) := by
          intro e h1 h2
          rw [through_append, begun_append, h1, h2, List.append_nil]
          refine List.Perm.trans ?_ h.perm
          rw [hh, ← List.append_assoc]
          exact List.perm_append_singleton _ _
        have hsort : r.Pairwise (fun a b => a.1 < b.1) := by
          have := h.sorted
          rw [hh, List.pairwise_cons] at this
          exact this.2
        have hmem : ∀ e x, x ∈ r → Ev.began x.2 x.1 ∈ s.log ++ [e] := by
          intro e x hx
          exact List.mem_append_left _ (h.mem x (by rw [hh]; exact List.mem_cons_of_mem _ hx))
        have hb : Ev.began t ts ∈ s.log := h.mem (ts, t) (by rw [hh]; exact List.mem_cons_self ..)
        split
        · exact ⟨h.sorted, h.perm, h.ok, h.canc, by simp, h.mem⟩
        · rename_i hlt
          split
          · rename_i hc
            refine ⟨hsort, hperm _ rfl rfl, logOk_append _ _ h.ok ⟨(h.canc t).1 hc, hb⟩, ?_, h.less, hmem _⟩
            intro u
            simpa using h.canc u
          · rename_i hc
            have hc' : Ev.cancelled t ∉ s.log := fun hm => hc ((h.canc t).2 hm)
            have hl := h.less less hpc
            refine ⟨hsort, hperm _ rfl rfl, logOk_append _ _ h.ok ⟨by omega, hc', hb⟩, ?_, h.less, hmem _⟩
            intro u
            simpa using h.canc u

theorem inv_run (sec : Int) (as : List Act) (s : St) (h : Inv s) (ha : DistinctAll sec s as) : Inv (s.run sec as) := by
  induction as generalizing s with
  | nil => exact h
  | cons a as ih => exact ih _ (inv_step sec s a h ha.1) ha.2

/-- **C69** (partial: no two waiting timers have the same deadline). In every schedule, each start of a timer leads to at most one execution, after the interval is over, and to none if the timer was cancelled before; only a timer that was cancelled
  is dropped; the others wait in the heap. -/
theorem C69_timers_partial (sec : Int) (as : List Act) (h : DistinctAll sec St.init as) :
    ((St.init.run sec as).heap ++ through (St.init.run sec as).log).Perm (begun (St.init.run sec as).log) ∧ LogOk (St.init.run sec as).log :=
  ⟨(inv_run sec as _ inv_init h).perm, (inv_run sec as _ inv_init h).ok⟩

/-- **C69, no timer is left behind** (partial, as above). The timers leave the heap in the order of their deadlines, and the background thread goes to sleep only when no timer's deadline is before the time it woke up; it sleeps until the next deadline, but no longer than a second. -/
theorem C69_pass_partial (sec : Int) (hs : 0 < sec) (as : List Act) (h : DistinctAll sec St.init as) :
    let s := St.init.run sec as
    (∀ ts t r, s.heap = (ts, t) :: r → ∀ e ∈ r, ts < e.1) ∧
    (∀ less, s.pc = .draining less → (s.bg sec).pc = .top → ∀ e ∈ s.heap, less ≤ e.1) ∧
    (s.pc = .top → ∃ u, (s.bg sec).pc = .sleeping u ∧ s.now ≤ u ∧ u ≤ s.now + sec ∧ ∀ e ∈ s.heap, u ≤ max s.now e.1) := by
  have hi := inv_run sec as _ inv_init h
  intro s
  change Inv s at hi
  clear_value s
  refine ⟨?_, ?_, ?_⟩
  · intro ts t r hh e he
    have := hi.sorted
    rw [hh, List.pairwise_cons] at this
    exact this.1 e he
  · intro less hp ht e he
    cases hh : s.heap with
    | nil => rw [hh] at he; cases he
    | cons x r =>
      obtain ⟨ts, t⟩ := x
      have hl : less ≤ ts := by
        simp only [St.bg, hp, hh] at ht
        split at ht
        · assumption
        · split at ht <;> cases ht
      rw [hh] at he
      rcases List.mem_cons.1 he with rfl | he
      · exact hl
      · have := hi.sorted
        rw [hh, List.pairwise_cons] at this
        have := this.1 e he
        omega
  · intro hp
    refine ⟨s.now + delay sec s, by simp [St.bg, hp], ?_, ?_, ?_⟩
    · unfold delay; split <;> omega
    · unfold delay; split <;> omega
    · intro e he
      unfold delay
      cases hh : s.heap with
      | nil => rw [hh] at he; cases he
      | cons x r =>
        obtain ⟨ts, t⟩ := x
        dsimp only
        have : ts ≤ e.1 := by
          rw [hh] at he
          rcases List.mem_cons.1 he with rfl | he
          · exact Int.le_refl _
          · have := hi.sorted
            rw [hh, List.pairwise_cons] at this
            have := this.1 e he
            omega
        omega

theorem run_append (sec : Int) (s : St) (a b : List Act) : s.run sec (a ++ b) = (s.run sec a).run sec b := by simp [St.run]

theorem through_snoc (log : List Ev) (e : Ev) (x : Int × Nat) (h : x ∈ through log) : x ∈ through (log ++ [e]) := by
  simp only [through, List.filterMap_append, List.mem_append] at h ⊢
  exact .inl h

/-- the background thread executes what is due, and gets to the top of its loop -/
theorem drained (sec less : Int) (h : List (Int × Nat)) (s : St) (hh : s.heap = h) (hp : s.pc = .draining less) (hs : h.Pairwise (fun a b => a.1 < b.1)) :
    ∃ n, (s.run sec (List.replicate n .bg)).pc = .top ∧ (s.run sec (List.replicate n .bg)).now = s.now ∧
      (∀ e ∈ through s.log, e ∈ through (s.run sec (List.replicate n .bg)).log) ∧
      (∀ e ∈ h, e.1 < less → e ∈ through (s.run sec (List.replicate n .bg)).log) ∧
      (∀ e ∈ h, e ∈ through (s.run sec (List.replicate n .bg)).log ∨ e ∈ (s.run sec (List.replicate n .bg)).heap) := by
  induction h generalizing s with
  | nil => exact ⟨1, by simp [St.run, St.step, St.bg, hp, hh]⟩
  | cons x r ih =>
    obtain ⟨ts, t⟩ := x
    obtain ⟨hx, hr⟩ := List.pairwise_cons.1 hs
    by_cases hl : less ≤ ts
    · refine ⟨1, ?_⟩
      have : s.run sec (List.replicate 1 .bg) = { s with pc := .top } := by simp [St.run, St.step, St.bg, hp, hh, hl]
      rw [this]
      refine ⟨rfl, rfl, fun _ h => h, ?_, fun e he => .inr (by rw [← hh] at he; exact he)⟩
      intro e he hlt
      rcases List.mem_cons.1 he with rfl | he
      · dsimp only at hlt; omega
      · have := hx e he; dsimp only at this; omega
    · have key : ∀ ev : Ev, (ts, t) ∈ through (s.log ++ [ev]) → s.bg sec = { s with heap := r, log := s.log ++ [ev] } →
          ∃ n, (s.run sec (List.replicate n .bg)).pc = .top ∧ (s.run sec (List.replicate n .bg)).now = s.now ∧
          (∀ e ∈ through s.log, e ∈ through (s.run sec (List.replicate n .bg)).log) ∧
          (∀ e ∈ (ts, t) :: r, e.1 < less → e ∈ through (s.run sec (List.replicate n .bg)).log) ∧
          (∀ e ∈ (ts, t) :: r, e ∈ through (s.run sec (List.replicate n .bg)).log ∨ e ∈ (s.run sec (List.replicate n .bg)).heap) := by
        intro ev hev hb
        obtain ⟨n, h1, h2, h3, h4, h5⟩ := ih (s.bg sec) (by rw [hb]) (by rw [hb]; exact hp) hr
        refine ⟨n + 1, ?_⟩
        rw [List.replicate_succ, show s.run sec (.bg :: List.replicate n .bg) = (s.bg sec).run sec (List.replicate n .bg) from rfl]
        have hin : (ts, t) ∈ through ((s.bg sec).run sec (List.replicate n .bg)).log := h3 _ (by rw [hb]; exact hev)
        refine ⟨h1, by rw [h2, hb], fun e he => h3 e (by rw [hb]; exact through_snoc _ _ _ he), ?_, ?_⟩
        · intro e he hlt
          rcases List.mem_cons.1 he with rfl | he
          · exact hin
          · exact h4 e he hlt
        · intro e he
          rcases List.mem_cons.1 he with rfl | he
          · exact .inl hin
          · exact h5 e he
      by_cases hc : s.cancelled t = true
      · exact key (.skipped t ts) (by simp [through]) (by simp [St.bg, hp, hh, hl, hc])
      · exact key (.ran t ts s.now) (by simp [through]) (by simp [St.bg, hp, hh, hl, hc])

/-- the background thread sleeps for a second at most -/
theorem sleeps_run (sec : Int) (hs : 0 < sec) (as : List Act) : ∀ u, (St.init.run sec as).pc = .sleeping u → u ≤ (St.init.run sec as).now + sec := by
  unfold St.run
  have h0 : ∀ u, St.init.pc = .sleeping u → u ≤ St.init.now + sec := by intro u h; cases h
  generalize St.init = s at h0
  induction as generalizing s with
  | nil => exact h0
  | cons a as ih =>
    refine ih (s.step sec a) ?_
    cases a with
    | tick d => intro u h; have := h0 u h; simp only [St.step]; omega
    | start t i => exact h0
    | cancel t => exact h0
    | bg =>
      intro u
      simp only [St.step]
      cases hp : s.pc with
      | top =>
        simp only [St.bg, hp, Pc.sleeping.injEq]
        rintro rfl
        have : delay sec s ≤ sec := by unfold delay; split <;> omega
        omega
      | sleeping v =>
        simp only [St.bg, hp]
        split
        · intro h; cases h
        · exact h0 u
      | draining less =>
        simp only [St.bg, hp]
        split
        · intro h; cases h
        · split
          · intro h; cases h
          · split <;> (intro h; simp at h)

theorem distinct_bg (sec : Int) (n : Nat) (s : St) : DistinctAll sec s (List.replicate n .bg) := by
  induction n generalizing s with
  | zero => trivial
  | succ n ih => exact ⟨trivial, ih _⟩

/-- **C69, every timer is executed** (partial, as above). In whatever state timers and the background thread are: a timer that waits is executed — or dropped, if it was cancelled — when its deadline is over, a second passes and the background thread goes on. -/
theorem C69_executed_partial (sec : Int) (hs : 0 < sec) (as : List Act) (h : DistinctAll sec St.init as) (d : Int) (t : Nat) (ht : (d, t) ∈ begun (St.init.run sec as).log)
    (hd : d ≤ (St.init.run sec as).now) :
    ∃ m n, (d, t) ∈ through (St.init.run sec (as ++ (List.replicate m .bg ++ .tick sec.toNat :: List.replicate n .bg))).log := by
  have hi := inv_run sec as _ inv_init h
  have hsl := sleeps_run sec hs as
  simp only [run_append]
  generalize St.init.run sec as = s at hi hsl ht hd
  have hmem : (d, t) ∈ s.heap ∨ (d, t) ∈ through s.log := List.mem_append.1 (hi.perm.mem_iff.2 ht)
  -- to sleep
  have hsleep : ∃ m u, (s.run sec (List.replicate m .bg)).pc = .sleeping u ∧ (s.run sec (List.replicate m .bg)).now = s.now ∧ u ≤ s.now + sec ∧
      ((d, t) ∈ (s.run sec (List.replicate m .bg)).heap ∨ (d, t) ∈ through (s.run sec (List.replicate m .bg)).log) ∧
      (s.run sec (List.replicate m .bg)).heap.Pairwise (fun a b => a.1 < b.1) := by
    have top : ∀ s : St, s.pc = .top → s.run sec [.bg] = { s with pc := .sleeping (s.now + delay sec s) } ∧ delay sec s ≤ sec := by
      intro s hp
      exact ⟨by simp [St.run, St.step, St.bg, hp], by unfold delay; split <;> omega⟩
    cases hp : s.pc with
    | top =>
      obtain ⟨h1, h2⟩ := top s hp
      exact ⟨1, _, by rw [show List.replicate 1 Act.bg = [.bg] from rfl, h1]; exact ⟨rfl, rfl, by omega, hmem, hi.sorted⟩⟩
    | sleeping u => exact ⟨0, u, hp, rfl, hsl u hp, hmem, hi.sorted⟩
    | draining less =>
      obtain ⟨n, h1, h2, h3, _, h5⟩ := drained sec less s.heap s rfl hp hi.sorted
      obtain ⟨g1, g2⟩ := top _ h1
      have hinv : Inv (s.run sec (List.replicate n .bg)) := inv_run sec _ s hi (distinct_bg sec n s)
      refine ⟨n + 1, (s.run sec (List.replicate n .bg)).now + delay sec (s.run sec (List.replicate n .bg)), ?_⟩
      rw [List.replicate_succ', run_append, g1]
      refine ⟨rfl, h2, by omega, ?_, hinv.sorted⟩
      rcases hmem with hm | hm
      · exact (h5 _ hm).symm
      · exact .inr (h3 _ hm)
  obtain ⟨m, u, h1, h2, h3, h4, h5⟩ := hsleep
  refine ⟨m, ?_⟩
  generalize s.run sec (List.replicate m .bg) = s1 at h1 h2 h4 h5
  -- awake
  have hw : (s1.step sec (.tick sec.toNat)).bg sec = { s1 with now := s1.now + sec, pc := .draining (s1.now + sec) } := by
    have hle : u ≤ s1.now + sec := by omega
    have hm : max sec 0 = sec := by omega
    simp [St.step, St.bg, h1, hle, hm]
  obtain ⟨n, k1, k2, k3, k4, _⟩ := drained sec (s1.now + sec) s1.heap { s1 with now := s1.now + sec, pc := .draining (s1.now + sec) } rfl rfl h5
  refine ⟨n + 1, ?_⟩
  rw [List.replicate_succ, show s1.run sec (.tick sec.toNat :: .bg :: List.replicate n .bg) = ((s1.step sec (.tick sec.toNat)).bg sec).run sec (List.replicate n .bg) from rfl, hw]
  rcases h4 with h | h
  · exact k4 _ h (by dsimp only; omega)
  · exact k3 _ h

/-! ## The same deadline

Entries are pairs of a deadline and a Timer; Python compares pairs by the first parts and, if these are equal, by the second, and comparing two Timers raises TypeError. -/

/-- `<` on pairs of deadline and timer; `none` is TypeError.  Comparing an entry with itself does not arise. -/
def lt (a b : Int × Nat) : Option Bool := if a.1 = b.1 then none else some (decide (a.1 < b.1))

/-- `put` of /repo/satella/coding/structures/heaps/time.py:85-98, i.e. `heappush` and `_siftdown` of heapq, with comparisons that may raise, for an item that has at most one ancestor above `startpos`: these heaps have at most three entries.  The content is what is left in the list whether or not a comparison raised. -/
def push3 (l : List (Int × Nat)) (x : Int × Nat) : List (Int × Nat) × Bool :=
  match l with
  | [] => ([x], true)
  | y :: r =>
    match lt x y with
    | none => (y :: r ++ [x], false)
    | some true => (x :: r ++ [y], true)
    | some false => (y :: r ++ [x], true)

/-- `pop` of /repo/satella/coding/structures/heaps/base.py:75-81, i.e. `heappop` on a heap of up to three entries: the last entry goes to the top, its only child moves up, and is compared with it.  `none` is TypeError. -/
def pop3 (l : List (Int × Nat)) : Option ((Int × Nat) × List (Int × Nat)) :=
  match l with
  | [a] => some (a, [])
  | [a, b] => some (a, [b])
  | [a, b, c] =>
    match lt c b with
    | none => none
    | some true => some (a, [c, b])
    | some false => some (a, [b, c])
  | _ => none

/-- **C69, violated by equal deadlines**: starting a timer with the deadline of one that waits raises TypeError, though the timer is in the heap all the same; and if there are three of them, the background thread gets the TypeError when it takes the first
  one, outside of the clause that catches exceptions, and dies: no timer is executed any more. -/
theorem C69_same_deadline_violates (d : Int) (a b c : Nat) :
    push3 [] (d, a) = ([(d, a)], true) ∧ push3 [(d, a)] (d, b) = ([(d, a), (d, b)], false) ∧ push3 [(d, a), (d, b)] (d, c) = ([(d, a), (d, b), (d, c)], false) ∧
    pop3 [(d, a), (d, b), (d, c)] = none := by
  simp [push3, pop3, lt]

example : pop3 [(1, 7), (2, 8)] = some ((1, 7), [(2, 8)]) ∧ push3 [(2, 8), (4, 9)] (1, 7) = ([(1, 7), (4, 9), (2, 8)], true) ∧ push3 [(2, 8)] (4, 9) = ([(2, 8), (4, 9)], true) := by decide

/-! Cases that meet the hypotheses -/

/-- timers 1 and 2 are started, 3 is started and cancelled, and one second later the background thread wakes up -/
def exampleSchedule : List Act := [.bg, .start 1 30, .start 2 20, .start 3 25, .cancel 3, .tick 100, .bg, .bg, .bg, .bg, .bg]

example : DistinctAll 100 St.init exampleSchedule := by
  simp [exampleSchedule, DistinctAll, Distinct, St.step, St.bg, St.init, put, delay]
example : (St.init.run 100 exampleSchedule).log = [.began 1 30, .began 2 20, .began 3 25, .cancelled 3, .ran 2 20 100, .skipped 3 25, .ran 1 30 100] := by decide
example : (St.init.run 100 exampleSchedule).pc = .top := by decide

example : (20, 2) ∈ begun (St.init.run 100 [.bg, .start 1 30, .start 2 20, .tick 25]).log ∧ (20, 2) ∉ through (St.init.run 100 [.bg, .start 1 30, .start 2 20, .tick 25]).log ∧
    DistinctAll 100 St.init [.bg, .start 1 30, .start 2 20, .tick 25] := by
  refine ⟨by decide, by decide, ?_⟩
  simp [DistinctAll, Distinct, St.step, St.bg, St.init, put, delay]

end Verif.Timer
