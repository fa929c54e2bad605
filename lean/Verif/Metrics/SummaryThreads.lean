import Verif.Metrics.Summary
import Verif.Conc.MonitorProps
/-!
# A summary metric used by several threads (satella/instrumentation/metrics/metric_types/summary.py); C251, C252

Threads call `handle` of one summary without labels, while others do.  No lock is taken: looking at the length of the queue, `pop`
and `appendleft` are steps of their own.  `sorted(calls_queue)` is one step (it is done without running other code, since the values are numbers).
Numbers are integers.  Levels, timestamps and the entries `.count` and `.sum` are left out (these are lost as those of a counter, C250).
-/
namespace Verif.Metrics.SummaryThreads
open Verif
open Verif.Conc (upd upd_same upd_other)

/-! ## Model -/

/-- where a thread is in `_handle`, /repo/satella/instrumentation/metrics/metric_types/summary.py:47-58: before the comparison at line 55, before `pop` at line 56, before `appendleft` at line 58.  The flag of the last, not in the code, tells whether the thread has popped. -/
inductive Pc where
  | idle
  | look (v : Int)
  | drop (v : Int)
  | put (v : Int) (popped : Bool)
  deriving DecidableEq, Repr

/-- what is seen: a call begins, a call ends having recorded its value, or it raises `IndexError`.  (Part of the model of `_handle`, /repo/satella/instrumentation/metrics/metric_types/summary.py:47-58.) -/
inductive Ev where
  | called (t : Nat) (v : Int)
  | returned (t : Nat) (v : Int)
  | raised (t : Nat) (v : Int)
  deriving DecidableEq, Repr

/-- the summary: `calls_queue`, the newest first, /repo/satella/instrumentation/metrics/metric_types/summary.py:40, the threads, and what was seen (not in the code) -/
structure St where
  queue : List Int := []
  pcs : Nat → Pc := fun _ => .idle
  log : List Ev := []

/-- what happens: a thread calls `handle`, or goes on by one step.  (Part of the model of `_handle`, /repo/satella/instrumentation/metrics/metric_types/summary.py:47-58.) -/
inductive Act where
  | call (t : Nat) (v : Int)
  | go (t : Nat)
  deriving DecidableEq, Repr

/-- A step of `_handle` with `last_calls` being `N`, /repo/satella/instrumentation/metrics/metric_types/summary.py:55-58; `pop()` of an empty deque raises. -/
def step (N : Nat) (s : St) : Act → St
  | .call t v =>
    match s.pcs t with
    | .idle => { s with pcs := upd s.pcs t (.look v), log := s.log ++ [.called t v] }
    | _ => s
  | .go t =>
    match s.pcs t with
    | .idle => s
    | .look v => if s.queue.length = N then { s with pcs := upd s.pcs t (.drop v) } else { s with pcs := upd s.pcs t (.put v false) }
    | .drop v =>
      if s.queue = [] then { s with pcs := upd s.pcs t .idle, log := s.log ++ [.raised t v] }
      else { s with queue := s.queue.dropLast, pcs := upd s.pcs t (.put v true) }
    | .put v _ => { queue := v :: s.queue, pcs := upd s.pcs t .idle, log := s.log ++ [.returned t v] }

/-- everything that happens.  (Part of the model of `_handle`, /repo/satella/instrumentation/metrics/metric_types/summary.py:47-58.) -/
def run (N : Nat) (as : List Act) : St := as.foldl (step N) {}

/-- what `to_metric_data` shows for the quantile `q`, /repo/satella/instrumentation/metrics/metric_types/summary.py:93-104; `pct` is `percentile` -/
def shown (pct : List Int → Int → Int) (s : St) (q : Int) : Int := if sortInt s.queue = [] then 0 else pct (sortInt s.queue) q

/-! ## Specification -/

/-- the values recorded, the oldest first -/
def recorded (log : List Ev) : List Int := log.filterMap (fun e => match e with | .returned _ v => some v | _ => none)

/-- the number of calls that began and did not end -/
def running (log : List Ev) : Int :=
  (log.map (fun e => match e with | .called .. => (1 : Int) | .returned .. => -1 | .raised .. => -1)).sum

/-- `x` is the quantile `q` of the numbers `vs`: it is calculated from a sorted list of them; 0 if there are none -/
def Quantile (pct : List Int → Int → Int) (vs : List Int) (q x : Int) : Prop :=
  ∃ l : List Int, l.Perm vs ∧ l.Pairwise (· ≤ ·) ∧ x = if l = [] then 0 else pct l q

/-- the last `k` of a list -/
def latest (k : Nat) (vs : List Int) : List Int := vs.drop (vs.length - k)

/-- never more than `n` calls at once -/
def AtMost (N n : Nat) (as : List Act) : Prop := ∀ p, p <+: as → running (run N p).log ≤ n

/-! ## Proofs -/

/-- popped and not yet recorded -/
def popping (p : Pc) : Bool := match p with | .put _ true => true | _ => false

/-- what always holds; `A` are the threads within a call, `B` those which popped and did not record yet, `d` are the values dropped, the newest first -/
structure Inv (N : Nat) (s : St) (A B : List Nat) (d : List Int) : Prop where
  nodupA : A.Nodup
  memA : ∀ t, t ∈ A ↔ s.pcs t ≠ .idle
  lenA : running s.log = A.length
  nodupB : B.Nodup
  memB : ∀ t, t ∈ B ↔ popping (s.pcs t) = true
  values : (recorded s.log).reverse = s.queue ++ d
  full : (d ≠ [] ∨ ∃ t v, s.pcs t = .drop v) → N ≤ s.queue.length + B.length

theorem running_snoc (l : List Ev) (e : Ev) : running (l ++ [e]) = running l + (match e with | .called .. => (1 : Int) | .returned .. => -1 | .raised .. => -1) := by
  simp [running]

theorem recorded_snoc (l : List Ev) (e : Ev) : recorded (l ++ [e]) = recorded l ++ (match e with | .returned _ v => [v] | _ => []) := by
  cases e <;> simp [recorded]

theorem nodup_erase {A : List Nat} (h : A.Nodup) (t : Nat) : (A.filter (· ≠ t)).Nodup := h.filter _

theorem length_filter_ne {A : List Nat} (h : A.Nodup) {t : Nat} (ht : t ∈ A) : (A.filter (· ≠ t)).length + 1 = A.length := by
  induction A with
  | nil => cases ht
  | cons a A ih =>
    rw [List.nodup_cons] at h
    by_cases hat : a = t
    · subst hat
      have : A.filter (· ≠ a) = A := List.filter_eq_self.2 (fun x hx => by simp; rintro rfl; exact h.1 hx)
      simp only [List.filter_cons, ne_eq, not_true_eq_false, decide_false, List.length_cons]
      simpa using congrArg List.length this
    · have h2 := ih h.2 (by rcases List.mem_cons.1 ht with e | e; exact absurd e.symm hat; exact e)
      simp only [List.filter_cons, ne_eq, hat, not_false_eq_true, decide_true, List.length_cons, if_true]
      simp only [ne_eq] at h2
      omega

theorem inv_init (N : Nat) : Inv N {} [] [] [] where
  nodupA := .nil
  memA := by simp
  lenA := rfl
  nodupB := .nil
  memB := by simp [popping]
  values := rfl
  full := by simp

theorem inv_step {N : Nat} {s : St} {A B : List Nat} {d : List Int} (I : Inv N s A B d) (a : Act) : ∃ A' B' d', Inv N (step N s a) A' B' d' := by
  cases a with
  | call t v =>
    cases hpc : s.pcs t with
    | idle =>
      simp only [step, hpc]
      have hA : t ∉ A := fun h => (I.memA t).1 h hpc
      refine ⟨t :: A, B, d, List.nodup_cons.2 ⟨hA, I.nodupA⟩, ?_, ?_, I.nodupB, ?_, ?_, ?_⟩ <;> (try dsimp only)
      · intro u
        by_cases hu : u = t
        · subst hu; simp
        · simp only [List.mem_cons, hu, false_or, upd_other _ _ hu]; exact I.memA u
      · rw [running_snoc, I.lenA]; simp
      · intro u
        by_cases hu : u = t
        · subst hu; rw [upd_same, I.memB, hpc]; simp [popping]
        · rw [upd_other _ _ hu]; exact I.memB u
      · rw [recorded_snoc]; simpa using I.values
      · rintro (h | ⟨u, w, h⟩)
        · exact I.full (.inl h)
        · by_cases hu : u = t
          · subst hu; rw [upd_same] at h; cases h
          · rw [upd_other _ _ hu] at h; exact I.full (.inr ⟨u, w, h⟩)
    | _ => exact ⟨A, B, d, by simpa only [step, hpc] using I⟩
  | go t =>
    cases hpc : s.pcs t with
    | idle => exact ⟨A, B, d, by simpa only [step, hpc] using I⟩
    | look v =>
      simp only [step, hpc]
      have hA : ∀ p, p ≠ .idle → ∀ u, u ∈ A ↔ upd s.pcs t p u ≠ .idle := by
        intro p hp u
        by_cases hu : u = t
        · subst hu; rw [upd_same, I.memA, hpc]; simp [hp]
        · rw [upd_other _ _ hu]; exact I.memA u
      have hB : ∀ p, popping p = false → ∀ u, u ∈ B ↔ popping (upd s.pcs t p u) = true := by
        intro p hp u
        by_cases hu : u = t
        · subst hu; rw [upd_same, I.memB, hpc, hp]; simp [popping]
        · rw [upd_other _ _ hu]; exact I.memB u
      split
      · next hN =>
        refine ⟨A, B, d, I.nodupA, hA _ (by simp), I.lenA, I.nodupB, hB _ rfl, I.values, ?_⟩ <;> (try dsimp only)
        intro _
        show N ≤ s.queue.length + B.length
        omega
      · refine ⟨A, B, d, I.nodupA, hA _ (by simp), I.lenA, I.nodupB, hB _ rfl, I.values, ?_⟩ <;> (try dsimp only)
        rintro (h | ⟨u, w, h⟩)
        · exact I.full (.inl h)
        · by_cases hu : u = t
          · subst hu; rw [upd_same] at h; cases h
          · rw [upd_other _ _ hu] at h; exact I.full (.inr ⟨u, w, h⟩)
    | drop v =>
      simp only [step, hpc]
      have hf := I.full (.inr ⟨t, v, hpc⟩)
      have hB : t ∉ B := by rw [I.memB, hpc]; simp [popping]
      have hAt : t ∈ A := by rw [I.memA, hpc]; simp
      split
      · next hq =>
        refine ⟨A.filter (· ≠ t), B, d, nodup_erase I.nodupA t, ?_, ?_, I.nodupB, ?_, ?_, fun _ => hf⟩ <;> (try dsimp only)
        · intro u
          by_cases hu : u = t
          · subst hu; simp
          · rw [upd_other _ _ hu, ← I.memA u]; simp [hu]
        · rw [running_snoc, I.lenA]
          have := length_filter_ne I.nodupA hAt
          simp only
          omega
        · intro u
          by_cases hu : u = t
          · subst hu; simp [hB, popping]
          · rw [upd_other _ _ hu]; exact I.memB u
        · rw [recorded_snoc]; simpa using I.values
      · next hq =>
        refine ⟨A, t :: B, s.queue.getLast hq :: d, I.nodupA, ?_, I.lenA, List.nodup_cons.2 ⟨hB, I.nodupB⟩, ?_, ?_, ?_⟩ <;> (try dsimp only)
        · intro u
          by_cases hu : u = t
          · subst hu; simp [hAt]
          · rw [upd_other _ _ hu]; exact I.memA u
        · intro u
          by_cases hu : u = t
          · subst hu; simp [popping]
          · simp only [List.mem_cons, hu, false_or, upd_other _ _ hu]; exact I.memB u
        · rw [I.values]
          conv => lhs; rw [← List.dropLast_concat_getLast hq]
          simp
        · intro _
          have : s.queue.length ≠ 0 := by simpa using hq
          simp only [List.length_dropLast, List.length_cons]
          omega
    | put v b =>
      simp only [step, hpc]
      have hAt : t ∈ A := by rw [I.memA, hpc]; simp
      have hA : ∀ u, u ∈ A.filter (· ≠ t) ↔ upd s.pcs t .idle u ≠ .idle := by
        intro u
        by_cases hu : u = t
        · subst hu; simp
        · rw [upd_other _ _ hu, ← I.memA u]; simp [hu]
      have hlen : running (s.log ++ [.returned t v]) = (A.filter (· ≠ t)).length := by
        rw [running_snoc, I.lenA]
        have := length_filter_ne I.nodupA hAt
        simp only
        omega
      have hval : (recorded (s.log ++ [.returned t v])).reverse = (v :: s.queue) ++ d := by
        rw [recorded_snoc, List.reverse_append, I.values]; rfl
      have hdrop : ∀ u w, upd s.pcs t .idle u = .drop w → s.pcs u = .drop w := by
        intro u w h
        by_cases hu : u = t
        · subst hu; rw [upd_same] at h; cases h
        · rwa [upd_other _ _ hu] at h
      cases b with
      | false =>
        have hB : t ∉ B := by rw [I.memB, hpc]; simp [popping]
        refine ⟨A.filter (· ≠ t), B, d, nodup_erase I.nodupA t, hA, hlen, I.nodupB, ?_, hval, ?_⟩ <;> (try dsimp only)
        · intro u
          by_cases hu : u = t
          · subst hu; simp [hB, popping]
          · rw [upd_other _ _ hu]; exact I.memB u
        · intro h
          have := I.full (h.imp id (fun ⟨u, w, h⟩ => ⟨u, w, hdrop u w h⟩))
          simp only [List.length_cons]
          omega
      | true =>
        have hB : t ∈ B := by rw [I.memB, hpc]; simp [popping]
        refine ⟨A.filter (· ≠ t), B.filter (· ≠ t), d, nodup_erase I.nodupA t, hA, hlen, nodup_erase I.nodupB t, ?_, hval, ?_⟩ <;> (try dsimp only)
        · intro u
          by_cases hu : u = t
          · subst hu; simp [popping]
          · rw [upd_other _ _ hu, ← I.memB u]; simp [hu]
        · intro h
          have := I.full (h.imp id (fun ⟨u, w, h⟩ => ⟨u, w, hdrop u w h⟩))
          have := length_filter_ne I.nodupB hB
          simp only [List.length_cons]
          omega

theorem run_snoc (N : Nat) (as : List Act) (a : Act) : run N (as ++ [a]) = step N (run N as) a := by simp [run]

theorem snoc_ind {α : Type} {P : List α → Prop} (h0 : P []) (h1 : ∀ l a, P l → P (l ++ [a])) (l : List α) : P l := by
  rw [← List.reverse_reverse l]
  induction l.reverse with
  | nil => exact h0
  | cons a l ih => rw [List.reverse_cons]; exact h1 _ _ ih

theorem inv_run (N : Nat) (as : List Act) : ∃ A B d, Inv N (run N as) A B d := by
  induction as using snoc_ind with
  | h0 => exact ⟨_, _, _, inv_init N⟩
  | h1 l a ih => obtain ⟨A, B, d, I⟩ := ih; rw [run_snoc]; exact inv_step I a

theorem length_le_of_mem {A B : List Nat} (hB : B.Nodup) (h : ∀ t ∈ B, t ∈ A) : B.length ≤ A.length := by
  induction B generalizing A with
  | nil => simp
  | cons b B ih =>
    rw [List.nodup_cons] at hB
    have hb := h b (List.mem_cons_self ..)
    have h1 := ih (A := A.erase b) hB.2 (fun t ht => (List.mem_erase_of_ne (by rintro rfl; exact hB.1 ht)).2 (h t (List.mem_cons_of_mem _ ht)))
    have h2 : 0 < A.length := List.length_pos_of_mem hb
    rw [List.length_erase_of_mem hb] at h1
    simp only [List.length_cons]; omega

theorem latest_of_append {vs q d : List Int} (h : vs.reverse = q ++ d) : q.reverse = latest q.length vs := by
  have h1 : vs = d.reverse ++ q.reverse := by rw [← List.reverse_append, ← h, List.reverse_reverse]
  unfold latest
  rw [h1]
  have : (d.reverse ++ q.reverse).length - q.length = d.reverse.length := by simp
  rw [this, List.drop_left]

theorem shown_quantile (pct : List Int → Int → Int) (s : St) (q : Int) : Quantile pct s.queue q (shown pct s q) :=
  ⟨sortInt s.queue, sortInt_perm _, sortInt_sorted _, rfl⟩

/-- **C251 (latest)**  Whatever threads do, and whenever the summary is looked at, each quantile shown is that of the latest `k` values recorded, for some `k`: of all of them, or of at least as many as `last_calls` when the calls that are running at that time are counted too. -/
theorem C251_latest (N : Nat) (as : List Act) (pct : List Int → Int → Int) :
    ∃ k : Nat, k ≤ (recorded (run N as).log).length ∧ (k = (recorded (run N as).log).length ∨ (N : Int) ≤ k + running (run N as).log) ∧
      ∀ q, Quantile pct (latest k (recorded (run N as).log)) q (shown pct (run N as) q) := by
  obtain ⟨A, B, d, I⟩ := inv_run N as
  refine ⟨(run N as).queue.length, ?_, ?_, ?_⟩
  · have := congrArg List.length I.values
    simp at this; omega
  · by_cases hd : d = []
    · left
      have := congrArg List.length I.values
      simp [hd] at this; omega
    · right
      have h1 := I.full (.inl hd)
      have h2 : B.length ≤ A.length := length_le_of_mem I.nodupB (fun t ht => (I.memA t).2 (by
        intro h; have := (I.memB t).1 ht; rw [h] at this; cases this))
      rw [I.lenA]; omega
  · intro q
    obtain ⟨l, h1, h2, h3⟩ := shown_quantile pct (run N as) q
    exact ⟨l, by rw [← latest_of_append I.values]; exact h1.trans (List.reverse_perm _).symm, h2, h3⟩

/-- **C251 (calls return)**  A call raises only while more calls are running than `last_calls`: if there are never more at once, none does. -/
theorem C251_no_raise (N : Nat) (as : List Act) (h : AtMost N N as) (t : Nat) (v : Int) : .raised t v ∉ (run N as).log := by
  induction as using snoc_ind with
  | h0 => simp [run]
  | h1 l a ih =>
    have ih := ih (fun p hp => h p (hp.trans (List.prefix_append l [a])))
    obtain ⟨A, B, d, I⟩ := inv_run N l
    have hr := h l (List.prefix_append l [a])
    rw [run_snoc]
    generalize run N l = s at *
    cases a with
    | call u w =>
      cases hpc : s.pcs u with
      | idle => simp only [step, hpc]; simp [ih]
      | _ => simpa only [step, hpc] using ih
    | go u =>
      cases hpc : s.pcs u with
      | idle => simpa only [step, hpc] using ih
      | look w => simp only [step, hpc]; split <;> exact ih
      | put w b => simp only [step, hpc]; simp [ih]
      | drop w =>
        simp only [step, hpc]
        split
        · next hq =>
          exfalso
          have h1 := I.full (.inr ⟨u, w, hpc⟩)
          have hB : u ∉ B := by rw [I.memB, hpc]; simp [popping]
          have h2 : (u :: B).length ≤ A.length := length_le_of_mem (List.nodup_cons.2 ⟨hB, I.nodupB⟩) (fun x hx => (I.memA x).2 (by
            intro he
            rcases List.mem_cons.1 hx with rfl | hx
            · rw [hpc] at he; cases he
            · have := (I.memB x).1 hx; rw [he] at this; cases this))
          rw [I.lenA] at hr
          simp [hq] at h1 h2
          omega
        · exact ih

/-! ### One call at a time -/

theorem one_inv (N : Nat) (hN : 0 < N) (as : List Act) (h : AtMost N 1 as) :
    (run N as).queue.length ≤ N ∧ (∀ t v b, (run N as).pcs t = .put v b → (run N as).queue.length < N) ∧ ∀ t v, (run N as).pcs t = .drop v → (run N as).queue.length = N := by
  induction as using snoc_ind with
  | h0 => simp [run]
  | h1 l a ih =>
    obtain ⟨i1, i2, i3⟩ := ih (fun p hp => h p (hp.trans (List.prefix_append l [a])))
    obtain ⟨A, B, d, I⟩ := inv_run N l
    have hr := h l (List.prefix_append l [a])
    rw [run_snoc]
    generalize run N l = s at *
    rw [I.lenA] at hr
    have only : ∀ t u, s.pcs t ≠ .idle → s.pcs u ≠ .idle → u = t := by
      intro t u ht hu
      have h1 := (I.memA t).2 ht
      have h2 := (I.memA u).2 hu
      match A, hr with
      | [], _ => cases h1
      | [x], _ => simp at h1 h2; rw [h1, h2]
      | _ :: _ :: _, hr => simp at hr; omega
    cases a with
    | call u w =>
      cases hpc : s.pcs u with
      | idle =>
        simp only [step, hpc]
        refine ⟨i1, fun t v b ht => ?_, fun t v ht => ?_⟩ <;>
        · (try dsimp only at ht)
          by_cases hu : t = u
          · subst hu; rw [upd_same] at ht; cases ht
          · rw [upd_other _ _ hu] at ht; first | exact i2 t v b ht | exact i3 t v ht
      | _ => simpa only [step, hpc] using ⟨i1, i2, i3⟩
    | go u =>
      cases hpc : s.pcs u with
      | idle => simpa only [step, hpc] using ⟨i1, i2, i3⟩
      | look w =>
        simp only [step, hpc]
        have away : ∀ t, t ≠ u → s.pcs t = .idle := fun t ht => Decidable.byContradiction (fun hh => ht (only u t (by rw [hpc]; simp) hh))
        split
        · next hq =>
          refine ⟨i1, fun t v b ht => ?_, fun t v ht => hq⟩
          dsimp only at ht
          by_cases hu : t = u
          · subst hu; rw [upd_same] at ht; cases ht
          · rw [upd_other _ _ hu, away t hu] at ht; cases ht
        · next hq =>
          refine ⟨i1, fun t v b ht => by show s.queue.length < N; omega, fun t v ht => ?_⟩
          dsimp only at ht
          by_cases hu : t = u
          · subst hu; rw [upd_same] at ht; cases ht
          · rw [upd_other _ _ hu, away t hu] at ht; cases ht
      | drop w =>
        simp only [step, hpc]
        have away : ∀ t, t ≠ u → s.pcs t = .idle := fun t ht => Decidable.byContradiction (fun hh => ht (only u t (by rw [hpc]; simp) hh))
        have hlen := i3 u w hpc
        split
        · next hq => rw [hq] at hlen; simp at hlen; omega
        · refine ⟨by simp only [List.length_dropLast]; omega, fun t v b ht => by simp only [List.length_dropLast]; omega, fun t v ht => ?_⟩
          dsimp only at ht
          by_cases hu : t = u
          · subst hu; rw [upd_same] at ht; cases ht
          · rw [upd_other _ _ hu, away t hu] at ht; cases ht
      | put w b =>
        simp only [step, hpc]
        have away : ∀ t, t ≠ u → s.pcs t = .idle := fun t ht => Decidable.byContradiction (fun hh => ht (only u t (by rw [hpc]; simp) hh))
        have hlen := i2 u w b hpc
        have idle : ∀ t, upd s.pcs u .idle t = .idle := by
          intro t
          by_cases hu : t = u
          · subst hu; rw [upd_same]
          · rw [upd_other _ _ hu]; exact away t hu
        exact ⟨by simp only [List.length_cons]; omega, fun t v b ht => by simp [idle] at ht, fun t v ht => by simp [idle] at ht⟩

/-- **C252 (partial: one call at a time)**  If no call begins while another is running, and none is running now, each quantile shown is that of exactly the last `last_calls` values handled, or of all if there were fewer, and no call raised. -/
theorem C252_one_thread_partial (N : Nat) (hN : 0 < N) (as : List Act) (h : AtMost N 1 as) (hq : running (run N as).log = 0) (pct : List Int → Int → Int) :
    (∀ q, Quantile pct (latest N (recorded (run N as).log)) q (shown pct (run N as) q)) ∧ ∀ t v, .raised t v ∉ (run N as).log := by
  refine ⟨fun q => ?_, fun t v => C251_no_raise N as (fun p hp => by have := h p hp; omega) t v⟩
  obtain ⟨A, B, d, I⟩ := inv_run N as
  obtain ⟨i1, -, -⟩ := one_inv N hN as h
  have hA : A = [] := by
    have := I.lenA; rw [hq] at this
    exact List.eq_nil_of_length_eq_zero (by omega)
  have hB : B = [] := by
    refine List.eq_nil_iff_forall_not_mem.2 (fun t ht => ?_)
    have h1 := (I.memB t).1 ht
    have h2 : t ∉ A := by rw [hA]; simp
    rw [I.memA] at h2
    have : (run N as).pcs t = .idle := Decidable.not_not.1 h2
    rw [this] at h1; cases h1
  have hl : latest N (recorded (run N as).log) = latest (run N as).queue.length (recorded (run N as).log) := by
    have hv := congrArg List.length I.values
    simp at hv
    by_cases hd : d = []
    · subst hd
      unfold latest
      simp at hv
      rw [show (recorded (run N as).log).length - N = 0 by omega, show (recorded (run N as).log).length - (run N as).queue.length = 0 by omega]
    · have := I.full (.inl hd)
      rw [hB] at this
      simp at this
      have e : (run N as).queue.length = N := by omega
      rw [e]
  obtain ⟨l, h1, h2, h3⟩ := shown_quantile pct (run N as) q
  exact ⟨l, by rw [hl, ← latest_of_append I.values]; exact h1.trans (List.reverse_perm _).symm, h2, h3⟩

/-! ### More calls at once -/

theorem run_append (N : Nat) (as bs : List Act) : run N (as ++ bs) = bs.foldl (step N) (run N as) := by simp [run]

theorem atMost_nil (N n : Nat) : AtMost N n [] := by
  intro p hp
  rw [List.prefix_nil.1 hp]
  simp [run, running]

theorem atMost_snoc {N n : Nat} {as : List Act} (h : AtMost N n as) {a : Act} (ha : running (step N (run N as) a).log ≤ n) : AtMost N n (as ++ [a]) := by
  intro p hp
  rcases List.prefix_concat_iff.1 hp with rfl | hp
  · rw [run_snoc]; exact ha
  · exact h p hp

/-- the thread that acts -/
def Act.who : Act → Nat
  | .call t _ => t
  | .go t => t

/-- all is kept -/
structure Good (N : Nat) (as : List Act) (vs : List Int) : Prop where
  idle : ∀ t, (run N as).pcs t = .idle
  most : AtMost N 2 as
  queue : (run N as).queue = vs.reverse
  rec_ : recorded (run N as).log = vs
  running : running (run N as).log = 0
  who : ∀ a ∈ as, a.who < 2

theorem Good.alone {N : Nat} {as : List Act} {vs : List Int} (G : Good N as vs) (h : vs.length ≠ N) (v : Int) : Good N (as ++ [.call 0 v] ++ [.go 0] ++ [.go 0]) (vs ++ [v]) := by
  have r1 : run N (as ++ [.call 0 v]) = ⟨(run N as).queue, upd (run N as).pcs 0 (.look v), (run N as).log ++ [.called 0 v]⟩ := by
    rw [run_snoc]; simp only [step, G.idle]
  have r2 : run N (as ++ [.call 0 v] ++ [.go 0]) = ⟨(run N as).queue, upd (upd (run N as).pcs 0 (.look v)) 0 (.put v false), (run N as).log ++ [.called 0 v]⟩ := by
    rw [run_snoc, r1]; simp only [step, upd_same]
    rw [if_neg (by rw [G.queue]; simpa using h)]
  have r3 : run N (as ++ [.call 0 v] ++ [.go 0] ++ [.go 0]) =
      ⟨v :: (run N as).queue, upd (upd (upd (run N as).pcs 0 (.look v)) 0 (.put v false)) 0 .idle, (run N as).log ++ [.called 0 v] ++ [.returned 0 v]⟩ := by
    rw [run_snoc, r2]; simp only [step, upd_same]
  refine ⟨fun t => ?_, ?_, ?_, ?_, ?_, ?_⟩
  · rw [r3]
    by_cases ht : t = 0
    · subst ht; simp only [upd_same]
    · simp only [upd_other _ _ ht, G.idle]
  · refine atMost_snoc (atMost_snoc (atMost_snoc G.most ?_) ?_) ?_
    · rw [← run_snoc, r1]; simp only [running_snoc, G.running]; omega
    · rw [← run_snoc, r2]; simp only [running_snoc, G.running]; omega
    · rw [← run_snoc, r3]; simp only [running_snoc, G.running]; omega
  · rw [r3]; simp [G.queue]
  · rw [r3]; simp only [recorded_snoc, G.rec_, List.append_nil]
  · rw [r3]; simp only [running_snoc, G.running]; omega
  · intro a ha
    simp only [List.mem_append, List.mem_singleton] at ha
    rcases ha with ((ha | rfl) | rfl) | rfl
    · exact G.who a ha
    all_goals simp [Act.who]

theorem Good.pair {N : Nat} {as : List Act} {vs : List Int} (G : Good N as vs) (h : vs.length + 1 = N) (v w : Int) :
    Good N (as ++ [.call 0 v] ++ [.call 1 w] ++ [.go 0] ++ [.go 1] ++ [.go 0] ++ [.go 1]) (vs ++ [v] ++ [w]) := by
  have hq : ((run N as).queue.length = N) = False := by rw [G.queue]; simp; omega
  have e01 : ∀ (f : Nat → Pc) x, upd f 0 x 1 = f 1 := fun f x => upd_other f x (by decide)
  have e10 : ∀ (f : Nat → Pc) x, upd f 1 x 0 = f 0 := fun f x => upd_other f x (by decide)
  have r1 : run N (as ++ [.call 0 v]) = ⟨(run N as).queue, upd (run N as).pcs 0 (.look v), (run N as).log ++ [.called 0 v]⟩ := by
    rw [run_snoc]; simp only [step, G.idle]
  have r2 : run N (as ++ [.call 0 v] ++ [.call 1 w]) = ⟨(run N as).queue, upd (upd (run N as).pcs 0 (.look v)) 1 (.look w), (run N as).log ++ [.called 0 v] ++ [.called 1 w]⟩ := by
    rw [run_snoc, r1]; simp only [step, e01, G.idle]
  have r3 : run N (as ++ [.call 0 v] ++ [.call 1 w] ++ [.go 0]) =
      ⟨(run N as).queue, upd (upd (upd (run N as).pcs 0 (.look v)) 1 (.look w)) 0 (.put v false), (run N as).log ++ [.called 0 v] ++ [.called 1 w]⟩ := by
    rw [run_snoc, r2]; simp only [step, e10, upd_same, hq, if_false]
  have r4 : run N (as ++ [.call 0 v] ++ [.call 1 w] ++ [.go 0] ++ [.go 1]) =
      ⟨(run N as).queue, upd (upd (upd (upd (run N as).pcs 0 (.look v)) 1 (.look w)) 0 (.put v false)) 1 (.put w false), (run N as).log ++ [.called 0 v] ++ [.called 1 w]⟩ := by
    rw [run_snoc, r3]; simp only [step, e01, upd_same, hq, if_false]
  have r5 : run N (as ++ [.call 0 v] ++ [.call 1 w] ++ [.go 0] ++ [.go 1] ++ [.go 0]) =
      ⟨v :: (run N as).queue, upd (upd (upd (upd (upd (run N as).pcs 0 (.look v)) 1 (.look w)) 0 (.put v false)) 1 (.put w false)) 0 .idle,
        (run N as).log ++ [.called 0 v] ++ [.called 1 w] ++ [.returned 0 v]⟩ := by
    rw [run_snoc, r4]; simp only [step, e10, upd_same]
  have r6 : run N (as ++ [.call 0 v] ++ [.call 1 w] ++ [.go 0] ++ [.go 1] ++ [.go 0] ++ [.go 1]) =
      ⟨w :: v :: (run N as).queue, upd (upd (upd (upd (upd (upd (run N as).pcs 0 (.look v)) 1 (.look w)) 0 (.put v false)) 1 (.put w false)) 0 .idle) 1 .idle,
        (run N as).log ++ [.called 0 v] ++ [.called 1 w] ++ [.returned 0 v] ++ [.returned 1 w]⟩ := by
    rw [run_snoc, r5]; simp only [step, e01, upd_same]
  refine ⟨fun t => ?_, ?_, ?_, ?_, ?_, ?_⟩
  · rw [r6]
    by_cases ht : t = 1
    · subst ht; simp only [upd_same]
    · by_cases h0 : t = 0
      · subst h0; simp only [e10, upd_same]
      · simp only [upd_other _ _ ht, upd_other _ _ h0, G.idle]
  · refine atMost_snoc (atMost_snoc (atMost_snoc (atMost_snoc (atMost_snoc (atMost_snoc G.most ?_) ?_) ?_) ?_) ?_) ?_
    · rw [← run_snoc, r1]; simp only [running_snoc, G.running]; omega
    · rw [← run_snoc, r2]; simp only [running_snoc, G.running]; omega
    · rw [← run_snoc, r3]; simp only [running_snoc, G.running]; omega
    · rw [← run_snoc, r4]; simp only [running_snoc, G.running]; omega
    · rw [← run_snoc, r5]; simp only [running_snoc, G.running]; omega
    · rw [← run_snoc, r6]; simp only [running_snoc, G.running]; omega
  · rw [r6]; simp [G.queue]
  · rw [r6]; simp only [recorded_snoc, G.rec_, List.append_nil]
  · rw [r6]; simp only [running_snoc, G.running]; omega
  · intro a ha
    simp only [List.mem_append, List.mem_singleton] at ha
    rcases ha with (((((ha | rfl) | rfl) | rfl) | rfl) | rfl) | rfl
    · exact G.who a ha
    all_goals simp [Act.who]

theorem good_exists (N : Nat) (hN : 0 < N) : ∀ (n : Nat) (vs : List Int), vs.length = n → n ≠ N → ∃ as, Good N as vs := by
  intro n
  induction n using Nat.strongRecOn with
  | ind n ih =>
    intro vs hl hn
    rcases List.eq_nil_or_concat vs with rfl | ⟨us, v, rfl⟩
    · exact ⟨[], by simp [run], atMost_nil N 2, rfl, rfl, rfl, by simp⟩
    · simp at hl
      by_cases hu : us.length = N
      · rcases List.eq_nil_or_concat us with rfl | ⟨ws, w, rfl⟩
        · simp at hu; omega
        · simp at hu
          obtain ⟨as, G⟩ := ih ws.length (by simp at hl; omega) ws rfl (by omega)
          exact ⟨_, by simpa using G.pair hu w v⟩
      · obtain ⟨as, G⟩ := ih us.length (by omega) us rfl hu
        exact ⟨_, by simpa using G.alone hu v⟩

/-- **C252 (violation: the window grows without end)**  Two threads are enough, whatever `last_calls` is: for any values, more of them than `last_calls` and as many as one likes, there is a history in which these are recorded, in which there are never more than two calls at once, and at the end of which, when no call is running, the quantiles shown are those of all the values: nothing is dropped any more.  (Both threads find the queue one short of `last_calls` and both append; the length is then never equal to `last_calls` again.) -/
theorem C252_violates_grows (N : Nat) (hN : 0 < N) (vs : List Int) (hv : N < vs.length) :
    ∃ as, (∀ a ∈ as, a.who < 2) ∧ AtMost N 2 as ∧ running (run N as).log = 0 ∧ recorded (run N as).log = vs ∧
      ∀ pct q, Quantile pct vs q (shown pct (run N as) q) := by
  obtain ⟨as, G⟩ := good_exists N hN vs.length vs rfl (by omega)
  refine ⟨as, G.who, G.most, G.running, G.rec_, fun pct q => ?_⟩
  obtain ⟨l, h1, h2, h3⟩ := shown_quantile pct (run N as) q
  exact ⟨l, by rw [G.queue] at h1; exact h1.trans (List.reverse_perm _), h2, h3⟩

/-- **C252 (violation: a wrong quantile)**  So a quantile shown need not be that of the last `last_calls` values, though no call is running: with a value of -1 and `last_calls` values of 0 after it, the least is said to be -1. -/
theorem C252_violates_quantile (N : Nat) (hN : 0 < N) (pct : List Int → Int → Int) (hp : ∀ x l, pct (x :: l) 0 = x) :
    ∃ as, AtMost N 2 as ∧ running (run N as).log = 0 ∧ recorded (run N as).log = -1 :: List.replicate N 0 ∧
      shown pct (run N as) 0 = -1 ∧ ∀ x, Quantile pct (latest N (recorded (run N as).log)) 0 x → x = 0 := by
  obtain ⟨as, -, h2, h3, h4, h5⟩ := C252_violates_grows N hN (-1 :: List.replicate N 0) (by simp)
  refine ⟨as, h2, h3, h4, ?_, ?_⟩
  · obtain ⟨l, p1, p2, p3⟩ := h5 pct 0
    cases l with
    | nil => have := p1.length_eq; simp at this
    | cons x l =>
      simp only [reduceCtorEq, if_false, hp] at p3
      rw [p3]
      have hm : (-1 : Int) ∈ x :: l := p1.mem_iff.2 (List.mem_cons_self ..)
      rcases List.mem_cons.1 hm with hm | hm
      · exact hm.symm
      · have h6 := (List.pairwise_cons.1 p2).1 _ hm
        have h7 : x ∈ (-1 : Int) :: List.replicate N 0 := p1.mem_iff.1 (List.mem_cons_self ..)
        simp only [List.mem_cons, List.mem_replicate] at h7
        omega
  · rintro x ⟨l, p1, p2, p3⟩
    rw [h4] at p1
    have e : latest N (-1 :: List.replicate N 0) = List.replicate N 0 := by simp [latest]
    rw [e] at p1
    cases l with
    | nil => simpa using p3
    | cons y l =>
      simp only [reduceCtorEq, if_false, hp] at p3
      have h7 : y ∈ List.replicate N 0 := p1.mem_iff.1 (List.mem_cons_self ..)
      rw [p3]; exact (List.mem_replicate.1 h7).2

theorem atMost_of_take {N n : Nat} {as : List Act} (h : ∀ k, k < as.length + 1 → running (run N (as.take k)).log ≤ n) : AtMost N n as := by
  intro p hp
  rw [List.prefix_iff_eq_take.1 hp]
  exact h _ (Nat.lt_succ_of_le hp.length_le)

/-- **C252 (violation: a call raises)**  With `last_calls=1`, of two calls made at once, when a value has been recorded, one may raise `IndexError`, its value being lost. -/
theorem C252_violates_raise : ∃ as, AtMost 1 2 as ∧ running (run 1 as).log = 0 ∧ .raised 1 7 ∈ (run 1 as).log := by
  exact ⟨[.call 0 5, .go 0, .go 0, .call 0 6, .call 1 7, .go 0, .go 1, .go 0, .go 1, .go 0], atMost_of_take (by decide +kernel), by decide +kernel, by decide +kernel⟩

/-! ## Examples -/

/-- three calls of two threads, two of them at once -/
def demo : List Act := [.call 0 5, .go 0, .go 0, .call 0 6, .call 1 7, .go 0, .go 1, .go 1, .go 1, .go 0, .go 0]

/-- three calls of two threads, one at a time -/
def demo1 : List Act := [.call 0 5, .go 0, .go 0, .call 1 7, .go 1, .go 1, .go 1, .call 0 6, .go 0, .go 0, .go 0]

-- hypotheses of C251_no_raise: two calls at once, and last_calls of two
example : AtMost 2 2 demo ∧ recorded (run 2 demo).log = [5, 7, 6] ∧ (run 2 demo).queue = [6, 7, 5] := ⟨atMost_of_take (by decide +kernel), by decide +kernel, by decide +kernel⟩
-- with last_calls of one, the same history records all and keeps the last
example : recorded (run 1 demo).log = [5, 7, 6] ∧ running (run 1 demo).log = 0 ∧ (run 1 demo).queue = [6] := by decide +kernel
-- hypotheses of C252_one_thread_partial: the last of last_calls values, and fewer than were recorded
example : AtMost 1 1 demo1 ∧ running (run 1 demo1).log = 0 ∧ recorded (run 1 demo1).log = [5, 7, 6] ∧ latest 1 (recorded (run 1 demo1).log) = [6] ∧ (run 1 demo1).queue = [6] :=
  ⟨atMost_of_take (by decide +kernel), by decide +kernel, by decide +kernel, by decide +kernel, by decide +kernel⟩
-- a `pct` as C252_violates_quantile assumes: the least
example : ∃ pct : List Int → Int → Int, (∀ x l, pct (x :: l) 0 = x) := ⟨fun l _ => l.headD 0, fun _ _ => rfl⟩

end Verif.Metrics.SummaryThreads
