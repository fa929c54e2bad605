import Verif.Metrics.Histogram
import Verif.Conc.MonitorProps
/-!
# A histogram metric used by several threads (satella/instrumentation/metrics/metric_types/histogram.py); C270, C271

Threads call `handle` of one histogram without labels, while others do.  No lock is taken: in `self.buckets[index] += 1` reading the
number and writing it are steps of their own.  The limits do not change, so comparing a value with them is one step together with the
reading that follows.  The limits increase, as the documentation demands, so that a value is within one bucket at most.
Numbers are integers.  Levels, timestamps, `count` and `sum` are left out (these are lost as those of a counter, C250).
-/
namespace Verif.Metrics.HistogramThreads
open Verif
open Verif.Conc (upd upd_same upd_other)

/-! ## Model -/

/-- where a thread is in `_handle`, /repo/satella/instrumentation/metrics/metric_types/histogram.py:40-55: before it looks for the bucket, or having read the number of the bucket at line 54 and not yet written it -/
inductive Pc where
  | idle
  | find (v : Int)
  | add (v : Int) (i : Nat) (x : Nat)
  deriving DecidableEq, Repr

/-- what is seen: a call begins, a call ends.  (Part of the model of `_handle`, /repo/satella/instrumentation/metrics/metric_types/histogram.py:40-55.) -/
inductive Ev where
  | called (t : Nat) (v : Int)
  | returned (t : Nat) (v : Int)
  deriving DecidableEq, Repr

/-- the histogram: `buckets`, /repo/satella/instrumentation/metrics/metric_types/histogram.py:35, the threads, and what was seen (not in the code) -/
structure St where
  buckets : List Nat
  pcs : Nat → Pc := fun _ => .idle
  log : List Ev := []

/-- what happens: a thread calls `handle`, or goes on by one step.  (Part of the model of `_handle`, /repo/satella/instrumentation/metrics/metric_types/histogram.py:40-55.) -/
inductive Act where
  | call (t : Nat) (v : Int)
  | go (t : Nat)
  deriving DecidableEq, Repr

/-- the bucket a value is added to, /repo/satella/instrumentation/metrics/metric_types/histogram.py:50-54 -/
def bucketOf (limits : List Int) (v : Int) : Option Nat := (intervals 0 limits).findIdx? (inBucket v)

/-- A step of `_handle`, /repo/satella/instrumentation/metrics/metric_types/histogram.py:50-55 -/
def step (limits : List Int) (s : St) : Act → St
  | .call t v =>
    match s.pcs t with
    | .idle => { s with pcs := upd s.pcs t (.find v), log := s.log ++ [.called t v] }
    | _ => s
  | .go t =>
    match s.pcs t with
    | .idle => s
    | .find v =>
      match bucketOf limits v with
      | none => { s with pcs := upd s.pcs t .idle, log := s.log ++ [.returned t v] }
      | some i => { s with pcs := upd s.pcs t (.add v i (s.buckets.getD i 0)) }
    | .add v i x => { buckets := s.buckets.set i (x + 1), pcs := upd s.pcs t .idle, log := s.log ++ [.returned t v] }

/-- a new histogram, /repo/satella/instrumentation/metrics/metric_types/histogram.py:34-35, and everything that happens to it -/
def run (limits : List Int) (as : List Act) : St := as.foldl (step limits) { buckets := List.replicate (limits.length + 1) 0 }

/-- the buckets as `containers_to_metric_data` shows them, /repo/satella/instrumentation/metrics/metric_types/histogram.py:73-84: lower bound, upper bound (none: infinity), number -/
def shown (limits : List Int) (s : St) : List ((Int × Option Int) × Nat) := List.zip (intervals 0 limits) s.buckets

/-! ## Specification -/

/-- the value is at least the lower bound and below the upper -/
def Within (v : Int) (iv : Int × Option Int) : Prop := iv.1 ≤ v ∧ ∀ u, iv.2 = some u → v < u

/-- `n` calls with values within the bucket ended -/
inductive Ended (iv : Int × Option Int) : List Ev → Nat → Prop where
  | nil : Ended iv [] 0
  | called {l n} (t v) : Ended iv l n → Ended iv (l ++ [.called t v]) n
  | within {l n} (t v) : Ended iv l n → Within v iv → Ended iv (l ++ [.returned t v]) (n + 1)
  | outside {l n} (t v) : Ended iv l n → ¬ Within v iv → Ended iv (l ++ [.returned t v]) n

/-- a call of the thread with this value began and did not end -/
def Calling (log : List Ev) (t : Nat) (v : Int) : Prop := ∃ a b, log = a ++ .called t v :: b ∧ ∀ w, .returned t w ∉ b

/-- calls with values within the bucket are never made by two threads at once -/
def Apart (limits : List Int) (as : List Act) (iv : Int × Option Int) : Prop :=
  ∀ p, p <+: as → ∀ t u v w, Calling (run limits p).log t v → Calling (run limits p).log u w → Within v iv → Within w iv → t = u

/-! ## Proofs -/

instance (v : Int) (iv : Int × Option Int) : Decidable (Within v iv) :=
  if h : inBucket v iv = true then .isTrue (by have := (inBucket_iff v iv).1 h; exact ⟨this.1, fun u hu => this.2 u (by simp [hu])⟩)
  else .isFalse (fun w => h ((inBucket_iff v iv).2 ⟨w.1, fun u hu => w.2 u (by simpa using hu)⟩))

theorem within_iff (v : Int) (iv : Int × Option Int) : Within v iv ↔ inBucket v iv = true := by
  rw [inBucket_iff]; simp [Within]

/-- the number of calls that ended with values within the bucket -/
def ended (iv : Int × Option Int) (log : List Ev) : Nat := log.countP (fun e => match e with | .returned _ v => inBucket v iv | _ => false)

theorem ended_called (iv : Int × Option Int) (l : List Ev) (t : Nat) (v : Int) : ended iv (l ++ [.called t v]) = ended iv l := by
  simp [ended]

theorem ended_returned (iv : Int × Option Int) (l : List Ev) (t : Nat) (v : Int) : ended iv (l ++ [.returned t v]) = ended iv l + (if inBucket v iv then 1 else 0) := by
  simp only [ended, List.countP_append, List.countP_cons, List.countP_nil]
  split <;> simp

theorem ended_spec {iv : Int × Option Int} {log : List Ev} {n : Nat} (h : Ended iv log n) : n = ended iv log := by
  induction h with
  | nil => rfl
  | called t v _ ih => rw [ended_called, ih]
  | within t v _ hw ih => rw [ended_returned, ih, if_pos ((within_iff _ _).1 hw)]
  | outside t v _ hw ih => rw [ended_returned, ih, if_neg (fun h => hw ((within_iff _ _).2 h))]; rfl

theorem snoc_ind {α : Type} {P : List α → Prop} (h0 : P []) (h1 : ∀ l a, P l → P (l ++ [a])) (l : List α) : P l := by
  have : ∀ l : List α, P l.reverse := by
    intro l
    induction l with
    | nil => exact h0
    | cons a l ih => rw [List.reverse_cons]; exact h1 _ _ ih
  simpa using this l.reverse

theorem spec_ended (iv : Int × Option Int) (log : List Ev) : Ended iv log (ended iv log) := by
  induction log using snoc_ind with
  | h0 => exact .nil
  | h1 l a ih =>
    cases a with
    | called t v => rw [ended_called]; exact .called t v ih
    | returned t v =>
      rw [ended_returned]
      split
      · exact .within t v ih ((within_iff _ _).2 ‹_›)
      · exact .outside t v ih (fun h => absurd ((within_iff _ _).1 h) ‹_›)

theorem run_snoc (limits : List Int) (as : List Act) (a : Act) : run limits (as ++ [a]) = step limits (run limits as) a := by
  simp [run]

/-- with increasing limits a value within the bucket number `i` is added to it -/
theorem bucketOf_eq {limits : List Int} (h : Limits 0 limits) {i : Nat} {iv : Int × Option Int} (hi : (intervals 0 limits)[i]? = some iv) (v : Int) :
    bucketOf limits v = some i ↔ inBucket v iv = true := by
  obtain ⟨hlt, he⟩ := List.getElem?_eq_some_iff.1 hi
  unfold bucketOf
  rw [List.findIdx?_eq_some_iff_getElem]
  constructor
  · rintro ⟨_, h1, _⟩; rw [he] at h1; exact h1
  · intro hv
    refine ⟨hlt, by rw [he]; exact hv, fun j hj hc => ?_⟩
    have hp : ∀ (limits : List Int) (lower : Int), Limits lower limits → (intervals lower limits).Pairwise (fun a b => ∃ u, a.2 = some u ∧ u ≤ b.1) ∧ ∀ b ∈ intervals lower limits, lower ≤ b.1 := by
      intro limits
      induction limits with
      | nil => intro lower _; simp [intervals]
      | cons u us ih =>
        intro lower hl
        have := ih u hl.2
        have h1 := hl.1
        simp only [intervals, List.pairwise_cons, List.mem_cons]
        refine ⟨⟨fun b hb => ⟨u, rfl, this.2 b hb⟩, this.1⟩, ?_⟩
        rintro b (rfl | hb)
        · exact Int.le_refl _
        · have := this.2 b hb; omega
    have := (List.pairwise_iff_getElem.1 (hp limits 0 h).1) j i (by omega) hlt hj
    obtain ⟨u, hu, hle⟩ := this
    rw [he] at hle
    have h1 := ((inBucket_iff v _).1 (by simpa using hc)).2 u (by simp [hu])
    have h2 := ((inBucket_iff v iv).1 hv).1
    omega

/-- where a thread is agrees with what was seen -/
def Agrees (limits : List Int) (log : List Ev) (t : Nat) : Pc → Prop
  | .idle => ∀ v, ¬ Calling log t v
  | .find v => ∀ w, Calling log t w ↔ w = v
  | .add v i _ => (∀ w, Calling log t w ↔ w = v) ∧ bucketOf limits v = some i

theorem calling_snoc (l : List Ev) (e : Ev) (t : Nat) (v : Int) :
    Calling (l ++ [e]) t v ↔ e = .called t v ∨ ((∀ w, e ≠ .returned t w) ∧ Calling l t v) := by
  constructor
  · rintro ⟨a, b, h, hb⟩
    rcases List.eq_nil_or_concat b with rfl | ⟨b', x, rfl⟩
    · left
      exact (List.append_inj' h rfl).2 |> fun h => by simpa using h
    · right
      have h' : l ++ [e] = (a ++ .called t v :: b') ++ [x] := by rw [h]; simp
      obtain ⟨h1, h2⟩ := List.append_inj' h' rfl
      have h2 : e = x := by simpa using h2
      subst h2
      exact ⟨fun w hw => hb w (by simp [hw]), a, b', h1, fun w hw => hb w (by simp [hw])⟩
  · rintro (rfl | ⟨he, a, b, rfl, hb⟩)
    · exact ⟨l, [], rfl, by simp⟩
    · refine ⟨a, b ++ [e], by simp, fun w hw => ?_⟩
      rcases List.mem_append.1 hw with h | h
      · exact hb w h
      · exact he w (List.mem_singleton.1 h).symm

theorem agrees_other {limits : List Int} {log : List Ev} {t u : Nat} {p : Pc} (h : Agrees limits log u p) (hu : u ≠ t) (v : Int) (e : Ev)
    (he : e = .called t v ∨ e = .returned t v) : Agrees limits (log ++ [e]) u p := by
  have hc : ∀ w, Calling (log ++ [e]) u w ↔ Calling log u w := by
    intro w
    rw [calling_snoc]
    rcases he with rfl | rfl
    · constructor
      · rintro (h | ⟨_, h⟩)
        · cases h; exact absurd rfl hu
        · exact h
      · exact fun h => .inr ⟨by simp, h⟩
    · constructor
      · rintro (h | ⟨_, h⟩)
        · cases h
        · exact h
      · exact fun h => .inr ⟨fun w hw => by cases hw; exact hu rfl, h⟩
  cases p with
  | idle => exact fun w hw => h w ((hc w).1 hw)
  | find v => exact fun w => (hc w).trans (h w)
  | add v i x => exact ⟨fun w => (hc w).trans (h.1 w), h.2⟩

theorem agrees_step {limits : List Int} {s : St} (h : ∀ t, Agrees limits s.log t (s.pcs t)) (a : Act) : ∀ t, Agrees limits (step limits s a).log t ((step limits s a).pcs t) := by
  have mv : ∀ (t : Nat) (p : Pc) (log' : List Ev), Agrees limits log' t p → (∀ u, u ≠ t → Agrees limits log' u (s.pcs u)) → ∀ u, Agrees limits log' u (upd s.pcs t p u) := by
    intro t p log' h1 h2 u
    by_cases hu : u = t
    · subst hu; rw [upd_same]; exact h1
    · rw [upd_other _ _ hu]; exact h2 u hu
  cases a with
  | call t v =>
    have ht := h t
    cases hpc : s.pcs t with
    | idle =>
      simp only [step, hpc]
      rw [hpc] at ht
      refine mv t _ _ (fun w => ?_) (fun u hu => agrees_other (h u) hu v _ (.inl rfl))
      rw [calling_snoc]
      constructor
      · rintro (h | ⟨_, h⟩)
        · cases h; rfl
        · exact absurd h (ht w)
      · rintro rfl; exact .inl rfl
    | find _ => simpa only [step, hpc] using h
    | add _ _ _ => simpa only [step, hpc] using h
  | go t =>
    have ht := h t
    have ret : ∀ v : Int, Agrees limits (s.log ++ [.returned t v]) t .idle := by
      intro v w hw
      rw [calling_snoc] at hw
      rcases hw with h | ⟨h, _⟩
      · cases h
      · exact h v rfl
    cases hpc : s.pcs t with
    | idle => simpa only [step, hpc] using h
    | find v =>
      simp only [step, hpc]
      rw [hpc] at ht
      cases hb : bucketOf limits v with
      | none => exact mv t _ _ (ret v) (fun u hu => agrees_other (h u) hu v _ (.inr rfl))
      | some i => exact mv t _ _ ⟨ht, hb⟩ (fun u _ => h u)
    | add v i x =>
      simp only [step, hpc]
      exact mv t _ _ (ret v) (fun u hu => agrees_other (h u) hu v _ (.inr rfl))

theorem agrees_run (limits : List Int) (as : List Act) : ∀ t, Agrees limits (run limits as).log t ((run limits as).pcs t) := by
  induction as using snoc_ind with
  | h0 => intro t v; rintro ⟨a, b, h, _⟩; simp [run] at h
  | h1 as a ih => rw [run_snoc]; exact agrees_step ih a

theorem length_step (limits : List Int) (s : St) (a : Act) : (step limits s a).buckets.length = s.buckets.length := by
  cases a with
  | call t v => cases hpc : s.pcs t <;> simp only [step, hpc]
  | go t =>
    cases hpc : s.pcs t with
    | idle => simp only [step, hpc]
    | find v => simp only [step, hpc]; cases bucketOf limits v <;> rfl
    | add v i x => simp only [step, hpc, List.length_set]

theorem length_run (limits : List Int) (as : List Act) : (run limits as).buckets.length = limits.length + 1 := by
  induction as using snoc_ind with
  | h0 => simp [run]
  | h1 as a ih => rw [run_snoc, length_step, ih]

/-- what holds of the bucket number `i`: `R` relates numbers read or shown with that of the calls that ended -/
structure Inv (R : Nat → Nat → Prop) (iv : Int × Option Int) (i : Nat) (s : St) : Prop where
  value : R (s.buckets.getD i 0) (ended iv s.log)
  read : ∀ t v x, s.pcs t = .add v i x → R x (ended iv s.log)

theorem getD_set_ne {l : List Nat} {i j x : Nat} (h : j ≠ i) : (l.set j x).getD i 0 = l.getD i 0 := by
  simp [List.getD_eq_getElem?_getD, List.getElem?_set_ne h]

theorem getD_set_eq {l : List Nat} {i x : Nat} (h : i < l.length) : (l.set i x).getD i 0 = x := by
  simp [List.getD_eq_getElem?_getD, h]

theorem inv_step {R : Nat → Nat → Prop} {limits : List Int} (h : Limits 0 limits) {iv : Int × Option Int} {i : Nat} (hi : (intervals 0 limits)[i]? = some iv)
    {s : St} (I : Inv R iv i s) (A : ∀ t, Agrees limits s.log t (s.pcs t)) (hl : s.buckets.length = limits.length + 1)
    (h1 : ∀ x n, R x n → R (x + 1) (n + 1))
    (h2 : ∀ t v x u w y, s.pcs t = .add v i x → s.pcs u = .add w i y → u ≠ t → R y (ended iv s.log) → R y (ended iv s.log + 1)) (a : Act) :
    Inv R iv i (step limits s a) := by
  have hlt : i < s.buckets.length := by
    rw [hl, ← intervals_length limits 0]; exact (List.getElem?_eq_some_iff.1 hi).1
  cases a with
  | call t v =>
    cases hpc : s.pcs t with
    | idle =>
      simp only [step, hpc]
      refine ⟨by dsimp only; rw [ended_called]; exact I.value, fun u w x hx => ?_⟩
      dsimp only at hx ⊢
      rw [ended_called]
      by_cases hu : u = t
      · subst hu; rw [upd_same] at hx; cases hx
      · rw [upd_other _ _ hu] at hx; exact I.read u w x hx
    | find _ => simpa only [step, hpc] using I
    | add _ _ _ => simpa only [step, hpc] using I
  | go t =>
    cases hpc : s.pcs t with
    | idle => simpa only [step, hpc] using I
    | find v =>
      simp only [step, hpc]
      cases hb : bucketOf limits v with
      | none =>
        have hv : inBucket v iv = false := by
          cases hc : inBucket v iv with
          | false => rfl
          | true => rw [(bucketOf_eq h hi v).2 hc] at hb; cases hb
        refine ⟨by dsimp only; rw [ended_returned, hv]; exact I.value, fun u w x hx => ?_⟩
        dsimp only at hx ⊢
        rw [ended_returned, hv]
        by_cases hu : u = t
        · subst hu; rw [upd_same] at hx; cases hx
        · rw [upd_other _ _ hu] at hx; exact I.read u w x hx
      | some j =>
        refine ⟨I.value, fun u w x hx => ?_⟩
        dsimp only at hx ⊢
        by_cases hu : u = t
        · subst hu; rw [upd_same] at hx; cases hx; exact I.value
        · rw [upd_other _ _ hu] at hx; exact I.read u w x hx
    | add v j x =>
      have hv := A t
      rw [hpc] at hv
      have hj := hv.2
      simp only [step, hpc]
      by_cases hij : j = i
      · subst hij
        have hin := (bucketOf_eq h hi v).1 hj
        refine ⟨?_, fun u w y hy => ?_⟩ <;> dsimp only at *
        · rw [ended_returned, if_pos hin, getD_set_eq hlt]; exact h1 _ _ (I.read t v x hpc)
        · rw [ended_returned, if_pos hin]
          by_cases hu : u = t
          · subst hu; rw [upd_same] at hy; cases hy
          · rw [upd_other _ _ hu] at hy
            exact h2 t v x u w y hpc hy hu (I.read u w y hy)
      · have hout : inBucket v iv ≠ true := fun hc => by
          have := (bucketOf_eq h hi v).2 hc
          rw [hj] at this; cases this; exact hij rfl
        refine ⟨?_, fun u w y hy => ?_⟩ <;> dsimp only at *
        · rw [ended_returned, if_neg hout, getD_set_ne hij]; exact I.value
        · rw [ended_returned, if_neg hout]
          by_cases hu : u = t
          · subst hu; rw [upd_same] at hy; cases hy
          · rw [upd_other _ _ hu] at hy; exact I.read u w y hy

theorem mem_shown {limits : List Int} {s : St} {iv : Int × Option Int} {n : Nat} (h : (iv, n) ∈ shown limits s) : ∃ i, (intervals 0 limits)[i]? = some iv ∧ s.buckets.getD i 0 = n := by
  obtain ⟨i, hi⟩ := List.mem_iff_getElem?.1 h
  rw [shown, List.getElem?_zip_eq_some] at hi
  exact ⟨i, hi.1, by simp [List.getD_eq_getElem?_getD, hi.2]⟩

theorem inv_init (R : Nat → Nat → Prop) (h0 : R 0 0) (limits : List Int) (iv : Int × Option Int) (i : Nat) : Inv R iv i (run limits []) where
  value := by
    have : (List.replicate (limits.length + 1) 0).getD i 0 = 0 := by
      rw [List.getD_eq_getElem?_getD, List.getElem?_replicate]; split <;> rfl
    show R ((List.replicate (limits.length + 1) 0).getD i 0) 0
    rw [this]; exact h0
  read := by intro t v x h; cases h

theorem inv_le {limits : List Int} (h : Limits 0 limits) {iv : Int × Option Int} {i : Nat} (hi : (intervals 0 limits)[i]? = some iv) (as : List Act) :
    Inv (fun x n => x ≤ n) iv i (run limits as) := by
  induction as using snoc_ind with
  | h0 => exact inv_init (fun x n => x ≤ n) (Nat.le_refl _) limits iv i
  | h1 as a ih =>
    rw [run_snoc]
    exact inv_step h hi ih (agrees_run limits as) (length_run limits as) (fun x n h => Nat.succ_le_succ h) (fun _ _ _ _ _ _ _ _ _ h => Nat.le_succ_of_le h) a

theorem inv_eq {limits : List Int} (h : Limits 0 limits) {iv : Int × Option Int} {i : Nat} (hi : (intervals 0 limits)[i]? = some iv) (as : List Act)
    (hA : Apart limits as iv) : Inv (fun x n => x = n) iv i (run limits as) := by
  induction as using snoc_ind with
  | h0 => exact inv_init (fun x n => x = n) rfl limits iv i
  | h1 as a ih =>
    rw [run_snoc]
    have A := agrees_run limits as
    refine inv_step h hi (ih (fun p hp => hA p (hp.trans (List.prefix_append _ _)))) A (length_run limits as) (fun x n h => congrArg Nat.succ h) ?_ a
    intro t v x u w y ht hu hne _
    have h1 := A t
    have h2 := A u
    rw [ht] at h1
    rw [hu] at h2
    exact absurd (hA as (List.prefix_append _ _) u t w v ((h2.1 w).2 rfl) ((h1.1 v).2 rfl) ((within_iff _ _).2 ((bucketOf_eq h hi w).1 h2.2))
      ((within_iff _ _).2 ((bucketOf_eq h hi v).1 h1.2))) hne

/-- **C270 a bucket shows no more than calls that ended.** Whatever several threads do, the buckets shown are those from zero to the first limit, from each limit to the next
and from the last on, and none shows more than the number of calls of `handle` that ended with a value of at least its lower bound and below its upper bound. -/
theorem C270_at_most (limits : List Int) (h : Limits 0 limits) (as : List Act) :
    (∀ iv, iv ∈ (shown limits (run limits as)).map Prod.fst ↔ IsBucket limits iv) ∧
    ∀ iv n, (iv, n) ∈ shown limits (run limits as) → ∃ m, Ended iv (run limits as).log m ∧ n ≤ m := by
  constructor
  · intro iv
    rw [shown, List.map_fst_zip (by rw [length_run, intervals_length]; exact Nat.le_refl _), intervals_iff]
    rfl
  · intro iv n hn
    obtain ⟨i, hi, rfl⟩ := mem_shown hn
    exact ⟨_, spec_ended iv _, (inv_le h hi as).value⟩

/-- **C270 calls with values within one bucket, made one after another, are counted.** If calls with values within a bucket are never made by two threads at once, the bucket
shows, at any time, the number of such calls that ended, whatever calls with other values are made meanwhile. -/
theorem C270_apart (limits : List Int) (h : Limits 0 limits) (as : List Act) (iv : Int × Option Int) (hA : Apart limits as iv) (n : Nat)
    (hn : (iv, n) ∈ shown limits (run limits as)) : Ended iv (run limits as).log n := by
  obtain ⟨i, hi, rfl⟩ := mem_shown hn
  rw [(inv_eq h hi as hA).value]
  exact spec_ended iv _

/-- two threads at once, with values within different buckets -/
def twoBuckets : List Act := [.call 0 3, .call 1 12, .go 0, .go 1, .go 0, .go 1, .call 0 4, .go 0]

example : Limits 0 [10, 20] ∧ ((0, some 10), 1) ∈ shown [10, 20] (run [10, 20] twoBuckets) ∧ Ended (0, some 10) (run [10, 20] twoBuckets).log 1 ∧ Apart [10, 20] twoBuckets (0, some 10) := by
  refine ⟨by simp [Limits], by decide, spec_ended _ _, ?_⟩
  intro p hp t u v w ht hu hv hw
  have hone : ∀ p, p <+: twoBuckets → ∀ t v, Calling (run [10, 20] p).log t v → Within v (0, some 10) → t = 0 := by
    intro p hp t v ⟨a, b, h, _⟩ hv
    have hm : Ev.called t v ∈ (run [10, 20] p).log := by rw [h]; simp
    have hall : ∀ n, ∀ e ∈ (run [10, 20] (twoBuckets.take n)).log, e ∈ (run [10, 20] twoBuckets).log := by
      intro n
      by_cases hn : n < 8
      · have : ∀ n < 8, ∀ e ∈ (run [10, 20] (twoBuckets.take n)).log, e ∈ (run [10, 20] twoBuckets).log := by decide
        exact this n hn
      · rw [List.take_of_length_le (by simp [twoBuckets]; omega)]; exact fun e he => he
    rw [List.prefix_iff_eq_take.1 hp] at hm
    have hm := hall _ _ hm
    have : (run [10, 20] twoBuckets).log = [.called 0 3, .called 1 12, .returned 0 3, .returned 1 12, .called 0 4] := by decide
    rw [this] at hm
    simp only [List.mem_cons, Ev.called.injEq, reduceCtorEq, List.not_mem_nil, or_false, false_or] at hm
    rcases hm with ⟨h, _⟩ | ⟨_, rfl⟩ | ⟨h, _⟩
    · exact h
    · have := hv.2 10 rfl; omega
    · exact h
  rw [hone p hp t v ht hv, hone p hp u w hu hw]

/-! ## C271 every call is counted -/

theorem sum_map_add {β : Type} (l : List β) (f g : β → Nat) : (l.map (fun b => f b + g b)).sum = (l.map f).sum + (l.map g).sum := by
  induction l with
  | nil => rfl
  | cons b l ih => simp only [List.map_cons, List.sum_cons, ih]; omega

theorem sum_map_ite {β : Type} (l : List β) (p : β → Bool) : (l.map (fun b => if p b then 1 else 0)).sum = l.countP p := by
  induction l with
  | nil => rfl
  | cons b l ih => simp only [List.map_cons, List.sum_cons, ih, List.countP_cons]; omega

theorem sum_ended {limits : List Int} (h : Limits 0 limits) (log : List Ev) : ((intervals 0 limits).map (fun iv => ended iv log)).sum = ended (0, none) log := by
  induction log using snoc_ind with
  | h0 =>
    have : ∀ l : List (Int × Option Int), (l.map (fun iv => ended iv [])).sum = 0 := by
      intro l
      induction l with
      | nil => rfl
      | cons a l ih => rw [List.map_cons, List.sum_cons, ih]; rfl
    rw [this]; rfl
  | h1 l e ih =>
    cases e with
    | called t v => simp only [ended_called, ih]
    | returned t v =>
      simp only [ended_returned]
      rw [sum_map_add, ih, sum_map_ite, C39_partition limits h v]
      simp [inBucket]

/-- **C271 every call is counted once (part).** If calls with values within the same bucket are never made by two threads at once, the numbers that the buckets show add up
to the number of calls that ended with a value not negative.  Missing: calls at once; see `C271_lost_violates` and `C271_decreases_violates`. -/
theorem C271_total_partial (limits : List Int) (h : Limits 0 limits) (as : List Act) (hA : ∀ iv, IsBucket limits iv → Apart limits as iv) :
    Ended (0, none) (run limits as).log ((shown limits (run limits as)).map Prod.snd).sum := by
  have : (shown limits (run limits as)).map Prod.snd = (intervals 0 limits).map (fun iv => ended iv (run limits as).log) := by
    refine List.ext_getElem? (fun i => ?_)
    rw [List.getElem?_map, List.getElem?_map]
    cases hi : (intervals 0 limits)[i]? with
    | none =>
      have h1 : (shown limits (run limits as))[i]? = none := by
        rw [List.getElem?_eq_none_iff] at hi ⊢
        simp only [shown, List.length_zip]; omega
      rw [h1]; rfl
    | some iv =>
      have hb : IsBucket limits iv := (intervals_iff limits 0 iv).1 (List.mem_of_getElem? hi)
      have hlt : i < (run limits as).buckets.length := by
        rw [length_run, ← intervals_length limits 0]; exact (List.getElem?_eq_some_iff.1 hi).1
      have h1 : (shown limits (run limits as))[i]? = some (iv, (run limits as).buckets[i]) := by
        rw [shown, List.getElem?_zip_eq_some]; exact ⟨hi, List.getElem?_eq_getElem hlt⟩
      have h2 := (inv_eq h hi as (hA iv hb)).value
      rw [List.getD_eq_getElem?_getD, List.getElem?_eq_getElem hlt] at h2
      rw [h1]
      simpa using h2
  rw [this, sum_ended h]
  exact spec_ended _ _

example : Limits 0 [10] ∧ (∀ iv, IsBucket [10] iv → Apart [10] [.call 0 3, .go 0, .go 0, .call 0 (-1), .go 0] iv) ∧
    shown [10] (run [10] [.call 0 3, .go 0, .go 0, .call 0 (-1), .go 0]) = [((0, some 10), 1), ((10, none), 0)] := by
  refine ⟨by simp [Limits], ?_, by decide⟩
  intro iv _ p hp t u v w ht hu _ _
  have hz : ∀ t v, Calling (run [10] p).log t v → t = 0 := by
    intro t v ⟨a, b, h, _⟩
    have hm : Ev.called t v ∈ (run [10] p).log := by rw [h]; simp
    rw [List.prefix_iff_eq_take.1 hp] at hm
    have hall : ∀ n < 6, ∀ e ∈ (run [10] (List.take n [.call 0 3, .go 0, .go 0, .call 0 (-1), .go 0])).log, e = .called 0 3 ∨ e = .returned 0 3 ∨ e = .called 0 (-1) ∨ e = .returned 0 (-1) := by decide
    have := hall p.length (by have := hp.length_le; simp at this; omega) _ hm
    simp at this
    rcases this with h | h <;> exact h.1
  rw [hz t v ht, hz u w hu]

/-- **C271 calls of two threads may be lost (violation).** After two calls of `handle` by two threads, both with values from 0 to 10, both of which ended, the buckets may show one call. -/
theorem C271_lost_violates : ∃ as : List Act, Ended (0, none) (run [10] as).log 2 ∧ (∀ t v, ¬ Calling (run [10] as).log t v) ∧
    shown [10] (run [10] as) = [((0, some 10), 1), ((10, none), 0)] := by
  refine ⟨[.call 0 3, .call 1 4, .go 0, .go 1, .go 0, .go 1], spec_ended _ _, ?_, by decide⟩
  intro t v h
  have : (run [10] [.call 0 3, .call 1 4, .go 0, .go 1, .go 0, .go 1]).log = ((([] ++ [.called 0 3]) ++ [.called 1 4]) ++ [.returned 0 3]) ++ [.returned 1 4] := by decide
  rw [this, calling_snoc, calling_snoc, calling_snoc, calling_snoc] at h
  rcases h with h | ⟨h1, h | ⟨h2, h | ⟨_, h | ⟨_, a, b, h, _⟩⟩⟩⟩
  · cases h
  · cases h
  · cases h; exact h1 4 rfl
  · cases h; exact h2 3 rfl
  · simp at h

/-- **C271 what a bucket shows may become less (violation).** A bucket that shows the two calls that one thread made may show one once a call of another thread, which had begun before, ended. -/
theorem C271_decreases_violates : ∃ as bs : List Act, ((0, some 10), 2) ∈ shown [10] (run [10] as) ∧ ((0, some 10), 1) ∈ shown [10] (run [10] (as ++ bs)) :=
  ⟨[.call 0 3, .go 0, .call 1 4, .go 1, .go 1, .call 1 4, .go 1, .go 1], [.go 0], by decide, by decide⟩

end Verif.Metrics.HistogramThreads
