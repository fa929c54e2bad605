import Verif.Conc.MonitorProps
/-!
# ExponentialBackoff, one thread telling and others waiting (satella/time/backoff.py); C265, C266

One thread calls `failed` and `success`, any number of others call `wait_until_available`.  `time_until_next_check` takes no lock: each
reading of `unavailable_until`, reading the clock and setting `unavailable_until` to `None` are steps of their own.
Times are integers.  How long to wait after a failure (C32) is a parameter; failures within the grace amount change nothing the
waiting threads look at, so they are left out.  The lock of the condition is taken to be free when `wait` needs it.
-/
namespace Verif.Time.BackoffThreads
open Verif
open Verif.Conc (upd upd_same upd_other)

/-! ## Model -/

/-- where a thread is in `wait_until_available`, /repo/satella/time/backoff.py:82-88: before looking whether the timeout is over; in `time_until_next_check`, /repo/satella/time/backoff.py:90-100, before the first reading, before reading the clock, before comparing, before setting to `None`, before subtracting; before waiting for the time given; waiting until a time -/
inductive Pc where
  | idle
  | loop
  | first
  | clock
  | compare (t : Int)
  | clear
  | subtract (t : Int)
  | going (tn : Int)
  | waiting (d : Int)
  deriving DecidableEq, Repr

/-- what is seen: a call of `failed`, after which the service is unavailable until a time, or of `success`; a call of `wait_until_available`, and how it ends, with the time.  (Part of the model of `ExponentialBackoff`, /repo/satella/time/backoff.py:61-128.) -/
inductive Ev where
  | failed (until_ : Int)
  | success
  | called (t : Nat) (timeout : Option Int) (at_ : Int)
  | returned (t : Nat) (at_ : Int)
  | wouldWait (t : Nat) (at_ : Int)
  | typeError (t : Nat)
  deriving DecidableEq, Repr

/-- the object: the clock, `unavailable_until`, whether `success` has yet to notify, the threads, when each began to wait and its timeout (the object given by `measure`), and what was seen (not in the code), /repo/satella/time/backoff.py:39-53 -/
structure St where
  now : Int := 0
  until_ : Option Int := none
  owing : Bool := false
  pcs : Nat → Pc := fun _ => .idle
  since : Nat → Int × Option Int := fun _ => (0, none)
  log : List Ev := []

/-- what happens: time passes; the one thread calls `failed`, after which there are `w` seconds to wait, or `success`, or notifies in it; a thread calls `wait_until_available` or goes on by one step.  (Part of the model of `ExponentialBackoff`, /repo/satella/time/backoff.py:61-128.) -/
inductive Act where
  | tick (d : Nat)
  | failed (w : Nat)
  | success
  | notify
  | wait (t : Nat) (timeout : Option Int)
  | go (t : Nat)
  deriving DecidableEq, Repr

/-- the thread goes to the next place.  (Part of the model of `wait_until_available`, /repo/satella/time/backoff.py:74-88.) -/
def St.goto (s : St) (t : Nat) (p : Pc) : St := { s with pcs := upd s.pcs t p }

/-- the call ends.  (Part of the model of `wait_until_available`, /repo/satella/time/backoff.py:74-88.) -/
def St.done (s : St) (t : Nat) (e : Ev) : St := { s with pcs := upd s.pcs t .idle, log := s.log ++ [e] }

/-- is the timeout over?  `timeouted`, /repo/satella/time/measure.py:123-130 -/
def over (now : Int) : Int × Option Int → Bool
  | (_, none) => false
  | (t0, some to) => decide (now - t0 ≥ to)

/-- A step of a thread in `wait_until_available`, /repo/satella/time/backoff.py:82-88, and `time_until_next_check`, /repo/satella/time/backoff.py:90-100.  Comparing with or subtracting from `None` raises `TypeError`.  Waiting (/repo/satella/coding/concurrent/thread.py:93-130) ends when notified or when its time is over. -/
def St.go (s : St) (t : Nat) : St :=
  match s.pcs t with
  | .idle => s
  | .loop => if over s.now (s.since t) then s.done t (.wouldWait t s.now) else s.goto t .first
  | .first => if s.until_ = none then s.done t (.returned t s.now) else s.goto t .clock
  | .clock => s.goto t (.compare s.now)
  | .compare t0 =>
    match s.until_ with
    | none => s.done t (.typeError t)
    | some u => if t0 > u then s.goto t .clear else s.goto t (.subtract t0)
  | .clear => { s with until_ := none }.done t (.returned t s.now)
  | .subtract t0 =>
    match s.until_ with
    | none => s.done t (.typeError t)
    | some u => s.goto t (.going (u - t0))
  | .going tn => s.goto t (.waiting (s.now + tn))
  | .waiting d => if s.now ≥ d then s.goto t .loop else s

/-- A step.  `failed` and `success`, /repo/satella/time/backoff.py:61-72,121-128, are called by one thread, which does not call the next one before it has notified; since nobody else looks at the counters, setting `unavailable_until` is all that `failed` does here. -/
def step (s : St) : Act → St
  | .tick d => { s with now := s.now + d }
  | .failed w => if s.owing then s else { s with until_ := some (s.now + w), log := s.log ++ [.failed (s.now + w)] }
  | .success => if s.owing then s else { s with until_ := none, owing := true, log := s.log ++ [.success] }
  | .notify =>
    if s.owing then { s with owing := false, pcs := fun t => match s.pcs t with | .waiting _ => .loop | p => p } else s
  | .wait t to =>
    match s.pcs t with
    | .idle => { s with pcs := upd s.pcs t .loop, since := upd s.since t (s.now, to), log := s.log ++ [.called t to s.now] }
    | _ => s
  | .go t => s.go t

/-- everything that happens to a new object, the clock being 0 in the beginning.  (Part of the model of `ExponentialBackoff`, /repo/satella/time/backoff.py:39-128.) -/
def run (as : List Act) : St := as.foldl step {}

/-! ## Specification -/

/-- until when the service is unavailable: the last failure said so, and there was no success since -/
def unavailable : List Ev → Option Int := fun log => log.foldl (fun u e => match e with | .failed d => some d | .success => none | _ => u) none

/-- when the last call of the thread began, and its timeout -/
def lastCall (t : Nat) (log : List Ev) : Option (Int × Option Int) :=
  (log.filterMap (fun e => match e with | .called u to a => if u = t then some (a, to) else none | _ => none)).getLast?

/-- the thread has read `unavailable_until`, and may read it once more or set it -/
def Looking (p : Pc) : Prop := p = .clock ∨ (∃ t, p = .compare t) ∨ (∃ t, p = .subtract t) ∨ p = .clear

/-- never do two threads look, and `success` is not called while one does -/
def Undisturbed (as : List Act) : Prop :=
  ∀ pre a post, as = pre ++ a :: post → (∀ t u, Looking ((run pre).pcs t) → Looking ((run pre).pcs u) → t = u) ∧ (∀ t, Looking ((run pre).pcs t) → a ≠ .success)

/-- `failed` is not called while a thread that found the wait to be over has yet to say so -/
def Unspoilt (as : List Act) : Prop := ∀ pre w post, as = pre ++ .failed w :: post → ∀ t, (run pre).pcs t ≠ .clear

/-! ## Proofs -/

theorem run_snoc (as : List Act) (a : Act) : run (as ++ [a]) = step (run as) a := by simp [run]

theorem snoc_ind {α : Type} {P : List α → Prop} (h0 : P []) (h1 : ∀ l a, P l → P (l ++ [a])) (l : List α) : P l := by
  rw [← List.reverse_reverse l]
  induction l.reverse with
  | nil => exact h0
  | cons a l ih => rw [List.reverse_cons]; exact h1 _ _ ih

theorem split_snoc {α : Type} {l pre post : List α} {e x : α} (h : l ++ [e] = pre ++ x :: post) : (∃ post', post = post' ++ [e] ∧ l = pre ++ x :: post') ∨ (post = [] ∧ pre = l ∧ x = e) := by
  rcases List.eq_nil_or_concat post with rfl | ⟨q, y, rfl⟩
  · have := List.append_inj' h rfl
    exact .inr ⟨rfl, this.1.symm, by simpa using this.2.symm⟩
  · left
    have : l ++ [e] = (pre ++ x :: q) ++ [y] := by rw [h]; simp
    have := List.append_inj' this rfl
    have h2 : e = y := by simpa using this.2
    subst h2
    exact ⟨q, by simp, this.1⟩

theorem unavailable_snoc (l : List Ev) (e : Ev) : unavailable (l ++ [e]) = (match e with | .failed d => some d | .success => none | _ => unavailable l) := by
  simp [unavailable]

theorem lastCall_snoc (t : Nat) (l : List Ev) (e : Ev) : lastCall t (l ++ [e]) = (match e with | .called u to a => if u = t then some (a, to) else lastCall t l | _ => lastCall t l) := by
  cases e with
  | called u to a => by_cases h : u = t <;> simp [lastCall, h]
  | _ => simp [lastCall]

/-- what a thread does, and where it goes -/
theorem go_cases (s : St) (t : Nat) :
    s.go t = s ∨
    (∃ p, p ≠ .idle ∧ s.pcs t ≠ .idle ∧ s.go t = s.goto t p ∧
      (p = .loop ∨ p = .first ∨ (p = .clock ∧ s.until_ ≠ none) ∨ (p = .compare s.now ∧ s.pcs t = .clock) ∨ (∃ t0 u, s.pcs t = .compare t0 ∧ s.until_ = some u ∧ t0 > u ∧ p = .clear) ∨
        (∃ t0, s.pcs t = .compare t0 ∧ p = .subtract t0) ∨ (∃ tn, p = .going tn) ∨ (∃ d, p = .waiting d))) ∨
    (s.pcs t = .loop ∧ over s.now (s.since t) = true ∧ s.go t = s.done t (.wouldWait t s.now)) ∨
    (s.pcs t = .first ∧ s.until_ = none ∧ s.go t = s.done t (.returned t s.now)) ∨
    (s.pcs t = .clear ∧ s.go t = { s with until_ := none }.done t (.returned t s.now)) ∨
    (((∃ t0, s.pcs t = .compare t0) ∨ (∃ t0, s.pcs t = .subtract t0)) ∧ s.until_ = none ∧ s.go t = s.done t (.typeError t)) := by
  unfold St.go
  cases h : s.pcs t with
  | idle => simp
  | loop =>
    by_cases hc : over s.now (s.since t) = true
    · simp only [if_pos hc]; exact .inr (.inr (.inl ⟨trivial, hc, trivial⟩))
    · simp only [if_neg hc]; exact .inr (.inl ⟨.first, by simp, by simp, rfl, by simp⟩)
  | first =>
    by_cases hc : s.until_ = none
    · simp only [if_pos hc]; exact .inr (.inr (.inr (.inl ⟨trivial, hc, trivial⟩)))
    · simp only [if_neg hc]; exact .inr (.inl ⟨.clock, by simp, by simp, rfl, by simp [hc]⟩)
  | clock => exact .inr (.inl ⟨.compare s.now, by simp, by simp, rfl, by simp⟩)
  | compare t0 =>
    cases hu : s.until_ with
    | none => simp only; exact .inr (.inr (.inr (.inr (.inr ⟨.inl ⟨t0, rfl⟩, trivial, trivial⟩))))
    | some u =>
      simp only
      by_cases hc : t0 > u
      · rw [if_pos hc]; exact .inr (.inl ⟨.clear, by simp, by simp, rfl, .inr (.inr (.inr (.inr (.inl ⟨t0, u, rfl, rfl, hc, rfl⟩))))⟩)
      · rw [if_neg hc]; exact .inr (.inl ⟨.subtract t0, by simp, by simp, rfl, .inr (.inr (.inr (.inr (.inr (.inl ⟨t0, rfl, rfl⟩)))))⟩)
  | clear => simp
  | subtract t0 =>
    cases hu : s.until_ with
    | none => simp only; exact .inr (.inr (.inr (.inr (.inr ⟨.inr ⟨t0, rfl⟩, trivial, trivial⟩))))
    | some u => exact .inr (.inl ⟨.going (u - t0), by simp, by simp, rfl, by simp⟩)
  | going tn => exact .inr (.inl ⟨.waiting (s.now + tn), by simp, by simp, rfl, by simp⟩)
  | waiting d =>
    simp only
    by_cases hc : s.now ≥ d
    · rw [if_pos hc]; exact .inr (.inl ⟨.loop, by simp, by simp, rfl, by simp⟩)
    · rw [if_neg hc]; exact .inl rfl

/-! ### The timeout -/

/-- what is remembered of each call -/
def Since (s : St) : Prop := ∀ t, s.pcs t ≠ .idle → lastCall t s.log = some (s.since t)

theorem since_step (s : St) (a : Act) (I : Since s) : Since (step s a) := by
  cases a with
  | tick d => exact I
  | failed w =>
    unfold step; dsimp only; split
    · exact I
    · intro t ht; dsimp only; rw [lastCall_snoc]; exact I t ht
  | success =>
    unfold step; dsimp only; split
    · exact I
    · intro t ht; dsimp only; rw [lastCall_snoc]; exact I t ht
  | notify =>
    unfold step; dsimp only; split
    · intro t ht
      refine I t (fun h => ht ?_)
      simp [h]
    · exact I
  | wait t to =>
    cases h : s.pcs t with
    | idle =>
      intro u hu
      simp only [step, h] at hu ⊢
      rw [lastCall_snoc]
      by_cases hut : u = t
      · subst hut; simp
      · dsimp only; rw [if_neg (Ne.symm hut), upd_other _ _ hut]
        rw [upd_other _ _ hut] at hu
        exact I u hu
    | _ => simpa only [step, h] using I
  | go t =>
    have quiet : ∀ e, (∀ u to a, e ≠ .called u to a) → Since (s.done t e) := by
      intro e he u hu
      have hut : u ≠ t := by
        rintro rfl
        exact hu (by simp [St.done])
      simp only [St.done] at hu ⊢
      rw [upd_other _ _ hut] at hu
      rw [lastCall_snoc]
      cases e with
      | called u' to a => exact absurd rfl (he u' to a)
      | _ => exact I u hu
    show Since (s.go t)
    rcases go_cases s t with h | ⟨p, hp, ht, h, -⟩ | ⟨-, -, h⟩ | ⟨-, -, h⟩ | ⟨-, h⟩ | ⟨-, -, h⟩ <;> rw [h]
    · exact I
    · intro u hu
      by_cases hut : u = t
      · subst hut; exact I u ht
      · exact I u (by simpa [St.goto, upd_other _ _ hut] using hu)
    · exact quiet _ (by simp)
    · exact quiet _ (by simp)
    · exact quiet _ (by simp)
    · exact quiet _ (by simp)

theorem since_run (as : List Act) : Since (run as) := by
  induction as using snoc_ind with
  | h0 => intro t ht; exact absurd rfl ht
  | h1 l a ih => rw [run_snoc]; exact since_step _ _ ih

/-- what a step adds to what was seen -/
theorem step_log (s : St) (a : Act) : (step s a).log = s.log ∨ ∃ e, (step s a).log = s.log ++ [e] ∧
    (∀ t c, e = .wouldWait t c → a = .go t ∧ c = s.now ∧ s.pcs t = .loop ∧ over s.now (s.since t) = true) ∧
    (∀ t c, e = .returned t c → a = .go t ∧ c = s.now ∧ ((s.pcs t = .first ∧ s.until_ = none) ∨ s.pcs t = .clear)) ∧
    (∀ t, e = .typeError t → Looking (s.pcs t) ∧ s.until_ = none) := by
  cases a with
  | tick d => exact .inl rfl
  | failed w =>
    unfold step; dsimp only; split
    · exact .inl rfl
    · exact .inr ⟨_, rfl, by simp, by simp, by simp⟩
  | success =>
    unfold step; dsimp only; split
    · exact .inl rfl
    · exact .inr ⟨_, rfl, by simp, by simp, by simp⟩
  | notify => unfold step; dsimp only; split <;> exact .inl rfl
  | wait t to =>
    cases h : s.pcs t with
    | idle => exact .inr ⟨.called t to s.now, by simp only [step, h], by simp, by simp, by simp⟩
    | _ => exact .inl (by simp only [step, h])
  | go t =>
    show (s.go t).log = _ ∨ ∃ e, (s.go t).log = _ ∧ _
    rcases go_cases s t with h | ⟨p, hp, ht, h, -⟩ | ⟨h1, h2, h⟩ | ⟨h1, h2, h⟩ | ⟨h1, h⟩ | ⟨h1, h2, h⟩ <;> rw [h]
    · exact .inl rfl
    · exact .inl rfl
    · refine .inr ⟨_, rfl, ?_, by simp, by simp⟩
      intro t' c e; cases e; exact ⟨rfl, rfl, h1, h2⟩
    · refine .inr ⟨_, rfl, by simp, ?_, by simp⟩
      intro t' c e; cases e; exact ⟨rfl, rfl, .inl ⟨h1, h2⟩⟩
    · refine .inr ⟨_, rfl, by simp, ?_, by simp⟩
      intro t' c e; cases e; exact ⟨rfl, rfl, .inr h1⟩
    · refine .inr ⟨_, rfl, by simp, by simp, ?_⟩
      intro t' e; cases e
      refine ⟨?_, h2⟩
      rcases h1 with ⟨t0, h1⟩ | ⟨t0, h1⟩
      · exact .inr (.inl ⟨t0, h1⟩)
      · exact .inr (.inr (.inl ⟨t0, h1⟩))

/-- **C265, `WouldWaitMore`.** In every schedule, a call of wait_until_available raises WouldWaitMore only if it was given a timeout and the timeout, counted from when that call began, is over. -/
theorem C265_would_wait_partial (as : List Act) (t : Nat) (c : Int) (l1 l2 : List Ev) (h : (run as).log = l1 ++ .wouldWait t c :: l2) :
    ∃ t0 to, lastCall t l1 = some (t0, some to) ∧ to ≤ c - t0 := by
  induction as using snoc_ind generalizing l1 l2 with
  | h0 => simp [run] at h
  | h1 as a ih =>
    rw [run_snoc] at h
    rcases step_log (run as) a with h2 | ⟨e, h2, h3, -, -⟩
    · exact ih l1 l2 (by rw [← h2]; exact h)
    · rw [h2] at h
      rcases split_snoc h with ⟨post', -, h4⟩ | ⟨-, h4, h5⟩
      · exact ih l1 post' h4
      · obtain ⟨-, hc, hl, ho⟩ := h3 t c h5.symm
        have I := since_run as t (by rw [hl]; simp)
        rw [h4, I]
        cases hs : (run as).since t with
        | mk t0 to =>
          rw [hs] at ho
          cases to with
          | none => simp [over] at ho
          | some to => exact ⟨t0, to, rfl, by simp [over] at ho; omega⟩

example : (run [.failed 5, .wait 1 (some 2), .go 1, .go 1, .go 1, .go 1, .go 1, .go 1, .tick 5, .go 1, .go 1]).log = [.failed 5, .called 1 (some 2) 0, .wouldWait 1 5] := by decide +kernel

/-! ### TypeError -/

/-- if a thread looks, there is something to look at -/
def Kept (s : St) : Prop := ∀ t, Looking (s.pcs t) → s.until_ ≠ none

theorem not_looking_idle : ¬ Looking .idle := by simp [Looking]
theorem not_looking_loop : ¬ Looking .loop := by simp [Looking]

theorem kept_step (s : St) (a : Act) (I : Kept s) (h1 : ∀ t u, Looking (s.pcs t) → Looking (s.pcs u) → t = u) (h2 : ∀ t, Looking (s.pcs t) → a ≠ .success) : Kept (step s a) := by
  cases a with
  | tick d => exact I
  | failed w =>
    unfold step; dsimp only; split
    · exact I
    · intro t _; simp
  | success =>
    unfold step; dsimp only; split
    · exact I
    · intro t ht; exact absurd rfl (h2 t ht)
  | notify =>
    unfold step; dsimp only; split
    · intro t ht
      refine I t ?_
      dsimp only at ht
      cases h : s.pcs t with
      | waiting d => rw [h] at ht; exact absurd ht not_looking_loop
      | _ => rw [h] at ht; exact ht
    · exact I
  | wait t to =>
    cases h : s.pcs t with
    | idle =>
      intro u hu
      simp only [step, h] at hu ⊢
      by_cases hut : u = t
      · subst hut; rw [upd_same] at hu; exact absurd hu not_looking_loop
      · rw [upd_other _ _ hut] at hu; exact I u hu
    | _ => simpa only [step, h] using I
  | go t =>
    have quiet : ∀ e, Kept (s.done t e) := by
      intro e u hu
      by_cases hut : u = t
      · subst hut; exact absurd hu (by simp [St.done, not_looking_idle])
      · exact I u (by simpa [St.done, upd_other _ _ hut] using hu)
    show Kept (s.go t)
    rcases go_cases s t with h | ⟨p, hp, ht, h, hq⟩ | ⟨-, -, h⟩ | ⟨-, -, h⟩ | ⟨h3, h⟩ | ⟨-, -, h⟩ <;> rw [h]
    · exact I
    · intro u hu
      by_cases hut : u = t
      · subst hut
        simp only [St.goto, upd_same] at hu ⊢
        rcases hq with h4 | h4 | ⟨-, h4⟩ | ⟨-, h4⟩ | ⟨t0, u', h4, h5, -, -⟩ | ⟨t0, h4, -⟩ | ⟨tn, h4⟩ | ⟨d, h4⟩
        · rw [h4] at hu; simp [Looking] at hu
        · rw [h4] at hu; simp [Looking] at hu
        · exact h4
        · exact I u (.inl h4)
        · rw [h5]; simp
        · exact I u (.inr (.inl ⟨t0, h4⟩))
        · rw [h4] at hu; simp [Looking] at hu
        · rw [h4] at hu; simp [Looking] at hu
      · exact I u (by simpa [St.goto, upd_other _ _ hut] using hu)
    · exact quiet _
    · exact quiet _
    · intro u hu
      by_cases hut : u = t
      · subst hut; exact absurd hu (by simp [St.done, not_looking_idle])
      · have hu' : Looking (s.pcs u) := by simpa [St.done, upd_other _ _ hut] using hu
        exact absurd (h1 u t hu' (.inr (.inr (.inr h3)))) hut
    · exact quiet _

theorem Undisturbed.init {as : List Act} {a : Act} (h : Undisturbed (as ++ [a])) : Undisturbed as := by
  intro pre b post e
  exact h pre b (post ++ [a]) (by rw [e]; simp)

theorem kept_run (as : List Act) (h : Undisturbed as) : Kept (run as) := by
  induction as using snoc_ind with
  | h0 => intro t ht; exact absurd ht not_looking_idle
  | h1 l a ih =>
    rw [run_snoc]
    have := h l a [] (by simp)
    exact kept_step _ _ (ih h.init) this.1 this.2

/-- **C265, without interference.** If no two threads are between their first and last look at the time until which the service is unavailable, and success() is not called while one is, then no call raises TypeError: each ends by returning or by WouldWaitMore.  Failures may be told at any time. -/
theorem C265_no_type_error_partial (as : List Act) (h : Undisturbed as) (t : Nat) : .typeError t ∉ (run as).log := by
  induction as using snoc_ind with
  | h0 => simp [run]
  | h1 as a ih =>
    rw [run_snoc]
    rcases step_log (run as) a with h2 | ⟨e, h2, -, -, h3⟩
    · rw [h2]; exact ih h.init
    · rw [h2]
      intro hm
      rcases List.mem_append.1 hm with hm | hm
      · exact ih h.init hm
      · have := h3 t (by simpa using (List.mem_singleton.1 hm).symm)
        exact kept_run as h.init t this.1 this.2

theorem others_idle (t : Nat) (as : List Act) (h : ∀ a ∈ as, ∀ u to, u ≠ t → a ≠ .wait u to) (u : Nat) (hu : u ≠ t) : (run as).pcs u = .idle := by
  induction as using snoc_ind with
  | h0 => rfl
  | h1 as a ih =>
    replace ih := ih (fun b hb => h b (List.mem_append_left _ hb))
    rw [run_snoc]
    cases a with
    | tick d => exact ih
    | failed w => unfold step; dsimp only; split <;> exact ih
    | success => unfold step; dsimp only; split <;> exact ih
    | notify =>
      unfold step; dsimp only; split
      · simp [ih]
      · exact ih
    | wait v to =>
      have hv : v = t := Classical.byContradiction fun hv => h (.wait v to) (by simp) v to hv rfl
      subst hv
      simp only [step]
      split
      · simpa [upd_other _ _ hu] using ih
      · exact ih
    | go v =>
      show ((run as).go v).pcs u = .idle
      rcases go_cases (run as) v with h | ⟨p, hp, ht, h, -⟩ | ⟨-, -, h⟩ | ⟨-, -, h⟩ | ⟨-, h⟩ | ⟨-, -, h⟩ <;> rw [h]
      · exact ih
      · have : u ≠ v := by rintro rfl; exact ht ih
        simpa [St.goto, upd_other _ _ this] using ih
      all_goals
        by_cases huv : u = v
        · subst huv; simp [St.done]
        · simpa [St.done, upd_other _ _ huv] using ih

/-- one waiting thread, and no `success`: nothing interferes -/
theorem undisturbed_alone (t : Nat) (as : List Act) (h : ∀ a ∈ as, a ≠ .success ∧ ∀ u to, u ≠ t → a ≠ .wait u to) : Undisturbed as := by
  intro pre a post e
  refine ⟨?_, fun _ _ => (h a (by simp [e])).1⟩
  have hp := others_idle t pre (fun b hb => (h b (by simp [e, hb])).2)
  have : ∀ u, Looking ((run pre).pcs u) → u = t := by
    intro u hu
    refine Classical.byContradiction fun hut => ?_
    rw [hp u hut] at hu
    exact not_looking_idle hu
  intro u v hu hv
  rw [this u hu, this v hv]

example : let as : List Act := [.failed 2, .wait 1 none, .go 1, .go 1, .go 1, .failed 3, .go 1, .go 1, .go 1, .tick 4, .go 1, .go 1, .go 1, .go 1, .go 1, .go 1]
    Undisturbed as ∧ (run as).log = [.failed 2, .called 1 none 0, .failed 3, .returned 1 4] := by
  refine ⟨undisturbed_alone 1 _ ?_, by decide +kernel⟩
  intro a ha
  simp at ha
  rcases ha with rfl | rfl | rfl | rfl | rfl | rfl | rfl <;> simp <;> omega

/-- `success()` wakes one that waits, and the next failure counts; a timeout is over at its last moment -/
example : (run [.failed 5, .wait 1 none, .go 1, .go 1, .go 1, .go 1, .go 1, .go 1, .success, .notify, .go 1, .go 1, .failed 3]).log = [.failed 5, .called 1 none 0, .success, .returned 1 0, .failed 3] ∧
    (run [.failed 5, .wait 1 (some 2), .tick 2, .go 1]).log = [.failed 5, .called 1 (some 2) 0, .wouldWait 1 2] := by decide +kernel

/-- **C265, after a success.** When `success()` has notified, nobody waits: all who waited go on by themselves. -/
theorem C265_woken_partial (as : List Act) (t : Nat) (d : Int) : (run (as ++ [.success, .notify])).pcs t ≠ .waiting d := by
  rw [show as ++ [Act.success, .notify] = (as ++ [.success]) ++ [.notify] by simp, run_snoc, run_snoc]
  intro h
  by_cases ho : (run as).owing = true
  · simp only [step, ho, if_true] at h
    split at h <;> simp_all
  · simp only [step, ho] at h
    simp at h
    split at h <;> simp_all

/-- **C265 is violated**: a call raises TypeError when success() comes between two of its looks at the time until which the service is unavailable, either before it compares or before it subtracts. -/
theorem C265_success_violates :
    (run [.failed 2, .wait 1 none, .go 1, .go 1, .success]).until_ = none ∧
    (run [.failed 2, .wait 1 none, .go 1, .go 1, .success, .notify, .go 1, .go 1]).log = [.failed 2, .called 1 none 0, .success, .typeError 1] ∧
    (run [.failed 2, .wait 1 none, .go 1, .go 1, .go 1, .go 1, .success, .notify, .go 1]).log = [.failed 2, .called 1 none 0, .success, .typeError 1] := by decide +kernel

/-- **C265 is violated**: also without any success(), when two threads find out at once that the wait is over; as the class says, one thread alone called failed(), and the others wait_until_available. -/
theorem C265_two_waiting_violates :
    (run [.failed 2, .tick 3, .wait 1 none, .wait 2 none, .go 1, .go 2, .go 1, .go 2, .go 1, .go 2, .go 1, .go 1, .go 2]).log =
      [.failed 2, .called 1 none 3, .called 2 none 3, .returned 1 3, .typeError 2] := by decide +kernel

/-! ### Failures that are forgotten -/

/-- what the object remembers is what it was told, unless that is over -/
structure Honest (s : St) : Prop where
  until_ : s.until_ = unavailable s.log ∨ (s.until_ = none ∧ ∀ d, unavailable s.log = some d → d < s.now)
  compare : ∀ t t0, s.pcs t = .compare t0 → t0 ≤ s.now
  clear : ∀ t, s.pcs t = .clear → ∀ d, unavailable s.log = some d → d < s.now

theorem honest_done {s : St} {t : Nat} {e : Ev} (I : Honest s) (he : unavailable (s.log ++ [e]) = unavailable s.log) : Honest (s.done t e) := by
  refine ⟨by simpa only [St.done, he] using I.until_, ?_, ?_⟩
  · intro u t0 hu
    by_cases hut : u = t
    · subst hut; simp [St.done] at hu
    · exact I.compare u t0 (by simpa [St.done, upd_other _ _ hut] using hu)
  · intro u hu
    by_cases hut : u = t
    · subst hut; simp [St.done] at hu
    · have := I.clear u (by simpa [St.done, upd_other _ _ hut] using hu)
      simpa only [St.done, he] using this

theorem honest_step (s : St) (a : Act) (I : Honest s) (h1 : ∀ w t, a = .failed w → s.pcs t ≠ .clear) : Honest (step s a) := by
  cases a with
  | tick d =>
    refine ⟨?_, ?_, ?_⟩
    · rcases I.until_ with h | ⟨h, h2⟩
      · exact .inl h
      · refine .inr ⟨h, fun d' hd => ?_⟩
        have := h2 d' hd
        simp only [step]; omega
    · intro t t0 h
      have := I.compare t t0 h
      simp only [step]; omega
    · intro t h d' hd
      have := I.clear t h d' hd
      simp only [step]; omega
  | failed w =>
    by_cases ho : s.owing = true
    · simpa only [step, if_pos ho] using I
    · simp only [step, if_neg ho]
      refine ⟨.inl (by rw [unavailable_snoc]), I.compare, ?_⟩
      intro t h; exact absurd h (h1 w t rfl)
  | success =>
    by_cases ho : s.owing = true
    · simpa only [step, if_pos ho] using I
    · simp only [step, if_neg ho]
      refine ⟨.inl (by rw [unavailable_snoc]), I.compare, ?_⟩
      intro t h d hd
      rw [unavailable_snoc] at hd; cases hd
  | notify =>
    by_cases ho : s.owing = true
    · simp only [step, if_pos ho]
      refine ⟨I.until_, ?_, ?_⟩
      · intro t t0 h
        refine I.compare t t0 ?_
        dsimp only at h
        cases hp : s.pcs t <;> simp_all
      · intro t h
        refine I.clear t ?_
        dsimp only at h
        cases hp : s.pcs t <;> simp_all
    · simpa only [step, if_neg ho] using I
  | wait t to =>
    cases h : s.pcs t with
    | idle =>
      simp only [step, h]
      have he : unavailable (s.log ++ [.called t to s.now]) = unavailable s.log := by rw [unavailable_snoc]
      refine ⟨by simpa only [he] using I.until_, ?_, ?_⟩
      · intro u t0 hu
        by_cases hut : u = t
        · subst hut; simp at hu
        · exact I.compare u t0 (by simpa [upd_other _ _ hut] using hu)
      · intro u hu
        by_cases hut : u = t
        · subst hut; simp at hu
        · have := I.clear u (by simpa [upd_other _ _ hut] using hu)
          simpa only [he] using this
    | _ => simpa only [step, h] using I
  | go t =>
    show Honest (s.go t)
    rcases go_cases s t with h | ⟨p, hp, ht, h, hq⟩ | ⟨-, -, h⟩ | ⟨-, -, h⟩ | ⟨h3, h⟩ | ⟨-, -, h⟩ <;> rw [h]
    · exact I
    · refine ⟨I.until_, ?_, ?_⟩
      · intro u t0 hu
        by_cases hut : u = t
        · subst hut
          simp only [St.goto, upd_same] at hu ⊢
          subst hu
          rcases hq with h4 | h4 | ⟨h4, -⟩ | ⟨h4, -⟩ | ⟨t0, u', h4, h5, -, h6⟩ | ⟨t0, h4, h6⟩ | ⟨tn, h4⟩ | ⟨d, h4⟩ <;> try cases h4
          · exact Int.le_refl _
          · cases h6
          · cases h6
        · exact I.compare u t0 (by simpa [St.goto, upd_other _ _ hut] using hu)
      · intro u hu
        by_cases hut : u = t
        · subst hut
          simp only [St.goto, upd_same] at hu ⊢
          subst hu
          rcases hq with h4 | h4 | ⟨h4, -⟩ | ⟨h4, -⟩ | ⟨t0, u', h4, h5, h6, -⟩ | ⟨t0, h4, h6⟩ | ⟨tn, h4⟩ | ⟨d, h4⟩ <;> try cases h4
          · intro d hd
            have hc := I.compare _ _ h4
            rcases I.until_ with h7 | ⟨h7, -⟩
            · rw [h5, hd] at h7
              cases h7; omega
            · rw [h5] at h7; cases h7
          · cases h6
        · exact I.clear u (by simpa [St.goto, upd_other _ _ hut] using hu)
    · exact honest_done I (by rw [unavailable_snoc])
    · exact honest_done I (by rw [unavailable_snoc])
    · exact honest_done (s := { s with until_ := none }) ⟨.inr ⟨rfl, I.clear t h3⟩, I.compare, I.clear⟩ (by rw [unavailable_snoc])
    · exact honest_done I (by rw [unavailable_snoc])

theorem Unspoilt.init {as : List Act} {a : Act} (h : Unspoilt (as ++ [a])) : Unspoilt as := by
  intro pre w post e
  exact h pre w (post ++ [a]) (by rw [e]; simp)

theorem honest_run (as : List Act) (h : Unspoilt as) : Honest (run as) := by
  induction as using snoc_ind with
  | h0 => exact ⟨.inl rfl, fun t t0 h => by simp [run] at h, fun t h => by simp [run] at h⟩
  | h1 l a ih =>
    rw [run_snoc]
    exact honest_step _ _ (ih h.init) (fun w t e => h l w [] (by simp [e]) t)

/-- **C266, when nothing fails just then.** If failed() is never called between the moment at which a call of wait_until_available finds the wait to be over and the moment at which it says so, then a call returns only when the service is available: there was no failure since the last success, or the time to wait after the last one is over. -/
theorem C266_returns_partial (as : List Act) (h : Unspoilt as) (t : Nat) (c : Int) (l1 l2 : List Ev) (hl : (run as).log = l1 ++ .returned t c :: l2) :
    ∀ d, unavailable l1 = some d → d < c := by
  induction as using snoc_ind generalizing l1 l2 with
  | h0 => simp [run] at hl
  | h1 as a ih =>
    rw [run_snoc] at hl
    rcases step_log (run as) a with h2 | ⟨e, h2, -, h3, -⟩
    · exact ih h.init l1 l2 (by rw [← h2]; exact hl)
    · rw [h2] at hl
      rcases split_snoc hl with ⟨post', -, h4⟩ | ⟨-, h4, h5⟩
      · exact ih h.init l1 post' h4
      · obtain ⟨-, hc, h6⟩ := h3 t c h5.symm
        have I := honest_run as h.init
        rw [h4, hc]
        rcases h6 with ⟨-, h6⟩ | h6
        · rcases I.until_ with h7 | ⟨-, h7⟩
          · rw [h6] at h7
            intro d hd; rw [hd] at h7; cases h7
          · exact h7
        · exact I.clear t h6

example : let as : List Act := [.failed 2, .wait 1 none, .go 1, .go 1, .go 1, .go 1, .go 1, .go 1, .tick 3, .go 1, .go 1, .go 1, .go 1, .go 1, .go 1]
    Unspoilt as ∧ (run as).log = [.failed 2, .called 1 none 0, .returned 1 3] := by
  refine ⟨?_, by decide +kernel⟩
  intro pre w post e t
  cases pre with
  | nil => simp [run]
  | cons x pre =>
    exfalso
    have hm : Act.failed w ∈ ([.wait 1 none, .go 1, .go 1, .go 1, .go 1, .go 1, .go 1, .tick 3, .go 1, .go 1, .go 1, .go 1, .go 1, .go 1] : List Act) := by
      have := (List.cons.inj e).2
      rw [this]; simp
    simp at hm

/-- **C266 is violated**: a thread finds the wait to be over; then a new failure is told, and the thread forgets it.  The thread returns, and so does every later call at once, although the service is unavailable for as long as you like. -/
theorem C266_forgotten_violates (w : Nat) :
    (run [.failed 2, .tick 3, .wait 1 none, .go 1, .go 1, .go 1, .go 1, .failed w, .go 1, .wait 2 none, .go 2, .go 2]).log =
      [.failed 2, .called 1 none 3, .failed (3 + w), .returned 1 3, .called 2 none 3, .returned 2 3] := by
  simp [run, step, St.go, St.goto, St.done, upd, over]

end Verif.Time.BackoffThreads
