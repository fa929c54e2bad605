/-!
# `CallNoOftenThan` called by threads, C284

Every read of the clock, the comparison with `last_called` and its assignment are steps of their own, and so is the end of the wrapped function.
-/
namespace Verif.Group.Often

/-- where a thread is in `__call__`: not in it; before the clock is read; before the comparison; in the function; before the clock is read again; before the assignment,
/repo/satella/coding/concurrent/callablegroup.py:212-215 -/
inductive Pc where
  | idle
  | clock
  | compare (n : Int)
  | within
  | again
  | assign (m : Int)

/-- what is seen: a call; one that did not call the function, having read `n` from the clock; one that called it, having read `n`; the function returned, and the clock showed `m` after that; the call returned or raised.
(Part of the model of `CallNoOftenThan`, /repo/satella/coding/concurrent/callablegroup.py:194-215.) -/
inductive Ev where
  | called (t : Nat)
  | suppressed (t : Nat) (n : Int)
  | begun (t : Nat) (n : Int)
  | finished (t : Nat) (m : Int)
  | returned (t : Nat)
  | raised (t : Nat)
  deriving DecidableEq

/-- the clock, `last_called`, the threads and what was seen, /repo/satella/coding/concurrent/callablegroup.py:207-210 -/
structure St where
  now : Int
  last : Int := 0
  pcs : Nat → Pc := fun _ => .idle
  log : List Ev := []

/-- time passes; a thread calls the object; a thread goes on (out of the function if it is there); the function raises in a thread.
(Part of the model of `CallNoOftenThan`, /repo/satella/coding/concurrent/callablegroup.py:194-215.) -/
inductive Act where
  | tick (d : Nat)
  | call (t : Nat)
  | go (t : Nat)
  | raise (t : Nat)

/-- an entry of a map set.  (Part of the model of `CallNoOftenThan`, /repo/satella/coding/concurrent/callablegroup.py:194-215.) -/
def upd (f : Nat → Pc) (t : Nat) (p : Pc) : Nat → Pc := fun u => if u = t then p else f u

/-- one step, `__call__`, /repo/satella/coding/concurrent/callablegroup.py:212-215 -/
def step (interval : Int) (s : St) : Act → St
  | .tick d => { s with now := s.now + d }
  | .call t =>
    match s.pcs t with
    | .idle => { s with pcs := upd s.pcs t .clock, log := s.log ++ [.called t] }
    | _ => s
  | .raise t =>
    match s.pcs t with
    | .within => { s with pcs := upd s.pcs t .idle, log := s.log ++ [.raised t] }
    | _ => s
  | .go t =>
    match s.pcs t with
    | .idle => s
    | .clock => { s with pcs := upd s.pcs t (.compare s.now) }
    | .compare n =>
      if n - s.last ≥ interval then { s with pcs := upd s.pcs t .within, log := s.log ++ [.begun t n] }
      else { s with pcs := upd s.pcs t .idle, log := s.log ++ [.suppressed t n] }
    | .within => { s with pcs := upd s.pcs t .again }
    | .again => { s with pcs := upd s.pcs t (.assign s.now), log := s.log ++ [.finished t s.now] }
    | .assign m => { s with last := m, pcs := upd s.pcs t .idle, log := s.log ++ [.returned t] }

/-- a history of an object made when the clock shows `t0`.  (Part of the model of `CallNoOftenThan`, /repo/satella/coding/concurrent/callablegroup.py:194-215.) -/
def run (interval t0 : Int) (acts : List Act) : St := acts.foldl (step interval) { now := t0 }

/-! ## Specification -/

/-- the event ends a call by `t` -/
def Ev.ends (t : Nat) : Ev → Prop
  | .suppressed u _ => u = t
  | .returned u => u = t
  | .raised u => u = t
  | _ => False

/-- no call is made while another one is underway -/
def Alone (log : List Ev) : Prop := ∀ a t b, log = a ++ .called t :: b → ∀ c u d, a = c ++ .called u :: d → ∃ e ∈ d, e.ends u

/-! ## Proofs -/

theorem snoc_ind {β : Type _} {P : List β → Prop} (l : List β) (h0 : P []) (h1 : ∀ l a, P l → P (l ++ [a])) : P l := by
  suffices h : ∀ l : List β, P l.reverse by simpa using h l.reverse
  intro l
  induction l with
  | nil => exact h0
  | cons a l ih => simpa using h1 _ a ih

theorem run_snoc (interval t0 : Int) (p : List Act) (a : Act) : run interval t0 (p ++ [a]) = step interval (run interval t0 p) a := by simp [run]

theorem snoc_split {β : Type _} {l a b : List β} {x y : β} (h : l ++ [y] = a ++ x :: b) : (l = a ∧ y = x) ∨ ∃ b', l = a ++ x :: b' := by
  rcases List.eq_nil_or_concat b with rfl | ⟨b', z, rfl⟩
  · have := List.append_inj' h rfl
    exact .inl ⟨this.1, by simpa using this.2⟩
  · have h : l ++ [y] = (a ++ x :: b') ++ [z] := by rw [h]; simp
    exact .inr ⟨b', (List.append_inj' h rfl).1⟩

theorem Alone.prefix {l : List Ev} {e : Ev} (h : Alone (l ++ [e])) : Alone l := fun a t b h1 => h a t (b ++ [e]) (by rw [h1]; simp)

/-- what holds in all histories -/
structure Inv (interval : Int) (s : St) : Prop where
  last : s.last = 0 ∨ ∃ u, .finished u s.last ∈ s.log
  assign : ∀ t m, s.pcs t = .assign m → .finished t m ∈ s.log
  now : ∀ u m, .finished u m ∈ s.log → m ≤ s.now
  sup : ∀ a t n b, s.log = a ++ .suppressed t n :: b → n < interval ∨ ∃ u m, .finished u m ∈ a ∧ n < m + interval
  opened : ∀ t, s.pcs t ≠ .idle → ∃ a b, s.log = a ++ .called t :: b ∧ ∀ e ∈ b, ¬ e.ends t

/-- what holds besides if calls are alone -/
structure One (interval : Int) (s : St) : Prop where
  one : ∀ t u, s.pcs t ≠ .idle → s.pcs u ≠ .idle → t = u
  below : (∀ t m, s.pcs t ≠ .assign m) → ∀ u m, .finished u m ∈ s.log → m ≤ s.last
  top : ∀ t n, s.pcs t = .assign n → ∀ u m, .finished u m ∈ s.log → m ≤ n
  ok : ∀ a t n b, s.log = a ++ .begun t n :: b → ∀ u m, .finished u m ∈ a → m + interval ≤ n

theorem opened_log {s : St} {pcs : Nat → Pc} {e : Ev} (h : ∀ t, s.pcs t ≠ .idle → ∃ a b, s.log = a ++ .called t :: b ∧ ∀ e ∈ b, ¬ e.ends t)
    (t : Nat) (hp : pcs t ≠ .idle → s.pcs t ≠ .idle ∧ ¬ e.ends t) (ht : pcs t ≠ .idle) : ∃ a b, s.log ++ [e] = a ++ .called t :: b ∧ ∀ e ∈ b, ¬ e.ends t := by
  obtain ⟨h1, h2⟩ := hp ht
  obtain ⟨a, b, h3, h4⟩ := h t h1
  refine ⟨a, b ++ [e], by rw [h3]; simp, fun e' he' => ?_⟩
  rcases List.mem_append.1 he' with he' | he'
  · exact h4 e' he'
  · rw [List.mem_singleton.1 he']; exact h2

theorem inv_step (interval : Int) (s : St) (a : Act) (H : Inv interval s) : Inv interval (step interval s a) := by
  -- an event that is no suppression
  have sup : ∀ e : Ev, (∀ t n, e ≠ .suppressed t n) → ∀ a t n b, s.log ++ [e] = a ++ .suppressed t n :: b → n < interval ∨ ∃ u m, .finished u m ∈ a ∧ n < m + interval := by
    intro e he a t n b h
    rcases snoc_split h with ⟨_, h2⟩ | ⟨b', h2⟩
    · exact absurd h2 (he t n)
    · exact H.sup a t n b' h2
  cases a with
  | tick d => exact ⟨H.last, H.assign, fun u m h => by have := H.now u m h; simp only [step]; omega, H.sup, H.opened⟩
  | call t =>
    simp only [step]
    split
    · rename_i hp
      refine ⟨H.last.imp_right (fun ⟨u, h⟩ => ⟨u, by simp [h]⟩), fun u m h => ?_, fun u m h => H.now u m (by simpa using h), sup _ nofun, fun u hu => ?_⟩
      · by_cases hut : u = t
        · simp [upd, hut] at h
        · simp [upd, hut] at h; simp [H.assign u m h]
      · by_cases hut : u = t
        · subst hut; exact ⟨s.log, [], rfl, nofun⟩
        · exact opened_log (pcs := upd s.pcs t .clock) H.opened u (fun h => ⟨by simpa [upd, hut] using h, by simp [Ev.ends]⟩) hu
    · exact H
  | raise t =>
    simp only [step]
    split
    · rename_i hp
      refine ⟨H.last.imp_right (fun ⟨u, h⟩ => ⟨u, by simp [h]⟩), fun u m h => ?_, fun u m h => H.now u m (by simpa using h), sup _ nofun, fun u hu => ?_⟩
      · by_cases hut : u = t
        · simp [upd, hut] at h
        · simp [upd, hut] at h; simp [H.assign u m h]
      · by_cases hut : u = t
        · simp [upd, hut] at hu
        · exact opened_log (pcs := upd s.pcs t .idle) H.opened u (fun h => ⟨by simpa [upd, hut] using h, by simp [Ev.ends]; exact fun h => hut h.symm⟩) hu
    · exact H
  | go t =>
    simp only [step]
    split
    · exact H
    · rename_i hp
      refine ⟨H.last, fun u m h => ?_, H.now, H.sup, fun u hu => H.opened u ?_⟩
      · by_cases hut : u = t
        · simp [upd, hut] at h
        · simp [upd, hut] at h; exact H.assign u m h
      · by_cases hut : u = t
        · rw [hut, hp]; simp
        · simpa [upd, hut] using hu
    · rename_i n hp
      split
      · refine ⟨H.last.imp_right (fun ⟨u, h⟩ => ⟨u, by simp [h]⟩), fun u m h => ?_, fun u m h => H.now u m (by simpa using h), sup _ nofun, fun u hu => ?_⟩
        · by_cases hut : u = t
          · simp [upd, hut] at h
          · simp [upd, hut] at h; simp [H.assign u m h]
        · refine opened_log (pcs := upd s.pcs t .within) H.opened u (fun h => ⟨?_, by simp [Ev.ends]⟩) hu
          by_cases hut : u = t
          · rw [hut, hp]; simp
          · simpa [upd, hut] using h
      · rename_i hlt
        refine ⟨H.last.imp_right (fun ⟨u, h⟩ => ⟨u, by simp [h]⟩), fun u m h => ?_, fun u m h => H.now u m (by simpa using h), fun a u k b h => ?_, fun u hu => ?_⟩
        · by_cases hut : u = t
          · simp [upd, hut] at h
          · simp [upd, hut] at h; simp [H.assign u m h]
        · rcases snoc_split h with ⟨h1, h2⟩ | ⟨b', h2⟩
          · cases h2
            rw [← h1]
            rcases H.last with h3 | ⟨v, h3⟩
            · left; omega
            · right; exact ⟨v, _, h3, by omega⟩
          · exact H.sup a u k b' h2
        · by_cases hut : u = t
          · simp [upd, hut] at hu
          · exact opened_log (pcs := upd s.pcs t .idle) H.opened u (fun h => ⟨by simpa [upd, hut] using h, by simp [Ev.ends]; exact fun h => hut h.symm⟩) hu
    · rename_i hp
      refine ⟨H.last, fun u m h => ?_, H.now, H.sup, fun u hu => H.opened u ?_⟩
      · by_cases hut : u = t
        · simp [upd, hut] at h
        · simp [upd, hut] at h; exact H.assign u m h
      · by_cases hut : u = t
        · rw [hut, hp]; simp
        · simpa [upd, hut] using hu
    · rename_i hp
      refine ⟨H.last.imp_right (fun ⟨u, h⟩ => ⟨u, by simp [h]⟩), fun u m h => ?_, fun u m h => ?_, sup _ nofun, fun u hu => ?_⟩
      · by_cases hut : u = t
        · simp [upd, hut] at h; simp [hut, h]
        · simp [upd, hut] at h; simp [H.assign u m h]
      · rcases List.mem_append.1 h with h | h
        · exact H.now u m h
        · cases List.mem_singleton.1 h; exact Int.le_refl _
      · refine opened_log (pcs := upd s.pcs t (.assign s.now)) H.opened u (fun h => ⟨?_, by simp [Ev.ends]⟩) hu
        by_cases hut : u = t
        · rw [hut, hp]; simp
        · simpa [upd, hut] using h
    · rename_i m hp
      refine ⟨.inr ⟨t, by simp [H.assign t m hp]⟩, fun u m h => ?_, fun u m h => H.now u m (by simpa using h), sup _ nofun, fun u hu => ?_⟩
      · by_cases hut : u = t
        · simp [upd, hut] at h
        · simp [upd, hut] at h; simp [H.assign u m h]
      · by_cases hut : u = t
        · simp [upd, hut] at hu
        · exact opened_log (pcs := upd s.pcs t .idle) H.opened u (fun h => ⟨by simpa [upd, hut] using h, by simp [Ev.ends]; exact fun h => hut h.symm⟩) hu

theorem inv_run (interval t0 : Int) (p : List Act) : Inv interval (run interval t0 p) := by
  induction p using snoc_ind with
  | h0 => exact ⟨.inl rfl, nofun, nofun, fun a t n b h => by simp [run] at h, fun t h => absurd rfl h⟩
  | h1 p a ih => rw [run_snoc]; exact inv_step interval _ a ih

/-- the log grows by at most one event -/
theorem log_step (interval : Int) (s : St) (a : Act) : (step interval s a).log = s.log ∨ ∃ e, (step interval s a).log = s.log ++ [e] := by
  cases a <;> simp only [step] <;> repeat' split
  all_goals first | exact .inl rfl | exact .inl trivial | exact .inr ⟨_, rfl⟩

theorem one_step (interval : Int) (s : St) (a : Act) (H : Inv interval s) (O : One interval s) (hA : Alone (step interval s a).log) : One interval (step interval s a) := by
  have ok : ∀ e : Ev, (∀ t n, e ≠ .begun t n) → ∀ a t n b, s.log ++ [e] = a ++ .begun t n :: b → ∀ u m, .finished u m ∈ a → m + interval ≤ n := by
    intro e he a t n b h
    rcases snoc_split h with ⟨_, h2⟩ | ⟨b', h2⟩
    · exact absurd h2 (he t n)
    · exact O.ok a t n b' h2
  -- only a thread that is in a call goes on
  have one : ∀ t p, s.pcs t ≠ .idle → ∀ u v, upd s.pcs t p u ≠ .idle → upd s.pcs t p v ≠ .idle → u = v := by
    intro t p ht u v hu hv
    have : ∀ w, upd s.pcs t p w ≠ .idle → w = t := by
      intro w hw
      by_cases hwt : w = t
      · exact hwt
      · exact O.one w t (by simpa [upd, hwt] using hw) ht
    rw [this u hu, this v hv]
  -- no thread but one that is in a call assigns
  have none_ : ∀ t p, s.pcs t ≠ .idle → (∀ m, p ≠ .assign m) → ∀ u m, upd s.pcs t p u ≠ .assign m := by
    intro t p ht hp u m h
    by_cases hut : u = t
    · simp [upd, hut] at h; exact hp m h
    · simp [upd, hut] at h; exact hut (O.one u t (by rw [h]; simp) ht)
  have none' : ∀ t, s.pcs t ≠ .idle → (∀ m, s.pcs t ≠ .assign m) → ∀ u m, s.pcs u ≠ .assign m := by
    intro t ht hp u m h
    have := O.one u t (by rw [h]; simp) ht
    exact hp m (this ▸ h)
  cases a with
  | tick d => exact ⟨O.one, O.below, O.top, O.ok⟩
  | call t =>
    simp only [step] at hA ⊢
    split
    · rename_i hp
      rw [hp] at hA
      dsimp only at hA
      have hall : ∀ u, s.pcs u = .idle := by
        intro u
        refine Classical.byContradiction fun hu => ?_
        obtain ⟨a, b, h1, h2⟩ := H.opened u hu
        obtain ⟨e, he, h3⟩ := hA s.log t [] rfl a u b h1
        exact h2 e he h3
      refine ⟨fun u v hu hv => ?_, fun _ u m h => O.below (fun u m => by rw [hall u]; simp) u m (by simpa using h), fun u n h => ?_, ok _ nofun⟩
      · have : ∀ w, upd s.pcs t .clock w ≠ .idle → w = t := fun w hw => Classical.byContradiction fun hwt => hw (by simp [upd, hwt, hall w])
        rw [this u hu, this v hv]
      · by_cases hut : u = t
        · simp [upd, hut] at h
        · simp [upd, hut, hall u] at h
    · exact O
  | raise t =>
    simp only [step]
    split
    · rename_i hp
      have ht : s.pcs t ≠ .idle := by rw [hp]; simp
      exact ⟨one t _ ht, fun _ u m h => O.below (none' t ht (by rw [hp]; simp)) u m (by simpa using h), fun u n h => absurd h (none_ t _ ht (by simp) u n), ok _ nofun⟩
    · exact O
  | go t =>
    simp only [step]
    split
    · exact O
    · rename_i hp
      have ht : s.pcs t ≠ .idle := by rw [hp]; simp
      exact ⟨one t _ ht, fun _ => O.below (none' t ht (by rw [hp]; simp)), fun u n h => absurd h (none_ t _ ht (by simp) u n), O.ok⟩
    · rename_i n hp
      have ht : s.pcs t ≠ .idle := by rw [hp]; simp
      have hbel := O.below (none' t ht (by rw [hp]; simp))
      split
      · rename_i hge
        refine ⟨one t _ ht, fun _ u m h => hbel u m (by simpa using h), fun u n h => absurd h (none_ t _ ht (by simp) u n), fun a u k b h v m hm => ?_⟩
        rcases snoc_split h with ⟨h1, h2⟩ | ⟨b', h2⟩
        · cases h2
          rw [← h1] at hm
          have := hbel v m hm
          omega
        · exact O.ok a u k b' h2 v m hm
      · exact ⟨one t _ ht, fun _ u m h => hbel u m (by simpa using h), fun u n h => absurd h (none_ t _ ht (by simp) u n), ok _ nofun⟩
    · rename_i hp
      have ht : s.pcs t ≠ .idle := by rw [hp]; simp
      exact ⟨one t _ ht, fun _ => O.below (none' t ht (by rw [hp]; simp)), fun u n h => absurd h (none_ t _ ht (by simp) u n), O.ok⟩
    · rename_i hp
      have ht : s.pcs t ≠ .idle := by rw [hp]; simp
      refine ⟨one t _ ht, fun h => absurd (by simp [upd]) (h t s.now), fun u n h v m hm => ?_, ok _ nofun⟩
      have hut : u = t := one t (.assign s.now) ht u t (by dsimp only at h; rw [h]; simp) (by simp [upd])
      simp [upd, hut] at h
      rcases List.mem_append.1 hm with hm | hm
      · rw [← h]; exact H.now v m hm
      · cases List.mem_singleton.1 hm; omega
    · rename_i k hp
      have ht : s.pcs t ≠ .idle := by rw [hp]; simp
      exact ⟨one t _ ht, fun _ u m h => O.top t k hp u m (by simpa using h), fun u n h => absurd h (none_ t _ ht (by simp) u n), ok _ nofun⟩

theorem one_run (interval t0 : Int) (p : List Act) (hA : Alone (run interval t0 p).log) : One interval (run interval t0 p) := by
  induction p using snoc_ind with
  | h0 => exact ⟨fun t u h => absurd rfl h, nofun, nofun, fun a t n b h => by simp [run] at h⟩
  | h1 p a ih =>
    rw [run_snoc] at hA ⊢
    refine one_step interval _ a (inv_run interval t0 p) (ih ?_) hA
    rcases log_step interval (run interval t0 p) a with h | ⟨e, h⟩
    · rw [h] at hA; exact hA
    · rw [h] at hA; exact hA.prefix

/-! ## C284 -/

/-- **C284 a call of a `CallNoOftenThan` by any of the threads does not call the function only if the function returned, from a call by whichever thread, less than the interval before the clock was read**, however the threads are interleaved; or if the clock shows less than the interval.
Missing: the latter case, where the very first call is suppressed, `C284_first_violates`. -/
theorem C284_suppressed_partial (interval t0 : Int) (acts : List Act) (a b : List Ev) (t : Nat) (n : Int) (h : (run interval t0 acts).log = a ++ .suppressed t n :: b) :
    n < interval ∨ ∃ u m, .finished u m ∈ a ∧ n < m + interval := (inv_run interval t0 acts).sup a t n b h

/-- **C284 if no call of a `CallNoOftenThan` is made while another one is underway, the function is called no sooner than the interval after it last returned**, whichever threads call.
Missing: calls made while others are underway, `C284_two_violates`; a function that raises is as in C48. -/
theorem C284_interval_partial (interval t0 : Int) (acts : List Act) (hA : Alone (run interval t0 acts).log) (a b : List Ev) (t : Nat) (n : Int)
    (h : (run interval t0 acts).log = a ++ .begun t n :: b) (u : Nat) (m : Int) (hm : .finished u m ∈ a) : m + interval ≤ n := (one_run interval t0 acts hA).ok a t n b h u m hm

/-- **C284 violated: two threads that call a `CallNoOftenThan` at once both call the function**, and one that read the clock long ago puts `last_called` back, so that a third call, made 1 second after the function returned, calls it again although the interval is 10. -/
theorem C284_two_violates :
    (run 10 100 [.call 0, .call 1, .go 0, .go 1, .go 0, .go 1]).log = [.called 0, .called 1, .begun 0 100, .begun 1 100] ∧
    (run 10 100 [.call 0, .call 1, .go 0, .go 1, .go 0, .go 1, .go 0, .go 1, .go 0, .tick 20, .go 1, .go 1, .go 0, .tick 1, .call 2, .go 2, .go 2]).log =
      [.called 0, .called 1, .begun 0 100, .begun 1 100, .finished 0 100, .finished 1 120, .returned 1, .returned 0, .called 2, .begun 2 121] := by decide

/-- **C284 violated: the first call of a `CallNoOftenThan` does not call the function, if the clock shows less than the interval.** -/
theorem C284_first_violates : (run 10 5 [.call 0, .go 0, .go 0]).log = [.called 0, .suppressed 0 5] := by decide

/-- two threads that call one after the other, soon and late -/
def two : List Act := [.call 0, .go 0, .go 0, .tick 3, .go 0, .go 0, .go 0, .tick 4, .call 1, .go 1, .go 1, .tick 6, .call 1, .go 1, .go 1]

/-- the hypotheses of `C284_suppressed_partial` and of `C284_interval_partial` are met -/
example : (run 10 100 two).log = [.called 0, .begun 0 100, .finished 0 103, .returned 0, .called 1, .suppressed 1 107, .called 1, .begun 1 113] := by decide

example : Alone (run 10 100 two).log := by
  rw [show (run 10 100 two).log = [.called 0, .begun 0 100, .finished 0 103, .returned 0, .called 1, .suppressed 1 107, .called 1, .begun 1 113] by decide]
  intro a t b h c u d hc
  subst hc
  rcases c with _ | ⟨x, _ | ⟨x, _ | ⟨x, _ | ⟨x, _ | ⟨x, _ | ⟨x, _ | ⟨x, c⟩⟩⟩⟩⟩⟩⟩ <;> simp at h
  · obtain ⟨rfl, h⟩ := h
    rcases d with _ | ⟨x, _ | ⟨x, _ | ⟨x, d⟩⟩⟩ <;> simp at h
    exact ⟨x, by simp, by rw [← h.2.2.1]; rfl⟩
  · obtain ⟨_, _, _, _, rfl, h⟩ := h
    rcases d with _ | ⟨x, d⟩ <;> simp at h
    exact ⟨x, by simp, by rw [← h.1]; rfl⟩
  · obtain ⟨_, _, _, _, _, _, _, h⟩ := h
    rcases d with _ | ⟨x, d⟩ <;> simp at h
  · obtain ⟨_, _, _, _, _, _, _, h⟩ := h
    rcases c with _ | ⟨x, c⟩ <;> simp at h

/-- a function that raises leaves `last_called` as it was -/
example : (run 10 100 [.call 0, .go 0, .go 0, .raise 0, .tick 1, .call 1, .go 1, .go 1]).log = [.called 0, .begun 0 100, .raised 0, .called 1, .begun 1 101] := by decide

end Verif.Group.Often
