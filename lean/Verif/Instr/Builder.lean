import Verif.Conc.MonitorProps
/-!
# The thread that builds CPU profiles (satella/instrumentation/cpu_time/collector.py); C257, C258

All functions about CPU use get "the" thread by `get_instance`.  Here threads do so while others do: no lock is taken, so reading and
writing the attribute `thread` of the class, and the steps of `start`, are steps of their own.  Objects are numbers, in the order in which they were made.
-/
namespace Verif.Instr.Builder
open Verif
open Verif.Conc (upd upd_same upd_other)

/-! ## Model -/

/-- where a thread is in `get_instance`, /repo/satella/instrumentation/cpu_time/collector.py:51-57, before line 54, 55, reading the attribute at 56, in `start` of the object `a`, /repo/satella/coding/concurrent/thread.py:156-166, before lines 162, 164, 165, and before line 57 -/
inductive Pc where
  | idle
  | look
  | make
  | load
  | flag (a : Nat)
  | mark (a : Nat)
  | launch (a : Nat)
  | last
  deriving DecidableEq, Repr

/-- what is seen: `get_instance` is called, it returns an object, it raises `RuntimeError`; a thread that builds profiles begins to run.  (Part of the model of `get_instance`, /repo/satella/instrumentation/cpu_time/collector.py:51-57.) -/
inductive Ev where
  | called (t : Nat)
  | returned (t a : Nat)
  | raised (t : Nat)
  | runs (a : Nat)
  deriving DecidableEq, Repr

/-- the attribute `thread` of the class, /repo/satella/instrumentation/cpu_time/collector.py:35, how many objects were made, which are marked as started, /repo/satella/coding/concurrent/thread.py:153, which run; the threads, and what was seen (not in the code) -/
structure St where
  cur : Option Nat := none
  made : Nat := 0
  started : Nat → Bool := fun _ => false
  running : Nat → Bool := fun _ => false
  pcs : Nat → Pc := fun _ => .idle
  log : List Ev := []

/-- what happens: a thread calls `get_instance`, or goes on by one step.  (Part of the model of `get_instance`, /repo/satella/instrumentation/cpu_time/collector.py:51-57.) -/
inductive Act where
  | call (t : Nat)
  | go (t : Nat)
  deriving DecidableEq, Repr

/-- A step of `get_instance`, /repo/satella/instrumentation/cpu_time/collector.py:51-57, with `start`, /repo/satella/coding/concurrent/thread.py:156-166; `Thread.start` of a thread that was started raises `RuntimeError`. -/
def step (s : St) : Act → St
  | .call t =>
    match s.pcs t with
    | .idle => { s with pcs := upd s.pcs t .look, log := s.log ++ [.called t] }
    | _ => s
  | .go t =>
    match s.pcs t with
    | .idle => s
    | .look => if s.cur = none then { s with pcs := upd s.pcs t .make } else { s with pcs := upd s.pcs t .last }
    | .make => { s with cur := some s.made, made := s.made + 1, pcs := upd s.pcs t .load }
    | .load =>
      match s.cur with
      | some a => { s with pcs := upd s.pcs t (.flag a) }
      | none => s
    | .flag a => if s.started a then { s with pcs := upd s.pcs t .last } else { s with pcs := upd s.pcs t (.mark a) }
    | .mark a => { s with started := upd s.started a true, pcs := upd s.pcs t (.launch a) }
    | .launch a =>
      if s.running a then { s with pcs := upd s.pcs t .idle, log := s.log ++ [.raised t] }
      else { s with running := upd s.running a true, pcs := upd s.pcs t .last, log := s.log ++ [.runs a] }
    | .last =>
      match s.cur with
      | some a => { s with pcs := upd s.pcs t .idle, log := s.log ++ [.returned t a] }
      | none => s

/-- everything that happens.  (Part of the model of `get_instance`, /repo/satella/instrumentation/cpu_time/collector.py:51-57.) -/
def run (as : List Act) : St := as.foldl step {}

/-! ## Specification -/

/-- how many calls the thread began -/
def nCalled (t : Nat) (log : List Ev) : Nat := log.countP (fun e => match e with | .called u => decide (u = t) | _ => false)

/-- how many calls of the thread ended -/
def nEnded (t : Nat) (log : List Ev) : Nat := log.countP (fun e => match e with | .returned u _ => decide (u = t) | .raised u => decide (u = t) | _ => false)

/-- every call ended -/
def Quiet (log : List Ev) : Prop := ∀ t, nCalled t log = nEnded t log

/-- no call begins while another thread is in one -/
def OneAtATime (as : List Act) : Prop := ∀ p, p <+: as → ∀ t u, nCalled t (run p).log ≠ nEnded t (run p).log → nCalled u (run p).log ≠ nEnded u (run p).log → t = u

/-! ## Proofs -/

theorem run_append (as bs : List Act) : run (as ++ bs) = bs.foldl step (run as) := by simp [run]

theorem run_snoc (as : List Act) (a : Act) : run (as ++ [a]) = step (run as) a := by simp [run]

theorem snoc_ind {α : Type} {P : List α → Prop} (h0 : P []) (h1 : ∀ l a, P l → P (l ++ [a])) (l : List α) : P l := by
  rw [← List.reverse_reverse l]
  induction l.reverse with
  | nil => exact h0
  | cons a l ih => rw [List.reverse_cons]; exact h1 _ _ ih

/-- a thread is in a call if and only if it began one more than it ended -/
def Counted (s : St) : Prop := ∀ t, nCalled t s.log = nEnded t s.log + (if s.pcs t = .idle then 0 else 1)

theorem counted_move {s s' : St} {t : Nat} {p : Pc} (h : Counted s) (ht : s.pcs t ≠ .idle) (hp : p ≠ .idle) (h1 : s'.pcs = upd s.pcs t p) (h2 : ∀ u, nCalled u s'.log = nCalled u s.log)
    (h3 : ∀ u, nEnded u s'.log = nEnded u s.log) : Counted s' := by
  intro u
  rw [h1, h2, h3, h u]
  by_cases hu : u = t
  · subst hu; rw [upd_same]; simp [ht, hp]
  · rw [upd_other _ _ hu]

theorem counted_end {s s' : St} {t : Nat} (h : Counted s) (ht : s.pcs t ≠ .idle) (h1 : s'.pcs = upd s.pcs t .idle) (h2 : ∀ u, nCalled u s'.log = nCalled u s.log)
    (h3 : ∀ u, nEnded u s'.log = nEnded u s.log + if t = u then 1 else 0) : Counted s' := by
  intro u
  rw [h1, h2, h3, h u]
  by_cases hu : u = t
  · subst hu; rw [upd_same]; simp [ht]
  · have hu' : t ≠ u := fun e => hu e.symm
    rw [upd_other _ _ hu]; simp [hu']

theorem counted_step {s : St} (h : Counted s) (a : Act) : Counted (step s a) := by
  cases a with
  | call t =>
    cases hpc : s.pcs t with
    | idle =>
      simp only [step, hpc]
      intro u
      have := h u
      by_cases hu : u = t
      · subst hu
        rw [hpc] at this
        simp [nCalled, nEnded, List.countP_append] at *
        exact this
      · have hu' : t ≠ u := fun e => hu e.symm
        simp [nCalled, nEnded, List.countP_append, upd_other _ _ hu, hu'] at *
        exact this
    | _ => simpa only [step, hpc] using h
  | go t =>
    have hne : ∀ {p : Pc}, s.pcs t = p → p ≠ .idle → s.pcs t ≠ .idle := fun h hp => by rw [h]; exact hp
    cases hpc : s.pcs t with
    | idle => simpa only [step, hpc] using h
    | look =>
      simp only [step, hpc]
      split
      · exact counted_move (p := .make) h (hne hpc (by simp)) (by simp) rfl (fun _ => rfl) (fun _ => rfl)
      · exact counted_move (p := .last) h (hne hpc (by simp)) (by simp) rfl (fun _ => rfl) (fun _ => rfl)
    | make => simp only [step, hpc]; exact counted_move (p := .load) h (hne hpc (by simp)) (by simp) rfl (fun _ => rfl) (fun _ => rfl)
    | load =>
      simp only [step, hpc]
      split
      · next a _ => exact counted_move (p := .flag a) h (hne hpc (by simp)) (by simp) rfl (fun _ => rfl) (fun _ => rfl)
      · exact h
    | flag a =>
      simp only [step, hpc]
      split
      · exact counted_move (p := .last) h (hne hpc (by simp)) (by simp) rfl (fun _ => rfl) (fun _ => rfl)
      · exact counted_move (p := .mark a) h (hne hpc (by simp)) (by simp) rfl (fun _ => rfl) (fun _ => rfl)
    | mark a => simp only [step, hpc]; exact counted_move (p := .launch a) h (hne hpc (by simp)) (by simp) rfl (fun _ => rfl) (fun _ => rfl)
    | launch a =>
      simp only [step, hpc]
      split
      · exact counted_end h (hne hpc (by simp)) rfl (fun u => by simp [nCalled]) (fun u => by simp [nEnded, List.countP_cons])
      · exact counted_move (p := .last) h (hne hpc (by simp)) (by simp) rfl (fun u => by simp [nCalled]) (fun u => by simp [nEnded])
    | last =>
      simp only [step, hpc]
      split
      · exact counted_end h (hne hpc (by simp)) rfl (fun u => by simp [nCalled]) (fun u => by simp [nEnded, List.countP_cons])
      · exact h

theorem counted_run (as : List Act) : Counted (run as) := by
  induction as using snoc_ind with
  | h0 => intro t; simp [run, nCalled, nEnded]
  | h1 l a ih => rw [run_snoc]; exact counted_step ih a

theorem idle_of_quiet {s : St} (h : Counted s) (hq : Quiet s.log) (t : Nat) : s.pcs t = .idle := by
  have h1 := h t
  have h2 := hq t
  refine Decidable.byContradiction (fun hh => ?_)
  rw [if_neg hh] at h1; omega

/-- a thread will start `a`, or find it started, if `cur` stays -/
def Toward (a : Nat) : Pc → Prop
  | .load => True
  | .flag b => b = a
  | .mark b => b = a
  | .launch b => b = a
  | _ => False

/-- what always holds -/
structure Inv (s : St) : Prop where
  cur : ∀ a, s.cur = some a → s.running a = true ∨ ∃ t, Toward a (s.pcs t)
  started : ∀ a, s.started a = true → s.running a = true ∨ ∃ t, s.pcs t = .launch a
  runs : ∀ a, .runs a ∈ s.log ↔ s.running a = true
  have_ : ∀ t, s.pcs t = .last ∨ s.pcs t = .load → s.cur ≠ none
  later : ∀ t a, (s.pcs t = .flag a ∨ s.pcs t = .mark a ∨ s.pcs t = .launch a) → s.cur ≠ none
  ended : ∀ t, (∃ a, .returned t a ∈ s.log) ∨ .raised t ∈ s.log → s.cur ≠ none

theorem inv_step {s : St} (I : Inv s) (a : Act) : Inv (step s a) := by
  obtain ⟨h1, h2, h3, h4, h5, h6⟩ := I
  have I : Inv s := ⟨h1, h2, h3, h4, h5, h6⟩
  -- a thread that moves and is not needed by others
  have move : ∀ {s' : St} {t : Nat} {p : Pc}, s'.pcs = upd s.pcs t p → s'.cur = s.cur → s'.started = s.started → s'.running = s.running →
      (∀ b, s.cur = some b → Toward b (s.pcs t) → Toward b p ∨ s.running b = true ∨ ∃ u, u ≠ t ∧ Toward b (s.pcs u)) →
      (∀ b, s.pcs t = .launch b → s.running b = true) →
      (∀ e, e ∈ s.log → e ∈ s'.log) → (∀ e, e ∈ s'.log → e ∈ s.log ∨ (∃ u, e = .called u) ∨ s.cur ≠ none ∧ ((∃ u b, e = .returned u b) ∨ ∃ u, e = .raised u)) →
      (p = .last ∨ p = .load ∨ (∃ b, p = .flag b ∨ p = .mark b ∨ p = .launch b) → s.cur ≠ none) → Inv s' := by
    intro s' t p hp hc hs hr ht hl hold hnew hn
    have other : ∀ {u : Nat} {q : Pc}, s'.pcs u = q → u = t ∧ q = p ∨ u ≠ t ∧ s.pcs u = q := by
      intro u q h
      rw [hp] at h
      by_cases hu : u = t
      · subst hu; rw [upd_same] at h; exact .inl ⟨rfl, h.symm⟩
      · rw [upd_other _ _ hu] at h; exact .inr ⟨hu, h⟩
    refine ⟨?_, ?_, ?_, ?_, ?_, ?_⟩
    · intro b hb
      rw [hc] at hb; rw [hr]
      rcases h1 b hb with h | ⟨u, h⟩
      · exact .inl h
      · by_cases hu : u = t
        · subst hu
          rcases ht b hb h with h | h | ⟨u', hu', h⟩
          · exact .inr ⟨u, by rw [hp, upd_same]; exact h⟩
          · exact .inl h
          · exact .inr ⟨u', by rw [hp, upd_other _ _ hu']; exact h⟩
        · exact .inr ⟨u, by rw [hp, upd_other _ _ hu]; exact h⟩
    · intro b hb
      rw [hs] at hb; rw [hr]
      rcases h2 b hb with h | ⟨u, h⟩
      · exact .inl h
      · by_cases hu : u = t
        · subst hu; exact .inl (hl b h)
        · exact .inr ⟨u, by rw [hp, upd_other _ _ hu]; exact h⟩
    · intro b
      rw [hr, ← h3 b]
      refine ⟨fun h => ?_, hold _⟩
      rcases hnew _ h with h | ⟨_, h⟩ | ⟨_, ⟨_, _, h⟩ | ⟨_, h⟩⟩
      · exact h
      · cases h
      · cases h
      · cases h
    · intro u hu
      rw [hc]
      rcases hu with hu | hu <;> rcases other hu with ⟨_, h⟩ | ⟨_, h⟩
      · exact hn (.inl h.symm)
      · exact h4 u (.inl h)
      · exact hn (.inr (.inl h.symm))
      · exact h4 u (.inr h)
    · intro u b hu
      rw [hc]
      rcases hu with hu | hu | hu <;> rcases other hu with ⟨_, h⟩ | ⟨_, h⟩
      · exact hn (.inr (.inr ⟨b, .inl h.symm⟩))
      · exact h5 u b (.inl h)
      · exact hn (.inr (.inr ⟨b, .inr (.inl h.symm)⟩))
      · exact h5 u b (.inr (.inl h))
      · exact hn (.inr (.inr ⟨b, .inr (.inr h.symm)⟩))
      · exact h5 u b (.inr (.inr h))
    · intro u hu
      rw [hc]
      rcases hu with ⟨b, hu⟩ | hu
      · rcases hnew _ hu with h | ⟨_, h⟩ | ⟨h, _⟩
        · exact h6 u (.inl ⟨b, h⟩)
        · cases h
        · exact h
      · rcases hnew _ hu with h | ⟨_, h⟩ | ⟨h, _⟩
        · exact h6 u (.inr h)
        · cases h
        · exact h
  have same : ∀ e, e ∈ s.log → e ∈ s.log ∨ (∃ u, e = .called u) ∨ s.cur ≠ none ∧ ((∃ u b, e = .returned u b) ∨ ∃ u, e = .raised u) := fun _ h => .inl h
  cases a with
  | call t =>
    cases hpc : s.pcs t with
    | idle =>
      simp only [step, hpc]
      refine move (t := t) (p := .look) rfl rfl rfl rfl (fun b _ h => by rw [hpc] at h; exact h.elim) (fun b h => by rw [hpc] at h; cases h) (fun e h => List.mem_append_left _ h) ?_ (by rintro (h | h | ⟨b, h | h | h⟩) <;> cases h)
      intro e h
      rcases List.mem_append.1 h with h | h
      · exact .inl h
      · exact .inr (.inl ⟨t, List.mem_singleton.1 h⟩)
    | _ => simpa only [step, hpc] using I
  | go t =>
    cases hpc : s.pcs t with
    | idle => simpa only [step, hpc] using I
    | look =>
      simp only [step, hpc]
      split
      · exact move (t := t) (p := .make) rfl rfl rfl rfl (fun b _ h => by rw [hpc] at h; exact h.elim) (fun b h => by rw [hpc] at h; cases h) (fun _ h => h) same (by rintro (h | h | ⟨b, h | h | h⟩) <;> cases h)
      · next hc => exact move (t := t) (p := .last) rfl rfl rfl rfl (fun b _ h => by rw [hpc] at h; exact h.elim) (fun b h => by rw [hpc] at h; cases h) (fun _ h => h) same (fun _ => hc)
    | make =>
      simp only [step, hpc]
      refine ⟨?_, ?_, h3, fun _ _ => by simp, fun _ _ _ => by simp, fun _ _ => by simp⟩
      · intro b hb
        exact .inr ⟨t, by dsimp only; rw [upd_same]; trivial⟩
      · intro b hb
        rcases h2 b hb with h | ⟨u, h⟩
        · exact .inl h
        · have hu : u ≠ t := fun e => by rw [e, hpc] at h; cases h
          exact .inr ⟨u, by dsimp only; rw [upd_other _ _ hu]; exact h⟩
    | load =>
      have hn := h4 t (.inr hpc)
      simp only [step, hpc]
      split
      · next a ha =>
        refine move (t := t) (p := .flag a) rfl rfl rfl rfl (fun b hb _ => .inl ?_) (fun b h => by rw [hpc] at h; cases h) (fun _ h => h) same (fun _ => hn)
        rw [ha] at hb; exact Option.some.inj hb
      · exact I
    | flag a =>
      have hn := h5 t a (.inl hpc)
      simp only [step, hpc]
      split
      · next hst =>
        refine move (t := t) (p := .last) rfl rfl rfl rfl (fun b hb h => .inr ?_) (fun b h => by rw [hpc] at h; cases h) (fun _ h => h) same (fun _ => hn)
        rw [hpc] at h
        obtain rfl : a = b := h
        rcases h2 a hst with h | ⟨u, h⟩
        · exact .inl h
        · exact .inr ⟨u, fun e => by (rw [e, hpc] at h; cases h), by rw [h]; rfl⟩
      · exact move (t := t) (p := .mark a) rfl rfl rfl rfl (fun b hb h => .inl (by rw [hpc] at h; exact h)) (fun b h => by rw [hpc] at h; cases h) (fun _ h => h) same (fun _ => hn)
    | mark a =>
      have hn := h5 t a (.inr (.inl hpc))
      simp only [step, hpc]
      have J : Inv { s with pcs := upd s.pcs t (.launch a) } :=
        move (t := t) (p := .launch a) rfl rfl rfl rfl (fun b hb h => .inl (by rw [hpc] at h; exact h)) (fun b h => by rw [hpc] at h; cases h) (fun _ h => h) same (fun _ => hn)
      refine ⟨J.cur, ?_, J.runs, J.have_, J.later, J.ended⟩
      intro b hb
      by_cases e : b = a
      · subst e; exact .inr ⟨t, by dsimp only; rw [upd_same]⟩
      · refine J.started b ?_
        have := upd_other s.started true e
        dsimp only at hb
        rw [this] at hb; exact hb
    | launch a =>
      have hn := h5 t a (.inr (.inr hpc))
      simp only [step, hpc]
      split
      · next hr =>
        refine move (t := t) (p := .idle) rfl rfl rfl rfl (fun b hb h => .inr (.inl ?_)) (fun b h => ?_) (fun e h => List.mem_append_left _ h) ?_ (fun _ => hn)
        · rw [hpc] at h; obtain rfl : a = b := h; exact hr
        · rw [hpc] at h; cases h; exact hr
        · intro e h
          rcases List.mem_append.1 h with h | h
          · exact .inl h
          · exact .inr (.inr ⟨hn, .inr ⟨t, List.mem_singleton.1 h⟩⟩)
      · have ru : ∀ {b}, s.running b = true → upd s.running a true b = true := by
          intro b hb
          by_cases e : b = a
          · rw [e, upd_same]
          · rw [upd_other _ _ e]; exact hb
        refine ⟨?_, ?_, ?_, ?_, ?_, ?_⟩
        · intro b hb
          by_cases e : b = a
          · rw [e]; exact .inl (by dsimp only; rw [upd_same])
          · rcases h1 b hb with h | ⟨u, h⟩
            · exact .inl (ru h)
            · have hu : u ≠ t := fun e' => by (rw [e', hpc] at h; exact e (Eq.symm h))
              exact .inr ⟨u, by dsimp only; rw [upd_other _ _ hu]; exact h⟩
        · intro b hb
          by_cases e : b = a
          · rw [e]; exact .inl (by dsimp only; rw [upd_same])
          · rcases h2 b hb with h | ⟨u, h⟩
            · exact .inl (ru h)
            · have hu : u ≠ t := fun e' => by (rw [e', hpc] at h; cases h; exact e rfl)
              exact .inr ⟨u, by dsimp only; rw [upd_other _ _ hu]; exact h⟩
        · intro b
          dsimp only
          by_cases e : b = a
          · subst e; simp
          · rw [upd_other _ _ e, ← h3 b]
            simp [e]
        · intro _ _; exact hn
        · intro _ _ _; exact hn
        · intro _ _; exact hn
    | last =>
      have hn := h4 t (.inl hpc)
      simp only [step, hpc]
      split
      · next a ha =>
        refine move (t := t) (p := .idle) rfl rfl rfl rfl (fun b _ h => by rw [hpc] at h; exact h.elim) (fun b h => by rw [hpc] at h; cases h) (fun e h => List.mem_append_left _ h) ?_ (fun _ => hn)
        intro e h
        rcases List.mem_append.1 h with h | h
        · exact .inl h
        · exact .inr (.inr ⟨hn, .inl ⟨t, a, List.mem_singleton.1 h⟩⟩)
      · exact I

theorem inv_init : Inv {} :=
  ⟨fun _ h => (by cases h), fun _ h => (by cases h), fun a => (by simp), fun _ h => (by simp at h), fun _ _ h => (by simp at h), fun _ h => (by simp at h)⟩

theorem inv_run (as : List Act) : Inv (run as) := by
  induction as using snoc_ind with
  | h0 => exact inv_init
  | h1 l a ih => rw [run_snoc]; exact inv_step ih a

/-- after everything settled: `a` is the object, and nobody makes or starts another -/
structure Settled (s : St) (a n : Nat) : Prop where
  cur : s.cur = some a
  pcs : ∀ t, s.pcs t = .idle ∨ s.pcs t = .look ∨ s.pcs t = .last
  log : ∀ e ∈ s.log.drop n, (∃ t, e = .called t) ∨ ∃ t, e = .returned t a
  len : n ≤ s.log.length

theorem settled_step {s : St} {a n : Nat} (I : Settled s a n) (x : Act) : Settled (step s x) a n := by
  obtain ⟨h1, h2, h3, h4⟩ := I
  have pcs : ∀ {t : Nat} {p : Pc}, p = .idle ∨ p = .look ∨ p = .last → ∀ u, upd s.pcs t p u = .idle ∨ upd s.pcs t p u = .look ∨ upd s.pcs t p u = .last := by
    intro t p hp u
    by_cases hu : u = t
    · rw [hu, upd_same]; exact hp
    · rw [upd_other _ _ hu]; exact h2 u
  have log : ∀ {e : Ev}, ((∃ t, e = .called t) ∨ ∃ t, e = .returned t a) → ∀ e' ∈ (s.log ++ [e]).drop n, (∃ t, e' = .called t) ∨ ∃ t, e' = .returned t a := by
    intro e he e' h
    rw [List.drop_append_of_le_length h4] at h
    rcases List.mem_append.1 h with h | h
    · exact h3 e' h
    · rw [List.mem_singleton.1 h]; exact he
  cases x with
  | call t =>
    cases hpc : s.pcs t with
    | idle => simp only [step, hpc]; exact ⟨h1, pcs (.inr (.inl rfl)), log (.inl ⟨t, rfl⟩), by simp; omega⟩
    | _ => simp only [step, hpc]; exact ⟨h1, h2, h3, h4⟩
  | go t =>
    rcases h2 t with hpc | hpc | hpc
    · simp only [step, hpc]; exact ⟨h1, h2, h3, h4⟩
    · simp only [step, hpc, h1, reduceCtorEq, if_false]; exact ⟨rfl, pcs (.inr (.inr rfl)), h3, h4⟩
    · simp only [step, hpc, h1]; exact ⟨rfl, pcs (.inl rfl), log (.inr ⟨t, rfl⟩), by simp; omega⟩

/-- **C257 (there is a thread that runs)** Once some call ended, and none is running: there is a thread that builds profiles, it runs, all later calls return it, whichever threads make them and however they interleave, none of them raises and no other thread
begins to run. -/
theorem C257_settled (as : List Act) (hq : Quiet (run as).log) (he : ∃ t, 0 < nEnded t (run as).log) :
    ∃ a, .runs a ∈ (run as).log ∧ ∀ bs, ∀ e ∈ (run (as ++ bs)).log.drop (run as).log.length, (∃ t, e = .called t) ∨ ∃ t, e = .returned t a := by
  have I := inv_run as
  have idle := idle_of_quiet (counted_run as) hq
  obtain ⟨t, ht⟩ := he
  have hc : (run as).cur ≠ none := by
    obtain ⟨e, h1, h2⟩ := List.countP_pos_iff.1 ht
    cases e with
    | returned u a => exact I.ended u (.inl ⟨a, h1⟩)
    | raised u => exact I.ended u (.inr h1)
    | called u => simp at h2
    | runs a => simp at h2
  obtain ⟨a, ha⟩ := Option.ne_none_iff_exists'.1 hc
  refine ⟨a, ?_, fun bs => ?_⟩
  · rw [I.runs]
    rcases I.cur a ha with h | ⟨u, h⟩
    · exact h
    · rw [idle u] at h; exact h.elim
  · suffices h : Settled (run (as ++ bs)) a (run as).log.length from h.log
    induction bs using snoc_ind with
    | h0 => rw [List.append_nil]; exact ⟨ha, fun u => .inl (idle u), by simp, Nat.le_refl _⟩
    | h1 l x ih => rw [← List.append_assoc, run_snoc]; exact settled_step ih x

/-- **C257 (runs once)** No thread that builds profiles begins to run twice. -/
theorem C257_once (as : List Act) (a : Nat) : (run as).log.count (.runs a) ≤ 1 := by
  induction as using snoc_ind with
  | h0 => simp [run]
  | h1 l x ih =>
    rw [run_snoc]
    have I := inv_run l
    generalize run l = s at ih I ⊢
    cases x with
    | call t => cases hpc : s.pcs t <;> simp only [step, hpc] <;> simpa [List.count_append] using ih
    | go t =>
      cases hpc : s.pcs t with
      | launch b =>
        simp only [step, hpc]
        split
        · simpa [List.count_append] using ih
        · next hr =>
          by_cases e : b = a
          · subst e
            have : List.count (Ev.runs b) s.log = 0 := List.count_eq_zero.2 (fun h => hr ((I.runs b).1 h))
            simp [List.count_append, this]
          · simpa [List.count_append, e] using ih
      | _ => simp only [step, hpc] <;> (try split) <;> simpa [List.count_append] using ih

/-- The hypotheses are met: two threads at once, of which the second finds the object of the first. -/
example : ∃ as, Quiet (run as).log ∧ (∃ t, 0 < nEnded t (run as).log) ∧ .called 1 ∈ (run as).log := by
  refine ⟨[.call 0, .go 0, .go 0, .call 1, .go 1, .go 1, .go 0, .go 0, .go 0, .go 0, .go 0], ?_, ⟨0, by decide⟩, by decide⟩
  intro t
  have : (run [.call 0, .go 0, .go 0, .call 1, .go 1, .go 1, .go 0, .go 0, .go 0, .go 0, .go 0]).log = [.called 0, .called 1, .returned 1 0, .runs 0, .returned 0 0] := by decide
  rw [this]
  by_cases h0 : 0 = t <;> by_cases h1 : 1 = t <;> simp [nCalled, nEnded, h0, h1]

/-- **C258, violated (one thread)** Two threads that call `get_instance` at the same time can set two threads running that build profiles; settings of the first are lost. -/
theorem C258_violates_two (t u : Nat) (h : t ≠ u) : ∃ as, .runs 0 ∈ (run as).log ∧ .runs 1 ∈ (run as).log ∧ .returned t 0 ∈ (run as).log ∧ .returned u 1 ∈ (run as).log := by
  refine ⟨[.call t, .go t, .call u, .go u, .go t, .go t, .go t, .go t, .go t, .go t, .go u, .go u, .go u, .go u, .go u, .go u], ?_⟩
  have h' : u ≠ t := fun e => h e.symm
  simp [run, step, upd, h, h']

/-- **C258, violated (no exception)** One of two threads that call `get_instance` at the same time can get RuntimeError. -/
theorem C258_violates_raise (t u : Nat) (h : t ≠ u) : ∃ as, .raised u ∈ (run as).log := by
  refine ⟨[.call t, .go t, .call u, .go u, .go t, .go u, .go t, .go u, .go t, .go u, .go t, .go u, .go t, .go u], ?_⟩
  have h' : u ≠ t := fun e => h e.symm
  simp [run, step, upd, h, h']

/-! ### One call at a time -/

/-- what holds of a thread in a call -/
def OOk (s : St) : Pc → Prop
  | .idle => True
  | .look => True
  | .make => s.cur = none
  | .load => s.cur = some 0 ∧ s.started 0 = false ∧ s.running 0 = false
  | .flag a => s.cur = some 0 ∧ a = 0 ∧ s.started 0 = false ∧ s.running 0 = false
  | .mark a => s.cur = some 0 ∧ a = 0 ∧ s.started 0 = false ∧ s.running 0 = false
  | .launch a => s.cur = some 0 ∧ a = 0 ∧ s.running 0 = false
  | .last => s.cur = some 0 ∧ s.running 0 = true

/-- what holds if calls are made one at a time -/
structure OInv (s : St) : Prop where
  pcs : ∀ t, OOk s (s.pcs t)
  none_ : s.cur = none → s.made = 0 ∧ s.started 0 = false ∧ s.running 0 = false
  some_ : ∀ a, s.cur = some a → a = 0
  running : ∀ a, s.running a = true → a = 0
  log : ∀ e ∈ s.log, (∃ t, e = .called t) ∨ (∃ t, e = .returned t 0 ∧ s.running 0 = true) ∨ e = .runs 0

theorem oinv_step {s : St} (I : Inv s) (O : OInv s) (alone : ∀ t u, s.pcs t ≠ .idle → s.pcs u ≠ .idle → t = u) (x : Act) : OInv (step s x) := by
  obtain ⟨h1, h2, h3, h4, h5⟩ := O
  have O : OInv s := ⟨h1, h2, h3, h4, h5⟩
  cases x with
  | call t =>
    cases hpc : s.pcs t with
    | idle =>
      simp only [step, hpc]
      refine ⟨fun u => ?_, h2, h3, h4, fun e h => ?_⟩
      · dsimp only
        by_cases hu : u = t
        · rw [hu, upd_same]; trivial
        · rw [upd_other _ _ hu]
          have := h1 u
          revert this
          cases s.pcs u <;> exact id
      · rcases List.mem_append.1 h with h | h
        · exact h5 e h
        · exact .inl ⟨t, List.mem_singleton.1 h⟩
    | _ => simpa only [step, hpc] using O
  | go t =>
    have hok := h1 t
    -- the others are not in a call
    have rest : ∀ {s' : St} {p : Pc}, s.pcs t ≠ .idle → s'.pcs = upd s.pcs t p → OOk s' p → ∀ u, OOk s' (s'.pcs u) := by
      intro s' p ht hp h u
      rw [hp]
      by_cases hu : u = t
      · rw [hu, upd_same]; exact h
      · rw [upd_other _ _ hu]
        have : s.pcs u = .idle := Decidable.byContradiction (fun hh => hu (alone u t hh ht))
        rw [this]; trivial
    cases hpc : s.pcs t with
    | idle => simpa only [step, hpc] using O
    | look =>
      have ht : s.pcs t ≠ .idle := by rw [hpc]; simp
      simp only [step, hpc]
      split
      · next hc => exact ⟨rest (p := .make) ht rfl hc, h2, h3, h4, h5⟩
      · next hc =>
        obtain ⟨a, ha⟩ := Option.ne_none_iff_exists'.1 hc
        obtain rfl := h3 a ha
        refine ⟨rest (p := .last) ht rfl ⟨ha, ?_⟩, h2, h3, h4, h5⟩
        rcases I.cur 0 ha with h | ⟨u, h⟩
        · exact h
        · have hu : s.pcs u ≠ .idle := fun e => by rw [e] at h; exact h
          rw [alone u t hu ht, hpc] at h
          exact h.elim
    | make =>
      have ht : s.pcs t ≠ .idle := by rw [hpc]; simp
      rw [hpc] at hok
      obtain ⟨a, b, c⟩ := h2 hok
      simp only [step, hpc]
      exact ⟨rest (p := .load) ht rfl ⟨by simp [a], b, c⟩, fun h => by simp at h, fun x h => by simp [a] at h; exact h.symm, h4, h5⟩
    | load =>
      have ht : s.pcs t ≠ .idle := by rw [hpc]; simp
      rw [hpc] at hok
      obtain ⟨a, b, c⟩ := hok
      simp only [step, hpc, a]
      refine ⟨rest (p := .flag 0) ht rfl ⟨rfl, rfl, b, c⟩, fun h => by simp at h, fun x h => by simp at h; exact h.symm, h4, h5⟩
    | flag a =>
      have ht : s.pcs t ≠ .idle := by rw [hpc]; simp
      rw [hpc] at hok
      obtain ⟨a, rfl, b, c⟩ := hok
      simp only [step, hpc, b, Bool.false_eq_true, if_false]
      exact ⟨rest (p := .mark 0) ht rfl ⟨a, rfl, b, c⟩, h2, h3, h4, h5⟩
    | mark a =>
      have ht : s.pcs t ≠ .idle := by rw [hpc]; simp
      rw [hpc] at hok
      obtain ⟨a, rfl, b, c⟩ := hok
      simp only [step, hpc]
      exact ⟨rest (p := .launch 0) ht rfl ⟨a, rfl, c⟩, fun h => by (dsimp only at h; rw [a] at h; cases h), h3, h4, h5⟩
    | launch a =>
      have ht : s.pcs t ≠ .idle := by rw [hpc]; simp
      rw [hpc] at hok
      obtain ⟨a, rfl, c⟩ := hok
      simp only [step, hpc, c, Bool.false_eq_true, if_false]
      refine ⟨rest (p := .last) ht rfl ⟨a, by dsimp only; rw [upd_same]⟩, fun h => by (dsimp only at h; rw [a] at h; cases h), h3, ?_, fun e h => ?_⟩
      · intro x hx
        refine Decidable.byContradiction (fun hne => hne (h4 x ?_))
        dsimp only at hx
        rw [upd_other _ _ hne] at hx; exact hx
      · rcases List.mem_append.1 h with h | h
        · rcases h5 e h with h | ⟨_, _, h⟩ | h
          · exact .inl h
          · rw [c] at h; cases h
          · exact .inr (.inr h)
        · exact .inr (.inr (List.mem_singleton.1 h))
    | last =>
      have ht : s.pcs t ≠ .idle := by rw [hpc]; simp
      rw [hpc] at hok
      obtain ⟨a, c⟩ := hok
      simp only [step, hpc, a]
      refine ⟨rest (p := .idle) ht rfl trivial, fun h => by simp at h, fun x h => by simp at h; exact h.symm, h4, fun e h => ?_⟩
      rcases List.mem_append.1 h with h | h
      · exact h5 e h
      · exact .inr (.inl ⟨t, List.mem_singleton.1 h, c⟩)

theorem oinv_run {as : List Act} (h : OneAtATime as) : OInv (run as) := by
  induction as using snoc_ind with
  | h0 => exact ⟨fun _ => trivial, fun _ => ⟨rfl, rfl, rfl⟩, fun _ h => (by cases h), fun _ h => (by cases h), fun _ h => (by cases h)⟩
  | h1 l a ih =>
    rw [run_snoc]
    refine oinv_step (inv_run l) (ih (fun p hp => h p (hp.trans (List.prefix_append _ _)))) (fun t u ht hu => ?_) a
    have c := counted_run l
    refine h l (List.prefix_append _ _) t u ?_ ?_
    · have := c t; rw [if_neg ht] at this; omega
    · have := c u; rw [if_neg hu] at this; omega

/-- **C258, the part that holds** If no call begins while another thread is in one: one thread at most begins to run, all calls return it and it runs by then, and none raises. -/
theorem C258_one_thread_partial (as : List Act) (h : OneAtATime as) :
    (run as).log.countP (fun e => match e with | .runs _ => true | _ => false) ≤ 1 ∧ (∀ t, .raised t ∉ (run as).log) ∧ ∀ t a, .returned t a ∈ (run as).log → .runs a ∈ (run as).log := by
  have O := oinv_run h
  have I := inv_run as
  refine ⟨?_, fun t ht => ?_, fun t a ha => ?_⟩
  · refine Nat.le_trans (Nat.le_of_eq ?_) (C257_once as 0)
    rw [List.count_eq_countP]
    refine List.countP_congr (fun e he => ?_)
    rcases O.log e he with ⟨t, rfl⟩ | ⟨t, rfl, _⟩ | rfl <;> simp
  · rcases O.log _ ht with ⟨_, h⟩ | ⟨_, h, _⟩ | h <;> cases h
  · rcases O.log _ ha with ⟨_, h⟩ | ⟨_, h, hr⟩ | h
    · cases h
    · cases h; exact (I.runs 0).2 hr
    · cases h

/-- The hypotheses are met: one thread after the other. -/
example : ∃ as, OneAtATime as ∧ (run as).log = [.called 0, .runs 0, .returned 0 0, .called 1, .returned 1 0] := by
  refine ⟨[.call 0, .go 0, .go 0, .go 0, .go 0, .go 0, .go 0, .go 0, .call 1, .go 1, .go 1], ?_, by decide⟩
  intro p hp t u ht hu
  have c := counted_run p
  have ht : (run p).pcs t ≠ .idle := fun e => by have := c t; rw [if_pos e] at this; omega
  have hu : (run p).pcs u ≠ .idle := fun e => by have := c u; rw [if_pos e] at this; omega
  rw [List.prefix_iff_eq_take] at hp
  generalize p.length = n at hp
  subst hp
  have hs : (∀ v, (run (List.take n [.call 0, .go 0, .go 0, .go 0, .go 0, .go 0, .go 0, .go 0, .call 1, .go 1, .go 1])).pcs v ≠ .idle → v = 0) ∨
      ∀ v, (run (List.take n [.call 0, .go 0, .go 0, .go 0, .go 0, .go 0, .go 0, .go 0, .call 1, .go 1, .go 1])).pcs v ≠ .idle → v = 1 := by
    match n with
    | 0 | 1 | 2 | 3 | 4 | 5 | 6 | 7 | 8 => exact .inl (fun v hv => Decidable.byContradiction (fun h0 => by simp [run, step, upd, h0] at hv))
    | n + 9 => exact .inr (fun v hv => Decidable.byContradiction (fun h1 => by match n with | 0 | 1 | n + 2 => by_cases h0 : v = 0 <;> simp [run, step, upd, h0, h1] at hv))
  rcases hs with hs | hs
  · rw [hs t ht, hs u hu]
  · rw [hs t ht, hs u hu]

end Verif.Instr.Builder
