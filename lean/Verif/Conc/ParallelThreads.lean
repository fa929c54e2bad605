import Verif.Conc.MonitorProps
/-!
# Model of parallel_execute called by several threads (satella/coding/concurrent/functions.py), C244

The default of `kwargs` is one generator, made when the function is defined, and all calls that do not give `kwargs` take their keyword arguments from it.
A generator that a thread is executing cannot be resumed by another thread: ValueError, "generator already executing".
-/
namespace Verif.Conc.ParallelThreads
open Verif.Conc (upd upd_same upd_other)

/-- Where a thread is in the comprehension `[callable_(*arg, **kwarg) for arg, kwarg in zip(args, kwargs)]`, /repo/satella/coding/concurrent/functions.py:60 -/
inductive Pc where
  /-- about to take the next argument -/
  | args
  /-- took the argument, and is about to resume the generator of keyword arguments -/
  | kwargs (a : Nat)
  /-- executing the generator, /repo/satella/coding/sequences/sequences.py:20-22 -/
  | inside (a : Nat)
  /-- about to call the callable with the argument and the dict made -/
  | call (a : Nat) (d : Nat)
  /-- all calls were made -/
  | done
  /-- ValueError was raised -/
  | failed
  deriving DecidableEq, Repr

/-- A thread: where it is, the arguments left, the calls made, each with its argument and its dict of keyword arguments.  (Part of the model of `parallel_execute`, /repo/satella/coding/concurrent/functions.py:44-65.) -/
structure Thr where
  pc : Pc
  left : List Nat
  calls : List (Nat × Nat)

/-- How many dicts were made (they are numbered), which thread is executing the generator, and the threads.  (Part of the model of `parallel_execute`, /repo/satella/coding/concurrent/functions.py:44-65.) -/
structure St where
  dicts : Nat
  executing : Option Nat
  thr : Nat → Thr

/-- A step of a thread of a call without `kwargs`, /repo/satella/coding/concurrent/functions.py:44-60; `zip` takes the argument before it resumes the generator.
`shared`: whether the generator is the one of the default; otherwise each thread gave an iterator of its own that makes new dicts. -/
def step (shared : Nat → Bool) (s : St) (t : Nat) : St :=
  let me := s.thr t
  match me.pc with
  | .args =>
    match me.left with
    | [] => { s with thr := upd s.thr t { me with pc := .done } }
    | a :: as => { s with thr := upd s.thr t { me with pc := .kwargs a, left := as } }
  | .kwargs a =>
    if shared t then
      match s.executing with
      | some _ => { s with thr := upd s.thr t { me with pc := .failed } }
      | none => { s with executing := some t, thr := upd s.thr t { me with pc := .inside a } }
    else { s with thr := upd s.thr t { me with pc := .inside a } }
  | .inside a => { dicts := s.dicts + 1, executing := if shared t then none else s.executing, thr := upd s.thr t { me with pc := .call a s.dicts } }
  | .call a d => { s with thr := upd s.thr t { me with pc := .args, calls := me.calls ++ [(a, d)] } }
  | .done => s
  | .failed => s

/-- Threads that are about to call `parallel_execute` with their arguments.  (Part of the model of `parallel_execute`, /repo/satella/coding/concurrent/functions.py:44-65.) -/
def init (args : Nat → List Nat) : St := ⟨0, none, fun t => ⟨.args, args t, []⟩⟩

/-- a schedule: the thread that makes each step.  (Part of the model of `parallel_execute`, /repo/satella/coding/concurrent/functions.py:44-65.) -/
def run (shared : Nat → Bool) (s : St) (sched : List Nat) : St := sched.foldl (step shared) s

/-! ## Invariant -/

/-- the argument a thread has taken and not yet called with.  (Part of the model of `parallel_execute`, /repo/satella/coding/concurrent/functions.py:44-65.) -/
def Thr.taken (m : Thr) : List Nat :=
  match m.pc with
  | .kwargs a => [a]
  | .inside a => [a]
  | .call a _ => [a]
  | _ => []

/-- the dicts a thread was given.  (Part of the model of `parallel_execute`, /repo/satella/coding/concurrent/functions.py:44-65.) -/
def Thr.given (m : Thr) : List Nat := m.calls.map (·.2) ++ (match m.pc with | .call _ d => [d] | _ => [])

/-- whether the thread executes the generator -/
def Thr.isInside (m : Thr) : Prop := ∃ a, m.pc = .inside a

structure Inv (shared : Nat → Bool) (args : Nat → List Nat) (s : St) : Prop where
  args_ : ∀ t, (s.thr t).pc ≠ .failed → (s.thr t).calls.map (·.1) ++ (s.thr t).taken ++ (s.thr t).left = args t
  prefix_ : ∀ t, (s.thr t).calls.map (·.1) <+: args t
  lt : ∀ t, ∀ d ∈ (s.thr t).given, d < s.dicts
  nodup : ∀ t, (s.thr t).given.Nodup
  disj : ∀ t u, t ≠ u → ∀ d ∈ (s.thr t).given, d ∉ (s.thr u).given
  done_ : ∀ t, (s.thr t).pc = .done → (s.thr t).left = []
  exec_ : ∀ t, s.executing = some t ↔ shared t = true ∧ (s.thr t).isInside

theorem inv_init (shared : Nat → Bool) (args : Nat → List Nat) : Inv shared args (init args) where
  args_ := by intro t _; simp [init, Thr.taken]
  prefix_ := by intro t; simp [init]
  lt := by intro t d h; simp [init, Thr.given] at h
  nodup := by intro t; simp [init, Thr.given]
  disj := by intro t u _ d h; simp [init, Thr.given] at h
  done_ := by intro t h; simp [init] at h
  exec_ := by intro t; simp [init, Thr.isInside]

theorem inv_of {shared : Nat → Bool} {args : Nat → List Nat} {s : St} (h : Inv shared args s) (t : Nat) (m : Thr) (n : Nat) (x : Option Nat) (hn : s.dicts ≤ n)
    (h1 : m.pc ≠ .failed → m.calls.map (·.1) ++ m.taken ++ m.left = args t) (h2 : m.calls.map (·.1) <+: args t)
    (h3 : ∀ d ∈ m.given, d ∈ (s.thr t).given ∨ (s.dicts ≤ d ∧ d < n)) (h4 : m.given.Nodup) (h5 : m.pc = .done → m.left = [])
    (h6 : ∀ u, x = some u ↔ shared u = true ∧ (upd s.thr t m u).isInside) : Inv shared args ⟨n, x, upd s.thr t m⟩ where
  args_ := by
    intro u; by_cases e : u = t
    · subst e; simpa [upd_same] using h1
    · simpa [upd_other _ _ e] using h.args_ u
  prefix_ := by
    intro u; by_cases e : u = t
    · subst e; simpa [upd_same] using h2
    · simpa [upd_other _ _ e] using h.prefix_ u
  lt := by
    intro u d hd; by_cases e : u = t
    · subst e; simp only [upd_same] at hd
      rcases h3 d hd with hd | hd
      · have := h.lt u d hd; simp only; omega
      · exact hd.2
    · simp only [upd_other _ _ e] at hd
      have := h.lt u d hd; simp only; omega
  nodup := by
    intro u; by_cases e : u = t
    · subst e; simpa [upd_same] using h4
    · simpa [upd_other _ _ e] using h.nodup u
  disj := by
    intro u v huv d hd hd'
    by_cases e : u = t
    · subst e
      simp only [upd_same] at hd
      simp only [upd_other _ _ (Ne.symm huv)] at hd'
      rcases h3 d hd with hd | hd
      · exact h.disj u v huv d hd hd'
      · have := h.lt v d hd'; omega
    · simp only [upd_other _ _ e] at hd
      by_cases e' : v = t
      · subst e'
        simp only [upd_same] at hd'
        rcases h3 d hd' with hd' | hd'
        · exact h.disj u v huv d hd hd'
        · have := h.lt u d hd; omega
      · simp only [upd_other _ _ e'] at hd'
        exact h.disj u v huv d hd hd'
  done_ := by
    intro u; by_cases e : u = t
    · subst e; simpa [upd_same] using h5
    · simpa [upd_other _ _ e] using h.done_ u
  exec_ := h6

theorem inv_step {shared : Nat → Bool} {args : Nat → List Nat} {s : St} (h : Inv shared args s) (t : Nat) : Inv shared args (step shared s t) := by
  have ha := h.args_ t
  have hp := h.prefix_ t
  have hnd := h.nodup t
  have hex := h.exec_
  have hlt := h.lt t
  unfold step
  dsimp only
  cases hpc : (s.thr t).pc with
  | done => simpa [hpc] using h
  | failed => simpa [hpc] using h
  | args =>
    rw [hpc] at ha
    have ha := ha (by simp)
    have hother : ∀ (m : Thr), ¬ m.isInside → ∀ u, s.executing = some u ↔ shared u = true ∧ (upd s.thr t m u).isInside := by
      intro m hm u
      by_cases e : u = t
      · subst e
        rw [hex u, upd_same]
        simp only [Thr.isInside, not_exists] at hm
        simp [hm, Thr.isInside, hpc]
      · rw [hex u, upd_other _ _ e]
    cases hl : (s.thr t).left with
    | nil =>
      dsimp only
      refine inv_of h t _ s.dicts s.executing (Nat.le_refl _) ?_ hp ?_ ?_ ?_ (hother _ (by simp [Thr.isInside]))
      · intro _; simpa [Thr.taken, hpc, hl] using ha
      · intro d hd; left; simpa [Thr.given, hpc] using hd
      · simpa [Thr.given, hpc] using hnd
      · intro _; rfl
    | cons a as =>
      dsimp only
      refine inv_of h t _ s.dicts s.executing (Nat.le_refl _) ?_ hp ?_ ?_ (by simp) (hother _ (by simp [Thr.isInside]))
      · intro _; simpa [Thr.taken, hpc, hl] using ha
      · intro d hd; left; simpa [Thr.given, hpc] using hd
      · simpa [Thr.given, hpc] using hnd
  | kwargs a =>
    rw [hpc] at ha
    have ha := ha (by simp)
    dsimp only
    by_cases hs : shared t = true
    · rw [if_pos hs]
      cases he : s.executing with
      | some v =>
        dsimp only
        refine inv_of h t _ s.dicts (some v) (Nat.le_refl _) (by simp) hp ?_ ?_ (by simp) ?_
        · intro d hd; left; simpa [Thr.given, hpc] using hd
        · simpa [Thr.given, hpc] using hnd
        · intro u
          rw [← he, hex u]
          by_cases e : u = t
          · subst e; rw [upd_same]; simp [Thr.isInside, hpc]
          · rw [upd_other _ _ e]
      | none =>
        dsimp only
        refine inv_of h t _ s.dicts (some t) (Nat.le_refl _) ?_ hp ?_ ?_ (by simp) ?_
        · intro _; simpa [Thr.taken, hpc] using ha
        · intro d hd; left; simpa [Thr.given, hpc] using hd
        · simpa [Thr.given, hpc] using hnd
        · intro u
          by_cases e : u = t
          · subst e; rw [upd_same]; simp [Thr.isInside, hs]
          · rw [upd_other _ _ e, ← hex u, he]
            simp [show ¬ t = u from fun x => e x.symm]
    · rw [if_neg hs]
      refine inv_of h t _ s.dicts s.executing (Nat.le_refl _) ?_ hp ?_ ?_ (by simp) ?_
      · intro _; simpa [Thr.taken, hpc] using ha
      · intro d hd; left; simpa [Thr.given, hpc] using hd
      · simpa [Thr.given, hpc] using hnd
      · intro u
        rw [hex u]
        by_cases e : u = t
        · subst e; simp [hs]
        · rw [upd_other _ _ e]
  | inside a =>
    rw [hpc] at ha
    have ha := ha (by simp)
    dsimp only
    refine inv_of h t _ (s.dicts + 1) _ (Nat.le_succ _) ?_ hp ?_ ?_ (by simp) ?_
    · intro _; simpa [Thr.taken, hpc] using ha
    · intro d hd
      simp only [Thr.given, List.mem_append, List.mem_singleton] at hd
      rcases hd with hd | rfl
      · left; simpa [Thr.given, hpc] using hd
      · right; omega
    · have hd : ∀ d ∈ (s.thr t).calls.map (·.2), d < s.dicts := fun d hd => hlt d (by simp only [Thr.given]; exact List.mem_append_left _ hd)
      have hnd' : ((s.thr t).calls.map (·.2)).Nodup := by simpa [Thr.given, hpc] using hnd
      simp only [Thr.given]
      refine List.nodup_append.2 ⟨hnd', by simp, ?_⟩
      intro x hx y hy
      simp only [List.mem_singleton] at hy
      have := hd x hx
      omega
    · intro u
      by_cases hs : shared t = true
      · rw [if_pos hs]
        have het : s.executing = some t := (hex t).2 ⟨hs, a, hpc⟩
        by_cases e : u = t
        · subst e; rw [upd_same]; simp [Thr.isInside]
        · rw [upd_other _ _ e, ← hex u, het]
          simp [show ¬ t = u from fun x => e x.symm]
      · rw [if_neg hs]
        rw [hex u]
        by_cases e : u = t
        · subst e; simp [hs]
        · rw [upd_other _ _ e]
  | call a d =>
    rw [hpc] at ha
    have ha := ha (by simp)
    dsimp only
    refine inv_of h t _ s.dicts s.executing (Nat.le_refl _) ?_ ?_ ?_ ?_ (by simp) ?_
    · intro _; simpa [Thr.taken, hpc] using ha
    · refine ⟨(s.thr t).left, ?_⟩
      simpa [Thr.taken, hpc] using ha
    · intro d' hd; left; simpa [Thr.given, hpc] using hd
    · simpa [Thr.given, hpc] using hnd
    · intro u
      rw [hex u]
      by_cases e : u = t
      · subst e; rw [upd_same]; simp [Thr.isInside, hpc]
      · rw [upd_other _ _ e]

theorem inv_run (shared : Nat → Bool) (args : Nat → List Nat) (sched : List Nat) : Inv shared args (run shared (init args) sched) := by
  have key : ∀ (sched : List Nat) (s : St), Inv shared args s → Inv shared args (run shared s sched) := by
    intro sched
    induction sched with
    | nil => intro s h; exact h
    | cons t ts ih => intro s h; exact ih _ (inv_step h t)
  exact key sched _ (inv_init shared args)

/-! ## Properties -/

/-- **C244, no argument is lost or taken by another thread**: at every moment of every schedule each thread has made its calls with the first of its own arguments, in their order;
a call that has ended, without ValueError, made them all. -/
theorem C244_own_arguments (shared : Nat → Bool) (args : Nat → List Nat) (sched : List Nat) (t : Nat) :
    ((run shared (init args) sched).thr t).calls.map (·.1) <+: args t ∧
    (((run shared (init args) sched).thr t).pc = .done → ((run shared (init args) sched).thr t).calls.map (·.1) = args t) := by
  have h := inv_run shared args sched
  refine ⟨h.prefix_ t, fun hd => ?_⟩
  have h1 := h.args_ t (by rw [hd]; simp)
  have h2 := h.done_ t hd
  simpa [Thr.taken, hd, h2] using h1

/-- **C244, a dict of its own**: no dict of keyword arguments is given to two calls, of one thread or of two. -/
theorem C244_own_dicts (shared : Nat → Bool) (args : Nat → List Nat) (sched : List Nat) (t : Nat) :
    (((run shared (init args) sched).thr t).calls.map (·.2)).Nodup ∧
    ∀ u, u ≠ t → ∀ d ∈ ((run shared (init args) sched).thr t).calls.map (·.2), d ∉ ((run shared (init args) sched).thr u).calls.map (·.2) := by
  have h := inv_run shared args sched
  refine ⟨?_, fun u hu d hd hd' => ?_⟩
  · have := h.nodup t
    simp only [Thr.given] at this
    exact (List.nodup_append.1 this).1
  · exact h.disj t u (Ne.symm hu) d (List.mem_append_left _ hd) (List.mem_append_left _ hd')

/-- **C244, the exception**: a call fails at a step exactly if it is about to take its keyword arguments from the generator of the default while another thread is executing it. -/
theorem C244_fails_iff (shared : Nat → Bool) (args : Nat → List Nat) (sched : List Nat) (t : Nat) :
    let s := run shared (init args) sched
    ((step shared s t).thr t).pc = .failed ↔ (s.thr t).pc = .failed ∨
      (∃ a, (s.thr t).pc = .kwargs a) ∧ shared t = true ∧ ∃ u a, u ≠ t ∧ shared u = true ∧ (s.thr u).pc = .inside a := by
  intro s
  have h : Inv shared args s := inv_run shared args sched
  have hex : (∃ u a, shared u = true ∧ (s.thr u).pc = .inside a) ↔ ∃ u, s.executing = some u := by
    constructor
    · rintro ⟨u, a, h1, h2⟩; exact ⟨u, (h.exec_ u).2 ⟨h1, a, h2⟩⟩
    · rintro ⟨u, hu⟩; obtain ⟨h1, a, h2⟩ := (h.exec_ u).1 hu; exact ⟨u, a, h1, h2⟩
  have hself : ∀ a, (s.thr t).pc = .kwargs a → ((∃ u a, u ≠ t ∧ shared u = true ∧ (s.thr u).pc = .inside a) ↔ ∃ u, s.executing = some u) := by
    intro a ha
    rw [← hex]
    constructor
    · rintro ⟨u, b, _, h1, h2⟩; exact ⟨u, b, h1, h2⟩
    · rintro ⟨u, b, h1, h2⟩
      refine ⟨u, b, ?_, h1, h2⟩
      rintro rfl
      rw [ha] at h2; simp at h2
  unfold step
  dsimp only
  cases hpc : (s.thr t).pc with
  | done => simp [hpc]
  | failed => simp [hpc]
  | args => cases hl : (s.thr t).left <;> simp [upd_same]
  | kwargs a =>
    rw [hself a hpc]
    cases hs : shared t <;> cases he : s.executing <;> simp [upd_same]
  | inside a => simp [upd_same]
  | call a d => simp [upd_same]

/-- **C244, calls that give kwargs of their own, or that no other thread disturbs**: if at most one of the threads takes its keyword arguments from the default, no call ever fails. -/
theorem C244_alone_partial (shared : Nat → Bool) (args : Nat → List Nat) (sched : List Nat) (hone : ∀ t u, shared t = true → shared u = true → t = u) (t : Nat) :
    ((run shared (init args) sched).thr t).pc ≠ .failed := by
  have key : ∀ (before after : List Nat), ((run shared (init args) before).thr t).pc ≠ .failed →
      ((run shared (init args) (before ++ after)).thr t).pc ≠ .failed := by
    intro before after
    induction after generalizing before with
    | nil => intro h; simpa using h
    | cons u us ih =>
      intro h
      have : before ++ u :: us = (before ++ [u]) ++ us := by simp
      rw [this]
      apply ih
      have e : run shared (init args) (before ++ [u]) = step shared (run shared (init args) before) u := by simp [run]
      rw [e]
      by_cases hu : u = t
      · subst hu
        intro hf
        rcases (C244_fails_iff shared args before u).1 hf with hf | ⟨_, h1, v, _, hv, h2, _⟩
        · exact h hf
        · exact hv (hone _ _ h2 h1)
      · have other : ((step shared (run shared (init args) before) u).thr t) = (run shared (init args) before).thr t := by
          unfold step
          dsimp only
          have hu' : t ≠ u := fun e => hu e.symm
          repeat' split
          all_goals first | rfl | simp [upd_other _ _ hu']
        rw [other]; exact h
  simpa using key [] sched (by simp [run, init])

/-- **C244, violated by two threads**: two threads call parallel_execute at the same time, without kwargs; the first is interrupted while it takes its keyword arguments from the
generator that they share, and the other, that has arguments and could have made its calls, raises ValueError, for every arguments of both. -/
theorem C244_two_threads_violates (args : Nat → List Nat) (a b : Nat) (as bs : List Nat) (h0 : args 0 = a :: as) (h1 : args 1 = b :: bs) :
    ((run (fun _ => true) (init args) [0, 0, 1, 1]).thr 1).pc = .failed ∧ ((run (fun _ => true) (init args) [0, 0, 1, 1]).thr 1).calls = [] := by
  simp [run, step, init, h0, h1, upd]

/-! Concrete cases: two threads, one after the other, and interleaved with iterators of their own. -/
example : ((run (fun _ => true) (init (fun _ => [7, 8])) (List.replicate 9 0 ++ List.replicate 9 1)).thr 1).calls = [(7, 2), (8, 3)] := rfl
example : ((run (fun _ => true) (init (fun _ => [7, 8])) (List.replicate 9 0 ++ List.replicate 9 1)).thr 0).pc = .done := rfl
example : ((run (fun t => t == 0) (init (fun _ => [7, 8])) [0, 0, 1, 1, 1, 0, 1, 0, 0, 0, 0, 0, 0]).thr 0).calls = [(7, 1), (8, 2)] := rfl
example : ∀ t u : Nat, (t == 0) = true → (u == 0) = true → t = u := by simp +contextual
example : ((run (fun _ => true) (init (fun _ => [7, 8])) [0, 0, 1, 1]).thr 1).pc = .failed := rfl

end Verif.Conc.ParallelThreads
