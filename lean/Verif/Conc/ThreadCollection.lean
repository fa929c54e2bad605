/-!
# Model of ThreadCollection (satella/coding/concurrent/thread_collection.py), C80

The threads of the collection are numbers; others may start them and they may end at any moment.  `start`, `terminate` and `join` go through the threads one at a time.
A thread that is not started cannot end and cannot be joined.
-/
namespace Verif.Conc.ThreadCollection

/-- the life of a thread.  (Part of the model of `ThreadCollection`, /repo/satella/coding/concurrent/thread_collection.py:8-175.) -/
inductive Life where
  | new
  | alive
  | ended
  deriving DecidableEq, Repr

/-- what the caller is doing, and with which threads it still has to do it.  (Part of the model of `ThreadCollection`, /repo/satella/coding/concurrent/thread_collection.py:8-175.) -/
inductive Pc where
  | idle
  | starting (l : List Nat)
  | terminating (l : List Nat)
  | joining (timed : Bool) (l : List Nat)
  | returned
  /-- `RuntimeError` of starting a thread twice or of joining one that was not started -/
  | runtimeError
  | wouldWaitMore
  deriving DecidableEq, Repr

/-- part of the model of `ThreadCollection`, /repo/satella/coding/concurrent/thread_collection.py:8-175 -/
structure St where
  threads : List Nat
  life : Nat → Life
  /-- the threads whose `terminate()` was called -/
  asked : List Nat
  pc : Pc

/-- part of the model of `ThreadCollection`, /repo/satella/coding/concurrent/thread_collection.py:8-175 -/
inductive Act where
  /-- the caller makes a step -/
  | caller
  /-- the caller's `join(timeout)` on the current thread times out -/
  | timeout
  /-- a thread ends -/
  | ends (t : Nat)
  /-- somebody else starts a thread -/
  | starts (t : Nat)
  deriving DecidableEq, Repr

/-- set what is known of a thread.  (Part of the model of `ThreadCollection`, /repo/satella/coding/concurrent/thread_collection.py:8-175.) -/
def set (f : Nat → Life) (t : Nat) (x : Life) : Nat → Life := fun u => if u = t then x else f u

/-- a step of `start`, /repo/satella/coding/concurrent/thread_collection.py:95-103, `terminate`, :105-116 (`has` says whether the thread has the method), and `join`, :118-134 -/
def St.caller (has : Nat → Bool) (s : St) : St :=
  match s.pc with
  | .starting (t :: l) => if s.life t = .new then { s with life := set s.life t .alive, pc := .starting l } else { s with pc := .runtimeError }
  | .starting [] => { s with pc := .returned }
  | .terminating (t :: l) => { s with asked := if has t then s.asked ++ [t] else s.asked, pc := .terminating l }
  | .terminating [] => { s with pc := .returned }
  | .joining timed (t :: l) =>
    match s.life t with
    | .new => { s with pc := .runtimeError }
    | .alive => s
    | .ended => { s with pc := .joining timed l }
  | .joining _ [] => { s with pc := .returned }
  | _ => s

/-- one action.  (Part of the model of `ThreadCollection`, /repo/satella/coding/concurrent/thread_collection.py:8-175.) -/
def St.step (has : Nat → Bool) (s : St) : Act → St
  | .caller => s.caller has
  | .timeout =>
    match s.pc with
    | .joining true (t :: _) => if s.life t = .alive then { s with pc := .wouldWaitMore } else s
    | _ => s
  | .ends t => if s.life t = .alive then { s with life := set s.life t .ended } else s
  | .starts t => if s.life t = .new then { s with life := set s.life t .alive } else s

/-- a schedule.  (Part of the model of `ThreadCollection`, /repo/satella/coding/concurrent/thread_collection.py:8-175.) -/
def St.run (has : Nat → Bool) (s : St) (as : List Act) : St := as.foldl (St.step has) s

/-- `is_alive()`, /repo/satella/coding/concurrent/thread_collection.py:142-146 -/
def St.isAlive (s : St) : Bool := s.threads.any (fun t => s.life t = .alive)

/-- the caller calls `join`.  (Part of the model of `ThreadCollection`, /repo/satella/coding/concurrent/thread_collection.py:8-175.) -/
def St.join (s : St) (timed : Bool) : St := { s with pc := .joining timed s.threads }

/-- the caller calls `start`.  (Part of the model of `ThreadCollection`, /repo/satella/coding/concurrent/thread_collection.py:8-175.) -/
def St.start (s : St) : St := { s with pc := .starting s.threads }

/-- the caller calls `terminate`.  (Part of the model of `ThreadCollection`, /repo/satella/coding/concurrent/thread_collection.py:8-175.) -/
def St.terminate (s : St) : St := { s with pc := .terminating s.threads }

/-! ## Proofs -/

/-- a thread that has ended stays so, and one that was started stays so -/
theorem life_step (has : Nat → Bool) (s : St) (a : Act) (t : Nat) : (s.life t = .ended → (s.step has a).life t = .ended) ∧ (s.life t ≠ .new → (s.step has a).life t ≠ .new) := by
  have hset : ∀ u x, s.life u = .new → x = .alive → (s.life t = .ended → set s.life u x t = .ended) ∧ (s.life t ≠ .new → set s.life u x t ≠ .new) := by
    intro u x hu hx
    unfold set
    by_cases e : t = u
    · subst e
      rw [hu]
      exact ⟨(by intro h; cases h), fun h => absurd rfl h⟩
    · simp [e]
  cases a with
  | caller =>
    simp only [St.step]
    unfold St.caller
    split
    · split
      · rename_i h
        exact hset _ _ h rfl
      · exact ⟨id, id⟩
    · exact ⟨id, id⟩
    · exact ⟨id, id⟩
    · exact ⟨id, id⟩
    · split <;> exact ⟨id, id⟩
    · exact ⟨id, id⟩
    · exact ⟨id, id⟩
  | timeout =>
    simp only [St.step]
    split
    · split <;> exact ⟨id, id⟩
    · exact ⟨id, id⟩
  | ends u =>
    simp only [St.step]
    split
    · show (_ → set s.life u .ended t = .ended) ∧ (_ → set s.life u .ended t ≠ .new)
      unfold set
      by_cases e : t = u
      · simp [e]
      · simp [e]
    · exact ⟨id, id⟩
  | starts u =>
    simp only [St.step]
    split
    · rename_i h
      exact hset _ _ h rfl
    · exact ⟨id, id⟩

/-- the invariant of `join` -/
def JoinInv (s0 : List Nat) (s : St) : Prop :=
  s.threads = s0 ∧
  match s.pc with
  | .joining _ l => ∃ done, s0 = done ++ l ∧ ∀ t ∈ done, s.life t = .ended
  | .returned => ∀ t ∈ s0, s.life t = .ended
  | .wouldWaitMore => ∃ t ∈ s0, s.life t ≠ .new
  | .runtimeError => True
  | _ => False

theorem join_step (has : Nat → Bool) (s0 : List Nat) (s : St) (a : Act) (h : JoinInv s0 s) : JoinInv s0 (s.step has a) := by
  have hl := life_step has s a
  obtain ⟨ht, h⟩ := h
  have keep : ∀ s' : St, s'.threads = s.threads → s'.pc = s.pc → (∀ t, s.life t = .ended → s'.life t = .ended) → (∀ t, s.life t ≠ .new → s'.life t ≠ .new) → JoinInv s0 s' := by
    intro s' e1 e2 e3 e4
    refine ⟨by rw [e1, ht], ?_⟩
    rw [e2]
    cases hp : s.pc with
    | joining timed l =>
      rw [hp] at h
      obtain ⟨done, e, hd⟩ := h
      exact ⟨done, e, fun t hm => e3 t (hd t hm)⟩
    | returned => rw [hp] at h; exact fun t hm => e3 t (h t hm)
    | wouldWaitMore =>
      rw [hp] at h
      obtain ⟨t, hm, hn⟩ := h
      exact ⟨t, hm, e4 t hn⟩
    | runtimeError => trivial
    | idle => rw [hp] at h; exact h
    | starting l => rw [hp] at h; exact h
    | terminating l => rw [hp] at h; exact h
  cases a with
  | ends u =>
    refine keep _ ?_ ?_ (fun t => (hl t).1) (fun t => (hl t).2) <;> simp only [St.step] <;> split <;> rfl
  | starts u =>
    refine keep _ ?_ ?_ (fun t => (hl t).1) (fun t => (hl t).2) <;> simp only [St.step] <;> split <;> rfl
  | timeout =>
    simp only [St.step]
    split
    · rename_i t l hp
      split
      · rename_i ha
        rw [hp] at h
        obtain ⟨done, e, hd⟩ := h
        exact ⟨ht, t, by rw [e]; simp, by show s.life t ≠ .new; rw [ha]; simp⟩
      · exact ⟨ht, h⟩
    · exact ⟨ht, h⟩
  | caller =>
    simp only [St.step]
    unfold St.caller
    split
    · rename_i hp; rw [hp] at h; exact h.elim
    · rename_i hp; rw [hp] at h; exact h.elim
    · rename_i hp; rw [hp] at h; exact h.elim
    · rename_i hp; rw [hp] at h; exact h.elim
    · rename_i timed t l hp
      have h' := h
      rw [hp] at h'
      obtain ⟨done, e, hd⟩ := h'
      cases hlife : s.life t with
      | new => exact ⟨ht, trivial⟩
      | alive => exact ⟨ht, h⟩
      | ended =>
        refine ⟨ht, done ++ [t], by rw [e]; simp, ?_⟩
        intro u hu
        rcases List.mem_append.1 hu with hu | hu
        · exact hd u hu
        · rw [List.mem_singleton] at hu
          rw [hu]; exact hlife
    · rename_i hp
      rw [hp] at h
      obtain ⟨done, e, hd⟩ := h
      rw [List.append_nil] at e
      subst e
      exact ⟨ht, hd⟩
    · exact ⟨ht, h⟩

theorem join_run (has : Nat → Bool) (s : St) (timed : Bool) (as : List Act) : JoinInv s.threads ((s.join timed).run has as) := by
  have : ∀ (as : List Act) (x : St), JoinInv s.threads x → JoinInv s.threads (as.foldl (St.step has) x) := by
    intro as
    induction as with
    | nil => intro x h; exact h
    | cons a as ih => intro x h; exact ih _ (join_step has _ x a h)
  exact this as _ ⟨rfl, [], rfl, by simp⟩

/-- **C80.** When `join` has returned, whatever the threads and others did in the meantime, every thread of the collection has ended, and `is_alive()` is False. -/
theorem C80_join (has : Nat → Bool) (s : St) (timed : Bool) (as : List Act) (h : ((s.join timed).run has as).pc = .returned) :
    (∀ t ∈ s.threads, ((s.join timed).run has as).life t = .ended) ∧ ((s.join timed).run has as).isAlive = false := by
  obtain ⟨ht, hi⟩ := join_run has s timed as
  rw [h] at hi
  refine ⟨hi, ?_⟩
  unfold St.isAlive
  rw [List.any_eq_false]
  intro t hm
  rw [ht] at hm
  rw [hi t hm]
  simp

/-- the caller only waits for threads that are alive -/
theorem join_alive_or (has : Nat → Bool) : ∀ (l : List Nat) (s : St) (timed : Bool), s.pc = .joining timed l → (∀ t ∈ l, s.life t = .ended) → (s.run has (List.replicate (l.length + 1) .caller)).pc = .returned
  | [], s, timed, hp, _ => by simp [St.run, St.step, St.caller, hp]
  | t :: l, s, timed, hp, he => by
    rw [List.length_cons, List.replicate_succ]
    show ((s.step has .caller).run has (List.replicate (l.length + 1) .caller)).pc = .returned
    have ht := he t (List.mem_cons_self ..)
    have hs : s.step has .caller = { s with pc := .joining timed l } := by simp [St.step, St.caller, hp, ht]
    rw [hs]
    exact join_alive_or has l _ timed rfl (fun u hu => he u (List.mem_cons_of_mem _ hu))

/-- **C80, join returns**: if all threads have ended, `join` returns; and without a timeout it never raises WouldWaitMore. -/
theorem C80_join_returns (has : Nat → Bool) (s : St) (timed : Bool) (h : ∀ t ∈ s.threads, s.life t = .ended) : ((s.join timed).run has (List.replicate (s.threads.length + 1) .caller)).pc = .returned :=
  join_alive_or has s.threads (s.join timed) timed rfl h

/-- **C80, WouldWaitMore**: `join` raises it only with a timeout, in a moment when a thread of the collection was alive. -/
theorem C80_would_wait (has : Nat → Bool) (s : St) (a : Act) (h : (s.step has a).pc = .wouldWaitMore) (hn : s.pc ≠ .wouldWaitMore) : ∃ t l, s.pc = .joining true (t :: l) ∧ s.life t = .alive := by
  cases a with
  | timeout =>
    simp only [St.step] at h
    split at h
    · rename_i t l hp
      split at h
      · rename_i ha
        exact ⟨t, l, hp, ha⟩
      · exact absurd h hn
    · exact absurd h hn
  | ends u => simp only [St.step] at h; split at h <;> exact absurd h hn
  | starts u => simp only [St.step] at h; split at h <;> exact absurd h hn
  | caller =>
    simp only [St.step] at h
    unfold St.caller at h
    split at h
    · split at h <;> cases h
    · cases h
    · cases h
    · cases h
    · rename_i hp
      split at h
      · cases h
      · exact absurd h hn
      · cases h
    · cases h
    · exact absurd h hn

/-- the invariant of `start` -/
def StartInv (s0 : List Nat) (s : St) : Prop :=
  match s.pc with
  | .starting l => ∃ done, s0 = done ++ l ∧ ∀ t ∈ done, s.life t ≠ .new
  | .returned => ∀ t ∈ s0, s.life t ≠ .new
  | .runtimeError => True
  | _ => False

theorem start_step (has : Nat → Bool) (s0 : List Nat) (s : St) (a : Act) (h : StartInv s0 s) : StartInv s0 (s.step has a) := by
  have hl := life_step has s a
  have keep : (s.step has a).pc = s.pc → StartInv s0 (s.step has a) := by
    intro e
    unfold StartInv at h ⊢
    rw [e]
    cases hp : s.pc <;> rw [hp] at h <;> simp only at h ⊢
    · obtain ⟨done, e, hd⟩ := h
      exact ⟨done, e, fun t hm => (hl t).2 (hd t hm)⟩
    · exact fun t hm => (hl t).2 (h t hm)
  cases a with
  | ends u => apply keep; simp only [St.step]; split <;> rfl
  | starts u => apply keep; simp only [St.step]; split <;> rfl
  | timeout =>
    unfold StartInv at h
    cases hp : s.pc <;> rw [hp] at h <;> first | exact h.elim | (apply keep; simp [St.step, hp])
  | caller =>
    cases hp : s.pc with
    | starting l =>
      have h' := h
      unfold StartInv at h'
      rw [hp] at h'
      obtain ⟨done, e, hd⟩ := h'
      cases l with
      | nil =>
        rw [List.append_nil] at e
        subst e
        simp only [St.step, St.caller, hp]
        exact hd
      | cons t l =>
        simp only [St.step, St.caller, hp] at hl ⊢
        by_cases hn : s.life t = .new
        · rw [if_pos hn] at hl ⊢
          refine ⟨done ++ [t], by rw [e]; simp, ?_⟩
          intro u hu
          rcases List.mem_append.1 hu with hu | hu
          · exact (hl u).2 (hd u hu)
          · rw [List.mem_singleton] at hu
            subst hu
            simp [set]
        · rw [if_neg hn]
          trivial
    | returned => apply keep; simp [St.step, St.caller, hp]
    | runtimeError => apply keep; simp [St.step, St.caller, hp]
    | idle => unfold StartInv at h; rw [hp] at h; exact h.elim
    | terminating l => unfold StartInv at h; rw [hp] at h; exact h.elim
    | joining b l => unfold StartInv at h; rw [hp] at h; exact h.elim
    | wouldWaitMore => unfold StartInv at h; rw [hp] at h; exact h.elim

/-- **C80, start**: when `start` has returned, every thread of the collection has been started. -/
theorem C80_start (has : Nat → Bool) (s : St) (as : List Act) (h : ((s.start).run has as).pc = .returned) : ∀ t ∈ s.threads, ((s.start).run has as).life t ≠ .new := by
  have : ∀ (as : List Act) (x : St), StartInv s.threads x → StartInv s.threads (as.foldl (St.step has) x) := by
    intro as
    induction as with
    | nil => intro x h; exact h
    | cons a as ih => intro x h; exact ih _ (start_step has _ x a h)
  have hi := this as s.start ⟨[], rfl, by simp⟩
  unfold StartInv at hi
  unfold St.run at h
  rw [h] at hi
  exact hi

/-- the invariant of `terminate` -/
def TermInv (has : Nat → Bool) (s0 a0 : List Nat) (s : St) : Prop :=
  match s.pc with
  | .terminating l => ∃ done, s0 = done ++ l ∧ s.asked = a0 ++ done.filter has
  | .returned => s.asked = a0 ++ s0.filter has
  | _ => False

theorem term_step (has : Nat → Bool) (s0 a0 : List Nat) (s : St) (a : Act) (h : TermInv has s0 a0 s) : TermInv has s0 a0 (s.step has a) := by
  have keep : (s.step has a).pc = s.pc → (s.step has a).asked = s.asked → TermInv has s0 a0 (s.step has a) := by
    intro e1 e2
    unfold TermInv at h ⊢
    rw [e1, e2]
    exact h
  cases a with
  | ends u => apply keep <;> simp only [St.step] <;> split <;> rfl
  | starts u => apply keep <;> simp only [St.step] <;> split <;> rfl
  | timeout =>
    unfold TermInv at h
    cases hp : s.pc <;> rw [hp] at h <;> first | exact h.elim | (apply keep <;> simp [St.step, hp])
  | caller =>
    cases hp : s.pc with
    | terminating l =>
      unfold TermInv at h
      rw [hp] at h
      obtain ⟨done, e, hd⟩ := h
      cases l with
      | nil =>
        rw [List.append_nil] at e
        subst e
        simp only [St.step, St.caller, hp]
        exact hd
      | cons t l =>
        simp only [St.step, St.caller, hp]
        refine ⟨done ++ [t], by rw [e]; simp, ?_⟩
        cases ht : has t <;> simp [ht, hd]
    | returned => apply keep <;> simp [St.step, St.caller, hp]
    | runtimeError => unfold TermInv at h; rw [hp] at h; exact h.elim
    | idle => unfold TermInv at h; rw [hp] at h; exact h.elim
    | starting l => unfold TermInv at h; rw [hp] at h; exact h.elim
    | joining b l => unfold TermInv at h; rw [hp] at h; exact h.elim
    | wouldWaitMore => unfold TermInv at h; rw [hp] at h; exact h.elim

/-- **C80, terminate**: it never raises, and when it has returned, `terminate` was called once on each thread of the collection that has it, in order. -/
theorem C80_terminate (has : Nat → Bool) (s : St) (as : List Act) :
    ((s.terminate).run has as).pc ≠ .runtimeError ∧ (((s.terminate).run has as).pc = .returned → ((s.terminate).run has as).asked = s.asked ++ s.threads.filter has) := by
  have : ∀ (as : List Act) (x : St), TermInv has s.threads s.asked x → TermInv has s.threads s.asked (as.foldl (St.step has) x) := by
    intro as
    induction as with
    | nil => intro x h; exact h
    | cons a as ih => intro x h; exact ih _ (term_step has _ _ x a h)
  have hi := this as s.terminate ⟨[], rfl, by simp [St.terminate]⟩
  unfold TermInv at hi
  unfold St.run
  refine ⟨?_, ?_⟩
  · intro e
    rw [e] at hi
    exact hi
  · intro e
    rw [e] at hi
    exact hi

/-- **C80, starting is not all or nothing**: if a thread of the collection was started by somebody else, `start` raises and those after it stay as they are. (A RuntimeError is what Python promises; the documentation of `start` does not say what becomes of the others.) -/
theorem C80_start_stops (has : Nat → Bool) (s : St) (t : Nat) (l : List Nat) (hp : s.pc = .starting (t :: l)) (ht : s.life t ≠ .new) : (s.step has .caller).pc = .runtimeError ∧ (s.step has .caller).life = s.life := by
  simp [St.step, St.caller, hp, ht]

/-! Cases that meet the hypotheses -/

/-- two new threads -/
def two : St := ⟨[1, 2], fun _ => .new, [], .idle⟩

example : (two.start.run (fun _ => true) [.caller, .ends 1, .caller, .caller]).pc = .returned := by decide
example : (two.terminate.run (fun t => t == 2) [.caller, .starts 2, .caller, .caller]).asked = [2] := by decide
example : (({ two with life := fun _ => .alive } : St).join true |>.run (fun _ => true) [.caller, .ends 2, .ends 1, .caller, .caller, .caller]).pc = .returned := by decide
example : (({ two with life := fun _ => .alive } : St).join true |>.run (fun _ => true) [.ends 1, .caller, .timeout]).pc = .wouldWaitMore := by decide
example : (two.start.run (fun _ => true) [.starts 2, .caller, .caller]).pc = .runtimeError := by decide

end Verif.Conc.ThreadCollection
