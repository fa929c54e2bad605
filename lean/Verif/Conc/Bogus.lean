/-!
# Threads that are mocked, and threads that are started once, C218-C220

`/repo/satella/coding/concurrent/thread.py:146-226` (`SingleStartThread`, `BogusTerminableThread`).
-/
namespace Verif.Bogus

/-! ## BogusTerminableThread: model -/

/-- What is raised.  (Part of the model of `BogusTerminableThread`, /repo/satella/coding/concurrent/thread.py:169-226.) -/
inductive Exn where
  | runtimeError
  | wouldWaitMore
  | typeError
  deriving DecidableEq, Repr

/-- The flags of the mock, /repo/satella/coding/concurrent/thread.py:179-182 -/
structure Mock where
  started : Bool := false
  terminated : Bool := false
  deriving DecidableEq, Repr

/-- `is_alive`, /repo/satella/coding/concurrent/thread.py:184-188 -/
def Mock.isAlive (m : Mock) : Bool := !m.terminated && m.started

/-- `start`, /repo/satella/coding/concurrent/thread.py:190-199 -/
def Mock.start (m : Mock) : Except Exn Mock :=
  if m.terminated then .error .runtimeError
  else if m.started then .error .runtimeError
  else .ok { m with started := true }

/-- `terminate`, /repo/satella/coding/concurrent/thread.py:201-208 -/
def Mock.terminate (m : Mock) : Mock := { m with terminated := true }

/-- What is called, but for `join`.  (Part of the model of `BogusTerminableThread`, /repo/satella/coding/concurrent/thread.py:169-226.) -/
inductive Call where
  | start
  | terminate
  deriving DecidableEq, Repr

/-- A call, and whether it raised.  (Part of the model of `BogusTerminableThread`, /repo/satella/coding/concurrent/thread.py:169-226.) -/
def Mock.call (m : Mock) : Call → Mock × Bool
  | .start =>
    match m.start with
    | .ok m' => (m', false)
    | .error _ => (m, true)
  | .terminate => (m.terminate, false)

/-- Calls one after another, and whether each raised.  (Part of the model of `BogusTerminableThread`, /repo/satella/coding/concurrent/thread.py:169-226.) -/
def calls : Mock → List Call → Mock × List Bool
  | m, [] => (m, [])
  | m, c :: cs => ((calls (m.call c).1 cs).1, (m.call c).2 :: (calls (m.call c).1 cs).2)

/-- The loop of `join`, /repo/satella/coding/concurrent/thread.py:223-224: `clock i` is what the clock gives at the i-th look, and `flag i` what `terminated` is
then. It gives the number of the look that ended it, if there was fuel enough. -/
def loop (timeout : Rat) (t0 : Rat) (clock : Nat → Rat) (flag : Nat → Bool) : Nat → Nat → Option Nat
  | 0, _ => none
  | fuel + 1, i => if clock i - t0 < timeout ∧ flag i = false then loop timeout t0 clock flag fuel (i + 1) else some i

/-- `join`, /repo/satella/coding/concurrent/thread.py:210-226: `flag` is what `terminated` is at each look, and `last` what it is after the loop; without a timeout the comparison raises TypeError,
/repo/satella/coding/concurrent/thread.py:223. -/
def join (m : Mock) (timeout : Option Rat) (t0 : Rat) (clock : Nat → Rat) (flag : Nat → Bool) (last : Nat → Bool) (fuel : Nat) : Option (Except Exn Unit) :=
  if !m.terminated && !m.started then some (.error .runtimeError)
  else if m.terminated then some (.ok ())
  else
    match timeout with
    | none => some (.error .typeError)
    | some timeout =>
      match loop timeout t0 clock flag fuel 0 with
      | none => none
      | some i => if last i then some (.ok ()) else some (.error .wouldWaitMore)

/-! ## BogusTerminableThread: properties -/

/-- **C218 (life of a mocked thread)** After any calls: the mock is alive exactly if a `start` has succeeded, and it was not
terminated; `start` raises exactly if it succeeded before, or after `terminate`; so it succeeds at most once. -/
theorem C218_life (cs : List Call) :
    let r := calls {} cs
    r.2.length = cs.length ∧
    (r.1.isAlive = true ↔ .start ∈ cs ∧ .terminate ∉ cs) ∧
    (∀ pre post, cs = pre ++ .terminate :: post → r.2[pre.length]? = some false) ∧
    (∀ pre post, cs = pre ++ .start :: post → (r.2[pre.length]? = some false ↔ .start ∉ pre ∧ .terminate ∉ pre)) := by
  suffices h : ∀ m : Mock, let r := calls m cs
      r.2.length = cs.length ∧
      (r.1.isAlive = true ↔ (m.terminated = false ∧ .terminate ∉ cs) ∧ (m.started = true ∨ .start ∈ cs)) ∧
      (∀ pre post, cs = pre ++ .terminate :: post → r.2[pre.length]? = some false) ∧
      (∀ pre post, cs = pre ++ .start :: post → (r.2[pre.length]? = some false ↔ m.started = false ∧ m.terminated = false ∧ .start ∉ pre ∧ .terminate ∉ pre)) by
    obtain ⟨h1, h2, h3, h4⟩ := h {}
    refine ⟨h1, ?_, h3, ?_⟩
    · rw [h2]; simp [and_comm]
    · intro pre post he; rw [h4 pre post he]; simp
  induction cs with
  | nil => intro m; simp [calls, Mock.isAlive]
  | cons c cs ih =>
    intro m
    obtain ⟨h1, h2, h3, h4⟩ := ih (m.call c).1
    obtain ⟨st, te⟩ := m
    refine ⟨by simp [calls, h1], ?_, ?_, ?_⟩
    · simp only [calls]
      rw [h2]
      cases c <;> cases st <;> cases te <;> simp [Mock.call, Mock.start, Mock.terminate]
    · intro pre post he
      cases pre with
      | nil =>
        simp at he
        obtain ⟨rfl, rfl⟩ := he
        simp [calls, Mock.call]
      | cons c' pre =>
        simp at he
        obtain ⟨rfl, he⟩ := he
        simp only [calls, List.length_cons, List.getElem?_cons_succ]
        exact h3 pre post he
    · intro pre post he
      cases pre with
      | nil =>
        simp at he
        obtain ⟨rfl, rfl⟩ := he
        cases st <;> cases te <;> simp [calls, Mock.call, Mock.start]
      | cons c' pre =>
        simp at he
        obtain ⟨rfl, he⟩ := he
        simp only [calls, List.length_cons, List.getElem?_cons_succ]
        rw [h4 pre post he]
        cases c <;> cases st <;> cases te <;> simp [Mock.call, Mock.start, Mock.terminate]

/-- The loop ends at the first look at which the time is over or the flag is set. -/
theorem loop_spec (timeout t0 : Rat) (clock : Nat → Rat) (flag : Nat → Bool) (j : Nat) : ∀ (fuel i : Nat),
    loop timeout t0 clock flag fuel i = some j ↔
      i ≤ j ∧ j < i + fuel ∧ (timeout ≤ clock j - t0 ∨ flag j = true) ∧ ∀ k, i ≤ k → k < j → clock k - t0 < timeout ∧ flag k = false := by
  intro fuel
  induction fuel with
  | zero => intro i; simp only [loop]; constructor
            · intro h; cases h
            · rintro ⟨h1, h2, _⟩; omega
  | succ fuel ih =>
    intro i
    simp only [loop]
    split
    · rename_i hc
      rw [ih]
      constructor
      · rintro ⟨h1, h2, h3, h4⟩
        refine ⟨by omega, by omega, h3, ?_⟩
        intro k hk hk'
        by_cases hki : k = i
        · subst hki; exact hc
        · exact h4 k (by omega) hk'
      · rintro ⟨h1, h2, h3, h4⟩
        have hij : i ≠ j := by
          rintro rfl
          rcases h3 with h | h
          · exact absurd hc.1 (Rat.not_lt.2 h)
          · rw [hc.2] at h; cases h
        exact ⟨by omega, by omega, h3, fun k hk hk' => h4 k (by omega) hk'⟩
    · rename_i hc
      constructor
      · intro h
        simp only [Option.some.injEq] at h
        subst h
        refine ⟨Nat.le_refl _, by omega, ?_, fun k hk hk' => by omega⟩
        by_cases hf : flag i = true
        · exact Or.inr hf
        · refine Or.inl (Rat.not_lt.1 fun h => hc ⟨h, by simpa using hf⟩)
      · rintro ⟨h1, h2, h3, h4⟩
        by_cases hij : i = j
        · rw [hij]
        · exact absurd (h4 i (Nat.le_refl _) (by omega)) hc

theorem loop_ends (timeout t0 : Rat) (clock : Nat → Rat) (flag : Nat → Bool) (hc : ∀ i : Nat, t0 + (i : Rat) ≤ clock i) (n : Nat) (hn : timeout ≤ (n : Rat)) :
    ∀ (d i : Nat), i + d = n → ∃ j, loop timeout t0 clock flag (d + 1) i = some j := by
  intro d
  induction d with
  | zero =>
    intro i hi
    simp only [loop]
    split
    · rename_i h
      exfalso
      have h1 := hc i
      have h2 := h.1
      have : (n : Rat) = (i : Rat) := by congr 1; omega
      rw [this] at hn
      grind
    · exact ⟨i, rfl⟩
  | succ d ih =>
    intro i hi
    rw [loop]
    split
    · exact ih (i + 1) (by omega)
    · exact ⟨i, rfl⟩

theorem loop_mono (timeout t0 : Rat) (clock : Nat → Rat) (flag : Nat → Bool) (fuel fuel' i j : Nat) (hf : fuel ≤ fuel') (h : loop timeout t0 clock flag fuel i = some j) :
    loop timeout t0 clock flag fuel' i = some j := by
  rw [loop_spec] at h ⊢
  exact ⟨h.1, by omega, h.2.2⟩

/-- **C218 (joining a mocked thread)** `join` with a timeout always comes to an end: it raises RuntimeError exactly if the mock was neither started nor terminated; returns at once if
it was terminated; and otherwise looks once a second, until the time is over or the mock is terminated: WouldWaitMore exactly if it is still not terminated then. -/
theorem C218_join (m : Mock) (timeout t0 : Rat) (clock : Nat → Rat) (flag last : Nat → Bool) (hc : ∀ i : Nat, t0 + (i : Rat) ≤ clock i) (hl : ∀ i, flag i = true → last i = true) :
    ∃ n, ∀ fuel, n ≤ fuel → ∃ r, join m (some timeout) t0 clock flag last fuel = some r ∧
      (r = .error .runtimeError ↔ m.started = false ∧ m.terminated = false) ∧
      (m.terminated = true → r = .ok ()) ∧
      (m.started = true → m.terminated = false → ∃ j, (∀ k, k < j → clock k - t0 < timeout ∧ flag k = false) ∧
        ((r = .ok () ∧ last j = true) ∨ (r = .error .wouldWaitMore ∧ last j = false ∧ timeout ≤ clock j - t0))) := by
  obtain ⟨N, hN⟩ : ∃ N : Nat, timeout ≤ (N : Rat) := by
    refine ⟨timeout.ceil.toNat, ?_⟩
    have h1 : timeout ≤ (timeout.ceil : Rat) := Rat.le_ceil
    have h2 : ((timeout.ceil : Int) : Rat) ≤ ((timeout.ceil.toNat : Nat) : Rat) := by
      rw [← Rat.intCast_natCast]
      exact Rat.intCast_le_intCast.2 (by omega)
    exact Rat.le_trans h1 h2
  obtain ⟨j, hj⟩ := loop_ends timeout t0 clock flag hc N hN N 0 (by omega)
  refine ⟨N + 1, fun fuel hf => ?_⟩
  have hj' := loop_mono timeout t0 clock flag _ fuel 0 j hf hj
  obtain ⟨_, _, h3, h4⟩ := (loop_spec timeout t0 clock flag j _ 0).1 hj'
  obtain ⟨st, te⟩ := m
  cases te with
  | true => exact ⟨.ok (), by simp [join], by simp, by simp, by simp⟩
  | false =>
    cases st with
    | false => exact ⟨.error .runtimeError, by simp [join], by simp, by simp, by simp⟩
    | true =>
      cases hlast : last j with
      | true => exact ⟨.ok (), by simp [join, hj', hlast], by simp, by simp, fun _ _ => ⟨j, fun k hk => h4 k (Nat.zero_le _) hk, Or.inl ⟨rfl, hlast⟩⟩⟩
      | false =>
        refine ⟨.error .wouldWaitMore, by simp [join, hj', hlast], by simp, by simp, fun _ _ => ⟨j, fun k hk => h4 k (Nat.zero_le _) hk, Or.inr ⟨rfl, hlast, ?_⟩⟩⟩
        rcases h3 with h | h
        · exact h
        · rw [hl j h] at hlast; cases hlast

/-- The hypotheses are met: looks a second apart, terminated after three of them. -/
example : (∀ i : Nat, (0 : Rat) + (i : Rat) ≤ (i : Rat)) ∧ (∀ i : Nat, decide (3 ≤ i) = true → decide (3 ≤ i) = true) ∧
    join ⟨true, false⟩ (some 10) 0 (fun i => (i : Rat)) (fun i => decide (3 ≤ i)) (fun i => decide (3 ≤ i)) 20 = some (.ok ()) ∧
    join ⟨true, false⟩ (some 2) 0 (fun i => (i : Rat)) (fun i => decide (3 ≤ i)) (fun i => decide (3 ≤ i)) 20 = some (.error .wouldWaitMore) :=
  by
  refine ⟨fun i => by grind, fun _ h => h, ?_, ?_⟩
  · have : loop 10 0 (fun i => (i : Rat)) (fun i => decide (3 ≤ i)) 20 0 = some 3 := by decide +kernel
    simp [join, this]
  · have : loop 2 0 (fun i => (i : Rat)) (fun i => decide (3 ≤ i)) 20 0 = some 2 := by decide +kernel
    simp [join, this]

/-- **C220 (joining without a timeout), the violation** `join()` of a mock that runs raises TypeError at once, with a timeout that is documented as optional; it does not wait. -/
theorem C220_join_violates (t0 : Rat) (clock : Nat → Rat) (flag last : Nat → Bool) (fuel : Nat) :
    join ⟨true, false⟩ none t0 clock flag last fuel = some (.error .typeError) := rfl

/-- **C220 (joining without a timeout), the part that holds** It raises TypeError exactly if the mock was started and not terminated. -/
theorem C220_join_partial (m : Mock) (t0 : Rat) (clock : Nat → Rat) (flag last : Nat → Bool) (fuel : Nat) :
    join m none t0 clock flag last fuel = some (.error .typeError) ↔ m.started = true ∧ m.terminated = false := by
  obtain ⟨st, te⟩ := m
  cases st <;> cases te <;> simp [join]

/-! ## SingleStartThread: model -/

/-- Where a caller of `start` is: not in it; past the look at the flag; past the setting of it.  /repo/satella/coding/concurrent/thread.py:156-166 -/
inductive Phase where
  | out
  | setting
  | starting
  deriving DecidableEq, Repr

/-- What a call of `start` gives.  (Part of the model of `SingleStartThread.start`, /repo/satella/coding/concurrent/thread.py:156-166.) -/
inductive Res where
  | self
  | none
  | raised
  deriving DecidableEq, Repr

/-- The flag of the thread, how often the thread was set running, the callers, and what calls gave, the last first; /repo/satella/coding/concurrent/thread.py:152-154 -/
structure St where
  flag : Bool := false
  runs : Nat := 0
  at_ : Nat → Phase := fun _ => .out
  gave : List (Nat × Res) := []

/-- Somebody moves on.  (Part of the model of `SingleStartThread.start`, /repo/satella/coding/concurrent/thread.py:156-166.) -/
def setAt (f : Nat → Phase) (t : Nat) (p : Phase) : Nat → Phase := fun u => if u = t then p else f u

/-- A caller takes the next step, /repo/satella/coding/concurrent/thread.py:162-166: look at the flag (and return at once if it is set); set it; start the thread by
`threading.Thread.start`, which raises RuntimeError if the thread was started before. -/
def step (s : St) (t : Nat) : St :=
  match s.at_ t with
  | .out => if s.flag then { s with gave := (t, .none) :: s.gave } else { s with at_ := setAt s.at_ t .setting }
  | .setting => { s with flag := true, at_ := setAt s.at_ t .starting }
  | .starting => if s.runs = 0 then { s with runs := 1, at_ := setAt s.at_ t .out, gave := (t, .self) :: s.gave }
      else { s with at_ := setAt s.at_ t .out, gave := (t, .raised) :: s.gave }

/-- Steps one after another (of callers of `SingleStartThread.start`, /repo/satella/coding/concurrent/thread.py:156-166). -/
def steps (s : St) (l : List Nat) : St := l.foldl step s

/-! ## SingleStartThread: properties -/

/-- The invariant: who has begun and not ended, or ended, accounts for the runs. -/
structure Inv (s : St) : Prop where
  flag : s.flag = false → s.gave = [] ∧ s.runs = 0 ∧ ∀ t, s.at_ t ≠ .starting
  pending : s.flag = true → s.runs = 0 → ∃ t, s.at_ t = .starting
  runs : s.runs = 0 ∧ (∀ t r, (t, r) ∈ s.gave → r = .none) ∨ s.runs = 1 ∧ s.gave.countP (fun p => p.2 = .self) = 1

theorem inv_step (s : St) (t : Nat) (h : Inv s) : Inv (step s t) := by
  obtain ⟨h1, h2, h3⟩ := h
  unfold step
  split
  · rename_i ho
    split
    · rename_i hf
      refine ⟨fun h => absurd (hf.symm.trans h) (by simp), h2, ?_⟩
      rcases h3 with ⟨h, h'⟩ | ⟨h, h'⟩
      · refine Or.inl ⟨h, fun u r hu => ?_⟩
        rcases List.mem_cons.1 hu with hu | hu
        · cases hu; rfl
        · exact h' u r hu
      · exact Or.inr ⟨h, by simp [h']⟩
    · rename_i hf
      have hf : s.flag = false := by simpa using hf
      obtain ⟨a, b, c⟩ := h1 hf
      refine ⟨fun _ => ⟨a, b, fun u => ?_⟩, fun h => absurd h (by simp [hf]), h3⟩
      simp only [setAt]; split
      · simp
      · exact c u
  · rename_i hs
    refine ⟨fun h => (by cases h), fun _ _ => ⟨t, by simp [setAt]⟩, h3⟩
  · rename_i hs
    have hf : s.flag = true := by
      cases hf : s.flag with
      | true => rfl
      | false => exact absurd hs ((h1 hf).2.2 t)
    split
    · rename_i hr
      refine ⟨fun h => absurd h (by simp [hf]), fun _ h => by simp at h, Or.inr ⟨rfl, ?_⟩⟩
      rcases h3 with ⟨_, h'⟩ | ⟨h, _⟩
      · have : s.gave.countP (fun p => p.2 = Res.self) = 0 := by
          rw [List.countP_eq_zero]
          rintro ⟨u, r⟩ hu
          rw [h' u r hu]; simp
        simp [this]
      · omega
    · rename_i hr
      refine ⟨fun h => absurd h (by simp [hf]), fun _ h => absurd h hr, Or.inr ?_⟩
      rcases h3 with ⟨h, _⟩ | ⟨h, h'⟩
      · exact absurd h hr
      · exact ⟨h, by simp [h']⟩

theorem inv_steps (l : List Nat) : ∀ s, Inv s → Inv (steps s l) := by
  induction l with
  | nil => intro s h; exact h
  | cons t l ih => intro s h; exact ih _ (inv_step s t h)

theorem inv_init : Inv {} := ⟨fun _ => ⟨rfl, rfl, fun _ h => (by cases h)⟩, fun h => (by cases h), Or.inl ⟨rfl, by simp⟩⟩

/-- the results of a caller other than None -/
def others (t : Nat) (g : List (Nat × Res)) : Nat := g.countP (fun p => p.1 = t ∧ p.2 ≠ .none)

/-- a caller that got something other than None gets nothing else any more -/
structure Once (s : St) : Prop where
  flag : ∀ t, s.at_ t = .starting → s.flag = true
  inside : ∀ t, s.at_ t ≠ .out → others t s.gave = 0
  got : ∀ t, 0 < others t s.gave → s.flag = true
  most : ∀ t, others t s.gave ≤ 1

theorem once_step (s : St) (t : Nat) (h : Once s) : Once (step s t) := by
  obtain ⟨h1, h2, h3, h4⟩ := h
  unfold step
  split
  · rename_i ho
    split
    · rename_i hf
      have e : ∀ u, others u ((t, .none) :: s.gave) = others u s.gave := fun u => by simp [others]
      refine ⟨h1, fun u hu => ?_, fun u hu => hf, fun u => ?_⟩
      · exact (e u).trans (h2 u hu)
      · exact (e u) ▸ h4 u
    · rename_i hf
      refine ⟨fun u hu => ?_, fun u hu => ?_, h3, h4⟩
      · by_cases e : u = t
        · subst e; simp [setAt] at hu
        · simp [setAt, e] at hu; exact h1 u hu
      · by_cases e : u = t
        · subst e
          rcases Nat.eq_zero_or_pos (others u s.gave) with h | h
          · exact h
          · exact absurd (h3 u h) hf
        · simp [setAt, e] at hu; exact h2 u hu
  · rename_i hs
    refine ⟨fun _ _ => rfl, fun u hu => ?_, fun _ _ => rfl, h4⟩
    by_cases e : u = t
    · subst e; exact h2 u (by rw [hs]; simp)
    · simp [setAt, e] at hu; exact h2 u hu
  · rename_i hs
    have hf := h1 t hs
    have h0 := h2 t (by rw [hs]; simp)
    have fin : ∀ (r : Res) (n : Nat), Once { s with runs := n, at_ := setAt s.at_ t .out, gave := (t, r) :: s.gave } := by
      intro r n
      refine ⟨fun _ _ => hf, fun u hu => ?_, fun _ _ => hf, fun u => ?_⟩
      · by_cases e : u = t
        · subst e; simp [setAt] at hu
        · have e' : t ≠ u := fun h => e h.symm
          simp [setAt, e] at hu
          have := h2 u hu
          simpa [others, e'] using this
      · by_cases e : u = t
        · subst e
          have : others u ((u, r) :: s.gave) ≤ others u s.gave + 1 := by
            simp only [others, List.countP_cons]; split <;> omega
          show others u ((u, r) :: s.gave) ≤ 1
          omega
        · have e' : t ≠ u := fun h => e h.symm
          have := h4 u
          simpa [others, e'] using this
    split
    · exact fin .self 1
    · exact fin .raised s.runs

theorem once_steps (l : List Nat) : ∀ s, Once s → Once (steps s l) := by
  induction l with
  | nil => intro s h; exact h
  | cons t l ih => intro s h; exact ih _ (once_step s t h)

/-- **C219 (started once), for each caller** At most one call of each thread does not return None: once a call returned the thread, or raised, further calls do nothing. -/
theorem C219_each_caller (l : List Nat) (t : Nat) : (steps {} l).gave.countP (fun p => p.1 = t ∧ p.2 ≠ .none) ≤ 1 :=
  (once_steps l {} ⟨fun _ h => (by cases h), fun _ _ => rfl, fun _ h => (by simp [others] at h), fun _ => (by simp [others])⟩).most t

example : (steps {} [0, 1, 0, 1, 0, 1, 0, 1]).gave = [(1, .none), (0, .none), (1, .raised), (0, .self)] := by decide

/-- **C219 (started once)** Whoever calls `start`, and however their steps interleave: the thread is set running at most once, and exactly one call says that it did so, if it was;
and whenever some call has ended and none is under way, it has been set running. -/
theorem C219_once (l : List Nat) :
    let s := steps {} l
    s.runs ≤ 1 ∧ (s.gave.countP (fun p => p.2 = .self) = s.runs) ∧ ((∀ t, s.at_ t = .out) → s.gave ≠ [] → s.runs = 1) := by
  intro s
  obtain ⟨h1, h2, h3⟩ : Inv s := inv_steps l _ inv_init
  refine ⟨?_, ?_, ?_⟩
  · rcases h3 with ⟨h, _⟩ | ⟨h, _⟩ <;> omega
  · rcases h3 with ⟨h, h'⟩ | ⟨h, h'⟩
    · rw [h, List.countP_eq_zero]
      rintro ⟨u, r⟩ hu
      rw [h' u r hu]; simp
    · rw [h, h']
  · intro ho hg
    rcases h3 with ⟨h, _⟩ | ⟨h, _⟩
    · exfalso
      cases hf : s.flag with
      | false => exact hg (h1 hf).1
      | true =>
        obtain ⟨t, ht⟩ := h2 hf h
        rw [ho t] at ht; cases ht
    · exact h

/-- Two callers whose steps interleave, and a third after them: one sets it running. -/
example : (steps {} [0, 1, 0, 1, 1, 0, 2]).runs = 1 ∧ (steps {} [0, 1, 0, 1, 1, 0, 2]).gave = [(2, .none), (0, .raised), (1, .self)] := by decide

/-- **C220 (start at the same time), the violation** Two threads that call `start` at the same time: one of them gets RuntimeError, though "no-op when called second or so time". -/
theorem C220_race_violates : ∃ l, (1, Res.raised) ∈ (steps {} l).gave := ⟨[0, 1, 0, 1, 0, 1], by decide⟩

/-- **C220 (what start returns), the violation** A second call returns None, and not the thread, as documented. -/
theorem C220_returns_violates (t u : Nat) : (steps {} [t, t, t, u]).gave = [(u, .none), (t, .self)] := by
  by_cases h : u = t <;> simp [steps, step, setAt, h]

/-- **C220 (calls of start), the part that holds** Calls that do not overlap never raise: the first returns the thread and sets it running, the others return None. -/
theorem C220_calls_partial (t : Nat) (l : List Nat) :
    let s := steps {} ([t, t, t] ++ l)
    s.gave = (l.reverse.map fun u => (u, Res.none)) ++ [(t, .self)] ∧ s.runs = 1 := by
  intro s
  have h0 : steps {} [t, t, t] = { flag := true, runs := 1, at_ := fun _ => .out, gave := [(t, .self)] } := by
    simp [steps, step, setAt]
    funext u
    by_cases h : u = t <;> simp only [setAt, h, if_true, if_false]
  have hs : s = steps { flag := true, runs := 1, at_ := fun _ => .out, gave := [(t, .self)] } l := by
    rw [← h0]; simp [s, steps]
  rw [hs]
  suffices h : ∀ g, (steps { flag := true, runs := 1, at_ := fun _ => .out, gave := g } l).gave = (l.reverse.map fun u => (u, Res.none)) ++ g ∧
      (steps { flag := true, runs := 1, at_ := fun _ => .out, gave := g } l).runs = 1 from h _
  clear hs h0 s
  induction l with
  | nil => intro g; exact ⟨rfl, rfl⟩
  | cons u l ih =>
    intro g
    have := ih ((u, .none) :: g)
    simpa [steps, step] using this

end Verif.Bogus
