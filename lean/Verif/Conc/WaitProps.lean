import Verif.Conc.Wait
import Verif.Conc.MonitorProps
/-! # C49, C50: comparing AtomicNumbers, waiting for a value -/
namespace Verif.Conc
open Verif

/-! ## C49 -/

/-- no thread can do anything any more -/
def LSys.Stuck (s : LSys) (t : Nat) : Prop := ∀ ts, (s.run ts).prog t = s.prog t ∧ s.prog t ≠ []

theorem stuck_of_blocked {s : LSys} {t m : Nat} {rest : List LInstr} (h1 : s.prog t = .acquire m :: rest)
    (h : ∀ x, s.step x = s) : s.Stuck t := by
  have hr : ∀ ts, s.run ts = s := by
    intro ts
    induction ts with
    | nil => rfl
    | cons x ts ih => rw [LSys.run, h x, ih]
  intro ts
  rw [hr ts, h1]
  exact ⟨rfl, by simp⟩

/-- **C49 is violated by comparing a number with itself**: the thread waits for a lock it holds itself, forever. -/
theorem C49_self_comparison_violates (a t : Nat) :
    let s : LSys := { locks := fun _ => none, prog := upd (fun _ => []) t (eqProg a a) }
    (s.run [t]).Stuck t := by
  intro s
  have hs : s.run [t] = { locks := upd (fun _ => none) a (some t), prog := upd (fun _ => []) t [.acquire a, .release a, .release a] } := by
    simp [LSys.run, LSys.step, s, eqProg, upd_upd]
  rw [hs]
  refine stuck_of_blocked (m := a) (rest := [.release a, .release a]) (by simp) ?_
  intro x
  by_cases hx : x = t
  · subst hx; simp [LSys.step]
  · simp [LSys.step, upd_other _ _ hx]

/-- **C49 is violated by two threads comparing two numbers in opposite directions**: if each takes its first lock before the other takes
its second, both wait forever. -/
theorem C49_crossed_comparison_violates (a b t u : Nat) (hab : a ≠ b) (htu : t ≠ u) :
    let s : LSys := { locks := fun _ => none, prog := upd (upd (fun _ => []) t (eqProg a b)) u (eqProg b a) }
    (s.run [t, u]).Stuck t ∧ (s.run [t, u]).Stuck u := by
  intro s
  have hs : s.run [t, u] = { locks := upd (upd (fun _ => none) a (some t)) b (some u)
                             prog := upd (upd s.prog t [.acquire b, .release b, .release a]) u [.acquire a, .release a, .release b] } := by
    have h1 : s.step t = { locks := upd (fun _ => none) a (some t), prog := upd s.prog t [.acquire b, .release b, .release a] } := by
      simp [LSys.step, s, eqProg, upd_other _ _ htu]
    simp only [LSys.run, h1]
    have h2 : (upd s.prog t [.acquire b, .release b, .release a]) u = eqProg b a := by
      rw [upd_other _ _ (Ne.symm htu)]; simp [s]
    simp [LSys.step, h2, eqProg, upd_other _ _ (Ne.symm hab)]
  have key : ∀ x, (s.run [t, u]).step x = s.run [t, u] := by
    rw [hs]
    intro x
    by_cases hx : x = t
    · subst hx; simp [LSys.step, upd_other _ _ htu]
    · by_cases hx2 : x = u
      · subst hx2; simp [LSys.step, upd_other _ _ hab]
      · simp [LSys.step, upd_other _ _ hx, upd_other _ _ hx2, s]
  constructor
  · refine stuck_of_blocked (m := b) (rest := [.release b, .release a]) ?_ key
    rw [hs]; simp [upd_other _ _ htu]
  · refine stuck_of_blocked (m := a) (rest := [.release a, .release b]) ?_ key
    rw [hs]; simp

/-- the programs in which two numbers are compared in ascending order only: `x == y` with `x` before `y` in some fixed numbering -/
inductive Ordered : List LInstr → Prop
  | nil : Ordered []
  | use (a p) : Ordered p → Ordered (useProg a ++ p)
  | eq (a b p) : a < b → Ordered p → Ordered (eqProg a b ++ p)

/-- what a thread in the middle of an ordered program has left, and the locks it holds -/
inductive Left : List LInstr → List Nat → Prop
  | out (p) : Ordered p → Left p []
  | use (a p) : Ordered p → Left (.release a :: p) [a]
  | eq1 (a b p) : a < b → Ordered p → Left (.acquire b :: .release b :: .release a :: p) [a]
  | eq2 (a b p) : a < b → Ordered p → Left (.release b :: .release a :: p) [b, a]

/-- the locks a thread holds, according to its program, are those the lock table says -/
def LInv (s : LSys) : Prop :=
  ∃ held : Nat → List Nat, (∀ t, Left (s.prog t) (held t)) ∧ ∀ m t, s.locks m = some t ↔ m ∈ held t

theorem left_cons {i : LInstr} {p : List LInstr} {h : List Nat} (hl : Left (i :: p) h) :
    (∃ m, i = .acquire m ∧ Left p (m :: h) ∧ ∀ x ∈ h, x < m) ∨ (∃ m h', i = .release m ∧ h = m :: h' ∧ m ∉ h' ∧ Left p h') := by
  cases hl with
  | out _ ho =>
    generalize hq : i :: p = q at ho
    cases ho with
    | nil => cases hq
    | use a r hr =>
      simp only [useProg, List.cons_append, List.nil_append, List.cons.injEq] at hq
      obtain ⟨rfl, rfl⟩ := hq
      exact Or.inl ⟨a, rfl, .use a r hr, by simp⟩
    | eq a b r hab hr =>
      simp only [eqProg, List.cons_append, List.nil_append, List.cons.injEq] at hq
      obtain ⟨rfl, rfl⟩ := hq
      exact Or.inl ⟨a, rfl, .eq1 a b r hab hr, by simp⟩
  | use a p ho => exact Or.inr ⟨a, [], rfl, rfl, by simp, .out p ho⟩
  | eq1 a b p hab ho => exact Or.inl ⟨b, rfl, .eq2 a b p hab ho, by simpa using hab⟩
  | eq2 a b p hab ho => exact Or.inr ⟨b, [a], rfl, rfl, by simp; omega, .use a p ho⟩

theorem linv_step {s : LSys} (h : LInv s) (t : Nat) : LInv (s.step t) := by
  obtain ⟨held, h1, h2⟩ := h
  unfold LSys.step
  cases hp : s.prog t with
  | nil => exact ⟨held, h1, h2⟩
  | cons i rest =>
    have hl := h1 t
    rw [hp] at hl
    rcases left_cons hl with ⟨m, rfl, hl', _⟩ | ⟨m, h', rfl, hh, hm, hl'⟩
    · dsimp only
      cases hm : s.locks m with
      | some u => exact ⟨held, h1, h2⟩
      | none =>
        dsimp only
        refine ⟨upd held t (m :: held t), ?_, ?_⟩
        · intro u
          by_cases hu : u = t
          · subst hu; simpa using hl'
          · simpa [upd_other _ _ hu] using h1 u
        · intro n u
          dsimp only
          by_cases hn : n = m
          · subst hn
            rw [upd_same]
            by_cases hu : u = t
            · subst hu; simp
            · rw [upd_other _ _ hu]
              constructor
              · intro h; exact absurd (Option.some.inj h).symm hu
              · intro h; rw [(h2 n u).2 h] at hm; cases hm
          · rw [upd_other _ _ hn, h2]
            by_cases hu : u = t
            · subst hu; simp [hn]
            · rw [upd_other _ _ hu]
    · dsimp only
      refine ⟨upd held t h', ?_, ?_⟩
      · intro u
        by_cases hu : u = t
        · subst hu; simpa using hl'
        · simpa [upd_other _ _ hu] using h1 u
      · intro n u
        dsimp only
        by_cases hn : n = m
        · subst hn
          rw [upd_same]
          constructor
          · intro h; cases h
          · intro h
            by_cases hu : u = t
            · subst hu; rw [upd_same] at h; exact absurd h hm
            · rw [upd_other _ _ hu] at h
              have e1 := (h2 n u).2 h
              have e2 := (h2 n t).2 (by rw [hh]; simp)
              rw [e1] at e2
              exact absurd (Option.some.inj e2) hu
        · rw [upd_other _ _ hn, h2]
          by_cases hu : u = t
          · subst hu
            rw [upd_same, hh]; simp [hn]
          · rw [upd_other _ _ hu]

/-- **C49.** If numbers are only ever compared in one direction (for some numbering of them), then at no moment of any schedule are all threads stuck: while a
thread is unfinished, some thread can run on.  `M` is how many numbers there are. -/
theorem C49_ordered_partial (M : Nat) (p : Nat → List LInstr) (hp : ∀ t, Ordered (p t))
    (hM : ∀ t m, LInstr.acquire m ∈ p t → m < M) (ts : List Nat) (t : Nat) :
    let s := ({ locks := fun _ => none, prog := p } : LSys).run ts
    s.prog t ≠ [] → ∃ u, s.step u ≠ s := by
  intro s hne
  have hinv : LInv s := by
    have h0 : LInv { locks := fun _ => none, prog := p } :=
      ⟨fun _ => [], fun t => .out _ (hp t), by simp⟩
    have : ∀ (ts : List Nat) (s : LSys), LInv s → LInv (s.run ts) := by
      intro ts
      induction ts with
      | nil => intro s h; exact h
      | cons t ts ih => intro s h; exact ih _ (linv_step h t)
    exact this ts _ h0
  have hbound : ∀ t m, LInstr.acquire m ∈ s.prog t → m < M := by
    have : ∀ (ts : List Nat) (s : LSys), (∀ t m, LInstr.acquire m ∈ s.prog t → m < M) →
        ∀ t m, LInstr.acquire m ∈ (s.run ts).prog t → m < M := by
      intro ts
      induction ts with
      | nil => intro s h; exact h
      | cons x ts ih =>
        intro s h
        apply ih
        intro t m hm
        apply h t m
        unfold LSys.step at hm
        cases hx : s.prog x with
        | nil => rw [hx] at hm; exact hm
        | cons i rest =>
          rw [hx] at hm
          by_cases ht : t = x
          · subst ht
            cases i with
            | acquire n =>
              dsimp only at hm
              split at hm
              · dsimp only at hm; rw [upd_same] at hm; rw [hx]; exact List.mem_cons_of_mem _ hm
              · exact hm
            | release n => dsimp only at hm; rw [upd_same] at hm; rw [hx]; exact List.mem_cons_of_mem _ hm
          · cases i with
            | acquire n =>
              dsimp only at hm
              split at hm
              · dsimp only at hm; rw [upd_other _ _ ht] at hm; exact hm
              · exact hm
            | release n => dsimp only at hm; rw [upd_other _ _ ht] at hm; exact hm
    exact this ts _ hM
  obtain ⟨held, h1, h2⟩ := hinv
  -- a thread that waits for lock `m` leads to one that can run, going up
  have up : ∀ k m t rest, M - m ≤ k → s.prog t = .acquire m :: rest → ∃ u, s.step u ≠ s := by
    intro k
    induction k with
    | zero =>
      intro m t rest hk ht
      have := hbound t m (by rw [ht]; simp)
      omega
    | succ k ih =>
      intro m t rest hk ht
      cases hm : s.locks m with
      | none =>
        refine ⟨t, ?_⟩
        intro he
        have : (s.step t).locks m = some t := by simp [LSys.step, ht, hm]
        rw [he, hm] at this
        cases this
      | some u =>
        have hu := (h2 m u).1 hm
        have hl := h1 u
        cases hpu : s.prog u with
        | nil =>
          rw [hpu] at hl
          generalize held u = hu' at hl hu
          cases hl
          cases hu
        | cons i rest' =>
          rw [hpu] at hl
          rcases left_cons hl with ⟨n, rfl, _, hlt⟩ | ⟨n, h', rfl, _, _, _⟩
          · have := hbound u n (by rw [hpu]; simp)
            exact ih n u rest' (by have := hlt m hu; omega) hpu
          · refine ⟨u, ?_⟩
            intro he
            have : (s.step u).prog u = rest' := by simp [LSys.step, hpu]
            rw [he, hpu] at this
            have := congrArg List.length this
            simp at this
  cases hpt : s.prog t with
  | nil => exact absurd hpt hne
  | cons i rest =>
    cases i with
    | acquire m => exact up (M - m) m t rest (Nat.le_refl _) hpt
    | release m =>
      refine ⟨t, ?_⟩
      intro he
      have : (s.step t).prog t = rest := by simp [LSys.step, hpt]
      rw [he, hpt] at this
      have := congrArg List.length this
      simp at this

example := C49_ordered_partial 2 (fun t => if t = 0 then eqProg 0 1 ++ (useProg 1 ++ []) else eqProg 0 1 ++ [])
  (by intro t; split
      · exact .eq 0 1 _ (by decide) (.use 1 _ .nil)
      · exact .eq 0 1 _ (by decide) .nil)
  (by intro t m; split <;> simp [eqProg, useProg] <;> omega) [0, 1, 1, 0] 0

/-! ## C50 -/

section
variable {V : Type _} [DecidableEq V]

/-- the values the number has at the moments of a schedule -/
def values (target : V) (s : V × WPc) : List (WEv V) → List V
  | [] => [s.1]
  | e :: es => s.1 :: values target (wstep target s e) es

/-- **C50.** `wait_until_equal` returns only after the number was equal to the value awaited. -/
theorem C50_returns_only_when_equal (target v : V) (es : List (WEv V))
    (h : (wrun target (v, .compare) es).2 = .returned) : target ∈ values target (v, .compare) es := by
  have : ∀ (es : List (WEv V)) (s : V × WPc), s.2 ≠ .returned → (wrun target s es).2 = .returned →
      target ∈ values target s es := by
    intro es
    induction es with
    | nil => intro s h1 h2; exact absurd h2 h1
    | cons e es ih =>
      intro s h1 h2
      by_cases hr : (wstep target s e).2 = .returned
      · have : s.1 = target := by
          cases e with
          | run =>
            unfold wstep at hr
            dsimp only at hr
            split at hr
            · dsimp only at hr
              split at hr
              · assumption
              · cases hr
            · cases hr
            · exact absurd hr h1
            · exact absurd hr h1
          | update w =>
            simp only [wstep] at hr
            split at hr
            · cases hr
            · exact absurd hr h1
          | quietUpdate w => exact absurd hr h1
        simp [values, this]
      · exact List.mem_cons_of_mem _ (ih _ hr h2)
  exact this es _ (by simp) h

/-- the number is not given another value -/
def Keeps (target : V) : WEv V → Prop
  | .run => True
  | .update w => w = target
  | .quietUpdate w => w = target

/-- **C50, it returns** (partial: the thread is not just between comparing and waiting, and the operator is one that notifies). After an update to the awaited value, wherever the thread is otherwise, it has returned as
soon as it has run once, whatever else happens as long as the number keeps the value. -/
theorem C50_woken_partial (target v : V) (pc : WPc) (hpc : pc ≠ .goingToWait) (es : List (WEv V)) (hk : ∀ e ∈ es, Keeps target e) (hr : .run ∈ es) :
    wrun target (v, pc) (.update target :: es) = (target, .returned) := by
  have done : ∀ es : List (WEv V), (∀ e ∈ es, Keeps target e) → wrun target (target, .returned) es = (target, .returned) := by
    intro es
    induction es with
    | nil => intro _; rfl
    | cons e es ih =>
      intro h
      have h1 := ih (fun e he => h e (by simp [he]))
      have h2 := h e (by simp)
      cases e <;> simp_all [wrun, wstep, Keeps]
  have go : ∀ es : List (WEv V), (∀ e ∈ es, Keeps target e) → .run ∈ es → wrun target (target, .compare) es = (target, .returned) := by
    intro es
    induction es with
    | nil => intro _ h; simp at h
    | cons e es ih =>
      intro h hm
      have h0 : ∀ e ∈ es, Keeps target e := fun e he => h e (by simp [he])
      have h2 := h e (by simp)
      cases e with
      | run => simp only [wrun, wstep, if_true]; exact done es h0
      | update w => simp only [Keeps] at h2; subst h2; simpa [wrun, wstep] using ih h0 (by simpa using hm)
      | quietUpdate w => simp only [Keeps] at h2; subst h2; simpa [wrun, wstep] using ih h0 (by simpa using hm)
  cases pc with
  | goingToWait => exact absurd rfl hpc
  | compare => simpa [wrun, wstep] using go es hk hr
  | waiting => simpa [wrun, wstep] using go es hk hr
  | returned => simpa [wrun, wstep] using done es hk

example := C50_woken_partial 3 0 .waiting (by decide) [.quietUpdate 3, .run, .update 3] (by simp [Keeps]) (by simp)

/-- only the waiting thread runs: it stays where it is -/
theorem waiting_forever (target v : V) (n : Nat) :
    wrun target (v, .waiting) (List.replicate n .run) = (v, .waiting) := by
  induction n with
  | zero => rfl
  | succ n ih => rw [List.replicate_succ, wrun]; exact ih

/-- **C50 is violated by a lost wake-up**: if the update to the awaited value comes between the comparison and the wait, the
thread waits for ever although the number has the value. -/
theorem C50_lost_wakeup_violates (target v : V) (h : v ≠ target) (n : Nat) :
    wrun target (v, .compare) ([.run, .update target, .run] ++ List.replicate n .run) = (target, .waiting) := by
  simp only [List.cons_append, List.nil_append, wrun, wstep, if_neg h]
  exact waiting_forever target target n

/-- **C50 is violated by the operators that do not notify** (`&=` and others): the waiting thread is not woken. -/
theorem C50_quiet_update_violates (target v : V) (n : Nat) :
    wrun target (v, .waiting) (.quietUpdate target :: List.replicate n .run) = (target, .waiting) := by
  simp only [wrun, wstep]
  exact waiting_forever target target n

theorem trun_append (target : V) (s : V × TPc) (a b : List (TEv V)) :
    trun target s (a ++ b) = trun target (trun target s a) b := by
  induction a generalizing s with
  | nil => rfl
  | cons e a ih => exact ih _

/-- the thread has left the function -/
def TPc.finished : TPc → Prop
  | .returned => True
  | .raised => True
  | _ => False

/-- **C50.** With a timeout: the step in which `wait_until_equal` returns is made while the number has the value awaited, and the step in
which it raises WouldWaitMore while it has not. -/
theorem C50_timeout_outcome (target : V) (s : V × TPc) (e : TEv V) (h : ¬ s.2.finished) :
    ((tstep target s e).2 = .returned → s.1 = target) ∧ ((tstep target s e).2 = .raised → s.1 ≠ target) := by
  obtain ⟨v, pc⟩ := s
  cases e with
  | run x =>
    cases pc <;> simp only [tstep, TPc.finished, not_true] at h ⊢
    · constructor <;> split <;> intro h <;> cases h
    · constructor <;> split <;> intro h <;> cases h
    · constructor <;> intro h <;> cases h
    · constructor <;> split <;> intro h <;> cases h
    · constructor
      · split
        · intro h; cases h
        · rename_i hh; intro _; exact Classical.not_not.1 hh
      · split
        · intro _; assumption
        · intro h; cases h
  | update w => cases pc <;> simp [tstep, TPc.finished] at h ⊢
  | quietUpdate w => cases pc <;> simp [tstep, TPc.finished] at h ⊢

/-- **C50.** With a timeout no wake-up is needed in the end: once the timeout has expired, a thread that runs on leaves the function within five
steps of its own, returning if the number has the value awaited, whatever happened before. -/
theorem C50_timeout_returns (target : V) (s : V × TPc) (h : ¬ s.2.finished) :
    (trun target s (List.replicate 5 (.run true))).2 = if s.1 = target then .returned else .raised := by
  obtain ⟨v, pc⟩ := s
  by_cases hv : v = target <;> cases pc <;> simp [trun, tstep, List.replicate, TPc.finished, hv] at h ⊢

/-- **C50 is violated with a timeout**: the number became equal to the value awaited, and the thread saw it, but it changed before
the last check, and WouldWaitMore is raised though the timeout has never expired. -/
theorem C50_timeout_violates (target v w : V) (hv : v ≠ target) (hw : w ≠ target) :
    trun target (v, .test) [.run false, .run false, .run false, .update target, .run false, .run false, .update w, .run false] =
      (w, .raised) := by
  simp [trun, tstep, hv, hw]

end

example : (wrun 3 (0, .compare) [.run, .run, .update 2, .run, .run, .update 3, .run]).2 = .returned := by decide

example : (trun 3 (0, .test) [.run false, .run false, .run false, .update 3, .run false, .run false, .run false]).2 = .returned := by decide

end Verif.Conc
