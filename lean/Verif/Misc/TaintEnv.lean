/-!
# Sessions of tainting

`TaintingEnvironment`, `/repo/satella/debug/tainting/environment.py:56-83`.

Sessions are used as `with` statements, so a thread leaves exactly the sessions it has entered.
-/
namespace Verif.TaintEnv

/-- `local.satella_tainting` of each thread, and `enabled` of each environment.  (Part of the model of `TaintingEnvironment`, /repo/satella/debug/tainting/environment.py:18-92.) -/
structure State where
  session : Nat → Option Nat
  enabled : Nat → Bool

/-- part of the model of `TaintingEnvironment`, /repo/satella/debug/tainting/environment.py:18-92 -/
inductive Op where
  /-- `with e:` begins, in a thread -/
  | enter (t e : Nat)
  /-- the statement a thread is in ends; nothing if it is in none -/
  | leave (t : Nat)
  /-- `TaintingEnvironment.get_session_in_progress()` -/
  | get (t : Nat)
  deriving Repr, DecidableEq

/-- part of the model of `TaintingEnvironment`, /repo/satella/debug/tainting/environment.py:18-92 -/
inductive Res where
  | done
  | env (e : Nat)
  | runtimeError
  deriving Repr, DecidableEq

/-- part of the model of `TaintingEnvironment`, /repo/satella/debug/tainting/environment.py:18-92 -/
def setAt {A : Type} (f : Nat → A) (k : Nat) (v : A) : Nat → A := fun x => if x = k then v else f x

/-- One call: `__enter__` `/repo/satella/debug/tainting/environment.py:56-67`, `__exit__` `:69-72`,
`get_session_in_progress` `:74-83`. -/
def step (s : State) : Op → State × Res
  | .enter t e =>
    let s1 := { s with enabled := setAt s.enabled e true }
    match s.session t with
    | some _ => (s1, .runtimeError)
    | none => ({ s1 with session := setAt s.session t (some e) }, .done)
  | .leave t =>
    match s.session t with
    | none => (s, .done)
    | some e => (⟨setAt s.session t none, setAt s.enabled e false⟩, .done)
  | .get t =>
    match s.session t with
    | none => (s, .runtimeError)
    | some e => (s, .env e)

/-- Nothing entered yet; `/repo/satella/debug/tainting/environment.py:13` and `:54`. -/
def init : State := ⟨fun _ => none, fun _ => false⟩

/-- The results of calls one after another (`/repo/satella/debug/tainting/environment.py:56-83`). -/
def runs (s : State) : List Op → State × List Res
  | [] => (s, [])
  | op :: rest => let r := step s op; let q := runs r.1 rest; (q.1, r.2 :: q.2)

/-! ## Specification -/

/-- The thread doing it. -/
def Op.thread : Op → Nat
  | .enter t _ => t
  | .leave t => t
  | .get t => t

/-- What one thread alone, in the session `cur`, should see, call by call. -/
inductive Alone : Option Nat → List Op → List Res → Option Nat → Prop
  | nil {cur} : Alone cur [] [] cur
  | begin {t e ops rs fin} : Alone (some e) ops rs fin → Alone none (.enter t e :: ops) (.done :: rs) fin
  | nested {t e e' ops rs fin} : Alone (some e') ops rs fin → Alone (some e') (.enter t e :: ops) (.runtimeError :: rs) fin
  | finish {cur t ops rs fin} : Alone none ops rs fin → Alone cur (.leave t :: ops) (.done :: rs) fin
  | current {t e ops rs fin} : Alone (some e) ops rs fin → Alone (some e) (.get t :: ops) (.env e :: rs) fin
  | missing {t ops rs fin} : Alone none ops rs fin → Alone none (.get t :: ops) (.runtimeError :: rs) fin

/-- The calls of a thread, with their results. -/
def ofThread (t : Nat) (l : List (Op × Res)) : List (Op × Res) := l.filter (fun x => x.1.thread = t)

/-! ## Properties -/

theorem runs_length (ops : List Op) : ∀ s, (runs s ops).2.length = ops.length := by
  induction ops with
  | nil => intro s; rfl
  | cons op ops ih => intro s; simp [runs, ih]

theorem step_other (s : State) (op : Op) (t : Nat) (h : op.thread ≠ t) : (step s op).1.session t = s.session t := by
  cases op with
  | enter u e =>
    simp only [step]
    split
    · rfl
    · simp only [setAt, Op.thread] at *; rw [if_neg (fun hh => h hh.symm)]
  | leave u =>
    simp only [step]
    split
    · rfl
    · simp only [setAt, Op.thread] at *; rw [if_neg (fun hh => h hh.symm)]
  | get u => simp only [step]; split <;> rfl

/-- **C202 (sessions of threads)** In every history of calls by any number of threads, each thread sees
what it would alone: it enters a session exactly if it is in none (RuntimeError otherwise, and it
stays in the one it was in), the current session is the one entered last and not left, and there is
none (RuntimeError) if it is in none. -/
theorem C202_threads (ops : List Op) (t : Nat) :
    Alone none ((ofThread t (ops.zip (runs init ops).2)).map Prod.fst) ((ofThread t (ops.zip (runs init ops).2)).map Prod.snd) ((runs init ops).1.session t) := by
  have key : ∀ ops s, Alone (s.session t) ((ofThread t (ops.zip (runs s ops).2)).map Prod.fst) ((ofThread t (ops.zip (runs s ops).2)).map Prod.snd) ((runs s ops).1.session t) := by
    intro ops
    induction ops with
    | nil => intro s; exact .nil
    | cons op ops ih =>
      intro s
      have ih := ih (step s op).1
      simp only [runs, List.zip_cons_cons, ofThread, List.filter_cons]
      by_cases h : op.thread = t
      · simp only [h, decide_true, ↓reduceIte, List.map_cons]
        cases op with
        | enter u e =>
          simp only [Op.thread] at h
          subst h
          cases hs : s.session u with
          | none =>
            have h1 : (step s (.enter u e)).2 = .done := by simp [step, hs]
            have h2 : (step s (.enter u e)).1.session u = some e := by simp [step, hs, setAt]
            rw [h1]; rw [h2] at ih; exact .begin ih
          | some e' =>
            have h1 : (step s (.enter u e)).2 = .runtimeError := by simp [step, hs]
            have h2 : (step s (.enter u e)).1.session u = some e' := by simp [step, hs]
            rw [h1]; rw [h2] at ih; exact .nested ih
        | leave u =>
          simp only [Op.thread] at h
          subst h
          have h1 : (step s (.leave u)).2 = .done := by simp only [step]; split <;> rfl
          have h2 : (step s (.leave u)).1.session u = none := by
            cases hs : s.session u <;> simp [step, hs, setAt]
          rw [h1]; rw [h2] at ih; exact .finish ih
        | get u =>
          simp only [Op.thread] at h
          subst h
          cases hs : s.session u with
          | none =>
            have h1 : step s (.get u) = (s, .runtimeError) := by simp [step, hs]
            rw [h1] at ih ⊢; rw [hs] at ih; exact .missing ih
          | some e =>
            have h1 : step s (.get u) = (s, .env e) := by simp [step, hs]
            rw [h1] at ih ⊢; rw [hs] at ih; exact .current ih
      · simp only [h, decide_false, Bool.false_eq_true, ↓reduceIte]
        rw [step_other s op t h] at ih
        exact ih
  exact key ops init

/-- **C203 (enabled tells whether an environment is in use), the violation** An environment that could
not be entered, as another session was in progress, is left enabled for good. -/
theorem C203_refused_violates : ∃ ops, (runs init ops).1.enabled 2 = true ∧ (∀ t, (runs init ops).1.session t = none) ∧ (runs init ops).2[1]? = some .runtimeError := by
  refine ⟨[.enter 0 1, .enter 0 2, .leave 0], by decide, fun t => ?_, by decide⟩
  show setAt (setAt (fun _ => none) 0 (some 1)) 0 none t = none
  unfold setAt
  split <;> rfl

/-- **C203 (enabled tells whether an environment is in use), the violation** An environment used by two
threads is not enabled after the first of them leaves it. -/
theorem C203_two_threads_violates : ∃ ops, (runs init ops).1.session 1 = some 5 ∧ (runs init ops).1.enabled 5 = false :=
  ⟨[.enter 0 5, .enter 1 5, .leave 0], by decide, by decide⟩

/-- No call was refused. -/
def NoneRefused (ops : List Op) : Prop := ∀ r ∈ (ops.zip (runs init ops).2), ∀ t e, r.1 = .enter t e → r.2 = .done

/-- Each environment is used by one thread. -/
def Private (owner : Nat → Nat) (ops : List Op) : Prop := ∀ op ∈ ops, ∀ t e, op = .enter t e → t = owner e

/-- **C203 (enabled tells whether an environment is in use), the part that holds** If no entering was
refused and each environment is used by one thread only, an environment is enabled exactly if a
thread is in its session. -/
theorem C203_enabled_partial (owner : Nat → Nat) (ops : List Op) (h1 : NoneRefused ops) (h2 : Private owner ops) (e : Nat) :
    (runs init ops).1.enabled e = true ↔ ∃ t, (runs init ops).1.session t = some e := by
  have key : ∀ ops s, (∀ r ∈ (ops.zip (runs s ops).2), ∀ t e, r.1 = .enter t e → r.2 = .done) → Private owner ops →
      (∀ e, s.enabled e = true ↔ ∃ t, s.session t = some e) → (∀ t e, s.session t = some e → t = owner e) →
      ∀ e, (runs s ops).1.enabled e = true ↔ ∃ t, (runs s ops).1.session t = some e := by
    intro ops
    induction ops with
    | nil => intro s _ _ h _; exact h
    | cons op ops ih =>
      intro s hr hp he ho
      simp only [runs]
      have hr' : ∀ r ∈ (ops.zip (runs (step s op).1 ops).2), ∀ t e, r.1 = .enter t e → r.2 = .done := by
        intro r hr1; exact hr r (by simp only [runs, List.zip_cons_cons]; exact List.mem_cons_of_mem _ hr1)
      have hp' : Private owner ops := fun o ho => hp o (List.mem_cons_of_mem _ ho)
      refine ih _ hr' hp' ?_ ?_
      · intro e
        cases op with
        | enter t e0 =>
          have hd := hr (.enter t e0, (step s (.enter t e0)).2) (by simp [runs]) t e0 rfl
          cases hs : s.session t with
          | some e' => simp [step, hs] at hd
          | none =>
            simp only [step, hs, setAt]
            by_cases hee : e = e0
            · subst hee; simp only [↓reduceIte, true_iff]; exact ⟨t, by simp⟩
            · simp only [hee, ↓reduceIte, he e]
              constructor
              · rintro ⟨u, hu⟩; exact ⟨u, by rw [if_neg (by rintro rfl; rw [hs] at hu; simp at hu)]; exact hu⟩
              · rintro ⟨u, hu⟩
                by_cases hut : u = t
                · simp [hut] at hu; exact absurd hu.symm hee
                · rw [if_neg hut] at hu; exact ⟨u, hu⟩
        | leave t =>
          cases hs : s.session t with
          | none => simp only [step, hs]; exact he e
          | some e0 =>
            simp only [step, hs, setAt]
            by_cases hee : e = e0
            · subst hee
              simp only [↓reduceIte, Bool.false_eq_true, false_iff, not_exists]
              intro u hu
              by_cases hut : u = t
              · simp [hut] at hu
              · rw [if_neg hut] at hu
                exact hut ((ho u e hu).trans (ho t e hs).symm)
            · simp only [hee, ↓reduceIte, he e]
              constructor
              · rintro ⟨u, hu⟩
                refine ⟨u, ?_⟩
                rw [if_neg (by rintro rfl; rw [hs] at hu; simp at hu; exact hee hu.symm)]
                exact hu
              · rintro ⟨u, hu⟩
                by_cases hut : u = t
                · simp [hut] at hu
                · rw [if_neg hut] at hu; exact ⟨u, hu⟩
        | get t => simp only [step]; split <;> exact he e
      · intro u e hu
        cases op with
        | enter t e0 =>
          simp only [step] at hu
          split at hu
          · exact ho u e hu
          · simp only [setAt] at hu
            split at hu
            · rename_i hut
              simp only [Option.some.injEq] at hu
              subst hu hut
              exact hp _ (List.mem_cons_self ..) _ _ rfl
            · exact ho u e hu
        | leave t =>
          simp only [step] at hu
          split at hu
          · exact ho u e hu
          · simp only [setAt] at hu
            split at hu
            · simp at hu
            · exact ho u e hu
        | get t => simp only [step] at hu; split at hu <;> exact ho u e hu
  exact key ops init h1 h2 (by simp [init]) (by simp [init]) e

/-! ## Examples -/

example : (runs init [.enter 0 1, .get 0, .get 1, .enter 0 2, .get 0, .leave 0, .get 0]).2 =
    [.done, .env 1, .runtimeError, .runtimeError, .env 1, .done, .runtimeError] := by decide
example : NoneRefused [.enter 0 1, .enter 1 2, .leave 0] ∧ Private id [.enter 0 0, .enter 1 1, .leave 0] := by
  refine ⟨?_, ?_⟩
  · intro r hr t e h
    have : (List.zip [Op.enter 0 1, .enter 1 2, .leave 0] (runs init [.enter 0 1, .enter 1 2, .leave 0]).2) = [(.enter 0 1, .done), (.enter 1 2, .done), (.leave 0, .done)] := by decide
    rw [this] at hr
    simp at hr
    rcases hr with rfl | rfl | rfl <;> rfl
  · intro op hop t e h
    simp at hop
    rcases hop with rfl | rfl | rfl <;> simp at h <;> simp only [id] <;> omega

end Verif.TaintEnv
