/-!
# Histories of calls

`runOps` runs a list of calls on a model and collects what each returned; `History spec b ops rs b'` says that the
abstract specification `spec` allows the results `rs` for the calls `ops`, starting from the abstract
value `b` and ending in `b'`.  Neither models code of /repo: they describe the caller.
-/
namespace Verif

/-- Run a list of calls, collecting what each returned. -/
def runOps {σ ω ρ : Type _} (step : σ → ω → σ × ρ) (s : σ) : List ω → σ × List ρ
  | [] => (s, [])
  | o :: os => ((runOps step (step s o).1 os).1, (step s o).2 :: (runOps step (step s o).1 os).2)

/-- The specification `spec : before → call → result → after → Prop` allows this history. -/
def History {β ω ρ : Type _} (spec : β → ω → ρ → β → Prop) : β → List ω → List ρ → β → Prop
  | b, [], [], b' => b = b'
  | b, o :: os, r :: rs, b' => ∃ m, spec b o r m ∧ History spec m os rs b'
  | _, _, _, _ => False

/-- Simulation, step by step, gives simulation of every history.  `P` restricts the calls. -/
theorem history_of_sim {σ β ω ρ : Type _} {step : σ → ω → σ × ρ}
    {spec : β → ω → ρ → β → Prop} (R : σ → β → Prop) (P : ω → Prop)
    (hstep : ∀ s b o, P o → R s b → ∃ b', spec b o (step s o).2 b' ∧ R (step s o).1 b')
    (s : σ) (b : β) (ops : List ω) (hP : ∀ o ∈ ops, P o) (h : R s b) :
    ∃ b', History spec b ops (runOps step s ops).2 b' ∧ R (runOps step s ops).1 b' := by
  induction ops generalizing s b with
  | nil => exact ⟨b, rfl, h⟩
  | cons o os ih =>
    obtain ⟨m, h1, h2⟩ := hstep s b o (hP o (by simp)) h
    obtain ⟨b', h3, h4⟩ := ih (step s o).1 m (fun o ho => hP o (by simp [ho])) h2
    exact ⟨b', ⟨m, h1, h3⟩, h4⟩

/-- `P` holds of every call of the history in the state in which it is made. -/
def AllSteps {σ ω ρ : Type _} (P : σ → ω → Prop) (step : σ → ω → σ × ρ) : σ → List ω → Prop
  | _, [] => True
  | s, o :: os => P s o ∧ AllSteps P step (step s o).1 os

/-- As `history_of_sim`, with a restriction on calls that depends on the state they are made in. -/
theorem history_of_sim' {σ β ω ρ : Type _} {step : σ → ω → σ × ρ}
    {spec : β → ω → ρ → β → Prop} (R : σ → β → Prop) (P : σ → ω → Prop)
    (hstep : ∀ s b o, P s o → R s b → ∃ b', spec b o (step s o).2 b' ∧ R (step s o).1 b')
    (s : σ) (b : β) (ops : List ω) (hP : AllSteps P step s ops) (h : R s b) :
    ∃ b', History spec b ops (runOps step s ops).2 b' ∧ R (runOps step s ops).1 b' := by
  induction ops generalizing s b with
  | nil => exact ⟨b, rfl, h⟩
  | cons o os ih =>
    obtain ⟨m, h1, h2⟩ := hstep s b o hP.1 h
    obtain ⟨b', h3, h4⟩ := ih (step s o).1 m hP.2 h2
    exact ⟨b', ⟨m, h1, h3⟩, h4⟩

theorem AllSteps.append {σ ω ρ : Type _} {P : σ → ω → Prop} {step : σ → ω → σ × ρ} {s : σ}
    {a b : List ω} : AllSteps P step s (a ++ b) ↔
      AllSteps P step s a ∧ AllSteps P step (runOps step s a).1 b := by
  induction a generalizing s with
  | nil => simp [AllSteps, runOps]
  | cons o os ih => simp [AllSteps, runOps, ih, and_assoc]

/-- An invariant of every step is an invariant of every history. -/
theorem run_inv {σ ω ρ : Type _} {step : σ → ω → σ × ρ} (I : σ → Prop) (P : ω → Prop)
    (hstep : ∀ s o, P o → I s → I (step s o).1)
    (s : σ) (ops : List ω) (hP : ∀ o ∈ ops, P o) (h : I s) : I (runOps step s ops).1 := by
  induction ops generalizing s with
  | nil => exact h
  | cons o os ih =>
    exact ih _ (fun o ho => hP o (by simp [ho])) (hstep s o (hP o (by simp)) h)

theorem runOps_append {σ ω ρ : Type _} (step : σ → ω → σ × ρ) (s : σ) (a b : List ω) :
    runOps step s (a ++ b) =
      ((runOps step (runOps step s a).1 b).1,
        (runOps step s a).2 ++ (runOps step (runOps step s a).1 b).2) := by
  induction a generalizing s with
  | nil => simp [runOps]
  | cons o os ih => simp [runOps, ih]

theorem runOps_length {σ ω ρ : Type _} (step : σ → ω → σ × ρ) (s : σ) (a : List ω) :
    (runOps step s a).2.length = a.length := by
  induction a generalizing s with
  | nil => rfl
  | cons o os ih => simp [runOps, ih]

end Verif
