/-!
# Structures with a lock

`LockedStructure`, `/repo/satella/coding/concurrent/locked_structure.py`.

Threads use the structure inside `with` statements.  Python leaves the statement also on an exception,
so leaving is always there, after any number of operations.
-/
namespace Verif.LockedStructure

/-- part of the model of `LockedStructure`, /repo/satella/coding/concurrent/locked_structure.py:8-44 -/
inductive Ev (O : Type) where
  | entered
  | did (op : O)
  | left
  deriving Repr, DecidableEq

/-- The lock, the object wrapped, what threads are waiting for the lock, and what happened, the latest
first.  (Part of the model of `LockedStructure`, /repo/satella/coding/concurrent/locked_structure.py:8-44.) -/
structure State (V O : Type) where
  holder : Option Nat
  obj : V
  waiting : List Nat
  log : List (Nat × Ev O)

/-- What the scheduler lets happen: a thread gets to `acquire` and waits there; a waiting thread is
given the lock, if free; a thread in its statement operates on the structure, or leaves.  (Part of the model of `LockedStructure`, /repo/satella/coding/concurrent/locked_structure.py:8-44.) -/
inductive Act (O : Type) where
  | want (t : Nat)
  | grant (t : Nat)
  | op (t : Nat) (o : O)
  | leave (t : Nat)
  deriving Repr, DecidableEq

section
variable {V O : Type} (apply : O → V → V)

/-- `__enter__`, `/repo/satella/coding/concurrent/locked_structure.py:38-40` (`want`, and `grant` when `acquire`
succeeds); operations passed to the object wrapped; `__exit__`, `/repo/satella/coding/concurrent/locked_structure.py:42-44`. The lock
is a `threading.Lock`, as made at `/repo/satella/coding/concurrent/locked_structure.py:30`. -/
def step (s : State V O) : Act O → State V O
  | .want t => if t ∈ s.waiting then s else { s with waiting := t :: s.waiting }
  | .grant t =>
    if t ∈ s.waiting ∧ s.holder = none then
      { s with holder := some t, waiting := s.waiting.filter (· ≠ t), log := (t, .entered) :: s.log }
    else s
  | .op t o =>
    if s.holder = some t ∧ t ∉ s.waiting then { s with obj := apply o s.obj, log := (t, .did o) :: s.log } else s
  | .leave t =>
    if s.holder = some t ∧ t ∉ s.waiting then { s with holder := none, log := (t, .left) :: s.log } else s

/-- A schedule, of threads using `/repo/satella/coding/concurrent/locked_structure.py:38-44`. -/
def run (s : State V O) : List (Act O) → State V O
  | [] => s
  | a :: rest => run (step apply s a) rest

/-- A new structure, `/repo/satella/coding/concurrent/locked_structure.py:28-30`. -/
def init (v : V) : State V O := ⟨none, v, [], []⟩

/-! ## Specification -/

/-- One statement after another: what happened, the latest first, and whose statement is open. -/
inductive Serial : List (Nat × Ev O) → Option Nat → Prop
  | nil : Serial [] none
  | entered {l t} : Serial l none → Serial ((t, .entered) :: l) (some t)
  | did {l t o} : Serial l (some t) → Serial ((t, .did o) :: l) (some t)
  | left {l t} : Serial l (some t) → Serial ((t, .left) :: l) none

/-- The object after the operations, the latest first. -/
def replay (v : V) : List (Nat × Ev O) → V
  | [] => v
  | (_, .did o) :: l => apply o (replay v l)
  | _ :: l => replay v l

/-! ## Properties -/

/-- **C204 (statements do not overlap)** In every schedule of any number of threads, statements follow
one another: between the entering of a thread and its leaving only that thread operates on the
structure, and the object is what these operations, one statement after another, make of it. -/
theorem C204_serial (v : V) (acts : List (Act O)) :
    Serial (run apply (init v) acts).log (run apply (init v) acts).holder ∧ (run apply (init v) acts).obj = replay apply v (run apply (init v) acts).log := by
  have key : ∀ acts (s : State V O), Serial s.log s.holder → s.obj = replay apply v s.log →
      Serial (run apply s acts).log (run apply s acts).holder ∧ (run apply s acts).obj = replay apply v (run apply s acts).log := by
    intro acts
    induction acts with
    | nil => intro s h1 h2; exact ⟨h1, h2⟩
    | cons a acts ih =>
      intro s h1 h2
      simp only [run]
      refine ih _ ?_ ?_
      · cases a with
        | want t => simp only [step]; split <;> exact h1
        | grant t =>
          simp only [step]; split
          · rename_i h; rw [h.2] at h1; exact .entered h1
          · exact h1
        | op t o =>
          simp only [step]; split
          · rename_i h; rw [h.1] at h1 ⊢; exact .did h1
          · exact h1
        | leave t =>
          simp only [step]; split
          · rename_i h; rw [h.1] at h1; exact .left h1
          · exact h1
      · cases a with
        | want t => simp only [step]; split <;> exact h2
        | grant t => simp only [step]; split <;> exact h2
        | op t o => simp only [step]; split
                    · simp only [replay, h2]
                    · exact h2
        | leave t => simp only [step]; split <;> exact h2
  exact key acts (init v) .nil rfl

theorem waiting_of (s : State V O) (t : Nat) : t ∈ (step apply s (.want t)).waiting := by
  simp only [step]; split
  · assumption
  · simp

/-- **C204 (the lock is not lost)** Whenever the lock is free, a thread that wants in gets in if it is
its turn; and a thread that leaves makes it free. -/
theorem C204_free (s : State V O) (t : Nat) :
    (s.holder = none → (run apply s [.want t, .grant t]).holder = some t) ∧
    (s.holder = some t → t ∉ s.waiting → (step apply s (.leave t)).holder = none) := by
  constructor
  · intro h
    have hw := waiting_of apply s t
    have hh : (step apply s (.want t)).holder = none := by simp only [step]; split <;> exact h
    simp only [run]
    generalize step apply s (.want t) = s1 at hw hh
    simp [step, hw, hh]
  · intro h hw; simp [step, h, hw]

/-- **C204 (not reentrant)** A thread that enters a structure it is in waits for ever, and so does anyone
else: in every schedule from then on the holder stays and nothing happens. -/
theorem C204_not_reentrant (s : State V O) (t : Nat) (h : s.holder = some t) (acts : List (Act O)) :
    (run apply (step apply s (.want t)) acts).holder = some t ∧ (run apply (step apply s (.want t)) acts).log = s.log ∧ (run apply (step apply s (.want t)) acts).obj = s.obj := by
  have key : ∀ acts (s : State V O), s.holder = some t → t ∈ s.waiting →
      (run apply s acts).holder = some t ∧ (run apply s acts).log = s.log ∧ (run apply s acts).obj = s.obj := by
    intro acts
    induction acts with
    | nil => intro s h _; exact ⟨h, rfl, rfl⟩
    | cons a acts ih =>
      intro s h hw
      simp only [run]
      have : (step apply s a).holder = some t ∧ t ∈ (step apply s a).waiting ∧ (step apply s a).log = s.log ∧ (step apply s a).obj = s.obj := by
        cases a with
        | want u => simp only [step]; split <;> simp [h, hw]
        | grant u => simp only [step]; rw [if_neg (by simp [h])]; exact ⟨h, hw, rfl, rfl⟩
        | op u o =>
          simp only [step]
          rw [if_neg (by rintro ⟨h1, h2⟩; rw [h] at h1; cases h1; exact h2 hw)]; exact ⟨h, hw, rfl, rfl⟩
        | leave u =>
          simp only [step]
          rw [if_neg (by rintro ⟨h1, h2⟩; rw [h] at h1; cases h1; exact h2 hw)]; exact ⟨h, hw, rfl, rfl⟩
      obtain ⟨h1, h2, h3, h4⟩ := this
      obtain ⟨g1, g2, g3⟩ := ih _ h1 h2
      exact ⟨g1, by rw [g2, h3], by rw [g3, h4]⟩
  obtain ⟨h1, h2, h3⟩ := key acts (step apply s (.want t)) (by simp only [step]; split <;> exact h) (waiting_of apply s t)
  exact ⟨h1, by rw [h2]; simp only [step]; split <;> rfl, by rw [h3]; simp only [step]; split <;> rfl⟩

/-- **C204 (entering again)** A thread may enter again after it has left. -/
theorem C204_again (s : State V O) (t : Nat) (h : s.holder = some t) (hw : t ∉ s.waiting) : (run apply s [.leave t, .want t, .grant t]).holder = some t := by
  have h1 := (C204_free apply s t).2 h hw
  exact (C204_free apply (step apply s (.leave t)) t).1 h1

end

/-! ## Examples -/

example : (run (fun (n : Nat) v => v + n) (init 0) [.want 1, .want 2, .grant 1, .grant 2, .op 1 5, .op 2 7, .leave 1, .grant 2, .op 2 7]).log =
    [(2, .did 7), (2, .entered), (1, .left), (1, .did 5), (1, .entered)] := by decide
example : ((run (fun (n : Nat) v => v + n) (init 0) [.want 1, .grant 1]).holder = some 1) ∧ 1 ∉ (run (fun (n : Nat) v => v + n) (init 0) [.want 1, .grant 1]).waiting := by decide

end Verif.LockedStructure
