/-!
# Iterating over a queue, C221

`/repo/satella/coding/misc.py:131-142` (`queue_iterator`).  Any number of threads iterate over the same queue, while others put things into it.
-/
namespace Verif.QueueIterator

section
variable {α : Type}

/-! ## Model -/

/-- Where an iteration is: about to look at the size; about to get; ended.  /repo/satella/coding/misc.py:138-142 -/
inductive Phase where
  | looking
  | getting
  | ended
  deriving DecidableEq, Repr

/-- The queue; the iterations; what each gave, and when they ended, the last first; and what was put, in order.  (Part of the model of `queue_iterator`, /repo/satella/coding/misc.py:131-142.) -/
structure State (α : Type) where
  queue : List α := []
  at_ : Nat → Phase := fun _ => .looking
  given : List (Nat × α) := []
  put : List α := []

/-- Something is put; or an iteration takes its next step.  (Part of the model of `queue_iterator`, /repo/satella/coding/misc.py:131-142.) -/
inductive Act (α : Type) where
  | put (x : α)
  | step (t : Nat)

/-- An iteration moves on.  (Part of the model of `queue_iterator`, /repo/satella/coding/misc.py:138-142.) -/
def setAt (f : Nat → Phase) (t : Nat) (p : Phase) : Nat → Phase := fun u => if u = t then p else f u

/-- `while queue.qsize() > 0: try: yield queue.get(block=False) except Empty: return`, /repo/satella/coding/misc.py:138-142: looking at the size and
getting are two steps, between which others may get. -/
def step (s : State α) : Act α → State α
  | .put x => { s with queue := s.queue ++ [x], put := s.put ++ [x] }
  | .step t =>
    match s.at_ t with
    | .ended => s
    | .looking => if s.queue = [] then { s with at_ := setAt s.at_ t .ended } else { s with at_ := setAt s.at_ t .getting }
    | .getting =>
      match s.queue with
      | [] => { s with at_ := setAt s.at_ t .ended }
      | x :: rest => { s with queue := rest, at_ := setAt s.at_ t .looking, given := s.given ++ [(t, x)] }

/-- Steps one after another (of `queue_iterator`, /repo/satella/coding/misc.py:131-142). -/
def steps (s : State α) (l : List (Act α)) : State α := l.foldl step s

/-! ## Properties -/

theorem conserved (l : List (Act α)) : ∀ s : State α, s.given.map Prod.snd ++ s.queue = s.put → (steps s l).given.map Prod.snd ++ (steps s l).queue = (steps s l).put := by
  induction l with
  | nil => intro s h; exact h
  | cons a l ih =>
    intro s h
    refine ih _ ?_
    cases a with
    | put x => simp only [step]; rw [← h, List.append_assoc]
    | step t =>
      simp only [step]
      split
      · exact h
      · split <;> exact h
      · split
        · exact h
        · rename_i hq
          simp only [List.map_append, List.map_cons, List.map_nil, List.append_assoc, List.singleton_append]
          rw [← hq]; exact h

/-- **C221 (each thing once and in order)** However iterations and those who put interleave: what all iterations gave, in the order in which they gave it, followed by what is still in the
queue, is what was put, in order. So nothing is lost, nothing is given twice, and each iteration gives things in the order in which they were put. -/
theorem C221_each_once (l : List (Act α)) :
    (steps {} l).given.map Prod.snd ++ (steps {} l).queue = (steps {} l).put ∧
    ∀ t, (((steps {} l).given.filter (fun p => p.1 = t)).map Prod.snd).Sublist (steps {} l).put := by
  have h := conserved l ({} : State α) rfl
  refine ⟨h, fun t => ?_⟩
  rw [← h]
  exact ((List.filter_sublist).map Prod.snd).trans (List.sublist_append_left ..)

theorem at_others (l : List (Act α)) (t : Nat) (hl : ∀ a ∈ l, ∀ u, a = .step u → u ≠ t) : ∀ s : State α, (steps s l).at_ t = s.at_ t := by
  induction l with
  | nil => intro s; rfl
  | cons a l ih =>
    intro s
    show (steps (step s a) l).at_ t = s.at_ t
    rw [ih (fun b hb => hl b (List.mem_cons_of_mem _ hb))]
    cases a with
    | put x => rfl
    | step u =>
      have hu : t ≠ u := (hl _ (List.mem_cons_self ..) u rfl).symm
      simp only [step]
      split
      · rfl
      · split <;> simp [setAt, hu]
      · split <;> simp [setAt, hu]

/-- **C221 (never waits, ends when empty)** An iteration that has not ended gives another thing or ends in two of its own steps, whatever others do in between; it ends only at a moment
when the queue is empty; and then it gives nothing more. -/
theorem C221_progress (s : State α) (t : Nat) (l : List (Act α)) (hl : ∀ a ∈ l, ∀ u, a = .step u → u ≠ t) :
    let s' := steps (step s (.step t)) l
    (s.at_ t = .looking → s'.at_ t = .ended ∨ (step s' (.step t)).at_ t = .ended ∨ ∃ x, (step s' (.step t)).given = s'.given ++ [(t, x)] ∧ (step s' (.step t)).at_ t = .looking) ∧
    (s.at_ t ≠ .ended → ((step s (.step t)).at_ t = .ended ↔ s.queue = [])) ∧
    (s.at_ t = .ended → step s (.step t) = s) := by
  intro s'
  have ha : s'.at_ t = (step s (.step t)).at_ t := at_others l t hl _
  refine ⟨?_, ?_, ?_⟩
  · intro h
    by_cases hq : s.queue = []
    · left; rw [ha]; simp [step, h, hq, setAt]
    · right
      have hg : s'.at_ t = .getting := by rw [ha]; simp [step, h, hq, setAt]
      cases hq' : s'.queue with
      | nil => left; simp [step, hg, hq', setAt]
      | cons x rest => right; exact ⟨x, by simp [step, hg, hq'], by simp [step, hg, hq', setAt]⟩
  · intro h
    cases hp : s.at_ t with
    | ended => exact absurd hp h
    | looking =>
      by_cases hq : s.queue = [] <;> simp [step, hp, hq, setAt]
    | getting =>
      cases hq : s.queue <;> simp [step, hp, hq, setAt]
  · intro h; simp [step, h]

/-- **C221 (alone)** An iteration that is alone gives all that is in the queue, in order, and ends. -/
theorem C221_alone (t : Nat) (q : List α) : ∀ s : State α, s.queue = q → s.at_ t = .looking →
    let s' := steps s (List.replicate (2 * q.length + 1) (.step t))
    s'.at_ t = .ended ∧ s'.queue = [] ∧ s'.given = s.given ++ q.map (fun x => (t, x)) := by
  induction q with
  | nil =>
    intro s hq ha
    simp [steps, step, ha, hq, setAt]
  | cons x q ih =>
    intro s hq ha
    have h1 : step (step s (.step t)) (.step t) = { s with queue := q, at_ := setAt (setAt s.at_ t .getting) t .looking, given := s.given ++ [(t, x)] } := by
      simp [step, ha, hq, setAt]
    have hl : List.replicate (2 * (x :: q).length + 1) (Act.step t : Act α) = .step t :: .step t :: List.replicate (2 * q.length + 1) (.step t) := by
      simp only [List.length_cons]
      rw [show 2 * (q.length + 1) + 1 = (2 * q.length + 1) + 1 + 1 by omega]
      rfl
    have := ih (step (step s (.step t)) (.step t)) (by rw [h1]) (by rw [h1]; simp [setAt])
    simp only at this ⊢
    rw [hl]
    show (steps (step (step s (.step t)) (.step t)) _).at_ t = _ ∧ _
    refine ⟨this.1, this.2.1, ?_⟩
    rw [show steps s (.step t :: .step t :: List.replicate (2 * q.length + 1) (.step t)) = steps (step (step s (.step t)) (.step t)) (List.replicate (2 * q.length + 1) (.step t)) from rfl, this.2.2, h1]
    simp

/-- Two iterations over one queue: the last thing is seen by both, and given to one; the other ends and does not wait. -/
example : let s := steps {} [.put 5, .put 6, .step 0, .step 0, .step 1, .step 0, .step 0, .step 1, .step 0]
    s.given = [(0, 5), (0, 6)] ∧ s.at_ 0 = .ended ∧ s.at_ 1 = .ended ∧ s.queue = [] := by decide

end
end Verif.QueueIterator
