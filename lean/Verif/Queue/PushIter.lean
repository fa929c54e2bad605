import Verif.Py.Basic
import Verif.Py.Run
/-!
# Model of PushIterable (satella/coding/structures/push_iterable.py), C43

The iterable is any source: a state and a function that gives the next element and state, or nothing.  It may be infinite.
-/
namespace Verif.Queue.PushIter
open Verif

variable {α σ : Type}

/-- the iterator and the deque, its left end first, /repo/satella/coding/structures/push_iterable.py:33-35.  An iterator that has ended stays ended. -/
structure St (α σ : Type) where
  source : σ
  deque : List α

/-- calls.  (Part of the model of `PushIterable`, /repo/satella/coding/structures/push_iterable.py:7-67.) -/
inductive Op (α : Type) where
  | pop
  | push (x : α)
  | pushLeft (x : α)

/-- `pop()`, /repo/satella/coding/structures/push_iterable.py:37-45, and `__next__`, :50-51: StopIteration is `none` -/
def St.pop (next : σ → Option (α × σ)) (s : St α σ) : St α σ × Option α :=
  if s.deque.isEmpty then
    match next s.source with
    | none => (s, none)
    | some (x, src) => ({ s with source := src }, some x)
  else ({ s with deque := s.deque.dropLast }, s.deque.getLast?)

/-- `push(item)`, /repo/satella/coding/structures/push_iterable.py:53-59 -/
def St.push (s : St α σ) (x : α) : St α σ := { s with deque := s.deque ++ [x] }

/-- `push_left(item)`, /repo/satella/coding/structures/push_iterable.py:61-67 -/
def St.pushLeft (s : St α σ) (x : α) : St α σ := { s with deque := x :: s.deque }

/-- a call; what it returned, `none` for StopIteration or nothing.  (Part of the model of `PushIterable`, /repo/satella/coding/structures/push_iterable.py:7-67.) -/
def step (next : σ → Option (α × σ)) (s : St α σ) : Op α → St α σ × Option α
  | .pop => s.pop next
  | .push x => (s.push x, none)
  | .pushLeft x => (s.pushLeft x, none)

/-! ## Specification -/

/-- A pile of items in front of the source: the top of the pile is taken first, then the source goes on. `push` puts on the top, `push_left` at the bottom. -/
inductive Spec (next : σ → Option (α × σ)) : List α × σ → Op α → Option α → List α × σ → Prop
  | top (x pile src) : Spec next (x :: pile, src) .pop (some x) (pile, src)
  | source (x src src') : next src = some (x, src') → Spec next ([], src) .pop (some x) ([], src')
  | stop (src) : next src = none → Spec next ([], src) .pop none ([], src)
  | push (x pile src) : Spec next (pile, src) (.push x) none (x :: pile, src)
  | pushLeft (x pile src) : Spec next (pile, src) (.pushLeft x) none (pile ++ [x], src)

/-- what was pushed -/
def pushed : List (Op α) → List α
  | [] => []
  | .pop :: l => pushed l
  | .push x :: l => x :: pushed l
  | .pushLeft x :: l => x :: pushed l

/-- the source gave these elements, in order -/
inductive Gave (next : σ → Option (α × σ)) : σ → List α → σ → Prop
  | nil (s) : Gave next s [] s
  | cons {s x s' l s''} : next s = some (x, s') → Gave next s' l s'' → Gave next s (x :: l) s''

/-! ## Proofs -/

theorem spec_step (next : σ → Option (α × σ)) (s : St α σ) (op : Op α) : Spec next (s.deque.reverse, s.source) op (step next s op).2 ((step next s op).1.deque.reverse, (step next s op).1.source) := by
  cases op with
  | pop =>
    simp only [step, St.pop]
    cases hd : s.deque.reverse with
    | nil =>
      rw [List.reverse_eq_nil_iff] at hd
      rw [hd]
      simp only [List.isEmpty_nil, if_true]
      cases hn : next s.source with
      | none => simpa [hd] using Spec.stop s.source hn
      | some e => obtain ⟨x, src⟩ := e; simpa [hd] using Spec.source x s.source src hn
    | cons x pile =>
      have he : s.deque = pile.reverse ++ [x] := by rw [← List.reverse_reverse s.deque, hd, List.reverse_cons]
      have hne : s.deque.isEmpty = false := by rw [he]; simp
      rw [hne]
      simp only [Bool.false_eq_true, if_false]
      rw [he, List.dropLast_concat, List.getLast?_append]
      simpa using Spec.top x pile s.source
  | push x => simpa [step, St.push] using Spec.push x s.deque.reverse s.source
  | pushLeft x => simpa [step, St.pushLeft] using Spec.pushLeft x s.deque.reverse s.source

/-- **C43, PushIterable.** Every history of calls, on any source, is one of the pile in front of the source. -/
theorem C43_push_iterable (next : σ → Option (α × σ)) (src : σ) (ops : List (Op α)) :
    ∃ b, History (Spec next) ([], src) ops (runOps (step next) ⟨src, []⟩ ops).2 b := by
  have sim : ∀ (s : St α σ) (b : List α × σ) (op : Op α), True → (b = (s.deque.reverse, s.source)) → ∃ b', Spec next b op (step next s op).2 b' ∧ b' = ((step next s op).1.deque.reverse, (step next s op).1.source) := by
    rintro s b op _ rfl
    exact ⟨_, spec_step next s op, rfl⟩
  obtain ⟨b, h, _⟩ := history_of_sim (fun (s : St α σ) b => b = (s.deque.reverse, s.source)) (fun _ => True) sim ⟨src, []⟩ ([], src) ops (fun _ _ => trivial) rfl
  exact ⟨b, h⟩

/-- **C43, none lost.** After any history, what was given is, up to order, what was pushed and what the source gave, less what is still piled up: nothing is lost, nothing is given twice. -/
theorem C43_none_lost (next : σ → Option (α × σ)) (src : σ) (ops : List (Op α)) :
    ∃ l, Gave next src l (runOps (step next) ⟨src, []⟩ ops).1.source ∧
      ((runOps (step next) ⟨src, []⟩ ops).2.filterMap id ++ (runOps (step next) ⟨src, []⟩ ops).1.deque).Perm (pushed ops ++ l) := by
  suffices ∀ s : St α σ, ∃ l, Gave next s.source l (runOps (step next) s ops).1.source ∧
      ((runOps (step next) s ops).2.filterMap id ++ (runOps (step next) s ops).1.deque).Perm (s.deque ++ (pushed ops ++ l)) by
    simpa using this ⟨src, []⟩
  induction ops with
  | nil => exact fun s => ⟨[], Gave.nil _, by simp [runOps, pushed]⟩
  | cons op ops ih =>
    intro s
    simp only [runOps]
    obtain ⟨l, h1, h2⟩ := ih (step next s op).1
    cases op with
    | push x =>
      refine ⟨l, h1, ?_⟩
      simp only [step, St.push, pushed] at h2 ⊢
      rw [List.filterMap_cons_none rfl]
      simpa using h2
    | pushLeft x =>
      refine ⟨l, h1, ?_⟩
      simp only [step, St.pushLeft, pushed] at h2 ⊢
      rw [List.filterMap_cons_none rfl]
      exact h2.trans (List.perm_middle.symm)
    | pop =>
      simp only [step, St.pop, pushed] at h1 h2 ⊢
      split
      · rename_i he
        rw [if_pos he] at h1 h2
        cases hn : next s.source with
        | none =>
          rw [hn] at h1 h2
          exact ⟨l, h1, by rw [List.filterMap_cons_none rfl]; exact h2⟩
        | some e =>
          obtain ⟨x, src'⟩ := e
          rw [hn] at h1 h2
          refine ⟨x :: l, Gave.cons hn h1, ?_⟩
          dsimp only at h2 ⊢
          rw [List.filterMap_cons_some (f := id) (a := some x) (b := x) rfl, List.cons_append, ← List.append_assoc]
          rw [← List.append_assoc] at h2
          exact (h2.cons x).trans List.perm_middle.symm
      · rename_i he
        rw [if_neg he] at h1 h2
        refine ⟨l, h1, ?_⟩
        rcases List.eq_nil_or_concat s.deque with hd | ⟨d, x, hd⟩
        · simp [hd] at he
        · rw [List.concat_eq_append] at hd
          rw [hd] at h2 ⊢
          rw [List.dropLast_concat] at h2 ⊢
          have : (d ++ [x]).getLast? = some x := by simp
          rw [List.filterMap_cons_some (by rw [this]; rfl), List.cons_append]
          refine (h2.cons x).trans ?_
          rw [List.append_assoc]
          exact List.perm_middle.symm

/-! Concrete cases. -/

/-- the example in the docstring, /repo/satella/coding/structures/push_iterable.py:16-30 -/
def nextOf : List Nat → Option (Nat × List Nat)
  | [] => none
  | x :: l => some (x, l)
example : (runOps (step nextOf) ⟨[1, 2, 3], []⟩ [.pop, .push 0, .pop, .pop, .push 0, .push 1, .pop, .pop, .pushLeft 0, .pushLeft 1, .pop, .pop, .pop, .pop]).2 =
    [some 1, none, some 0, some 2, none, none, some 1, some 0, none, none, some 0, some 1, some 3, none] := by decide

end Verif.Queue.PushIter
