/-!
# Python basics shared by the models

`PyOrd` is Python's `<` on the elements of a container, with the laws of a total preorder
(`a <= b` is `not (b < a)`).  `PyLinOrd` additionally makes `==` agree with the order, which is
what comparing tuples element by element needs.  Partial orders and float NaN are out of scope.
-/
deriving instance DecidableEq for Except

namespace Verif

/-- Exception kinds the modelled code can raise (only the class matters to callers). -/
inductive Exc where
  | indexError | valueError | keyError | typeError | stopIteration | runtimeError
  | assertionError | attributeError | empty | full | notEnoughBytes | configurationError
  | preconditionError | resourceLocked | zeroDivision | alreadyAllocated
  /-- any other exception raised by user code, identified by a number -/
  | other (n : Nat)
  deriving DecidableEq, Repr

/-- Python's `<` on elements: a strict weak order. -/
class PyOrd (α : Type _) where
  lt : α → α → Bool
  asymm : ∀ a b, lt a b = true → lt b a = false
  le_trans : ∀ a b c, lt b a = false → lt c b = false → lt c a = false

/-- Python's `<` on elements for which `==` coincides with "neither is smaller". -/
class PyLinOrd (α : Type _) extends PyOrd α where
  antisymm : ∀ a b, lt a b = false → lt b a = false → a = b

namespace PyOrd
variable {α : Type _} [PyOrd α]

/-- `a <= b`, i.e. `not (b < a)`. -/
abbrev le (a b : α) : Prop := lt b a = false

theorem irrefl (a : α) : lt a a = false := by
  cases h : lt a a with
  | false => rfl
  | true => have := asymm a a h; simp_all

theorem le_refl (a : α) : le a a := irrefl a

theorem le_of_lt {a b : α} (h : lt a b = true) : le a b := asymm a b h

theorem le_total (a b : α) : le a b ∨ le b a := by
  unfold le
  cases h : lt b a with
  | false => exact Or.inl rfl
  | true => exact Or.inr (asymm b a h)

theorem lt_of_lt_of_le {a b c : α} (h : lt a b = true) (h' : le b c) : lt a c = true := by
  cases hc : lt a c with
  | true => rfl
  | false =>
    have := le_trans b c a h' hc
    simp_all

end PyOrd

instance : PyLinOrd Nat where
  lt a b := decide (a < b)
  asymm a b := by simp; omega
  le_trans a b c := by simp; omega
  antisymm a b := by simp; omega

instance : PyLinOrd Int where
  lt a b := decide (a < b)
  asymm a b := by simp; omega
  le_trans a b c := by simp; omega
  antisymm a b := by simp; omega

/-- Tuple comparison: lexicographic, as Python compares 2-tuples. -/
instance {α β : Type _} [DecidableEq α] [PyLinOrd α] [PyLinOrd β] : PyLinOrd (α × β) where
  lt a b := if a.1 = b.1 then PyOrd.lt a.2 b.2 else PyOrd.lt a.1 b.1
  asymm a b := by
    intro h
    split at h <;> rename_i e
    · rw [if_pos e.symm]; exact PyOrd.asymm _ _ h
    · rw [if_neg (Ne.symm e)]; exact PyOrd.asymm _ _ h
  le_trans a b c := by
    intro h1 h2
    split at h1 <;> split at h2 <;> rename_i e1 e2
    · rw [if_pos (e2.trans e1)]; exact PyOrd.le_trans _ _ _ h1 h2
    · rw [if_neg (by rw [← e1]; exact e2), ← e1]; exact h2
    · rw [if_neg (by rw [e2]; exact e1), e2]; exact h1
    · split
      · rename_i e3
        exfalso
        rw [e3] at h2
        exact e1 (PyLinOrd.antisymm _ _ h1 h2)
      · exact PyOrd.le_trans _ _ _ h1 h2
  antisymm a b := by
    intro h1 h2
    split at h1
    · rename_i e
      rw [if_pos e.symm] at h2
      exact Prod.ext e (PyLinOrd.antisymm _ _ h1 h2)
    · rename_i e
      rw [if_neg (Ne.symm e)] at h2
      exact absurd (PyLinOrd.antisymm _ _ h1 h2) e

/-- Sorted in non-decreasing order. -/
def Sorted {α : Type _} [PyOrd α] (l : List α) : Prop := l.Pairwise PyOrd.le

end Verif
