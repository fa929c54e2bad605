import Verif.Py.Basic
/-!
# Model of the memory conditions (satella/instrumentation/memory/conditions.py), C61

Numbers are integers; the quotients of two of them are compared exactly (the code compares floats).
-/
namespace Verif.Memory
open Verif

/-- conditions, /repo/satella/instrumentation/memory/conditions.py:34-138; a custom condition is what its callable says -/
inductive Cond where
  | zeroth
  | globalAbsolute (value : Int)
  | globalRelative (value : Int)
  | localAbsolute (value : Int)
  | localRelative (value : Int)
  | custom (b : Bool)
  | any (l : List Cond)
  | all (l : List Cond)
  | not (c : Cond)

/-- what psutil says of the machine and of the process, and the maximum given to the manager, if any.  (Part of the model of `ZerothSeverity`, /repo/satella/instrumentation/memory/conditions.py:34-38.) -/
structure Mem where
  available : Int
  total : Int
  rss : Int
  maximum : Option Int

mutual
/-- `can_fire`, /repo/satella/instrumentation/memory/conditions.py:37-38, :49-52, :78-80, :87-88, :97-99, :109-110, :120-121, :136-137.  Without a maximum the local conditions raise TypeError, with 0 the
relative one ZeroDivisionError.  `a / b < v / 100` is `100 * a < v * b` for positive `b`. -/
def Cond.canFire (m : Mem) : Cond → Except Exc Bool
  | .zeroth => .ok true
  | .globalAbsolute v => .ok (decide (m.available < v))
  | .globalRelative v => .ok (decide (100 * m.available < v * m.total))
  | .localAbsolute v => match m.maximum with | none => .error .typeError | some x => .ok (decide (x - m.rss < v))
  | .localRelative v => match m.maximum with | none => .error .typeError | some x => if x = 0 then .error .zeroDivision else .ok (decide (100 * m.rss < (100 - v) * x))
  | .custom b => .ok b
  | .any l => reduceFire m (fun x y => x || y) false l
  | .all l => reduceFire m (fun x y => x && y) true l
  | .not c => (c.canFire m).map (fun b => !b)
/-- `functools.reduce(...)`, /repo/satella/instrumentation/memory/conditions.py:50-52: every condition is asked -/
def reduceFire (m : Mem) (op : Bool → Bool → Bool) : Bool → List Cond → Except Exc Bool
  | acc, [] => .ok acc
  | acc, c :: l => (c.canFire m).bind (fun b => reduceFire m op (op acc b) l)
end

/-! ## Specification: the docstrings -/

mutual
/-- when a condition should hold -/
def Holds (m : Mem) (maximum : Int) : Cond → Prop
  | .zeroth => True
  | .globalAbsolute v => m.available < v                                    -- free memory globally is below this many bytes
  | .globalRelative v => 100 * m.available < v * m.total                    -- percentage of free memory is below this
  | .localAbsolute v => maximum - m.rss < v                                 -- what the program may still consume is below this
  | .localRelative v => 100 * (maximum - m.rss) < v * maximum               -- the percentage of it is below this
  | .custom b => b = true
  | .any l => SomeHolds m maximum l
  | .all l => AllHold m maximum l
  | .not c => ¬ Holds m maximum c
/-- one of them holds -/
def SomeHolds (m : Mem) (maximum : Int) : List Cond → Prop
  | [] => False
  | c :: l => Holds m maximum c ∨ SomeHolds m maximum l
/-- all of them hold -/
def AllHold (m : Mem) (maximum : Int) : List Cond → Prop
  | [] => True
  | c :: l => Holds m maximum c ∧ AllHold m maximum l
end

mutual
/-- there is no `LocalRelativeValue` in it -/
def Cond.plain : Cond → Bool
  | .localRelative _ => false
  | .any l => plainAll l
  | .all l => plainAll l
  | .not c => c.plain
  | _ => true
/-- nor in any of these -/
def plainAll : List Cond → Bool
  | [] => true
  | c :: l => c.plain && plainAll l
end

/-! ## Proofs -/

mutual
theorem canFire_iff (m : Mem) (x : Int) (hm : m.maximum = some x) : ∀ c : Cond, c.plain = true → ∃ b, c.canFire m = .ok b ∧ (b = true ↔ Holds m x c)
  | .zeroth, _ => ⟨true, rfl, by simp [Holds]⟩
  | .globalAbsolute v, _ => ⟨_, rfl, by simp [Holds]⟩
  | .globalRelative v, _ => ⟨_, rfl, by simp [Holds]⟩
  | .localAbsolute v, _ => ⟨decide (x - m.rss < v), by simp [Cond.canFire, hm], by simp [Holds]⟩
  | .localRelative v, h => by simp [Cond.plain] at h
  | .custom b, _ => ⟨b, rfl, by simp [Holds]⟩
  | .any l, h => by
      obtain ⟨b, h1, h2⟩ := reduce_or m x hm l (by simpa [Cond.plain] using h) false
      exact ⟨b, by simpa [Cond.canFire] using h1, by simpa [Holds] using h2⟩
  | .all l, h => by
      obtain ⟨b, h1, h2⟩ := reduce_and m x hm l (by simpa [Cond.plain] using h) true
      exact ⟨b, by simpa [Cond.canFire] using h1, by simpa [Holds] using h2⟩
  | .not c, h => by
      obtain ⟨b, h1, h2⟩ := canFire_iff m x hm c (by simpa [Cond.plain] using h)
      refine ⟨!b, by simp [Cond.canFire, h1, Except.map], ?_⟩
      rw [Holds, ← h2]
      cases b <;> simp
theorem reduce_or (m : Mem) (x : Int) (hm : m.maximum = some x) : ∀ l : List Cond, plainAll l = true → ∀ acc, ∃ b, reduceFire m (fun x y => x || y) acc l = .ok b ∧ (b = true ↔ acc = true ∨ SomeHolds m x l)
  | [], _, acc => ⟨acc, rfl, by simp [SomeHolds]⟩
  | c :: l, h, acc => by
      simp only [plainAll, Bool.and_eq_true] at h
      obtain ⟨b, h1, h2⟩ := canFire_iff m x hm c h.1
      obtain ⟨b', h3, h4⟩ := reduce_or m x hm l h.2 (acc || b)
      refine ⟨b', by simp [reduceFire, h1, Except.bind, h3], ?_⟩
      rw [h4, SomeHolds, ← h2, Bool.or_eq_true, or_assoc]
theorem reduce_and (m : Mem) (x : Int) (hm : m.maximum = some x) : ∀ l : List Cond, plainAll l = true → ∀ acc, ∃ b, reduceFire m (fun x y => x && y) acc l = .ok b ∧ (b = true ↔ acc = true ∧ AllHold m x l)
  | [], _, acc => ⟨acc, rfl, by simp [AllHold]⟩
  | c :: l, h, acc => by
      simp only [plainAll, Bool.and_eq_true] at h
      obtain ⟨b, h1, h2⟩ := canFire_iff m x hm c h.1
      obtain ⟨b', h3, h4⟩ := reduce_and m x hm l h.2 (acc && b)
      refine ⟨b', by simp [reduceFire, h1, Except.bind, h3], ?_⟩
      rw [h4, AllHold, ← h2, Bool.and_eq_true, and_assoc]
end

/-- **C61** (partial: without LocalRelativeValue). With a maximum set, every condition, however built with Any, All and Not, fires exactly when its description holds, and none raises. -/
theorem C61_conditions_partial (m : Mem) (x : Int) (hm : m.maximum = some x) (c : Cond) (hc : c.plain = true) : ∃ b, c.canFire m = .ok b ∧ (b = true ↔ Holds m x c) := canFire_iff m x hm c hc

/-- **C61, violated by LocalRelativeValue**: it fires exactly when the percentage of memory left to the program is *above* the value given. -/
theorem C61_local_relative_violates (m : Mem) (x v : Int) (hm : m.maximum = some x) (hx : x ≠ 0) :
    ∃ b, (Cond.localRelative v).canFire m = .ok b ∧ (b = true ↔ 100 * (x - m.rss) > v * x) := by
  refine ⟨decide (100 * m.rss < (100 - v) * x), by simp [Cond.canFire, hm, hx], ?_⟩
  rw [decide_eq_true_eq, Int.sub_mul]
  generalize v * x = y
  omega

/-- **C61, violated without a maximum**: the default of the manager; a local condition then raises, even inside an Any whose other condition holds. -/
theorem C61_no_maximum_violates (m : Mem) (hm : m.maximum = none) (v : Int) : (Cond.any [.zeroth, .localAbsolute v]).canFire m = .error .typeError := by
  simp [Cond.canFire, reduceFire, hm, Except.bind]

/-- **C61, violated with a maximum of 0**: the relative condition raises, whatever the memory in use. -/
theorem C61_zero_maximum_violates (m : Mem) (hm : m.maximum = some 0) (v : Int) : (Cond.localRelative v).canFire m = .error .zeroDivision := by
  simp [Cond.canFire, hm]

/-! Concrete cases. -/
/-- 3 of 10 available, the process has 7 of at most 8 -/
def mem0 : Mem := ⟨3, 10, 7, some 8⟩
example : mem0.maximum = some 8 ∧ (Cond.any [.globalRelative 20, .not (.all [.localAbsolute 2, .custom false])]).plain = true := by decide
example : (Cond.any [.globalRelative 20, .not (.all [.localAbsolute 2, .custom false])]).canFire mem0 = .ok true := by simp [Cond.canFire, reduceFire, mem0, Except.bind, Except.map]
example : (Cond.localRelative 20).canFire mem0 = .ok false ∧ 100 * (8 - mem0.rss) < 20 * 8 := by simp [Cond.canFire, mem0]

end Verif.Memory
