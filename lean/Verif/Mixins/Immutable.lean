import Verif.Py.Basic
import Verif.Py.Dict
import Verif.Py.Run

/-!
# Immutable and frozendict (satella/coding/structures/immutable.py), C110, C111
-/
namespace Verif.Immutable

open Verif

/-! ## Model -/

variable {V : Type}

/-- the name of the slot that locks the object, /repo/satella/coding/structures/immutable.py:7, :22 -/
def lockName : String := "_Immutable__locked_for_writes"

/-- what an assignment or deletion of an attribute gives, /repo/satella/coding/structures/immutable.py:25-46 -/
inductive Res where
  | ok
  | typeError
  | attributeError
deriving DecidableEq

/-- an assignment or a deletion, /repo/satella/coding/structures/immutable.py:25, :38 -/
inductive Op (V : Type) where
  | set (name : String) (v : V)
  | del (name : String)

/-- the name it is about.  (Part of the model of `Immutable`, /repo/satella/coding/structures/immutable.py:11-46.) -/
def Op.name : Op V → String
  | .set n _ => n
  | .del n => n

/-- `super().__setattr__`, /repo/satella/coding/structures/immutable.py:27 -/
def plainSet (s : Dict String V) (n : String) (v : V) : Dict String V × Res := (Dict.set s n v, .ok)

/-- `super().__delattr__`, /repo/satella/coding/structures/immutable.py:43-46 -/
def plainDel (s : Dict String V) (n : String) : Dict String V × Res :=
  if Dict.has s n then (Dict.del s n, .ok) else (s, .attributeError)

/-- `__setattr__`, /repo/satella/coding/structures/immutable.py:25-36; the attributes, the slot included, are a dictionary, `truth` is `bool` -/
def setattr (truth : V → Bool) (s : Dict String V) (n : String) (v : V) : Dict String V × Res :=
  if n = lockName then plainSet s n v
  else
    match Dict.get? s lockName with
    | some l => if truth l then (s, .typeError) else plainSet s n v
    | none => plainSet s n v

/-- `__delattr__`, /repo/satella/coding/structures/immutable.py:38-46; after an AttributeError it is tried once more -/
def delattr (truth : V → Bool) (s : Dict String V) (n : String) : Dict String V × Res :=
  match Dict.get? s lockName with
  | some l =>
    if truth l then (s, .typeError)
    else
      match plainDel s n with
      | (_, .attributeError) => plainDel s n
      | r => r
  | none => plainDel s n

/-- one operation, /repo/satella/coding/structures/immutable.py:25-46 -/
def step (truth : V → Bool) (s : Dict String V) : Op V → Dict String V × Res
  | .set n v => setattr truth s n v
  | .del n => delattr truth s n

/-- `ImmutableMetaType.__call__`: the constructor, which assigns and deletes attributes, and then the lock, /repo/satella/coding/structures/immutable.py:5-8.  If an operation of the constructor raises, it is taken to go on. -/
def construct (truth : V → Bool) (yes : V) (body : List (Op V)) : Dict String V × List Res :=
  let r := runOps (step truth) [] body
  ((setattr truth r.1 lockName yes).1, r.2)

/-! ## Specification -/

/-- an object whose attributes can be assigned and deleted -/
def Plain (b : String → Option V) (o : Op V) (r : Res) (b' : String → Option V) : Prop :=
  match o with
  | .set n v => r = .ok ∧ b' = fun m => if m = n then some v else b m
  | .del n => (b n ≠ none ∧ r = .ok ∧ b' = fun m => if m = n then none else b m) ∨ (b n = none ∧ r = .attributeError ∧ b' = b)

/-! ## Proofs -/

theorem step_unlocked (truth : V → Bool) (s : Dict String V) (hs : Dict.get? s lockName = none) (o : Op V) (ho : o.name ≠ lockName) :
    Plain (Dict.get? s) o (step truth s o).2 (Dict.get? (step truth s o).1) ∧ Dict.get? (step truth s o).1 lockName = none := by
  cases o with
  | set n v =>
    simp only [Op.name] at ho
    simp only [step, setattr, if_neg ho, hs, plainSet, Plain]
    refine ⟨⟨trivial, ?_⟩, ?_⟩
    · funext m
      rw [Dict.get?_set]
      by_cases e : m = n
      · simp [e]
      · simp [e, Ne.symm e]
    · rw [Dict.get?_set, if_neg ho, hs]
  | del n =>
    simp only [Op.name] at ho
    simp only [step, delattr, hs, plainDel, Plain]
    split
    · rename_i h
      refine ⟨Or.inl ⟨?_, rfl, ?_⟩, ?_⟩
      · intro e; simp [Dict.has, e] at h
      · funext m
        rw [Dict.get?_del]
        by_cases e : m = n
        · simp [e]
        · simp [e, Ne.symm e]
      · rw [Dict.get?_del, if_neg ho, hs]
    · rename_i h
      refine ⟨Or.inr ⟨?_, rfl, rfl⟩, hs⟩
      simpa [Dict.has] using h

/-- **C110, in the constructor**: an Immutable is like any other object; what the constructor does to the attributes is what they are afterwards. -/
theorem C110_constructor (truth : V → Bool) (yes : V) (body : List (Op V)) (hb : ∀ o ∈ body, o.name ≠ lockName) :
    ∃ b, History Plain (fun _ => none) body (construct truth yes body).2 b ∧ ∀ n, n ≠ lockName → Dict.get? (construct truth yes body).1 n = b n := by
  have : ∀ (body : List (Op V)) (s : Dict String V), (∀ o ∈ body, o.name ≠ lockName) → Dict.get? s lockName = none →
      History Plain (Dict.get? s) body (runOps (step truth) s body).2 (Dict.get? (runOps (step truth) s body).1) := by
    intro body
    induction body with
    | nil => intro s _ _; exact rfl
    | cons o body ih =>
      intro s hb hs
      obtain ⟨h1, h2⟩ := step_unlocked truth s hs o (hb o (by simp))
      exact ⟨_, h1, ih _ (fun o ho => hb o (by simp [ho])) h2⟩
  refine ⟨_, this body [] hb rfl, fun n hn => ?_⟩
  simp only [construct, setattr, if_true, plainSet]
  rw [Dict.get?_set, if_neg (Ne.symm hn)]

/-- **C110**: after the constructor, every assignment and deletion of an attribute (other than of the lock itself) raises TypeError, and no attribute ever changes. -/
theorem C110_immutable (truth : V → Bool) (yes : V) (hy : truth yes = true) (body ops : List (Op V)) (ho : ∀ o ∈ ops, ∀ v, o = .set lockName v → False) :
    (runOps (step truth) (construct truth yes body).1 ops).1 = (construct truth yes body).1 ∧ ∀ r ∈ (runOps (step truth) (construct truth yes body).1 ops).2, r = .typeError := by
  have hl : Dict.get? (construct truth yes body).1 lockName = some yes := by
    simp [construct, setattr, plainSet]
  generalize (construct truth yes body).1 = s at hl
  have hstep : ∀ o : Op V, (∀ v, o = .set lockName v → False) → step truth s o = (s, .typeError) := by
    intro o h
    cases o with
    | set n v =>
      have hn : n ≠ lockName := fun e => h v (by rw [e])
      simp only [step, setattr, if_neg hn, hl, hy, if_true]
    | del n => simp only [step, delattr, hl, hy, if_true]
  induction ops with
  | nil => simp [runOps]
  | cons o ops ih =>
    have e := hstep o (ho o (by simp))
    have := ih (fun o h => ho o (by simp [h]))
    simp only [runOps, e]
    refine ⟨this.1, ?_⟩
    intro r hr
    rcases List.mem_cons.1 hr with rfl | hr
    · rfl
    · exact this.2 r hr

/-! Cases that meet the hypotheses -/
example : (construct (fun b : Bool => b) true [.set "a" false, .set "b" true, .del "b", .del "c"]).2 = [.ok, .ok, .ok, .attributeError] := by decide
example : ∀ o ∈ ([.set "a" false, .del "b"] : List (Op Bool)), o.name ≠ lockName := by decide
example : (runOps (step (fun b : Bool => b)) (construct (fun b : Bool => b) true [.set "a" false]).1 [.set "a" true, .del "a"]).2 = [.typeError, .typeError] := by decide

/-! ## C111: frozendict -/

variable {K : Type} [DecidableEq K]

/-- what can be done to a frozendict, /repo/satella/coding/structures/immutable.py:67-83 -/
inductive FOp (K V : Type) where
  | setitem (k : K) (v : V)
  | update (d : Dict K V)
  | delitem (k : K)
  | pop (k : K)
  | popitem
  | clear
  | setdefault (k : K) (v : V)
  | ior (d : Dict K V)

/-- `true` if it raises nothing -/
def fstep (d : Dict K V) : FOp K V → Dict K V × Bool
  /- /repo/satella/coding/structures/immutable.py:73-74 -/
  | .setitem _ _ => (d, false)
  /- /repo/satella/coding/structures/immutable.py:76-77 -/
  | .update _ => (d, false)
  /- the rest is inherited from dict, /repo/satella/coding/structures/immutable.py:67 -/
  | .delitem k => if Dict.has d k then (Dict.del d k, true) else (d, false)
  | .pop k => if Dict.has d k then (Dict.del d k, true) else (d, false)
  | .popitem => match d.getLast? with | some p => (Dict.del d p.1, true) | none => (d, false)
  | .clear => ([], true)
  | .setdefault k v => if Dict.has d k then (d, true) else (Dict.set d k v, true)
  | .ior e => (e.foldl (fun d p => Dict.set d p.1 p.2) d, true)

/-- **C111, violated**: every way of changing a dictionary except assigning to an item and update changes a frozendict: del, pop, popitem, clear, setdefault and `|=`. -/
theorem C111_frozendict_violates : ∀ o ∈ ([.delitem 1, .pop 1, .popitem, .clear, .setdefault 2 0, .ior [(1, 5)]] : List (FOp Nat Nat)), (fstep [(1, 0)] o).2 = true ∧ (fstep [(1, 0)] o).1 ≠ [(1, 0)] := by decide

/-- **C111** (partial: for item assignment and update): it never changes, and they raise TypeError. -/
theorem C111_frozendict_partial (d : Dict K V) (ops : List (FOp K V)) (h : ∀ o ∈ ops, (∃ k v, o = .setitem k v) ∨ ∃ e, o = .update e) :
    (runOps fstep d ops).1 = d ∧ ∀ r ∈ (runOps fstep d ops).2, r = false := by
  induction ops with
  | nil => simp [runOps]
  | cons o ops ih =>
    have e : fstep d o = (d, false) := by
      rcases h o (by simp) with ⟨k, v, rfl⟩ | ⟨e, rfl⟩ <;> rfl
    have := ih (fun o ho => h o (by simp [ho]))
    simp only [runOps, e]
    refine ⟨this.1, fun r hr => ?_⟩
    rcases List.mem_cons.1 hr with rfl | hr
    · rfl
    · exact this.2 r hr

example : (runOps fstep [(1, 0)] ([.setitem 1 2, .update [(3, 4)]] : List (FOp Nat Nat))) = ([(1, 0)], [false, false]) := by decide

end Verif.Immutable
