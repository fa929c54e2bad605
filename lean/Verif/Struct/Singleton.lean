import Verif.Py.Basic
import Verif.Py.Dict
import Verif.Py.Run

/-!
# Singleton and SingletonWithRegardsTo (satella/coding/structures/singleton.py), C117, C118

Strong references only (`weak_refs=False`).  A class is a program that constructs: `init` may raise, depending on the arguments and on how many constructors ran before.
-/
namespace Verif.Singleton

open Verif

/-! ## Model -/

variable {A : Type} [DecidableEq A]

/-- a call of the class: positional arguments and keyword arguments, /repo/satella/coding/structures/singleton.py:73 -/
structure Call (A : Type) where
  args : List A
  kwargs : List (String × A)
deriving DecidableEq

/-- the dictionary `__it__` from arguments to instances (numbered), whether it is there yet, and with what each instance was initialized, whether the constructor returned; /repo/satella/coding/structures/singleton.py:74-86 -/
structure St (A : Type) where
  called : Bool
  it : Dict (List A) Nat
  inits : List (Call A × Bool)

/-- operations: a call of the class, `delete_singleton_for` and `get_instances_for_singleton`, /repo/satella/coding/structures/singleton.py:73-117 -/
inductive Op (A : Type) where
  | make (c : Call A)
  | delete (args : List A)
  | instances

/-- the results: an instance, the exception of the constructor, KeyError, AttributeError, nothing, or the arguments, /repo/satella/coding/structures/singleton.py:73-117 -/
inductive Res (A : Type) where
  | inst (i : Nat)
  | raised
  | keyError
  | attributeError
  | none
  | keys (l : List (List A))
deriving DecidableEq

/-- `singleton_new`, /repo/satella/coding/structures/singleton.py:73-87: the instance is stored before it is initialized; `fails` tells if the constructor raises -/
def make (num : Nat) (fails : Call A → Nat → Bool) (s : St A) (c : Call A) : St A × Res A :=
  let key := c.args.take num
  match Dict.get? s.it key with
  | some i => ({ s with called := true }, .inst i)
  | none =>
    let i := s.inits.length
    let f := fails c i
    ({ called := true, it := Dict.set s.it key i, inits := s.inits ++ [(c, !f)] }, if f then .raised else .inst i)

/-- one operation, /repo/satella/coding/structures/singleton.py:73-117 -/
def step (num : Nat) (fails : Call A → Nat → Bool) (s : St A) : Op A → St A × Res A
  | .make c => make num fails s c
  /- `delete_singleton_for`, /repo/satella/coding/structures/singleton.py:110-117 -/
  | .delete args => if !s.called then (s, .attributeError) else if Dict.has s.it args then ({ s with it := Dict.del s.it args }, .none) else (s, .keyError)
  /- `get_instances_for_singleton`, /repo/satella/coding/structures/singleton.py:99-107 -/
  | .instances => if s.called then (s, .keys (Dict.keys s.it)) else (s, .attributeError)

/-- a class on which no call was made; the dictionary is made at the first one, /repo/satella/coding/structures/singleton.py:74-79 -/
def new : St A := { called := false, it := [], inits := [] }

/-- `Singleton`, /repo/satella/coding/structures/singleton.py:19-34: the same, with the key left out -/
def single (fails : Call A → Nat → Bool) (s : Option Nat × List (Call A × Bool)) (c : Call A) : (Option Nat × List (Call A × Bool)) × Res A :=
  match s.1 with
  | some i => (s, .inst i)
  | none =>
    let i := s.2.length
    let f := fails c i
    ((some i, s.2 ++ [(c, !f)]), if f then .raised else .inst i)

/-! ## Specification -/

/-- whether the class was ever called, the live instances by the first arguments, and with what each instance ever made was initialized -/
structure Abs (A : Type) where
  called : Bool
  live : List A → Option Nat
  inits : List (Call A)

/-- what is promised: an instance per first `num` arguments, initialized once with the arguments of the first call -/
def Spec (num : Nat) (b : Abs A) (o : Op A) (r : Res A) (b' : Abs A) : Prop :=
  match o with
  | .make c =>
    (∃ i, b.live (c.args.take num) = some i ∧ r = .inst i ∧ b' = { b with called := true }) ∨
    (b.live (c.args.take num) = none ∧ r = .inst b.inits.length ∧ b' = { called := true, live := fun k => if k = c.args.take num then some b.inits.length else b.live k, inits := b.inits ++ [c] })
  | .delete args =>
    (b.called = false ∧ r = .attributeError ∧ b' = b) ∨
    (b.called = true ∧ b.live args ≠ none ∧ r = .none ∧ b' = { b with live := fun k => if k = args then none else b.live k }) ∨
    (b.called = true ∧ b.live args = none ∧ r = .keyError ∧ b' = b)
  | .instances => (b.called = false ∧ r = .attributeError ∧ b' = b) ∨ b.called = true ∧ ∃ l, r = .keys l ∧ l.Nodup ∧ (∀ k, k ∈ l ↔ b.live k ≠ none) ∧ b' = b

def absOf (s : St A) : Abs A := { called := s.called, live := Dict.get? s.it, inits := s.inits.map Prod.fst }

/-! ## Proofs -/

theorem step_sim (num : Nat) (fails : Call A → Nat → Bool) (hf : ∀ c i, fails c i = false) (s : St A) (hw : Dict.WF s.it) (o : Op A) :
    Spec num (absOf s) o (step num fails s o).2 (absOf (step num fails s o).1) ∧ Dict.WF (step num fails s o).1.it := by
  cases o with
  | make c =>
    simp only [step, make, Spec]
    cases hg : Dict.get? s.it (c.args.take num) with
    | some i => exact ⟨Or.inl ⟨i, hg, rfl, rfl⟩, hw⟩
    | none =>
      refine ⟨Or.inr ⟨hg, by simp [hf, absOf], ?_⟩, Dict.wf_set hw _ _⟩
      simp only [absOf, List.map_append, List.map_cons, List.map_nil, List.length_map, Abs.mk.injEq, and_true, true_and]
      funext k
      rw [Dict.get?_set]
      by_cases e : k = c.args.take num
      · simp [e]
      · simp [e, Ne.symm e]
  | delete args =>
    simp only [step, Spec]
    cases hc : s.called with
    | false => exact ⟨Or.inl ⟨hc, rfl, rfl⟩, hw⟩
    | true =>
      simp only [Bool.not_true, Bool.false_eq_true, if_false]
      split
      · rename_i h
        refine ⟨Or.inr (Or.inl ⟨hc, ?_, rfl, ?_⟩), Dict.wf_del hw _⟩
        · intro e; simp only [absOf] at e; simp [Dict.has, e] at h
        · simp only [absOf, Abs.mk.injEq, and_true]
          refine ⟨hc.symm, ?_⟩
          funext k
          rw [Dict.get?_del]
          by_cases e : k = args
          · simp [e]
          · simp [e, Ne.symm e]
      · rename_i h
        refine ⟨Or.inr (Or.inr ⟨hc, ?_, rfl, rfl⟩), hw⟩
        simpa [Dict.has, absOf] using h
  | instances =>
    simp only [step, Spec]
    cases hc : s.called with
    | false => exact ⟨Or.inl ⟨hc, rfl, rfl⟩, hw⟩
    | true =>
      refine ⟨Or.inr ⟨hc, _, rfl, hw, fun k => ?_, rfl⟩, hw⟩
      rw [← Dict.get?_isSome_iff, Option.isSome_iff_ne_none]
      rfl

/-- **C117**: if constructors do not raise, then whatever calls are made, there is one instance for each list of first `num_args` positional arguments, initialized once, with the arguments of the first call, until it is deleted; different lists have different instances; delete_singleton_for and get_instances_for_singleton agree. -/
theorem C117_singleton (num : Nat) (fails : Call A → Nat → Bool) (hf : ∀ c i, fails c i = false) (ops : List (Op A)) :
    ∃ b, History (Spec num) { called := false, live := fun _ => none, inits := [] } ops (runOps (step num fails) new ops).2 b := by
  obtain ⟨b, h, _⟩ := history_of_sim (step := step num fails) (spec := Spec num) (fun s b => Dict.WF s.it ∧ b = absOf s)
    (fun _ => True)
    (by
      rintro s b o _ ⟨hw, rfl⟩
      obtain ⟨h1, h2⟩ := step_sim num fails hf s hw o
      exact ⟨_, h1, h2, rfl⟩) new { called := false, live := fun _ => none, inits := [] } ops (fun _ _ => trivial) ⟨Dict.wf_nil, rfl⟩
  exact ⟨b, h⟩

omit [DecidableEq A] in
/-- **C117, Singleton**: if the constructor does not raise, all calls give the same instance, initialized once, with the arguments of the first call. -/
theorem C117_single (fails : Call A → Nat → Bool) (hf : ∀ c i, fails c i = false) (c : Call A) (calls : List (Call A)) :
    let r := runOps (single fails) (none, []) (c :: calls)
    (∀ x ∈ r.2, x = .inst 0) ∧ r.1 = (some 0, [(c, true)]) := by
  have : ∀ calls : List (Call A), (∀ x ∈ (runOps (single fails) (some 0, [(c, true)]) calls).2, x = .inst 0) ∧ (runOps (single fails) (some 0, [(c, true)]) calls).1 = (some 0, [(c, true)]) := by
    intro calls
    induction calls with
    | nil => simp [runOps]
    | cons d calls ih =>
      simp only [runOps, single]
      refine ⟨fun x hx => ?_, ih.2⟩
      rcases List.mem_cons.1 hx with rfl | hx
      · rfl
      · exact ih.1 x hx
  simp only [runOps, single, hf, List.length_nil, List.nil_append, Bool.not_false, Bool.false_eq_true, if_false]
  refine ⟨fun x hx => ?_, (this calls).2⟩
  rcases List.mem_cons.1 hx with rfl | hx
  · rfl
  · exact (this calls).1 x hx

/-- **C118, violated if the constructor raises**: the instance was stored before it was initialized, so the next call, for which the constructor would not raise, returns the instance that is not initialized. -/
theorem C118_raises_violates : let s := runOps (step 1 (fun (_ : Call Nat) i => i == 0)) new [.make ⟨[5], []⟩, .make ⟨[5], []⟩]
    s.2 = [.raised, .inst 0] ∧ s.1.inits = [(⟨[5], []⟩, false)] := by decide

/-- **C118, violated for Singleton** likewise. -/
theorem C118_single_raises_violates : let s := runOps (single (fun (_ : Call Nat) i => i == 0)) (none, []) [⟨[], []⟩, ⟨[], []⟩]
    s.2 = [.raised, .inst 0] ∧ s.1.2 = [(⟨[], []⟩, false)] := by decide

/-- **C118, violated for keyword arguments**: they are not considered, so that all calls that give the argument by keyword get the same instance. -/
theorem C118_keywords_violates (num : Nat) (fails : Call A → Nat → Bool) (hf : ∀ c i, fails c i = false) (n : String) (x y : A) :
    (runOps (step num fails) new [.make ⟨[], [(n, x)]⟩, .make ⟨[], [(n, y)]⟩, .make ⟨[], []⟩]).2 = [.inst 0, .inst 0, .inst 0] := by
  simp [runOps, step, make, new, hf, Dict.set, Dict.get?]

/-- **C118** (partial: whatever constructors do; a weaker claim): a call returns an instance that is initialized, or raises, or returns the instance of an earlier call with the same first arguments, on which the constructor was called once. -/
theorem C118_at_most_once_partial (num : Nat) (fails : Call A → Nat → Bool) (ops : List (Op A)) :
    ∀ k i, Dict.get? (runOps (step num fails) (new : St A) ops).1.it k = some i → ∃ c ok, (runOps (step num fails) (new : St A) ops).1.inits[i]? = some (c, ok) ∧ c.args.take num = k := by
  have := run_inv (step := step num fails) (fun s : St A => ∀ k i, Dict.get? s.it k = some i → ∃ c ok, s.inits[i]? = some (c, ok) ∧ c.args.take num = k)
    (fun _ => True)
    (by
      intro s o _ h k i
      cases o with
      | make c =>
        simp only [step, make]
        cases hg : Dict.get? s.it (c.args.take num) with
        | some j => exact h k i
        | none =>
          simp only [Dict.get?_set]
          split
          · rename_i e
            intro hi
            cases hi
            exact ⟨c, !fails c s.inits.length, by simp, e⟩
          · intro hi
            obtain ⟨d, ok, h1, h2⟩ := h k i hi
            refine ⟨d, ok, ?_, h2⟩
            rw [List.getElem?_append_left (List.getElem?_eq_some_iff.1 h1).1]
            exact h1
      | delete args =>
        simp only [step]
        split
        · exact h k i
        · split
          · simp only [Dict.get?_del]
            split
            · intro hi; cases hi
            · exact h k i
          · exact h k i
      | instances =>
        simp only [step]
        split <;> exact h k i) (new : St A) ops (fun _ _ => trivial) (by intro k i h; simp [new] at h)
  exact this

/-! Cases that meet the hypotheses -/
example : (runOps (step 1 (fun (_ : Call Nat) _ => false)) new [.make ⟨[1, 7], []⟩, .make ⟨[2], []⟩, .make ⟨[1, 8], []⟩, .delete [1], .make ⟨[1], []⟩, .instances, .delete [9]]).2 =
    [.inst 0, .inst 1, .inst 0, .none, .inst 2, .keys [[2], [1]], .keyError] := by decide
example : (runOps (single (fun (_ : Call Nat) _ => false)) (none, []) [⟨[1], []⟩, ⟨[2], []⟩]).2 = [.inst 0, .inst 0] := by decide

end Verif.Singleton
