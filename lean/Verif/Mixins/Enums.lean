import Verif.Py.Basic
import Verif.Py.Dict

/-!
# ComparableEnum, ComparableIntEnum, DictionaryEQAble (satella/coding/structures/mixins/enums.py, eqable.py), C112-C114
-/
namespace Verif.Enums

open Verif

/-! ## Model of ComparableEnum -/

variable {V : Type}

/-- the enumerations: the values of the members of each, and whether it is a ComparableEnum, /repo/satella/coding/structures/mixins/enums.py:4 -/
structure World (V : Type) where
  eq : V → V → Bool
  members : Nat → List V
  comparable : Nat → Bool

/-- what is compared: a member of an enumeration (by its index), or some other value, /repo/satella/coding/structures/mixins/enums.py:32-41 -/
inductive Side (V : Type) where
  | member (cls : Nat) (i : Nat)
  | plain (v : V)
deriving DecidableEq

/-- `self.__class__(other)`, the member with the value, /repo/satella/coding/structures/mixins/enums.py:40; `none` is ValueError -/
def lookup (W : World V) (c : Nat) (v : V) : Option Nat := (W.members c).findIdx? (fun w => W.eq w v)

/-- the value of a member.  (Part of the model of `ComparableEnum`, /repo/satella/coding/structures/mixins/enums.py:4-41.) -/
def valueOf (W : World V) (c i : Nat) : Option V := (W.members c)[i]?

/-- `ComparableEnum.__eq__`, /repo/satella/coding/structures/mixins/enums.py:32-41, of member `i` of `c`.  Comparing two members of the same class gives NotImplemented unless they are the same, and then `==` is False. -/
def eqMethod (W : World V) (c i : Nat) : Side V → Bool
  | .member d j =>
    if d = c then i == j
    else
      match valueOf W d j with
      | some v => match lookup W c v with | some k => k == i | none => false
      | none => false
  | .plain v => match lookup W c v with | some k => k == i | none => false

/-- `a == b`: the method of the first operand, if it is a ComparableEnum, otherwise that of the second (other enumerations and values return NotImplemented), otherwise identity or the equality of values; Python's data model with /repo/satella/coding/structures/mixins/enums.py:32-41 -/
def enumEq (W : World V) : Side V → Side V → Bool
  | .member c i, b =>
    if W.comparable c then eqMethod W c i b
    else
      match b with
      | .member d j => if W.comparable d then eqMethod W d j (.member c i) else c == d && i == j
      | .plain _ => false
  | .plain v, .member d j => if W.comparable d then eqMethod W d j (.plain v) else false
  | .plain v, .plain w => W.eq v w

/-! ## Specification -/

/-- the values behave -/
structure World.Ok (W : World V) : Prop where
  refl : ∀ x, W.eq x x = true
  symm : ∀ x y, W.eq x y = true → W.eq y x = true
  trans : ∀ x y z, W.eq x y = true → W.eq y z = true → W.eq x z = true
  /-- equal values make one member only -/
  distinct : ∀ c (i j : Nat) x y, (W.members c)[i]? = some x → (W.members c)[j]? = some y → W.eq x y = true → i = j

/-- the value on a side -/
def HasValue (W : World V) : Side V → V → Prop
  | .member c i, v => (W.members c)[i]? = some v
  | .plain w, v => w = v

/-- a member of a ComparableEnum, or a value that is no enumeration -/
def Fine (W : World V) : Side V → Prop
  | .member c _ => W.comparable c = true
  | .plain _ => True

/-! ## Proofs -/

theorem lookup_iff (W : World V) (h : W.Ok) (c i : Nat) (v w : V) (hi : (W.members c)[i]? = some w) : (match lookup W c v with | some k => k == i | none => false) = W.eq w v := by
  rw [Bool.eq_iff_iff]
  unfold lookup
  cases hf : (W.members c).findIdx? (fun w => W.eq w v) with
  | none =>
    simp only [Bool.false_eq_true, false_iff]
    rw [List.findIdx?_eq_none_iff] at hf
    have := hf w (List.mem_of_getElem? hi)
    simp [this]
  | some k =>
    simp only [beq_iff_eq]
    rw [List.findIdx?_eq_some_iff_getElem] at hf
    obtain ⟨hk, hv, _⟩ := hf
    have hk' : (W.members c)[k]? = some (W.members c)[k] := List.getElem?_eq_getElem hk
    constructor
    · rintro rfl
      rw [hk'] at hi
      cases hi
      exact hv
    · intro e
      exact h.distinct c k i _ _ hk' hi (h.trans _ _ _ hv (h.symm _ _ e))

/-- **C112**: a member of a ComparableEnum is equal to a value exactly if that is its value, and to a member of another enumeration exactly if the values are equal, and to a member of the same one exactly if it is the same; the order of the operands does not matter. -/
theorem C112_equal (W : World V) (h : W.Ok) (c i : Nat) (x : V) (hc : W.comparable c = true) (hi : (W.members c)[i]? = some x) (b : Side V) (y : V) (hb : HasValue W b y) :
    enumEq W (.member c i) b = W.eq x y ∧ enumEq W b (.member c i) = W.eq x y := by
  have hm : ∀ (c i : Nat) (x : V), W.comparable c = true → (W.members c)[i]? = some x → ∀ (b : Side V) (y : V), HasValue W b y → eqMethod W c i b = W.eq x y := by
    intro c i x _ hi b y hb
    cases b with
    | plain w =>
      cases hb
      exact lookup_iff W h c i _ x hi
    | member d j =>
      simp only [HasValue] at hb
      simp only [eqMethod]
      split
      · rename_i e
        subst e
        rw [Bool.eq_iff_iff, beq_iff_eq]
        constructor
        · rintro rfl
          rw [hi] at hb
          cases hb
          exact h.refl _
        · exact h.distinct d i j x y hi hb
      · simp only [valueOf, hb]
        exact lookup_iff W h c i y x hi
  refine ⟨?_, ?_⟩
  · simp only [enumEq, hc, if_true]
    exact hm c i x hc hi b y hb
  · cases b with
    | plain w =>
      simp only [enumEq, hc, if_true]
      exact hm c i x hc hi _ y hb
    | member d j =>
      simp only [enumEq]
      have hsym : W.eq x y = W.eq y x := by
        rw [Bool.eq_iff_iff]
        exact ⟨h.symm x y, h.symm y x⟩
      split
      · rename_i hd
        rw [hsym]
        exact hm d j y hd hb _ x hi
      · exact hm c i x hc hi _ y hb

/-- members of ordinary enumerations are equal if they are the same, and not to values -/
example : let W : World Nat := { eq := (· == ·), members := fun _ => [1, 2], comparable := fun _ => false }
    enumEq W (.member 0 0) (.member 0 0) = true ∧ enumEq W (.member 0 0) (.member 0 1) = false ∧ enumEq W (.member 0 0) (.member 1 0) = false ∧ enumEq W (.member 0 0) (.plain 1) = false := by decide

/-- **C112, equivalence**: among members of ComparableEnums and values, equality is reflexive, symmetric and transitive. -/
theorem C112_equivalence (W : World V) (h : W.Ok) (a b c : Side V) (x y z : V) (ha : HasValue W a x) (hb : HasValue W b y) (hc : HasValue W c z) (fa : Fine W a) (fb : Fine W b) (fc : Fine W c) :
    enumEq W a a = true ∧ enumEq W a b = enumEq W b a ∧ (enumEq W a b = true → enumEq W b c = true → enumEq W a c = true) := by
  have key : ∀ (a b : Side V) (x y : V), HasValue W a x → HasValue W b y → Fine W a → Fine W b → enumEq W a b = W.eq x y := by
    intro a b x y ha hb fa fb
    cases a with
    | member c i => exact (C112_equal W h c i x fa ha b y hb).1
    | plain v =>
      cases ha
      cases b with
      | plain w => cases hb; rfl
      | member d j =>
        have hsym : W.eq x y = W.eq y x := by
          rw [Bool.eq_iff_iff]
          exact ⟨h.symm _ _, h.symm _ _⟩
        rw [hsym]
        exact (C112_equal W h d j y fb hb (.plain x) x rfl).2
  rw [key a a x x ha ha fa fa, key a b x y ha hb fa fb, key b a y x hb ha fb fa, key b c y z hb hc fb fc, key a c x z ha hc fa fc]
  refine ⟨h.refl x, ?_, h.trans x y z⟩
  rw [Bool.eq_iff_iff]
  exact ⟨h.symm _ _, h.symm _ _⟩

/-- two enumerations with the values 1 and 2, and 1 and 3; the second is not a ComparableEnum -/
def sample : World Nat := { eq := fun x y => x == y, members := fun c => if c = 0 then [1, 2] else if c = 1 then [1, 3] else [], comparable := fun c => c == 0 }

example : sample.Ok := by
  refine ⟨by simp [sample], by simp [sample], by simp [sample], ?_⟩
  intro c i j x y hi hj he
  simp only [sample, beq_iff_eq] at he
  subst he
  have hn : (sample.members c).Nodup := by
    simp only [sample]
    split
    · decide
    · split <;> decide
  exact (List.getElem?_inj (List.getElem?_eq_some_iff.1 hi).1 hn).1 (hi.trans hj.symm)

example : enumEq sample (.member 0 0) (.member 1 0) = true ∧ enumEq sample (.member 1 0) (.member 0 0) = true ∧ enumEq sample (.plain 2) (.member 0 1) = true ∧ enumEq sample (.member 0 1) (.plain 1) = false := by decide

/-! ## C113: enumerations as keys, and compared with anything -/

/-- a class body: whether it defines `__eq__` and `__hash__`, Python's data model, for /repo/satella/coding/structures/mixins/enums.py:4-88 -/
structure Body where
  definesEq : Bool
  definesHash : Bool

/-- whether instances can be hashed: a class that defines `__eq__` but not `__hash__` has no hash, others inherit it; the classes are in order of inheritance, and `object` can be hashed -/
def hashable : List Body → Bool
  | [] => true
  | b :: bases => if b.definesHash then true else if b.definesEq then false else hashable bases

/-- enum.Enum defines `__hash__`, by the name -/
def enumBody : Body := { definesEq := false, definesHash := true }

/-- ComparableEnum, /repo/satella/coding/structures/mixins/enums.py:4-41, and an enumeration made from it, which defines nothing -/
def comparableEnum : List Body := [⟨false, false⟩, { definesEq := true, definesHash := false }, enumBody]

/-- HashableIntEnum and ComparableIntEnum, /repo/satella/coding/structures/mixins/enums.py:44-88 -/
def comparableIntEnum : List Body := [⟨false, false⟩, ⟨true, true⟩, ⟨false, true⟩, enumBody]

/-- something a ComparableIntEnum is compared with: an int or float (here a rational), something else, with what int() gives of it (`none` if it raises), /repo/satella/coding/structures/mixins/enums.py:65-88 -/
inductive Other where
  | num (q : Rat)
  | other (int : Option Int)

/-- the comparisons of ComparableIntEnum, /repo/satella/coding/structures/mixins/enums.py:65-88 -/
inductive Cmp where
  | lt | le | gt | ge | eq
deriving DecidableEq

/-- what they mean for numbers -/
def Cmp.rel : Cmp → Rat → Rat → Bool
  | .lt, x, y => decide (x < y)
  | .le, x, y => decide (x ≤ y)
  | .gt, x, y => decide (y < x)
  | .ge, x, y => decide (y ≤ x)
  | .eq, x, y => decide (x = y)

/-- the methods `__lt__` to `__eq__` of ComparableIntEnum, /repo/satella/coding/structures/mixins/enums.py:65-88; `none` is an exception (TypeError or ValueError of int()) -/
def intCmp (v : Int) : Cmp → Other → Option Bool
  | .lt, .num q => some (decide ((v : Rat) < q))
  | .lt, .other i => i.map (fun i => decide (v < i))
  | .le, .num q => some (decide ((v : Rat) ≤ q))
  | .le, .other i => i.map (fun i => decide (v ≤ i))
  | .gt, .num q => some (decide (q < (v : Rat)))
  | .gt, .other i => i.map (fun i => decide (i < v))
  | .ge, .num q => some (decide (q ≤ (v : Rat)))
  | .ge, .other i => i.map (fun i => decide (i ≤ v))
  | .eq, .num q => some (decide ((v : Rat) = q))
  | .eq, .other i => i.map (fun i => decide (v = i))

/-- **C113, violated for ComparableEnum**: its members cannot be keys of a dictionary or be in a set. -/
theorem C113_unhashable_violates : hashable comparableEnum = false := by decide

/-- **C113, violated for ComparableIntEnum**: `==` with None, or a string that is no number, raises; so `x in [...]` can raise. -/
theorem C113_equal_raises_violates (v : Int) : intCmp v .eq (.other none) = none := rfl

/-- **C113** (partial: for ComparableIntEnum, compared with numbers and with what int() takes): every comparison is that of the numbers, and it can be hashed. -/
theorem C113_int_enum_partial (v : Int) (c : Cmp) :
    (∀ q, intCmp v c (.num q) = some (c.rel v q)) ∧ (∀ i : Int, intCmp v c (.other (some i)) = some (c.rel v i)) ∧ hashable comparableIntEnum = true := by
  refine ⟨?_, ?_, by decide⟩
  · intro q; cases c <;> simp [intCmp, Cmp.rel]
  · intro i
    cases c <;> simp [intCmp, Cmp.rel, Rat.intCast_lt_intCast, Rat.intCast_le_intCast, Rat.intCast_inj]

example : intCmp 3 .lt (.num (7 / 2)) = some true ∧ intCmp 3 .ge (.other (some 4)) = some false := by
  constructor
  · simp only [intCmp]; congr 1; rw [decide_eq_true_iff]; grind
  · rfl

/-! ## C114: DictionaryEQAble -/

/-- an object: its class and its `__dict__`, /repo/satella/coding/structures/mixins/eqable.py:4-10 -/
structure Obj (V : Type) where
  cls : Nat
  dict : Dict String V

/-- `getattr(other, key, NOT_EQUAL_TO_ANYTHING)`, /repo/satella/coding/structures/mixins/eqable.py:16; the instance's attribute, or that of the class -/
def getattr (clsAttrs : Nat → String → Option V) (o : Obj V) (k : String) : Option V :=
  match Dict.get? o.dict k with
  | some v => some v
  | none => clsAttrs o.cls k

/-- `__eq__`, /repo/satella/coding/structures/mixins/eqable.py:12-18 -/
def eqable (eq : V → V → Bool) (clsAttrs : Nat → String → Option V) (a b : Obj V) : Bool :=
  if a.cls ≠ b.cls then false
  else a.dict.all (fun p => match getattr clsAttrs b p.1 with | some w => eq w p.2 | none => false)

/-- `__ne__`, /repo/satella/coding/structures/mixins/eqable.py:20-26 -/
def neable (eq : V → V → Bool) (clsAttrs : Nat → String → Option V) (a b : Obj V) : Bool :=
  if a.cls ≠ b.cls then true
  else a.dict.any (fun p => match getattr clsAttrs b p.1 with | some w => !eq w p.2 | none => true)

/-- **C114, violated**: an object is equal to another of the same class that has more attributes, but not the other way round. -/
theorem C114_more_attributes_violates : let a : Obj Nat := ⟨0, [("x", 1)]⟩
    let b : Obj Nat := ⟨0, [("x", 1), ("y", 2)]⟩
    eqable (· == ·) (fun _ _ => none) a b = true ∧ eqable (· == ·) (fun _ _ => none) b a = false := by decide

/-- **C114** (partial: if both have the same attributes in their dictionaries): they are equal exactly if they are of the same class and all attributes are equal; `!=` is always the opposite of `==`. -/
theorem C114_eqable_partial (eq : V → V → Bool) (clsAttrs : Nat → String → Option V) (a b : Obj V) :
    (neable eq clsAttrs a b = !eqable eq clsAttrs a b) ∧
    (Dict.WF a.dict → (∀ k, Dict.get? a.dict k = none ↔ Dict.get? b.dict k = none) →
      (eqable eq clsAttrs a b = true ↔ a.cls = b.cls ∧ ∀ k v w, Dict.get? a.dict k = some v → Dict.get? b.dict k = some w → eq w v = true)) := by
  constructor
  · unfold neable eqable
    split
    · rfl
    · rw [Bool.eq_iff_iff]
      simp only [List.any_eq_true, Bool.not_eq_true', List.all_eq_false]
      constructor
      · rintro ⟨p, hp, h⟩
        refine ⟨p, hp, ?_⟩
        cases hg : getattr clsAttrs b p.1 <;> simp_all
      · rintro ⟨p, hp, h⟩
        refine ⟨p, hp, ?_⟩
        cases hg : getattr clsAttrs b p.1 <;> simp_all
  · intro hw hk
    unfold eqable
    split
    · rename_i h
      simp [h]
    · rename_i h
      have h' : a.cls = b.cls := by simpa using h
      rw [List.all_eq_true]
      constructor
      · intro ha
        refine ⟨h', fun k v w hv hw' => ?_⟩
        have := ha (k, v) (Dict.mem_of_get? hv)
        simpa [getattr, hw'] using this
      · rintro ⟨_, ha⟩ p hp
        have hpd := Dict.get?_of_mem hw (k := p.1) (v := p.2) hp
        cases hg : Dict.get? b.dict p.1 with
        | none => rw [(hk p.1).2 hg] at hpd; cases hpd
        | some w =>
          simp only [getattr, hg]
          exact ha p.1 p.2 w hpd hg

example : eqable (· == ·) (fun _ _ => none) (⟨0, [("x", 1), ("y", 2)]⟩ : Obj Nat) ⟨0, [("y", 2), ("x", 1)]⟩ = true := by decide

end Verif.Enums
