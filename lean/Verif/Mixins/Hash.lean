import Verif.Py.Basic
import Verif.Py.Dict

/-!
# Equality and hashing (satella/coding/structures/mixins/hashable.py, strings.py, immutable.py, hashable_objects.py), C108, C109

Hashes are 64 bit words.  `a == b` calls `b.__eq__(a)` first if the class of `b` is a proper subclass of that of `a`, and
`a.__eq__(b)` otherwise; none of the methods modelled returns NotImplemented.
-/
namespace Verif.Mixins

set_option linter.unusedSimpArgs false

open Verif

/-! ## Model -/

/-- equality, order and hash of the values of fields, which are outside this library; used in /repo/satella/coding/structures/mixins/hashable.py:52-203 -/
structure Vals (V : Type) where
  eq : V → V → Bool
  lt : V → V → Bool
  le : V → V → Bool
  hash : V → BitVec 64

/-- `_HASH_FIELDS_TO_USE`: a string or a sequence of strings, /repo/satella/coding/structures/mixins/hashable.py:163-168 -/
inductive Fields where
  | one (name : String)
  | many (names : List String)

/-- classes: which is a subclass of which, and the fields named by each; /repo/satella/coding/structures/mixins/hashable.py:45-50, :163-168, :191 -/
structure Classes where
  sub : Nat → Nat → Bool
  fields : Nat → Fields
  comparableBy : Nat → String

/-- an object: its id, class, and attributes and properties, /repo/satella/coding/structures/mixins/hashable.py:19, :53, :174 -/
structure Obj (V : Type) where
  id : Nat
  cls : Nat
  attrs : String → Option V

variable {V : Type}

/-- `any(getattr(self, f) != getattr(other, f) for f in cmpr_by)`, /repo/satella/coding/structures/mixins/hashable.py:199; `none` is AttributeError -/
def anyDiffers (E : Vals V) (a b : Obj V) : List String → Option Bool
  | [] => some false
  | f :: l =>
    match a.attrs f, b.attrs f with
    | some x, some y => if !E.eq x y then some true else anyDiffers E a b l
    | _, _ => none

/-- `_generic_eq`, /repo/satella/coding/structures/mixins/hashable.py:190-203; `cmp` is the comparator -/
def genericEq (E : Vals V) (C : Classes) (a b : Obj V) (truth : Bool) (cmp : V → V → Bool) : Bool :=
  if !C.sub b.cls a.cls then truth
  else
    match C.fields a.cls with
    | .one f =>
      match a.attrs f, b.attrs f with
      | some x, some y => cmp x y
      | _, _ => truth
    | .many l =>
      match anyDiffers E a b l with
      | none => truth
      | some true => truth
      | some false => !truth

/-- `OmniHashableMixin.__eq__`, /repo/satella/coding/structures/mixins/hashable.py:180-184 -/
def omniEqMethod (E : Vals V) (C : Classes) (a b : Obj V) : Bool := genericEq E C a b false E.eq

/-- `OmniHashableMixin.__ne__`, /repo/satella/coding/structures/mixins/hashable.py:186-187; `!=` of values is the negation of `==` -/
def omniNeMethod (E : Vals V) (C : Classes) (a b : Obj V) : Bool := genericEq E C a b true (fun x y => !E.eq x y)

/-- the operator that calls a method, of the second operand first if its class is a proper subclass (Python's data model; of the users of /repo/satella/coding/structures/mixins/hashable.py:180-187) -/
def operate (C : Classes) (m : Obj V → Obj V → Bool) (a b : Obj V) : Bool :=
  if b.cls ≠ a.cls ∧ C.sub b.cls a.cls then m b a else m a b

/-- `a == b`, /repo/satella/coding/structures/mixins/hashable.py:180-184 -/
def omniEq (E : Vals V) (C : Classes) (a b : Obj V) : Bool := operate C (omniEqMethod E C) a b

/-- `a != b`, /repo/satella/coding/structures/mixins/hashable.py:186-187 -/
def omniNe (E : Vals V) (C : Classes) (a b : Obj V) : Bool := operate C (omniNeMethod E C) a b

/-- the loop of `__hash__`, /repo/satella/coding/structures/mixins/hashable.py:176-178 -/
def xorLoop (E : Vals V) (a : Obj V) : List String → BitVec 64 → Option (BitVec 64)
  | [], x => some x
  | f :: l, x =>
    match a.attrs f with
    | some v => xorLoop E a l (x ^^^ E.hash v)
    | none => none

/-- `OmniHashableMixin.__hash__`, /repo/satella/coding/structures/mixins/hashable.py:170-178; `none` is AttributeError -/
def omniHash (E : Vals V) (C : Classes) (a : Obj V) : Option (BitVec 64) :=
  match C.fields a.cls with
  | .one f => (a.attrs f).map E.hash
  | .many l => xorLoop E a l 0

/-- the value compared by, `getattr(self, self._COMPARABLE_BY)`, /repo/satella/coding/structures/mixins/hashable.py:53-68 -/
def byKey (C : Classes) (a : Obj V) : Option V := a.attrs (C.comparableBy a.cls)

/-- `ComparableAndHashableBy.__hash__`, /repo/satella/coding/structures/mixins/hashable.py:52-53 -/
def byHash (E : Vals V) (C : Classes) (a : Obj V) : Option (BitVec 64) := (byKey C a).map E.hash

/-- a comparison of the two values; `none` is AttributeError; /repo/satella/coding/structures/mixins/hashable.py:55-68 -/
def byCmp (C : Classes) (r : V → V → Bool) (a b : Obj V) : Option Bool :=
  match byKey C a, byKey C b with
  | some x, some y => some (r x y)
  | _, _ => none

/-- the five comparisons of ComparableAndHashableBy, /repo/satella/coding/structures/mixins/hashable.py:55-68 -/
inductive Cmp where
  | eq | lt | le | gt | ge
deriving DecidableEq

/-- the five comparisons of values; `x > y` of values is `y < x`.  (Part of the model of `ComparableAndHashableBy`, /repo/satella/coding/structures/mixins/hashable.py:25-68.) -/
def Cmp.rel (E : Vals V) : Cmp → V → V → Bool
  | .eq => E.eq
  | .lt => E.lt
  | .le => E.le
  | .gt => fun x y => E.lt y x
  | .ge => fun x y => E.le y x

/-- the comparisons of ComparableAndHashableBy, /repo/satella/coding/structures/mixins/hashable.py:55-68 -/
def by_ (E : Vals V) (C : Classes) : Cmp → Obj V → Obj V → Option Bool
  | .eq => byCmp C E.eq
  | .lt => byCmp C E.lt
  | .le => byCmp C E.le
  | .gt => byCmp C (fun x y => E.lt y x)
  | .ge => byCmp C (fun x y => E.le y x)

/-- `frozendict.__hash__`, /repo/satella/coding/structures/immutable.py:79-83 -/
def frozenHash {K : Type} (hk : K → BitVec 64) (E : Vals V) (d : Dict K V) : BitVec 64 :=
  d.foldl (fun o p => o ^^^ hk p.1 ^^^ E.hash p.2) 0

/-- `==` of dictionaries, which frozendict inherits, /repo/satella/coding/structures/immutable.py:67-83 -/
def dictEq {K : Type} [DecidableEq K] (E : Vals V) (d e : Dict K V) : Bool :=
  d.length == e.length && d.all (fun p => match Dict.get? e p.1 with | some w => E.eq p.2 w | none => false)

/-! ## Specification -/

/-- the values obey what Python asks of `==` and hash -/
structure Vals.Ok (E : Vals V) : Prop where
  refl : ∀ x, E.eq x x = true
  symm : ∀ x y, E.eq x y = true → E.eq y x = true
  trans : ∀ x y z, E.eq x y = true → E.eq y z = true → E.eq x z = true
  hash : ∀ x y, E.eq x y = true → E.hash x = E.hash y

/-- and are ordered -/
structure Vals.Ordered (E : Vals V) : Prop where
  le : ∀ x y, E.le x y = true ↔ E.lt x y = true ∨ E.eq x y = true
  tri : ∀ x y, E.lt x y = true ∨ E.eq x y = true ∨ E.lt y x = true
  irrefl : ∀ x y, E.lt x y = true → E.eq x y = false ∧ E.lt y x = false

/-- every class is a subclass of itself, and two classes are not subclasses of one another -/
structure Classes.Ok (C : Classes) : Prop where
  refl : ∀ c, C.sub c c = true
  anti : ∀ c d, C.sub c d = true → C.sub d c = true → c = d

/-- the names of the fields -/
def Fields.names : Fields → List String
  | .one f => [f]
  | .many l => l

/-- two objects that should be equal: of the same class, with all fields there, and equal -/
def Same (E : Vals V) (C : Classes) (a b : Obj V) : Prop :=
  a.cls = b.cls ∧ ∀ f ∈ (C.fields a.cls).names, ∃ x y, a.attrs f = some x ∧ b.attrs f = some y ∧ E.eq x y = true

/-! ## Proofs -/

theorem anyDiffers_false (E : Vals V) (a b : Obj V) (l : List String) :
    anyDiffers E a b l = some false ↔ ∀ f ∈ l, ∃ x y, a.attrs f = some x ∧ b.attrs f = some y ∧ E.eq x y = true := by
  induction l with
  | nil => simp [anyDiffers]
  | cons f l ih =>
    simp only [anyDiffers, List.forall_mem_cons]
    cases ha : a.attrs f with
    | none => simp
    | some x =>
      cases hb : b.attrs f with
      | none => simp
      | some y =>
        cases he : E.eq x y with
        | false => simp [he]
        | true => simp [he, ih]

/-- the method is true exactly if the other is an instance of the class and the fields are equal -/
theorem omniEqMethod_iff (E : Vals V) (C : Classes) (a b : Obj V) :
    omniEqMethod E C a b = true ↔ C.sub b.cls a.cls = true ∧ ∀ f ∈ (C.fields a.cls).names, ∃ x y, a.attrs f = some x ∧ b.attrs f = some y ∧ E.eq x y = true := by
  unfold omniEqMethod genericEq
  cases hs : C.sub b.cls a.cls with
  | false => simp
  | true =>
    simp only [Bool.not_true, Bool.false_eq_true, if_false, true_and]
    cases hf : C.fields a.cls with
    | one f =>
      simp only [Fields.names, List.forall_mem_singleton]
      cases a.attrs f <;> cases b.attrs f <;> simp
    | many l =>
      simp only [Fields.names]
      rw [← anyDiffers_false E a b l]
      rcases anyDiffers E a b l with _ | _ | _ <;> simp

theorem omniNeMethod_eq (E : Vals V) (C : Classes) (a b : Obj V) : omniNeMethod E C a b = !omniEqMethod E C a b := by
  unfold omniNeMethod omniEqMethod genericEq
  cases hs : C.sub b.cls a.cls with
  | false => simp
  | true =>
    simp only [Bool.not_true, Bool.false_eq_true, if_false]
    cases hf : C.fields a.cls with
    | one f => simp only []; cases a.attrs f <;> cases b.attrs f <;> simp
    | many l =>
      simp only []
      rcases anyDiffers E a b l with _ | _ | _ <;> simp

theorem omniEq_iff (E : Vals V) (C : Classes) (hc : C.Ok) (a b : Obj V) : omniEq E C a b = true ↔ Same E C a b := by
  unfold omniEq operate Same
  split
  · rename_i h
    rw [omniEqMethod_iff]
    constructor
    · rintro ⟨h1, _⟩
      exact absurd (hc.anti _ _ h.2 h1) h.1
    · rintro ⟨h1, _⟩
      exact absurd h1.symm h.1
  · rename_i h
    rw [omniEqMethod_iff]
    constructor
    · rintro ⟨h1, h2⟩
      by_cases e : b.cls = a.cls
      · exact ⟨e.symm, h2⟩
      · exact absurd ⟨e, h1⟩ h
    · rintro ⟨h1, h2⟩
      exact ⟨by rw [h1]; exact hc.refl _, h2⟩

/-- **C108, OmniHashableMixin**: two objects are equal exactly if they are of the same class and all fields named are there and equal; `!=` is the opposite of `==`, whichever operand is first. -/
theorem C108_omni_equal (E : Vals V) (C : Classes) (hc : C.Ok) (a b : Obj V) :
    (omniEq E C a b = true ↔ Same E C a b) ∧ (omniNe E C a b = true ↔ ¬ Same E C a b) := by
  refine ⟨omniEq_iff E C hc a b, ?_⟩
  rw [← omniEq_iff E C hc a b]
  unfold omniNe omniEq operate
  split <;> rw [omniNeMethod_eq] <;> simp

/-- **C108, OmniHashableMixin, equivalence**: equality is symmetric and transitive, also for objects of subclasses. -/
theorem C108_omni_equivalence (E : Vals V) (he : E.Ok) (C : Classes) (hc : C.Ok) (a b c : Obj V) :
    (omniEq E C a b = omniEq E C b a) ∧ (omniEq E C a b = true → omniEq E C b c = true → omniEq E C a c = true) := by
  have sy : ∀ a b : Obj V, Same E C a b → Same E C b a := by
    rintro a b ⟨h1, h2⟩
    refine ⟨h1.symm, fun f hf => ?_⟩
    obtain ⟨x, y, hx, hy, h⟩ := h2 f (by rw [h1]; exact hf)
    exact ⟨y, x, hy, hx, he.symm _ _ h⟩
  constructor
  · rw [Bool.eq_iff_iff, omniEq_iff E C hc, omniEq_iff E C hc]
    exact ⟨sy a b, sy b a⟩
  · rw [omniEq_iff E C hc, omniEq_iff E C hc, omniEq_iff E C hc]
    rintro ⟨h1, h2⟩ ⟨h3, h4⟩
    refine ⟨h1.trans h3, fun f hf => ?_⟩
    obtain ⟨x, y, hx, hy, h⟩ := h2 f hf
    obtain ⟨y', z, hy', hz, h'⟩ := h4 f (by rw [← h1]; exact hf)
    rw [hy] at hy'
    cases hy'
    exact ⟨x, z, hx, hz, he.trans _ _ _ h h'⟩

theorem xorLoop_congr (E : Vals V) (he : E.Ok) (a b : Obj V) (l : List String)
    (h : ∀ f ∈ l, ∃ x y, a.attrs f = some x ∧ b.attrs f = some y ∧ E.eq x y = true) :
    ∀ o, ∃ r, xorLoop E a l o = some r ∧ xorLoop E b l o = some r := by
  induction l with
  | nil => intro o; exact ⟨o, rfl, rfl⟩
  | cons f l ih =>
    intro o
    obtain ⟨x, y, hx, hy, hxy⟩ := h f (by simp)
    simp only [xorLoop, hx, hy, he.hash _ _ hxy]
    exact ih (fun g hg => h g (by simp [hg])) _

/-- **C108, OmniHashableMixin, hash**: equal objects can be hashed, and have the same hash. -/
theorem C108_omni_hash (E : Vals V) (he : E.Ok) (C : Classes) (hc : C.Ok) (a b : Obj V) (h : omniEq E C a b = true) :
    ∃ r, omniHash E C a = some r ∧ omniHash E C b = some r := by
  obtain ⟨h1, h2⟩ := (omniEq_iff E C hc a b).1 h
  unfold omniHash
  rw [← h1]
  cases hf : C.fields a.cls with
  | one f =>
    rw [hf] at h2
    obtain ⟨x, y, hx, hy, hxy⟩ := h2 f (by simp [Fields.names])
    simp [hx, hy, he.hash _ _ hxy]
  | many l =>
    rw [hf] at h2
    exact xorLoop_congr E he a b l h2 0

/-- **C108, ComparableAndHashableBy**: objects are compared as the values of their fields are; equality is an equivalence, equal objects have the same hash; exactly one of less, equal and greater holds, and the other comparisons agree with them. -/
theorem C108_by (E : Vals V) (he : E.Ok) (ho : E.Ordered) (C : Classes) (a b c : Obj V) (x y z : V)
    (ha : a.attrs (C.comparableBy a.cls) = some x) (hb : b.attrs (C.comparableBy b.cls) = some y) (hc : c.attrs (C.comparableBy c.cls) = some z) :
    (∀ o, by_ E C o a b = some (o.rel E x y)) ∧
    by_ E C .eq a b = by_ E C .eq b a ∧
    (by_ E C .eq a b = some true → by_ E C .eq b c = some true → by_ E C .eq a c = some true) ∧
    (by_ E C .eq a b = some true → byHash E C a = byHash E C b ∧ byHash E C a ≠ none) ∧
    (∃ o, by_ E C o a b = some true ∧ o ∈ [Cmp.lt, Cmp.eq, Cmp.gt] ∧ ∀ p ∈ [Cmp.lt, Cmp.eq, Cmp.gt], by_ E C p a b = some true → p = o) ∧
    (by_ E C .le a b = some true ↔ by_ E C .lt a b = some true ∨ by_ E C .eq a b = some true) ∧
    (by_ E C .ge a b = some true ↔ by_ E C .gt a b = some true ∨ by_ E C .eq a b = some true) := by
  have h1 : ∀ (p q : Obj V) (u v : V), p.attrs (C.comparableBy p.cls) = some u → q.attrs (C.comparableBy q.cls) = some v → ∀ o, by_ E C o p q = some (o.rel E u v) := by
    intro p q u v hp hq o
    cases o <;> simp [by_, byCmp, byKey, hp, hq, Cmp.rel]
  have hab := h1 a b x y ha hb
  have hba := h1 b a y x hb ha
  have hbc := h1 b c y z hb hc
  have hac := h1 a c x z ha hc
  have hsym : ∀ u v, E.eq u v = E.eq v u := by
    intro u v
    rw [Bool.eq_iff_iff]
    exact ⟨he.symm u v, he.symm v u⟩
  refine ⟨hab, ?_, ?_, ?_, ?_, ?_, ?_⟩
  · simp [hab, hba, Cmp.rel, hsym x y]
  · simp only [hab, hbc, hac, Cmp.rel, Option.some.injEq]
    exact he.trans x y z
  · simp only [hab, Cmp.rel, Option.some.injEq, byHash, byKey, ha, hb]
    intro h
    simp [he.hash _ _ h]
  · have i1 := ho.irrefl x y
    have i2 := ho.irrefl y x
    simp only [hab, Cmp.rel, Option.some.injEq]
    rcases ho.tri x y with h | h | h
    · refine ⟨.lt, by simpa [Cmp.rel] using h, by simp, ?_⟩
      intro p hp hq
      simp at hp
      rcases hp with rfl | rfl | rfl
      · rfl
      · simp [Cmp.rel, (i1 h).1] at hq
      · simp [Cmp.rel, (i1 h).2] at hq
    · refine ⟨.eq, by simpa [Cmp.rel] using h, by simp, ?_⟩
      intro p hp hq
      simp at hp
      rcases hp with rfl | rfl | rfl
      · simp only [Cmp.rel] at hq
        rw [(i1 hq).1] at h; cases h
      · rfl
      · simp only [Cmp.rel] at hq
        rw [hsym, (i2 hq).1] at h; cases h
    · refine ⟨.gt, by simpa [Cmp.rel] using h, by simp, ?_⟩
      intro p hp hq
      simp at hp
      rcases hp with rfl | rfl | rfl
      · simp [Cmp.rel, (i2 h).2] at hq
      · simp only [Cmp.rel] at hq
        rw [hsym, (i2 h).1] at hq; cases hq
      · rfl
  · simp only [hab, Cmp.rel, Option.some.injEq]
    exact ho.le x y
  · simp only [hab, Cmp.rel, Option.some.injEq]
    rw [ho.le y x, hsym x y]

/-! ### frozendict -/

theorem foldl_xor {K : Type} (hk : K → BitVec 64) (E : Vals V) (d : Dict K V) : ∀ o : BitVec 64, d.foldl (fun o p => o ^^^ hk p.1 ^^^ E.hash p.2) o = o ^^^ frozenHash hk E d := by
  unfold frozenHash
  induction d with
  | nil => intro o; simp
  | cons p d ih =>
    intro o
    simp only [List.foldl_cons]
    rw [ih, ih (0 ^^^ hk p.1 ^^^ E.hash p.2)]
    simp [BitVec.xor_assoc]

theorem frozenHash_cons {K : Type} (hk : K → BitVec 64) (E : Vals V) (p : K × V) (d : Dict K V) :
    frozenHash hk E (p :: d) = hk p.1 ^^^ E.hash p.2 ^^^ frozenHash hk E d := by
  unfold frozenHash
  simp only [List.foldl_cons]
  rw [foldl_xor]
  simp [frozenHash]

theorem frozenHash_del {K : Type} [DecidableEq K] (hk : K → BitVec 64) (E : Vals V) (k : K) (v : V) :
    ∀ d : Dict K V, Dict.WF d → Dict.get? d k = some v → frozenHash hk E d = hk k ^^^ E.hash v ^^^ frozenHash hk E (Dict.del d k) := by
  intro d
  induction d with
  | nil => intro _ h; simp at h
  | cons p d ih =>
    intro hw h
    have hw' : Dict.WF d := by
      unfold Dict.WF at hw ⊢
      rw [List.map_cons, List.nodup_cons] at hw
      exact hw.2
    rw [Dict.get?_cons] at h
    split at h
    · rename_i e
      cases h
      subst e
      have : Dict.del (p :: d) p.1 = d := by
        unfold Dict.del
        rw [List.filter_cons]
        simp only [ne_eq, not_true_eq_false, decide_false, Bool.false_eq_true, if_false]
        rw [List.filter_eq_self]
        intro q hq
        unfold Dict.WF at hw
        rw [List.map_cons, List.nodup_cons] at hw
        simp
        intro e
        exact hw.1 (e ▸ List.mem_map_of_mem (f := Prod.fst) hq)
      rw [this, frozenHash_cons]
    · rename_i e
      have : Dict.del (p :: d) k = p :: Dict.del d k := by
        unfold Dict.del
        rw [List.filter_cons]
        simp [e]
      rw [this, frozenHash_cons, frozenHash_cons, ih hw' h]
      ac_rfl

theorem length_del' {K : Type} [DecidableEq K] (k : K) (v : V) : ∀ d : Dict K V, Dict.WF d → Dict.get? d k = some v → d.length = (Dict.del d k).length + 1 := by
  intro d
  induction d with
  | nil => intro _ h; simp at h
  | cons p d ih =>
    intro hw h
    unfold Dict.WF at hw
    rw [List.map_cons, List.nodup_cons] at hw
    rw [Dict.get?_cons] at h
    split at h
    · rename_i e
      subst e
      unfold Dict.del
      rw [List.filter_cons]
      have : List.filter (fun q => decide (q.1 ≠ p.1)) d = d := by
        rw [List.filter_eq_self]
        intro q hq
        simp
        intro e
        exact hw.1 (e ▸ List.mem_map_of_mem (f := Prod.fst) hq)
      simp only [ne_eq, not_true_eq_false, decide_false, Bool.false_eq_true, if_false, List.length_cons]
      simp only [ne_eq] at this
      rw [this]
    · rename_i e
      have : Dict.del (p :: d) k = p :: Dict.del d k := by
        unfold Dict.del
        rw [List.filter_cons]
        simp [e]
      rw [this, List.length_cons, List.length_cons, ih hw.2 h]

/-- **C108, frozendict**: equal ones have the same hash, in whatever order they were filled. -/
theorem C108_frozendict {K : Type} [DecidableEq K] (hk : K → BitVec 64) (E : Vals V) (he : E.Ok) (d : Dict K V) :
    ∀ e : Dict K V, Dict.WF d → Dict.WF e → dictEq E d e = true → frozenHash hk E d = frozenHash hk E e := by
  induction d with
  | nil =>
    intro e _ _ h
    simp [dictEq] at h
    cases e with
    | nil => rfl
    | cons => simp at h
  | cons p d ih =>
    intro e hd hw h
    unfold dictEq at h
    rw [Bool.and_eq_true, List.all_eq_true] at h
    obtain ⟨hl, ha⟩ := h
    have hp := ha p (by simp)
    cases hg : Dict.get? e p.1 with
    | none => simp [hg] at hp
    | some w =>
      simp only [hg] at hp
      rw [frozenHash_cons, frozenHash_del hk E p.1 w e hw hg, he.hash _ _ hp]
      congr 1
      have hd' := hd
      unfold Dict.WF at hd
      rw [List.map_cons, List.nodup_cons] at hd
      refine ih _ hd.2 (Dict.wf_del hw _) ?_
      unfold dictEq
      rw [Bool.and_eq_true, List.all_eq_true]
      constructor
      · have := length_del' p.1 w e hw hg
        simp at hl ⊢
        omega
      · intro q hq
        have hne : p.1 ≠ q.1 := by
          intro e'
          exact hd.1 (e' ▸ List.mem_map_of_mem (f := Prod.fst) hq)
        rw [Dict.get?_del, if_neg hne]
        exact ha q (by simp [hq])

/-- **C108, frozendict, equality** does not depend on the order either: two are equal exactly if they have the same keys with equal values. -/
theorem C108_frozendict_equal {K : Type} [DecidableEq K] (E : Vals V) (d e : Dict K V) (hd : Dict.WF d) (hw : Dict.WF e) :
    dictEq E d e = true ↔ (∀ k, Dict.get? d k = none ↔ Dict.get? e k = none) ∧ ∀ k v w, Dict.get? d k = some v → Dict.get? e k = some w → E.eq v w = true := by
  have sub : ∀ (d : Dict K V), ∀ e : Dict K V, Dict.WF d → Dict.WF e → (∀ k, k ∈ Dict.keys d → k ∈ Dict.keys e) → d.length ≤ e.length ∧ (d.length = e.length → ∀ k, k ∈ Dict.keys e → k ∈ Dict.keys d) := by
    intro d
    induction d with
    | nil =>
      intro e _ _ _
      refine ⟨by simp, fun h k hk => ?_⟩
      cases e with
      | nil => exact hk
      | cons => simp at h
    | cons p d ih =>
      intro e hd hw h
      have hd' := hd
      unfold Dict.WF at hd
      rw [List.map_cons, List.nodup_cons] at hd
      have hp := h p.1 (by simp [Dict.keys])
      rw [← Dict.get?_isSome_iff, Option.isSome_iff_exists] at hp
      obtain ⟨v, hv⟩ := hp
      have hl := length_del' p.1 v e hw hv
      obtain ⟨i1, i2⟩ := ih (Dict.del e p.1) hd.2 (Dict.wf_del hw _) (by
        intro k hk
        rw [← Dict.get?_isSome_iff, Dict.get?_del]
        have hne : p.1 ≠ k := by rintro rfl; exact hd.1 hk
        rw [if_neg hne, Dict.get?_isSome_iff]
        exact h k (by simp [Dict.keys] at hk ⊢; exact Or.inr hk))
      refine ⟨by simp; omega, fun hle k hk => ?_⟩
      simp at hle
      by_cases e' : p.1 = k
      · simp [Dict.keys, e']
      · have := i2 (by omega) k (by
          rw [← Dict.get?_isSome_iff, Dict.get?_del, if_neg e', Dict.get?_isSome_iff]
          exact hk)
        simp [Dict.keys] at this ⊢
        exact Or.inr this
  unfold dictEq
  rw [Bool.and_eq_true, List.all_eq_true]
  constructor
  · rintro ⟨hl, ha⟩
    simp at hl
    have hs : ∀ k, k ∈ Dict.keys d → k ∈ Dict.keys e := by
      intro k hk
      obtain ⟨q, hq, rfl⟩ := List.mem_map.1 hk
      have := ha q hq
      rw [← Dict.get?_isSome_iff]
      cases hg : Dict.get? e q.1 with
      | none => simp [hg] at this
      | some => rfl
    refine ⟨fun k => ?_, fun k v w hv hw' => ?_⟩
    · rw [Dict.get?_eq_none_iff, Dict.get?_eq_none_iff]
      exact ⟨fun h1 h2 => h1 ((sub d e hd hw hs).2 hl k h2), fun h1 h2 => h1 (hs k h2)⟩
    · have := ha (k, v) (Dict.mem_of_get? hv)
      simpa [hw'] using this
  · rintro ⟨h1, h2⟩
    have hs : ∀ k, k ∈ Dict.keys d ↔ k ∈ Dict.keys e := by
      intro k
      have := h1 k
      rw [Dict.get?_eq_none_iff, Dict.get?_eq_none_iff] at this
      exact Decidable.not_iff_not.1 this
    constructor
    · have a := (sub d e hd hw (fun k hk => (hs k).1 hk)).1
      have b := (sub e d hw hd (fun k hk => (hs k).2 hk)).1
      simp
      omega
    · intro q hq
      have hqd := Dict.get?_of_mem hd (k := q.1) (v := q.2) hq
      cases hg : Dict.get? e q.1 with
      | none =>
        rw [(h1 q.1).2 hg] at hqd
        cases hqd
      | some w => exact h2 q.1 q.2 w hqd hg

/-! ### by number, by string, by identity -/

/-- an operand of a comparison: an object with `__int__` and `__str__`, or a string, or a number; used in /repo/satella/coding/structures/mixins/hashable.py:71-129, strings.py:4-19 -/
inductive Operand where
  | obj (int : Int) (str : String)
  | str (s : String)
  | num (numerator : Int) (denominator : Nat)
deriving DecidableEq

/-- `ComparableAndHashableByStr`: str(self) == str(other), and hash(str(self)); /repo/satella/coding/structures/mixins/hashable.py:113-117, StrEqHashableMixin in strings.py:11-15.  `shown` is how a number is written. -/
def strOf (shown : Int → Nat → String) : Operand → String
  | .obj _ s => s
  | .str s => s
  | .num n d => shown n d

/-- `__eq__` of ComparableAndHashableByStr, with an object on either side, /repo/satella/coding/structures/mixins/hashable.py:116-117 -/
def byStrEq (shown : Int → Nat → String) (a b : Operand) : Bool := strOf shown a == strOf shown b

/-- the hash of an operand of ComparableAndHashableByStr, /repo/satella/coding/structures/mixins/hashable.py:113-114; strings and numbers have their own -/
def byStrHash (hs : String → BitVec 64) (hn : Int → Nat → BitVec 64) : Operand → BitVec 64
  | .obj _ s => hs s
  | .str s => hs s
  | .num n d => hn n d

/-- `int(other)` of an operand; `none` is ValueError; `read` is int() of a string; /repo/satella/coding/structures/mixins/hashable.py:82-98 -/
def intOf (read : String → Option Int) : Operand → Option Int
  | .obj i _ => some i
  | .str s => read s
  | .num n d => some (n.tdiv d)

/-- `__eq__` of ComparableAndHashableByInt, /repo/satella/coding/structures/mixins/hashable.py:85-86 -/
def byIntEq (read : String → Option Int) (a b : Operand) : Option Bool :=
  match intOf read a, intOf read b with
  | some i, some j => some (i == j)
  | _, _ => none

/-- the hash of an operand of ComparableAndHashableByInt, /repo/satella/coding/structures/mixins/hashable.py:82-83 -/
def byIntHash (hs : String → BitVec 64) (hn : Int → Nat → BitVec 64) : Operand → BitVec 64
  | .obj i _ => hn i 1
  | .str s => hs s
  | .num n d => hn n d

/-- whether the operand is an object of the class, or a string -/
def Operand.isObj : Operand → Bool
  | .obj .. => true
  | _ => false

/-- **C108, ComparableAndHashableByStr and StrEqHashableMixin**: an object is equal to exactly those objects and strings that are written the same, and has the same hash as they have. -/
theorem C108_by_str (shown : Int → Nat → String) (hs : String → BitVec 64) (hn : Int → Nat → BitVec 64) (i : Int) (s : String) (b : Operand) (hb : ∀ n d, b ≠ .num n d) :
    (byStrEq shown (.obj i s) b = true ↔ b = .str s ∨ ∃ j, b = .obj j s) ∧ byStrEq shown (.obj i s) b = byStrEq shown b (.obj i s) ∧
      (byStrEq shown (.obj i s) b = true → byStrHash hs hn (.obj i s) = byStrHash hs hn b) := by
  cases b with
  | obj j t =>
    refine ⟨?_, ?_, ?_⟩ <;> simp [byStrEq, strOf, byStrHash]
    · exact eq_comm
    · rw [Bool.beq_comm]
    · rintro rfl; rfl
  | str t =>
    refine ⟨?_, ?_, ?_⟩ <;> simp [byStrEq, strOf, byStrHash]
    · exact eq_comm
    · rw [Bool.beq_comm]
    · rintro rfl; rfl
  | num n d => exact absurd rfl (hb n d)

/-- **C108, ComparableAndHashableByInt**: an object is equal to exactly those objects and integers that have the same number, and has the same hash as they have. -/
theorem C108_by_int (read : String → Option Int) (hs : String → BitVec 64) (hn : Int → Nat → BitVec 64) (i : Int) (s : String) (b : Operand)
    (hb : (∃ j t, b = .obj j t) ∨ ∃ j, b = .num j 1) :
    (byIntEq read (.obj i s) b = some true ↔ b = .num i 1 ∨ ∃ t, b = .obj i t) ∧ byIntEq read (.obj i s) b = byIntEq read b (.obj i s) ∧ byIntEq read (.obj i s) b ≠ none ∧
      (byIntEq read (.obj i s) b = some true → byIntHash hs hn (.obj i s) = byIntHash hs hn b) := by
  rcases hb with ⟨j, t, rfl⟩ | ⟨j, rfl⟩
  · refine ⟨?_, ?_, ?_, ?_⟩ <;> simp [byIntEq, intOf, byIntHash]
    · exact eq_comm
    · rw [Bool.eq_iff_iff, beq_iff_eq, beq_iff_eq]; exact eq_comm
    · rintro rfl; rfl
  · refine ⟨?_, ?_, ?_, ?_⟩ <;> simp [byIntEq, intOf, byIntHash]
    · exact eq_comm
    · rw [Bool.eq_iff_iff, beq_iff_eq, beq_iff_eq]; exact eq_comm
    · rintro rfl; rfl

/-- an object that may be hashable: its id, and its hash if it has one, or wrapped; /repo/satella/coding/structures/hashable_objects.py:4-33 -/
inductive Wrapped where
  | wrapper (id : Nat) (hash : Option (BitVec 64))
  | bare (id : Nat) (hash : Option (BitVec 64))
deriving DecidableEq

/-- `HashableWrapper.__hash__`, /repo/satella/coding/structures/hashable_objects.py:20-25; `none` is TypeError for a bare object that has no hash -/
def wrappedHash (hid : Nat → BitVec 64) : Wrapped → Option (BitVec 64)
  | .wrapper id h => some (h.getD (hid id))
  | .bare _ h => h

/-- `HashableWrapper.__eq__`, /repo/satella/coding/structures/hashable_objects.py:27-33; `a` is a wrapper -/
def wrappedEq : Wrapped → Wrapped → Bool
  | .wrapper i _, .wrapper j _ => i == j
  | .wrapper i _, .bare j _ => i == j
  | .bare i _, .wrapper j _ => i == j
  | .bare i _, .bare j _ => i == j

/-- the object meant -/
def Wrapped.target : Wrapped → Nat × Option (BitVec 64)
  | .wrapper i h => (i, h)
  | .bare i h => (i, h)

/-- **C108, HashableWrapper**: it can always be hashed; it is equal to exactly the wrappers of the same object and to the object, and has the same hash as they have. -/
theorem C108_wrapper (hid : Nat → BitVec 64) (i : Nat) (h : Option (BitVec 64)) (b : Wrapped) (hb : b.target.1 = i → b.target.2 = h) :
    wrappedHash hid (.wrapper i h) ≠ none ∧ (wrappedEq (.wrapper i h) b = true ↔ b.target.1 = i) ∧
      (wrappedEq (.wrapper i h) b = true → wrappedHash hid b ≠ none → wrappedHash hid (.wrapper i h) = wrappedHash hid b) := by
  cases b with
  | wrapper j g =>
    refine ⟨by simp [wrappedHash], by simp only [wrappedEq, Wrapped.target, beq_iff_eq]; exact eq_comm, ?_⟩
    simp only [wrappedEq, beq_iff_eq]
    rintro rfl _
    have hb' := hb rfl
    simp only [Wrapped.target] at hb'
    rw [hb']
  | bare j g =>
    refine ⟨by simp [wrappedHash], by simp only [wrappedEq, Wrapped.target, beq_iff_eq]; exact eq_comm, ?_⟩
    simp only [wrappedEq, beq_iff_eq]
    rintro rfl hn
    have hb' := hb rfl
    simp only [Wrapped.target] at hb'
    rw [← hb']
    simp only [wrappedHash] at hn ⊢
    cases g with
    | none => exact absurd rfl hn
    | some => rfl

/-- **C109, violated**: a ComparableAndHashableByInt is equal to the string '5' and to the number 5.5 if its number is 5; comparing it with a string that is no number raises ValueError; and a ComparableAndHashableByStr is equal to the number 5 if it is written 5.  As these are not equal to one another, equality is not transitive, and the hashes differ (`hn` and `hs` are any that distinguish 5, 5.5 and '5'). -/
theorem C109_mixed_violates (read : String → Option Int) (h5 : read "5" = some 5) (hx : read "x" = none) (shown : Int → Nat → String) (hsh : shown 5 1 = "5")
    (hs : String → BitVec 64) (hn : Int → Nat → BitVec 64) (hd : hn 5 1 ≠ hn 11 2 ∧ hn 5 1 ≠ hs "5") :
    (byIntEq read (.obj 5 "a") (.str "5") = some true ∧ byIntHash hs hn (.obj 5 "a") ≠ byIntHash hs hn (.str "5")) ∧
    (byIntEq read (.obj 5 "a") (.num 11 2) = some true ∧ byIntHash hs hn (.obj 5 "a") ≠ byIntHash hs hn (.num 11 2)) ∧
    byIntEq read (.obj 5 "a") (.str "x") = none ∧
    (byStrEq shown (.obj 0 "5") (.num 5 1) = true ∧ byStrHash hs hn (.obj 0 "5") ≠ byStrHash hs hn (.num 5 1)) := by
  refine ⟨⟨?_, ?_⟩, ⟨?_, ?_⟩, ?_, ⟨?_, ?_⟩⟩
  · simp [byIntEq, intOf, h5]
  · exact hd.2
  · simp [byIntEq, intOf]
  · exact hd.1
  · simp [byIntEq, intOf, hx]
  · simp [byStrEq, strOf, hsh]
  · exact fun e => hd.2 e.symm

/-- **C109 (by number, among objects and whole numbers).** Comparison never raises, equality is reflexive, symmetric and transitive whichever of the operands are numbers, and equal operands have equal hashes. -/
theorem C109_int_partial (read : String → Option Int) (hs : String → BitVec 64) (hn : Int → Nat → BitVec 64) (a b c : Operand)
    (ha : (∃ j t, a = .obj j t) ∨ ∃ j, a = .num j 1) (hb : (∃ j t, b = .obj j t) ∨ ∃ j, b = .num j 1) (hc : (∃ j t, c = .obj j t) ∨ ∃ j, c = .num j 1) :
    byIntEq read a b ≠ none ∧ byIntEq read a a = some true ∧ byIntEq read a b = byIntEq read b a ∧
    (byIntEq read a b = some true → byIntEq read b c = some true → byIntEq read a c = some true) ∧ (byIntEq read a b = some true → byIntHash hs hn a = byIntHash hs hn b) := by
  have key : ∀ x : Operand, ((∃ j t, x = .obj j t) ∨ ∃ j, x = .num j 1) → ∃ j, intOf read x = some j ∧ byIntHash hs hn x = hn j 1 := by
    rintro x (⟨j, t, rfl⟩ | ⟨j, rfl⟩)
    · exact ⟨j, rfl, rfl⟩
    · exact ⟨j, by simp [intOf], rfl⟩
  obtain ⟨i, h1, h2⟩ := key a ha
  obtain ⟨j, h3, h4⟩ := key b hb
  obtain ⟨k, h5, h6⟩ := key c hc
  simp only [byIntEq, h1, h3, h5, h2, h4]
  refine ⟨by simp, by simp, ?_, ?_, ?_⟩
  · rw [BEq.comm]
  · simp only [Option.some.injEq, beq_iff_eq]; omega
  · simp only [Option.some.injEq, beq_iff_eq]; rintro rfl; rfl

/-- **C109 (by string, among objects and strings).** Equality is reflexive, symmetric and transitive whichever of the operands are strings, and equal operands have equal hashes. -/
theorem C109_str_partial (shown : Int → Nat → String) (hs : String → BitVec 64) (hn : Int → Nat → BitVec 64) (a b c : Operand)
    (ha : ∀ n d, a ≠ .num n d) (hb : ∀ n d, b ≠ .num n d) :
    byStrEq shown a a = true ∧ byStrEq shown a b = byStrEq shown b a ∧ (byStrEq shown a b = true → byStrEq shown b c = true → byStrEq shown a c = true) ∧
    (byStrEq shown a b = true → byStrHash hs hn a = byStrHash hs hn b) := by
  have key : ∀ x : Operand, (∀ n d, x ≠ .num n d) → byStrHash hs hn x = hs (strOf shown x) := by
    intro x hx
    cases x with
    | obj i s => rfl
    | str s => rfl
    | num n d => exact absurd rfl (hx n d)
  rw [key a ha, key b hb]
  simp only [byStrEq, beq_iff_eq]
  exact ⟨trivial, BEq.comm, fun h1 h2 => h1.trans h2, fun h => by rw [h]⟩

example : (∃ j t, Operand.obj 5 "a" = .obj j t) ∧ (∃ j, Operand.num 5 1 = .num j 1) ∧ (∀ n d, Operand.str "5" ≠ .num n d) := ⟨⟨5, "a", rfl⟩, ⟨5, rfl⟩, by simp⟩

/-! Cases that meet the hypotheses -/

/-- numbers as values -/
def nats : Vals Nat := { eq := fun x y => x == y, lt := fun x y => decide (x < y), le := fun x y => decide (x ≤ y), hash := fun x => BitVec.ofNat 64 x }

theorem nats_ok : nats.Ok := by
  constructor <;> simp [nats]

theorem nats_ordered : nats.Ordered := by
  constructor <;> simp [nats] <;> omega

/-- class 1 is a subclass of class 0 -/
def classes : Classes := { sub := fun c d => decide (d ≤ c), fields := fun _ => .many ["x", "y"], comparableBy := fun _ => "x" }

example : classes.Ok := by constructor <;> simp [classes]; omega
example : omniEq nats classes ⟨0, 0, fun _ => some 1⟩ ⟨1, 0, fun _ => some 1⟩ = true ∧ omniEq nats classes ⟨0, 0, fun _ => some 1⟩ ⟨1, 1, fun _ => some 1⟩ = false := by decide
example : dictEq nats [("a", 1), ("b", 2)] [("b", 2), ("a", 1)] = true := by decide
example : ∃ x, (⟨0, 0, fun _ => some 1⟩ : Obj Nat).attrs (classes.comparableBy 0) = some x := ⟨1, rfl⟩
example : wrappedEq (.wrapper 1 none) (.bare 1 none) = true ∧ (Wrapped.bare 1 none).target.2 = none := by decide

end Verif.Mixins
