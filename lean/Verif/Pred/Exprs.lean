/-!
# Predicates, `x` (satella/coding/predicates.py), C91, C92

Values are arbitrary, and so is what operators do with them.
-/
namespace Verif.Pred

/-- the operators of two arguments, /repo/satella/coding/predicates.py:192-212 -/
inductive Op where
  | getitem | eq | ne | lt | gt | le | ge
  | add | sub | mul | matmul | and | or | rshift | lshift | xor | truediv | floordiv | mod | pow
deriving DecidableEq

/-- the operators, functions and methods of one argument, /repo/satella/coding/predicates.py:86-90, :122-130, :144-150, :189, :226-228 -/
inductive Un where
  | str | int | float | false_ | type | identity | length | neg | invert | abs
deriving DecidableEq

/-- what operators do with values: an exception or a value.  `attr` is getattr, `callIt` calls a value with no arguments, `instance` is isinstance, `contains` is operator.contains (whose first argument is the container), `elems` are
  the elements of an iterable, `truth` is bool().  Everything that is used by /repo/satella/coding/predicates.py. -/
structure Env (α ε : Type) where
  bin : Op → α → α → Except ε α
  un : Un → α → Except ε α
  attr : α → Nat → Except ε α
  callIt : α → Except ε α
  instance_ : α → α → Except ε α
  contains : α → α → Except ε α
  elems : α → Except ε (List α)
  truth : α → Bool
  ofBool : Bool → α
  tuple : List α → α

variable {α ε : Type} (E : Env α ε)

/-- a Python expression in which `x` may occur.  `attr e n`: the attribute number n of e.  `call e`: e().  `isInstance e c`: e.is_instance(c) and e.instanceof(c); `hasKeys e ks`: e.has_keys(*ks); `oneOf e l`: e.one_of(*l); `has e p`: e.has(p);
  `inside e c`: e.inside(c), /repo/satella/coding/predicates.py:98-187 -/
inductive Ex (α : Type) where
  | x
  | const (a : α)
  | bin (o : Op) (l r : Ex α)
  | un (u : Un) (e : Ex α)
  | attr (e : Ex α) (n : Nat)
  | call (e : Ex α)
  | isInstance (e : Ex α) (c : α)
  | hasKeys (e : Ex α) (ks : List α)
  | oneOf (e : Ex α) (l : List α)
  | has (e p : Ex α)
  | inside (e : Ex α) (c : α)

/-- what a Python expression gives: a predicate, an ordinary value, or an exception, /repo/satella/coding/predicates.py:74-84 -/
inductive Obj (α ε : Type) where
  | pred (f : α → Except ε α)
  | val (a : α)
  | raises (e : ε)
  | unmodelled

/-- the comparison that Python uses if the left operand does not know the right one: `3 < x` is `x > 3`; `none` for operators with a method for the right operand (`__radd__`), /repo/satella/coding/predicates.py:194-199, :213-225 -/
def Op.mirror : Op → Option Op
  | .eq => some .eq
  | .ne => some .ne
  | .lt => some .gt
  | .gt => some .lt
  | .le => some .ge
  | .ge => some .le
  | _ => none

/-- `make_operation_two_args`, /repo/satella/coding/predicates.py:16-46: self is a predicate, `a` a predicate or not -/
def twoArgs (op : α → α → Except ε α) (swap : Bool) (self : α → Except ε α) : Obj α ε → Obj α ε
  | .pred a =>
    if swap then .pred (fun v => do let p ← a v; let q ← self v; op p q)
    else .pred (fun v => do let p ← self v; let q ← a v; op p q)
  | .val a =>
    if swap then .pred (fun v => do let q ← self v; op a q)
    else .pred (fun v => do let p ← self v; op p a)
  | .raises e => .raises e
  | .unmodelled => .unmodelled

/-- a binary operator in Python: the method of the left operand, or if it is not a predicate but the right one is, `__radd__` and the like or the mirrored comparison, /repo/satella/coding/predicates.py:192-225.  An ordinary value is assumed not to know
  predicates, as numbers do not; `getitem` has no method for the right operand: a list raises TypeError, which is not modelled. -/
def binary (o : Op) : Obj α ε → Obj α ε → Obj α ε
  | .pred f, b => twoArgs (E.bin o) false f b
  | .val a, .pred g =>
    match o with
    | .getitem => .unmodelled
    | _ =>
      match o.mirror with
      | some o' => twoArgs (E.bin o') false g (.val a)
      | none => twoArgs (E.bin o) true g (.val a)
  | .val a, .val b =>
    match E.bin o a b with
    | .ok c => .val c
    | .error e => .raises e
  | .raises e, _ => .raises e
  | _, .raises e => .raises e
  | .unmodelled, _ => .unmodelled
  | .val _, .unmodelled => .unmodelled

/-- `_has_keys`, /repo/satella/coding/predicates.py:63-67 -/
def hasKeysLoop (a : α) : List α → Except ε Bool
  | [] => .ok true
  | k :: ks => do
    let r ← E.contains a k
    if E.truth r then hasKeysLoop a ks else .ok false

/-- the loop of `has`, /repo/satella/coding/predicates.py:174-178 -/
def hasLoop (p : α → Except ε α) : List α → Except ε Bool
  | [] => .ok false
  | e :: l => do
    let r ← p e
    if E.truth r then .ok true else hasLoop p l

/-- the value of a Python expression, built from the inside out.  What is not modelled: attributes of ordinary values, methods of predicates used on ordinary values.  (Part of the model of `PredicateClass`, /repo/satella/coding/predicates.py:74-231.) -/
def build : Ex α → Obj α ε
  | .x => .pred .ok
  | .const a => .val a
  | .bin o l r => binary E o (build l) (build r)
  | .un u e =>
    match build e with
    | .pred f => .pred (fun v => do let p ← f v; E.un u p)
    | .val _ => .unmodelled
    | o => o
  | .attr e n =>
    match build e with
    | .pred f => .pred (fun v => do let p ← f v; E.attr p n)
    | .val _ => .unmodelled
    | o => o
  | .call e =>
    match build e with
    | .pred f => .pred (fun v => do let p ← f v; E.callIt p)
    | .val _ => .unmodelled
    | o => o
  | .isInstance e c =>
    match build e with
    | .pred f => .pred (fun v => do let p ← f v; E.instance_ p c)
    | .val _ => .unmodelled
    | o => o
  | .hasKeys e ks =>
    match build e with
    | .pred f => .pred (fun v => do let p ← f v; let b ← hasKeysLoop E p ks; .ok (E.ofBool b))
    | .val _ => .unmodelled
    | o => o
  | .oneOf e l =>
    match build e with
    | .pred f => .pred (fun v => do let p ← f v; E.contains (E.tuple l) p)
    | .val _ => .unmodelled
    | o => o
  | .has e p =>
    match build e, build p with
    | .pred f, .pred g => .pred (fun v => do let q ← f v; let l ← E.elems q; let b ← hasLoop E g l; .ok (E.ofBool b))
    | .raises x, _ => .raises x
    | _, .raises x => .raises x
    | _, _ => .unmodelled
  | .inside e c =>
    match build e with
    | .pred f => .pred (fun v => do let p ← f v; E.contains p c)
    | .val _ => .unmodelled
    | o => o

/-! ## Specification -/

/-- every key is in the container -/
def AllIn (a : α) (ks : List α) (b : Bool) : Prop := b = true ↔ ∀ k ∈ ks, ∃ r, E.contains a k = .ok r ∧ E.truth r = true

/-- the value of an expression, with `v` for `x` -/
def value : Ex α → α → Except ε α
  | .x, v => .ok v
  | .const a, _ => .ok a
  | .bin o l r, v => do let a ← value l v; let b ← value r v; E.bin o a b
  | .un u e, v => do let a ← value e v; E.un u a
  | .attr e n, v => do let a ← value e v; E.attr a n
  | .call e, v => do let a ← value e v; E.callIt a
  | .isInstance e c, v => do let a ← value e v; E.instance_ a c
  | .hasKeys e ks, v => do let a ← value e v; let b ← ks.foldlM (fun (b : Bool) k => if b then do let r ← E.contains a k; .ok (E.truth r) else .ok false) true; .ok (E.ofBool b)
  | .oneOf e l, v => do let a ← value e v; E.contains (E.tuple l) a
  | .has e p, v => do
    let a ← value e v
    let l ← E.elems a
    let b ← l.foldlM (fun (b : Bool) k => if b then .ok true else do let r ← value p k; .ok (E.truth r)) false
    .ok (E.ofBool b)
  | .inside e c, v => do let a ← value e v; E.contains c a

/-- `inside` does not occur -/
def NoInside : Ex α → Prop
  | .x => True
  | .const _ => True
  | .bin _ l r => NoInside l ∧ NoInside r
  | .un _ e => NoInside e
  | .attr e _ => NoInside e
  | .call e => NoInside e
  | .isInstance e _ => NoInside e
  | .hasKeys e _ => NoInside e
  | .oneOf e _ => NoInside e
  | .has e p => NoInside e ∧ NoInside p
  | .inside _ _ => False

/-- `x` occurs in it -/
def HasX : Ex α → Prop
  | .x => True
  | .const _ => False
  | .bin _ l r => HasX l ∨ HasX r
  | .un _ e => HasX e
  | .attr e _ => HasX e
  | .call e => HasX e
  | .isInstance e _ => HasX e
  | .hasKeys e _ => HasX e
  | .oneOf e _ => HasX e
  | .has e _ => HasX e
  | .inside e _ => HasX e

/-- operators have `x` on at least one side, for items on the left one; attributes and methods are those of expressions with `x` -/
def Formed : Ex α → Prop
  | .x => True
  | .const _ => True
  | .bin o l r => Formed l ∧ Formed r ∧ (HasX l ∨ HasX r) ∧ (o = .getitem → HasX l)
  | .un _ e => Formed e ∧ HasX e
  | .attr e _ => Formed e ∧ HasX e
  | .call e => Formed e ∧ HasX e
  | .isInstance e _ => Formed e ∧ HasX e
  | .hasKeys e _ => Formed e ∧ HasX e
  | .oneOf e _ => Formed e ∧ HasX e
  | .has e p => Formed e ∧ HasX e ∧ Formed p ∧ HasX p
  | .inside e _ => Formed e ∧ HasX e

/-- comparisons can be turned round, as they can for numbers, strings, sets: `a < b` is `b > a` -/
def Mirrors : Prop := ∀ a b,
  E.bin .lt a b = E.bin .gt b a ∧ E.bin .le a b = E.bin .ge b a ∧ E.bin .eq a b = E.bin .eq b a ∧ E.bin .ne a b = E.bin .ne b a

/-! ## Proofs -/

theorem hasKeys_fold (a : α) (ks : List α) :
    ks.foldlM (fun (b : Bool) k => if b then do let r ← E.contains a k; (.ok (E.truth r) : Except ε Bool) else .ok false) true = hasKeysLoop E a ks := by
  have hf : ∀ ks : List α, ks.foldlM (fun (b : Bool) k => if b then do let r ← E.contains a k; (.ok (E.truth r) : Except ε Bool) else .ok false) false = .ok false := by
    intro ks
    induction ks with
    | nil => rfl
    | cons k ks ih => simp only [List.foldlM_cons]; exact ih
  induction ks with
  | nil => rfl
  | cons k ks ih =>
    simp only [List.foldlM_cons, if_true, hasKeysLoop]
    cases h : E.contains a k with
    | error e => rfl
    | ok r =>
      cases ht : E.truth r with
      | true => simp only [bind, Except.bind, ht, if_true]; exact ih
      | false => simp only [bind, Except.bind, ht]; exact hf ks

theorem has_fold (p : α → Except ε α) (l : List α) :
    l.foldlM (fun (b : Bool) k => if b then (.ok true : Except ε Bool) else do let r ← p k; .ok (E.truth r)) false = hasLoop E p l := by
  have hf : ∀ l : List α, l.foldlM (fun (b : Bool) k => if b then (.ok true : Except ε Bool) else do let r ← p k; .ok (E.truth r)) true = .ok true := by
    intro l
    induction l with
    | nil => rfl
    | cons k ks ih => simp only [List.foldlM_cons]; exact ih
  induction l with
  | nil => rfl
  | cons k ks ih =>
    simp only [List.foldlM_cons, hasLoop]
    cases h : p k with
    | error e => rfl
    | ok r =>
      cases ht : E.truth r with
      | true => simp only [bind, Except.bind, ht, if_true]; exact hf ks
      | false => simp only [bind, Except.bind, ht]; exact ih

/-- the object stands for the expression -/
def Stands (e : Ex α) : Obj α ε → Prop
  | .pred f => ∀ v, f v = value E e v
  | .val a => ∀ v, value E e v = .ok a
  | .raises _ => True
  | .unmodelled => True

theorem build_stands (hM : Mirrors E) (e : Ex α) (hi : NoInside e) : Stands E e (build E e) := by
  induction e with
  | x => intro v; rfl
  | const a => intro v; rfl
  | bin o l r ihl ihr =>
    have hl := ihl hi.1
    have hr := ihr hi.2
    simp only [build]
    cases h1 : build E l with
    | pred f =>
      rw [h1] at hl
      cases h2 : build E r with
      | pred g =>
        rw [h2] at hr
        intro v
        simp only [value, ← hl v, ← hr v]
      | val a =>
        rw [h2] at hr
        intro v
        simp only [value, ← hl v, hr v]
        rfl
      | raises e => trivial
      | unmodelled => trivial
    | val a =>
      rw [h1] at hl
      cases h2 : build E r with
      | pred g =>
        rw [h2] at hr
        by_cases hg : o = .getitem
        · subst hg; trivial
        · have e : binary E o (.val a) (.pred g) = match o.mirror with
              | some o' => twoArgs (E.bin o') false g (.val a)
              | none => twoArgs (E.bin o) true g (.val a) := by
            cases o <;> first | rfl | exact absurd rfl hg
          rw [e]
          cases hm : o.mirror with
          | none =>
            intro v
            simp only [value, hl v, ← hr v]
            rfl
          | some o' =>
            intro v
            simp only [value, hl v, ← hr v]
            have : ∀ b, E.bin o' b a = E.bin o a b := by
              intro b
              have h1 := hM a b
              have h2 := hM b a
              cases o <;> simp [Op.mirror] at hm <;> subst hm <;> first | exact h1.1.symm | exact h2.1 | exact h1.2.1.symm | exact h2.2.1 | exact h1.2.2.1.symm | exact h1.2.2.2.symm
            simp only [bind, Except.bind, this]
      | val b =>
        rw [h2] at hr
        simp only [binary]
        cases hb : E.bin o a b with
        | ok c => intro v; simp only [value, hl v, hr v]; exact hb
        | error e => trivial
      | raises e => trivial
      | unmodelled => trivial
    | raises e => trivial
    | unmodelled => cases h2 : build E r <;> trivial
  | un u e ih =>
    have h := ih hi
    simp only [build]
    cases h1 : build E e with
    | pred f => rw [h1] at h; intro v; simp only [value, ← h v]
    | val a => trivial
    | raises e => trivial
    | unmodelled => trivial
  | attr e n ih =>
    have h := ih hi
    simp only [build]
    cases h1 : build E e with
    | pred f => rw [h1] at h; intro v; simp only [value, ← h v]
    | val a => trivial
    | raises e => trivial
    | unmodelled => trivial
  | call e ih =>
    have h := ih hi
    simp only [build]
    cases h1 : build E e with
    | pred f => rw [h1] at h; intro v; simp only [value, ← h v]
    | val a => trivial
    | raises e => trivial
    | unmodelled => trivial
  | isInstance e c ih =>
    have h := ih hi
    simp only [build]
    cases h1 : build E e with
    | pred f => rw [h1] at h; intro v; simp only [value, ← h v]
    | val a => trivial
    | raises e => trivial
    | unmodelled => trivial
  | hasKeys e ks ih =>
    have h := ih hi
    simp only [build]
    cases h1 : build E e with
    | pred f => rw [h1] at h; intro v; simp only [value, ← h v, hasKeys_fold]
    | val a => trivial
    | raises e => trivial
    | unmodelled => trivial
  | oneOf e l ih =>
    have h := ih hi
    simp only [build]
    cases h1 : build E e with
    | pred f => rw [h1] at h; intro v; simp only [value, ← h v]
    | val a => trivial
    | raises e => trivial
    | unmodelled => trivial
  | has e p ihe ihp =>
    have h := ihe hi.1
    have hp := ihp hi.2
    simp only [build]
    cases h1 : build E e with
    | pred f =>
      rw [h1] at h
      cases h2 : build E p with
      | pred g =>
        rw [h2] at hp
        intro v
        have hg : g = value E p := funext hp
        simp only [value, ← h v, ← hg, has_fold]
      | val a => trivial
      | raises e => trivial
      | unmodelled => trivial
    | val a => cases h2 : build E p <;> trivial
    | raises e => trivial
    | unmodelled => cases h2 : build E p <;> trivial
  | inside e c _ => exact hi.elim

/-- **C91**: whatever expression is built from `x` with operators, attributes, items, calls with no arguments and the methods of predicates (other than `inside`), if it gives a predicate then calling the predicate gives the value of the expression
  with the argument in the place of `x`, or the exception that computing it would raise, with operands computed from left to right. -/
theorem C91_predicate_value (hM : Mirrors E) (e : Ex α) (hi : NoInside e) (f : α → Except ε α) (h : build E e = .pred f) (v : α) : f v = value E e v := by
  have := build_stands E hM e hi
  rw [h] at this
  exact this v

/-- **C91, it is a predicate**: an expression in which `x` occurs gives a predicate, and nothing is computed, so nothing raises, before it is called. -/
theorem C91_is_predicate (e : Ex α) (hf : Formed e) : (HasX e → ∃ f, build E e = .pred f) ∧ (¬ HasX e → ∃ a, build E e = .val a) := by
  induction e with
  | x => exact ⟨fun _ => ⟨_, rfl⟩, fun h => absurd trivial h⟩
  | const a => exact ⟨fun h => h.elim, fun _ => ⟨a, rfl⟩⟩
  | bin o l r ihl ihr =>
    obtain ⟨h1, h2, h3, h4⟩ := hf
    refine ⟨fun _ => ?_, fun h => absurd h3 h⟩
    by_cases hl : HasX l
    · obtain ⟨f, hl'⟩ := (ihl h1).1 hl
      by_cases hr : HasX r
      · obtain ⟨g, hr'⟩ := (ihr h2).1 hr
        exact ⟨_, by simp only [build, hl', hr']; rfl⟩
      · obtain ⟨g, hr'⟩ := (ihr h2).2 hr
        exact ⟨_, by simp only [build, hl', hr']; rfl⟩
    · obtain ⟨f, hl'⟩ := (ihl h1).2 hl
      obtain ⟨g, hr'⟩ := (ihr h2).1 (h3.resolve_left hl)
      simp only [build, hl', hr']
      cases o <;> first | exact absurd (h4 rfl) hl | exact ⟨_, rfl⟩
  | un u e ih => obtain ⟨f, hf'⟩ := (ih hf.1).1 hf.2; exact ⟨fun _ => ⟨_, by simp only [build, hf']; rfl⟩, fun h => absurd hf.2 h⟩
  | attr e n ih => obtain ⟨f, hf'⟩ := (ih hf.1).1 hf.2; exact ⟨fun _ => ⟨_, by simp only [build, hf']; rfl⟩, fun h => absurd hf.2 h⟩
  | call e ih => obtain ⟨f, hf'⟩ := (ih hf.1).1 hf.2; exact ⟨fun _ => ⟨_, by simp only [build, hf']; rfl⟩, fun h => absurd hf.2 h⟩
  | isInstance e c ih => obtain ⟨f, hf'⟩ := (ih hf.1).1 hf.2; exact ⟨fun _ => ⟨_, by simp only [build, hf']; rfl⟩, fun h => absurd hf.2 h⟩
  | hasKeys e ks ih => obtain ⟨f, hf'⟩ := (ih hf.1).1 hf.2; exact ⟨fun _ => ⟨_, by simp only [build, hf']; rfl⟩, fun h => absurd hf.2 h⟩
  | oneOf e l ih => obtain ⟨f, hf'⟩ := (ih hf.1).1 hf.2; exact ⟨fun _ => ⟨_, by simp only [build, hf']; rfl⟩, fun h => absurd hf.2 h⟩
  | has e p ih ihp =>
    obtain ⟨f, hf'⟩ := (ih hf.1).1 hf.2.1
    obtain ⟨g, hg'⟩ := (ihp hf.2.2.1).1 hf.2.2.2
    exact ⟨fun _ => ⟨_, by simp only [build, hf', hg']; rfl⟩, fun h => absurd hf.2.1 h⟩
  | inside e c ih => obtain ⟨f, hf'⟩ := (ih hf.1).1 hf.2; exact ⟨fun _ => ⟨_, by simp only [build, hf']; rfl⟩, fun h => absurd hf.2 h⟩

/-- **C91, has_keys**: the value is true exactly if all keys are there. -/
theorem C91_has_keys (e : Ex α) (ks : List α) (v a : α) (h : value E e v = .ok a) (hc : ∀ k ∈ ks, ∃ r, E.contains a k = .ok r) :
    ∃ b, value E (.hasKeys e ks) v = .ok (E.ofBool b) ∧ AllIn E a ks b := by
  have key : ∃ b, hasKeysLoop E a ks = .ok b ∧ AllIn E a ks b := by
    clear h
    induction ks with
    | nil => exact ⟨true, rfl, by simp [AllIn]⟩
    | cons k ks ih =>
      obtain ⟨r, hr⟩ := hc k (by simp)
      obtain ⟨b, hb, hb'⟩ := ih (fun k hk => hc k (by simp [hk]))
      cases ht : E.truth r with
      | true =>
        refine ⟨b, by simp only [hasKeysLoop, hr, bind, Except.bind, ht, if_true]; exact hb, ?_⟩
        simp only [AllIn] at hb' ⊢
        rw [hb']
        simp only [List.mem_cons, forall_eq_or_imp]
        exact ⟨fun h => ⟨⟨r, hr, ht⟩, h⟩, fun h => h.2⟩
      | false =>
        refine ⟨false, by simp [hasKeysLoop, hr, bind, Except.bind, ht], ?_⟩
        simp only [AllIn, List.mem_cons, forall_eq_or_imp]
        constructor
        · intro h; cases h
        · rintro ⟨⟨r', hr', ht'⟩, _⟩
          rw [hr] at hr'; injection hr' with hr'; subst hr'
          rw [ht] at ht'; cases ht'
  obtain ⟨b, hb, hb'⟩ := key
  refine ⟨b, ?_, hb'⟩
  simp only [value, h, hasKeys_fold]
  simp only [bind, Except.bind, hb]

/-- **C91, has**: the value is true exactly if the predicate holds for some element. -/
theorem C91_has (e p : Ex α) (v a : α) (l : List α) (h : value E e v = .ok a) (hl : E.elems a = .ok l) (hc : ∀ k ∈ l, ∃ r, value E p k = .ok r) :
    ∃ b, value E (.has e p) v = .ok (E.ofBool b) ∧ (b = true ↔ ∃ k ∈ l, ∃ r, value E p k = .ok r ∧ E.truth r = true) := by
  have key : ∃ b, hasLoop E (value E p) l = .ok b ∧ (b = true ↔ ∃ k ∈ l, ∃ r, value E p k = .ok r ∧ E.truth r = true) := by
    clear hl h
    induction l with
    | nil => exact ⟨false, rfl, by simp⟩
    | cons k ks ih =>
      obtain ⟨r, hr⟩ := hc k (by simp)
      obtain ⟨b, hb, hb'⟩ := ih (fun k hk => hc k (by simp [hk]))
      cases ht : E.truth r with
      | true =>
        refine ⟨true, by simp [hasLoop, hr, bind, Except.bind, ht], ?_⟩
        simp only [true_iff]
        exact ⟨k, by simp, r, hr, ht⟩
      | false =>
        refine ⟨b, by simp only [hasLoop, hr, bind, Except.bind, ht]; exact hb, ?_⟩
        rw [hb']
        constructor
        · rintro ⟨k', h1, h2⟩; exact ⟨k', by simp [h1], h2⟩
        · rintro ⟨k', h1, r', h2, h3⟩
          rcases List.mem_cons.1 h1 with rfl | h1
          · rw [hr] at h2; injection h2 with h2; subst h2; rw [ht] at h3; cases h3
          · exact ⟨k', h1, r', h2, h3⟩
  obtain ⟨b, hb, hb'⟩ := key
  refine ⟨b, ?_, hb'⟩
  simp only [value, h, has_fold]
  simp only [bind, Except.bind, hl, hb]

/-! An environment with numbers, to show cases: lists of numbers as containers -/

/-- numbers and lists of numbers -/
inductive N where
  | num (i : Int)
  | list (l : List Int)
deriving DecidableEq

/-- operators on numbers and lists; other uses raise an exception -/
def numbers : Env N Unit where
  bin o a b := match o, a, b with
    | .add, .num i, .num j => .ok (.num (i + j))
    | .sub, .num i, .num j => .ok (.num (i - j))
    | .mul, .num i, .num j => .ok (.num (i * j))
    | .lt, .num i, .num j => .ok (.num (if i < j then 1 else 0))
    | .gt, .num i, .num j => .ok (.num (if j < i then 1 else 0))
    | .le, .num i, .num j => .ok (.num (if i ≤ j then 1 else 0))
    | .ge, .num i, .num j => .ok (.num (if j ≤ i then 1 else 0))
    | .eq, a, b => .ok (.num (if a = b then 1 else 0))
    | .ne, a, b => .ok (.num (if a ≠ b then 1 else 0))
    | _, _, _ => .error ()
  un u a := match u, a with
    | .neg, .num i => .ok (.num (-i))
    | .length, .list l => .ok (.num l.length)
    | _, _ => .error ()
  attr _ _ := .error ()
  callIt _ := .error ()
  instance_ _ _ := .error ()
  contains c a := match c, a with
    | .list l, .num i => .ok (.num (if i ∈ l then 1 else 0))
    | .list _, .list _ => .ok (.num 0)
    | .num _, _ => .error ()
  elems a := match a with
    | .list l => .ok (l.map .num)
    | _ => .error ()
  truth a := a ≠ .num 0
  ofBool b := .num (if b then 1 else 0)
  tuple l := .list (l.filterMap (fun a => match a with | .num i => some i | _ => none))

/-- comparisons of numbers can be turned round -/
theorem numbers_mirrors : Mirrors numbers := by
  intro a b
  cases a <;> cases b <;> simp [numbers, eq_comm]

/-- **C92, violated**: `x.inside(value)`, documented as checking if x is inside value, checks whether the value is inside x: 3 is inside the list [3, 4], but the predicate raises, as 3 is no container; and [3] is not inside 3, but the predicate says so. -/
theorem C92_inside_violates :
    ∃ f g, build numbers (.inside .x (.list [3, 4])) = .pred f ∧ value numbers (.inside .x (.list [3, 4])) (.num 3) = .ok (.num 1) ∧ f (.num 3) = .error () ∧
      build numbers (.inside .x (.num 3)) = .pred g ∧ g (.list [3]) = .ok (.num 1) ∧ value numbers (.inside .x (.num 3)) (.list [3]) = .error () :=
  ⟨_, _, rfl, rfl, rfl, rfl, rfl, rfl⟩

/-- **C92** (partial: exactly if containment of the two values is the same in both directions). `inside` gives whether the value is inside its argument. -/
theorem C92_inside_partial (hM : Mirrors E) (e : Ex α) (hi : NoInside e) (hf : Formed e) (hx : HasX e) (c v a : α) (hv : value E e v = .ok a) :
    ∃ g, build E (.inside e c) = .pred g ∧ (g v = value E (.inside e c) v ↔ E.contains a c = E.contains c a) := by
  obtain ⟨f, h⟩ := (C91_is_predicate E e hf).1 hx
  refine ⟨_, by simp only [build, h]; rfl, ?_⟩
  have := C91_predicate_value E hM e hi f h v
  simp only [value, this, hv]
  rfl

/-! Cases that meet the hypotheses: `-(3 - x) * x` and `x.has(2 < x)` -/
example : ∃ f, build numbers (.bin .mul (.un .neg (.bin .sub (.const (.num 3)) .x)) .x) = .pred f ∧ f (.num 5) = .ok (.num 10) := ⟨_, rfl, rfl⟩
example : ∃ f, build numbers (.has .x (.bin .lt (.const (.num 2)) .x)) = .pred f ∧ f (.list [1, 2, 3]) = .ok (.num 1) ∧ f (.list [1, 2]) = .ok (.num 0) := ⟨_, rfl, rfl, rfl⟩
example : Formed (α := N) (.has .x (.bin .lt (.const (.num 2)) .x)) := ⟨trivial, trivial, ⟨trivial, trivial, Or.inr trivial, fun h => by cases h⟩, Or.inr trivial⟩
example : NoInside (α := N) (.has .x (.bin .lt (.const (.num 2)) .x)) := ⟨trivial, trivial, trivial⟩
example : ∀ k ∈ [N.num 1, .num 2], ∃ r, numbers.contains (.list [1, 2, 3]) k = .ok r := by
  intro k hk
  simp at hk
  rcases hk with rfl | rfl <;> exact ⟨_, rfl⟩
example : ∀ k ∈ [N.num 1, .num 2], ∃ r, value numbers (.bin .lt (.const (.num 2)) .x) k = .ok r := by
  intro k hk
  simp at hk
  rcases hk with rfl | rfl <;> exact ⟨_, rfl⟩

end Verif.Pred
