/-!
# wraps (satella/coding/decorators/decorators.py), C238

Objects have attributes; setting one may be refused (slots, built-in types).
-/
namespace Verif.Wraps

/-! ## Model -/

/-- attributes: those of /repo/satella/coding/decorators/decorators.py:236-263, and any other -/
inductive Attr where
  | doc | name | module_ | annotations | signature | wrapped
  | other (n : Nat)
deriving DecidableEq

/-- exceptions, those named at /repo/satella/coding/decorators/decorators.py:236-263, and any other -/
inductive Exc where
  | attributeError | typeError | valueError | recursionError
  | other (n : Nat)
deriving DecidableEq

variable {V : Type}

/-- what is wrapped: what getting an attribute gives, what inspect.signature gives, and the reference to it; used at /repo/satella/coding/decorators/decorators.py:236-263 -/
structure Source (V : Type) where
  get : Attr → Except Exc V
  signature : Except Exc V
  self : V

/-- what wraps: its attributes, and whether setting one is refused; /repo/satella/coding/decorators/decorators.py:235 -/
structure Target (V : Type) where
  attrs : Attr → Option V
  refuses : Attr → Option Exc

/-- `cls.attr = v`, /repo/satella/coding/decorators/decorators.py:238 -/
def Target.set (t : Target V) (a : Attr) (v : V) : Target V × Option Exc :=
  match t.refuses a with
  | some e => (t, some e)
  | none => ({ t with attrs := fun b => if b = a then some v else t.attrs b }, none)

/-- `if hasattr(cls_to_wrap, attr): try: cls.attr = cls_to_wrap.attr; except caught: pass`, /repo/satella/coding/decorators/decorators.py:236-240; hasattr lets exceptions other than AttributeError pass.  The attribute is taken to be the same when got again. -/
def copy (src : Source V) (a : Attr) (caught : List Exc) (t : Target V) : Target V × Option Exc :=
  match src.get a with
  | .error .attributeError => (t, none)
  | .error e => (t, some e)
  | .ok v =>
    match t.set a v with
    | (t', none) => (t', none)
    | (t', some e) => (t', if e ∈ caught then none else some e)

/-- the signature, /repo/satella/coding/decorators/decorators.py:256-260 -/
def copySignature (src : Source V) (t : Target V) : Target V × Option Exc :=
  let caught := [Exc.typeError, .valueError, .recursionError, .attributeError]
  match src.signature with
  | .error e => (t, if e ∈ caught then none else some e)
  | .ok v =>
    match t.set .signature v with
    | (t', none) => (t', none)
    | (t', some e) => (t', if e ∈ caught then none else some e)

/-- `__wrapped__`, /repo/satella/coding/decorators/decorators.py:261-264 -/
def setWrapped (src : Source V) (t : Target V) : Target V × Option Exc :=
  match t.set .wrapped src.self with
  | (t', none) => (t', none)
  | (t', some e) => (t', if e = .attributeError then none else some e)

/-- one statement after another, until one raises; /repo/satella/coding/decorators/decorators.py:235-265 -/
def andThen (r : Target V × Option Exc) (f : Target V → Target V × Option Exc) : Target V × Option Exc :=
  match r.2 with
  | none => f r.1
  | some e => (r.1, some e)

/-- `wraps(src)(t)`: the same object afterwards, which is returned unless something is raised; /repo/satella/coding/decorators/decorators.py:224-267 -/
def wraps (src : Source V) (t : Target V) : Target V × Option Exc :=
  andThen (andThen (andThen (andThen (andThen (copy src .doc [.attributeError] t) (copy src .name [.attributeError, .typeError])) (copy src .module_ [.attributeError]))
    (copy src .annotations [.attributeError, .typeError])) (copySignature src)) (setWrapped src)

/-! ## Specification -/

/-- what the wrapped object has to offer for an attribute -/
def Offers (src : Source V) (a : Attr) (v : V) : Prop :=
  match a with
  | .doc | .name | .module_ | .annotations => src.get a = .ok v
  | .signature => src.signature = .ok v
  | .wrapped => v = src.self
  | .other _ => False

/-- refusals and failures that do not matter -/
def Tolerated : Attr → Exc → Prop
  | .doc, e | .module_, e | .wrapped, e => e = .attributeError
  | .name, e | .annotations, e => e = .attributeError ∨ e = .typeError
  | .signature, e => e = .attributeError ∨ e = .typeError ∨ e = .valueError ∨ e = .recursionError
  | .other _, _ => True

/-- nothing goes wrong for an attribute in a way that matters -/
def Fine (src : Source V) (t : Target V) (a : Attr) : Prop :=
  (∀ v e, Offers src a v → t.refuses a = some e → Tolerated a e) ∧
  (match a with
    | .doc | .name | .module_ | .annotations => ∀ e, src.get a = .error e → e = .attributeError
    | .signature => ∀ e, src.signature = .error e → Tolerated .signature e
    | _ => True)

/-! ## Proofs -/

theorem set_spec (t : Target V) (a : Attr) (v : V) : (t.set a v).1.refuses = t.refuses ∧ (t.set a v).2 = t.refuses a ∧ ∀ b, (t.set a v).1.attrs b = if b = a ∧ t.refuses a = none then some v else t.attrs b := by
  unfold Target.set
  cases h : t.refuses a with
  | some e => simp
  | none => simp

/-- what a statement that handles one attribute does -/
structure Handles (src : Source V) (a : Attr) (f : Target V → Target V × Option Exc) : Prop where
  refuses : ∀ t, (f t).1.refuses = t.refuses
  others : ∀ t b, b ≠ a → (f t).1.attrs b = t.attrs b
  offered : ∀ t v, Offers src a v → t.refuses a = none → (f t).1.attrs a = some v ∧ (f t).2 = none
  refused : ∀ t e, t.refuses a = some e → (f t).1.attrs a = t.attrs a
  absent : ∀ t, (∀ v, ¬ Offers src a v) → (f t).1.attrs a = t.attrs a
  fine : ∀ t, Fine src t a → (f t).2 = none
  notFine : ∀ t, (f t).2 = none → Fine src t a

theorem copy_handles (src : Source V) (a : Attr) (caught : List Exc) (ha : a = .doc ∨ a = .name ∨ a = .module_ ∨ a = .annotations) (hc : ∀ e, e ∈ caught ↔ Tolerated a e) :
    Handles src a (copy src a caught) := by
  have hoff : ∀ v, Offers src a v ↔ src.get a = .ok v := by
    intro v; rcases ha with rfl | rfl | rfl | rfl <;> rfl
  have hfine : ∀ t, Fine src t a → ∀ e, src.get a = .error e → e = .attributeError := by
    intro t hf; rcases ha with rfl | rfl | rfl | rfl <;> exact hf.2
  have hcopy : ∀ t, (copy src a caught t) = match src.get a with
      | .error .attributeError => (t, none)
      | .error e => (t, some e)
      | .ok v => ((t.set a v).1, match (t.set a v).2 with | none => none | some e => if e ∈ caught then none else some e) := by
    intro t
    unfold copy
    split
    · rfl
    · rfl
    · rename_i v hv
      generalize t.set a v = r
      obtain ⟨t', o⟩ := r
      cases o <;> rfl
  refine ⟨fun t => ?_, fun t b hb => ?_, fun t v hv hr => ?_, fun t e he => ?_, fun t hn => ?_, fun t hf => ?_, fun t hf => ?_⟩
  · rw [hcopy]; split
    · rfl
    · rfl
    · exact (set_spec t a _).1
  · rw [hcopy]; split
    · rfl
    · rfl
    · dsimp only; rw [(set_spec t a _).2.2]; simp [hb]
  · rw [hcopy, (hoff v).1 hv]
    dsimp only
    rw [(set_spec t a v).2.2, (set_spec t a v).2.1, hr]
    simp
  · rw [hcopy]; split
    · rfl
    · rfl
    · dsimp only; rw [(set_spec t a _).2.2]; simp [he]
  · rw [hcopy]; split
    · rfl
    · rfl
    · rename_i v hv
      exact absurd ((hoff v).2 hv) (hn v)
  · rw [hcopy]; split
    · rfl
    · rename_i e hne he
      exact absurd (hfine t hf e he) hne
    · rename_i v hv
      dsimp only
      rw [(set_spec t a v).2.1]
      cases hr : t.refuses a with
      | none => rfl
      | some e => simp [(hc e).2 (hf.1 v e ((hoff v).2 hv) hr)]
  · rw [hcopy] at hf
    have h2 : ∀ e, src.get a = .error e → e = .attributeError := by
      intro e he
      rw [he] at hf
      cases e <;> first | rfl | exact absurd hf (by simp)
    refine ⟨?_, ?_⟩
    · intro v e hv hr
      rw [(hoff v).1 hv] at hf
      dsimp only at hf
      rw [(set_spec t a v).2.1, hr] at hf
      dsimp only at hf
      split at hf
      · rename_i hm; exact (hc e).1 hm
      · cases hf
    · rcases ha with rfl | rfl | rfl | rfl <;> exact h2

theorem signature_handles (src : Source V) : Handles src .signature (copySignature src) := by
  have hcopy : ∀ t, copySignature src t = match src.signature with
      | .error e => (t, if e ∈ [Exc.typeError, .valueError, .recursionError, .attributeError] then none else some e)
      | .ok v => ((t.set .signature v).1, match (t.set .signature v).2 with | none => none | some e => if e ∈ [Exc.typeError, .valueError, .recursionError, .attributeError] then none else some e) := by
    intro t
    unfold copySignature
    dsimp only
    split
    · rfl
    · rename_i v hv
      generalize t.set .signature v = r
      obtain ⟨t', o⟩ := r
      cases o <;> rfl
  have hmem : ∀ e, Tolerated .signature e → e ∈ [Exc.typeError, .valueError, .recursionError, .attributeError] := by
    intro e he
    simp only [Tolerated] at he
    rcases he with rfl | rfl | rfl | rfl <;> simp
  have hmem' : ∀ e, e ∈ [Exc.typeError, .valueError, .recursionError, .attributeError] → Tolerated .signature e := by
    intro e he
    simp only [List.mem_cons, List.not_mem_nil, or_false] at he
    simp only [Tolerated]
    rcases he with rfl | rfl | rfl | rfl <;> simp
  refine ⟨fun t => ?_, fun t b hb => ?_, fun t v hv hr => ?_, fun t e he => ?_, fun t hn => ?_, fun t hf => ?_, fun t hf => ?_⟩
  · rw [hcopy]; split
    · rfl
    · exact (set_spec t _ _).1
  · rw [hcopy]; split
    · rfl
    · dsimp only; rw [(set_spec t _ _).2.2]; simp [hb]
  · have hv' : src.signature = .ok v := hv
    rw [hcopy, hv']
    dsimp only
    rw [(set_spec t _ v).2.2, (set_spec t _ v).2.1, hr]
    simp
  · rw [hcopy]; split
    · rfl
    · dsimp only; rw [(set_spec t _ _).2.2]; simp [he]
  · rw [hcopy]; split
    · rfl
    · rename_i v hv
      exact absurd hv (hn v)
  · rw [hcopy]; split
    · rename_i e he
      simp only [if_pos (hmem e (hf.2 e he))]
    · rename_i v hv
      dsimp only
      rw [(set_spec t _ v).2.1]
      cases hr : t.refuses .signature with
      | none => rfl
      | some e => simp only [if_pos (hmem e (hf.1 v e hv hr))]
  · rw [hcopy] at hf
    refine ⟨?_, ?_⟩
    · intro v e hv hr
      have hv' : src.signature = .ok v := hv
      rw [hv'] at hf
      dsimp only at hf
      rw [(set_spec t _ v).2.1, hr] at hf
      dsimp only at hf
      split at hf
      · rename_i hm; exact hmem' e hm
      · cases hf
    · intro e he
      rw [he] at hf
      dsimp only at hf
      split at hf
      · rename_i hm; exact hmem' e hm
      · cases hf

theorem wrapped_handles (src : Source V) : Handles src .wrapped (setWrapped src) := by
  have hcopy : ∀ t, setWrapped src t = ((t.set .wrapped src.self).1, match (t.set .wrapped src.self).2 with | none => none | some e => if e = .attributeError then none else some e) := by
    intro t
    unfold setWrapped
    generalize t.set .wrapped src.self = r
    obtain ⟨t', o⟩ := r
    cases o <;> rfl
  refine ⟨fun t => ?_, fun t b hb => ?_, fun t v hv hr => ?_, fun t e he => ?_, fun t hn => ?_, fun t hf => ?_, fun t hf => ?_⟩
  · rw [hcopy]; exact (set_spec t _ _).1
  · rw [hcopy]; dsimp only; rw [(set_spec t _ _).2.2]; simp [hb]
  · have hv' : v = src.self := hv
    rw [hcopy]
    dsimp only
    rw [(set_spec t _ _).2.2, (set_spec t _ _).2.1, hr, hv']
    simp
  · rw [hcopy]; dsimp only; rw [(set_spec t _ _).2.2]; simp [he]
  · exact absurd rfl (hn src.self)
  · rw [hcopy]
    dsimp only
    rw [(set_spec t _ _).2.1]
    cases hr : t.refuses .wrapped with
    | none => rfl
    | some e =>
      have : e = .attributeError := hf.1 src.self e rfl hr
      simp [this]
  · rw [hcopy] at hf
    dsimp only at hf
    rw [(set_spec t _ _).2.1] at hf
    refine ⟨?_, trivial⟩
    intro v e _ hr
    rw [hr] at hf
    dsimp only at hf
    split at hf
    · rename_i h; exact h
    · cases hf

/-- the six statements -/
def stages (src : Source V) : List (Attr × (Target V → Target V × Option Exc)) :=
  [(.doc, copy src .doc [.attributeError]), (.name, copy src .name [.attributeError, .typeError]), (.module_, copy src .module_ [.attributeError]),
    (.annotations, copy src .annotations [.attributeError, .typeError]), (.signature, copySignature src), (.wrapped, setWrapped src)]

theorem wraps_eq (src : Source V) (t : Target V) : wraps src t = (stages src).foldl (fun r s => andThen r s.2) (t, none) := rfl

theorem stages_handle (src : Source V) : ∀ s ∈ stages src, Handles src s.1 s.2 := by
  intro s hs
  simp only [stages, List.mem_cons, List.not_mem_nil, or_false] at hs
  rcases hs with rfl | rfl | rfl | rfl | rfl | rfl
  · exact copy_handles src _ _ (by simp) (by intro e; simp [Tolerated])
  · exact copy_handles src _ _ (by simp) (by intro e; simp [Tolerated])
  · exact copy_handles src _ _ (by simp) (by intro e; simp [Tolerated])
  · exact copy_handles src _ _ (by simp) (by intro e; simp [Tolerated])
  · exact signature_handles src
  · exact wrapped_handles src

theorem fold_raised (l : List (Attr × (Target V → Target V × Option Exc))) (t : Target V) (e : Exc) : l.foldl (fun r s => andThen r s.2) (t, some e) = (t, some e) := by
  induction l with
  | nil => rfl
  | cons s l ih => rw [List.foldl_cons]; exact ih

theorem fold_spec (src : Source V) (l : List (Attr × (Target V → Target V × Option Exc))) (hl : ∀ s ∈ l, Handles src s.1 s.2) (hn : (l.map (·.1)).Nodup) (t : Target V) :
    let r := l.foldl (fun r s => andThen r s.2) (t, none)
    r.1.refuses = t.refuses ∧ (∀ b, b ∉ l.map (·.1) → r.1.attrs b = t.attrs b) ∧
    (∀ a, a ∈ l.map (·.1) → ((∀ v, ¬ Offers src a v) ∨ (t.refuses a).isSome) → r.1.attrs a = t.attrs a) ∧
    (r.2 = none → ∀ a v, a ∈ l.map (·.1) → Offers src a v → t.refuses a = none → r.1.attrs a = some v) ∧
    ((∀ a, a ∈ l.map (·.1) → Fine src t a) ↔ r.2 = none) := by
  induction l generalizing t with
  | nil => simp
  | cons s l ih =>
    have hs := hl s (by simp)
    have hl' : ∀ s ∈ l, Handles src s.1 s.2 := fun x hx => hl x (by simp [hx])
    rw [List.map_cons, List.nodup_cons] at hn
    have fineEq : ∀ t' : Target V, t'.refuses = t.refuses → ∀ a, Fine src t a → Fine src t' a := by
      intro t' ht a hf
      refine ⟨?_, hf.2⟩
      rw [ht]; exact hf.1
    dsimp only
    rw [List.foldl_cons]
    have own : ((∀ v, ¬ Offers src s.1 v) ∨ (t.refuses s.1).isSome) → (s.2 t).1.attrs s.1 = t.attrs s.1 := by
      rintro (h | h)
      · exact hs.absent t h
      · obtain ⟨e, he⟩ := Option.isSome_iff_exists.1 h
        exact hs.refused t e he
    cases hr : (s.2 t).2 with
    | some e =>
      have e1 : andThen (t, none) s.2 = ((s.2 t).1, some e) := by
        show s.2 t = _
        rw [← hr]
      rw [e1, fold_raised]
      refine ⟨hs.refuses t, ?_, ?_, ?_, ?_⟩
      · intro b hb
        simp only [List.map_cons, List.mem_cons, not_or] at hb
        exact hs.others t b hb.1
      · intro a _ ha
        by_cases h : a = s.1
        · subst h; exact own ha
        · exact hs.others t a h
      · intro h; cases h
      · constructor
        · intro h
          have := hs.fine t (h s.1 (by simp))
          rw [hr] at this; cases this
        · intro h; cases h
    | none =>
      have e1 : andThen (t, none) s.2 = ((s.2 t).1, none) := by
        show s.2 t = _
        rw [← hr]
      rw [e1]
      obtain ⟨i1, i2, i3, i4, i5⟩ := ih hl' hn.2 (s.2 t).1
      have hrf := hs.refuses t
      refine ⟨by rw [i1, hrf], ?_, ?_, ?_, ?_⟩
      · intro b hb
        simp only [List.map_cons, List.mem_cons, not_or] at hb
        rw [i2 b hb.2]
        exact hs.others t b hb.1
      · intro a ha hh
        by_cases h : a = s.1
        · subst h
          rw [i2 _ hn.1]
          exact own hh
        · simp only [List.map_cons, List.mem_cons] at ha
          rw [i3 a (ha.resolve_left h) (by rw [hrf]; exact hh)]
          exact hs.others t a h
      · intro hnone a v ha hv hra
        by_cases h : a = s.1
        · subst h
          rw [i2 _ hn.1]
          exact (hs.offered t v hv hra).1
        · simp only [List.map_cons, List.mem_cons] at ha
          exact i4 hnone a v (ha.resolve_left h) hv (by rw [hrf]; exact hra)
      · constructor
        · intro hf
          exact i5.1 (fun a ha => fineEq _ hrf a (hf a (by simp [ha])))
        · intro hnone a ha
          simp only [List.map_cons, List.mem_cons] at ha
          rcases ha with rfl | ha
          · exact hs.notFine t hr
          · have hf := i5.2 hnone a ha
            refine ⟨?_, hf.2⟩
            rw [← hrf]; exact hf.1

theorem stages_attrs (src : Source V) : (stages src).map (·.1) = [.doc, .name, .module_, .annotations, .signature, .wrapped] := rfl

/-- **C238, copied.** After `wraps(f)` was put on an object, and nothing was raised, each of `__doc__`, `__name__`, `__module__` and `__annotations__` that `f` has is that of `f`, its signature is that of `f`
if there is one, and `__wrapped__` is `f`, but for the attributes that the object refuses to have set.  Those, the ones `f` has not, and all other attributes are as they were. -/
theorem C238_copied (src : Source V) (t : Target V) (h : (wraps src t).2 = none) (a : Attr) :
    (∀ v, Offers src a v → t.refuses a = none → (wraps src t).1.attrs a = some v) ∧ ((∀ v, ¬ Offers src a v) ∨ (t.refuses a).isSome → (wraps src t).1.attrs a = t.attrs a) := by
  rw [wraps_eq] at h ⊢
  obtain ⟨_, i2, i3, i4, _⟩ := fold_spec src (stages src) (stages_handle src) (by rw [stages_attrs]; decide) t
  rw [stages_attrs] at i2 i3 i4
  have hmem : (∃ v, Offers src a v) → a ∈ [Attr.doc, .name, .module_, .annotations, .signature, .wrapped] := by
    rintro ⟨v, hv⟩
    cases a <;> first | exact hv.elim | simp
  constructor
  · intro v hv hr
    exact i4 h a v (hmem ⟨v, hv⟩) hv hr
  · intro hh
    by_cases hm : a ∈ [Attr.doc, .name, .module_, .annotations, .signature, .wrapped]
    · exact i3 a hm hh
    · exact i2 a hm

/-- **C238, when it returns.** It returns, rather than raises, exactly if `f` merely lacks attributes or a signature, and the object refuses attributes that `f` has only by AttributeError (for the name, the annotations and the
signature also by TypeError, for the signature also by ValueError or RecursionError). -/
theorem C238_returns (src : Source V) (t : Target V) : (wraps src t).2 = none ↔ ∀ a, Fine src t a := by
  rw [wraps_eq]
  rw [← (fold_spec src (stages src) (stages_handle src) (by rw [stages_attrs]; decide) t).2.2.2.2, stages_attrs]
  constructor
  · intro h a
    by_cases hm : a ∈ [Attr.doc, .name, .module_, .annotations, .signature, .wrapped]
    · exact h a hm
    · cases a <;> first | exact ⟨fun _ _ h => h.elim, trivial⟩ | exact absurd (by simp) hm
  · intro h a _
    exact h a

/-- **C238, raised.** Whatever happens, attributes that are not offered or not accepted, and all others, are as they were. -/
theorem C238_untouched (src : Source V) (t : Target V) (a : Attr) (h : (∀ v, ¬ Offers src a v) ∨ (t.refuses a).isSome) : (wraps src t).1.attrs a = t.attrs a := by
  rw [wraps_eq]
  obtain ⟨_, i2, i3, _, _⟩ := fold_spec src (stages src) (stages_handle src) (by rw [stages_attrs]; decide) t
  by_cases hm : a ∈ (stages src).map (·.1)
  · exact i3 a hm h
  · exact i2 a hm

/-! ## Stacks of decorators -/

/-- a function as what is wrapped, `id` being its reference; the signature is `__signature__` if that is there, else its own.  (inspect.signature, used at /repo/satella/coding/decorators/decorators.py:257.) -/
def asSource (id : V) (own : Except Exc V) (t : Target V) : Source V :=
  { get := fun a => match t.attrs a with | some v => .ok v | none => .error .attributeError
    signature := match t.attrs .signature with | some v => .ok v | none => own
    self := id }

/-- functions `0`, `1`, ... each wrapping the one before, by `@wraps(f)` in decorators; `base i` is the `i`-th function before that, `own i` the signature inspect finds, `ref i` the reference to it; /repo/satella/coding/decorators/decorators.py:224-267 -/
def stack (ref : Nat → V) (own : Nat → Except Exc V) (base : Nat → Target V) : Nat → Target V
  | 0 => base 0
  | i + 1 => (wraps (asSource (ref i) (own i) (stack ref own base i)) (base (i + 1))).1

/-- **C238, stacks of decorators.** Of functions stacked by decorators that use `wraps`, to any height, each has the documentation, name, module and annotations of the innermost one, and its signature; `__wrapped__` of each is the one
below it. -/
theorem C238_stack (ref : Nat → V) (own : Nat → Except Exc V) (base : Nat → Target V) (hr : ∀ i a, (base i).refuses a = none) (val : Attr → V) (sig : V) (hsig : own 0 = .ok sig)
    (h0 : (base 0).attrs .signature = none) (hv : ∀ a, a = .doc ∨ a = .name ∨ a = .module_ ∨ a = .annotations → (base 0).attrs a = some (val a)) (n : Nat) :
    (∀ a, a = .doc ∨ a = .name ∨ a = .module_ ∨ a = .annotations → (stack ref own base n).attrs a = some (val a)) ∧
    (n ≠ 0 → (stack ref own base n).attrs .signature = some sig) ∧ (∀ m, n = m + 1 → (stack ref own base n).attrs .wrapped = some (ref m)) := by
  have key : ∀ n, (∀ a, a = .doc ∨ a = .name ∨ a = .module_ ∨ a = .annotations → (stack ref own base n).attrs a = some (val a)) ∧
      (asSource (ref n) (own n) (stack ref own base n)).signature = .ok sig ∧ (n ≠ 0 → (stack ref own base n).attrs .signature = some sig) ∧ (∀ m, n = m + 1 → (stack ref own base n).attrs .wrapped = some (ref m)) := by
    intro n
    induction n with
    | zero => exact ⟨hv, by simp [asSource, stack, h0, hsig], fun h => absurd rfl h, fun m hm => by omega⟩
    | succ n ih =>
      obtain ⟨i1, i2, _, _⟩ := ih
      have hget : ∀ a, a = .doc ∨ a = .name ∨ a = .module_ ∨ a = .annotations → (asSource (ref n) (own n) (stack ref own base n)).get a = .ok (val a) := by
        intro a ha
        simp [asSource, i1 a ha]
      have hret : (wraps (asSource (ref n) (own n) (stack ref own base n)) (base (n + 1))).2 = none := by
        rw [C238_returns]
        intro a
        refine ⟨fun v e _ he => (by rw [hr] at he; cases he), ?_⟩
        cases a <;> first
          | trivial
          | (intro e he; rw [hget _ (by simp)] at he; cases he)
          | (intro e he; rw [i2] at he; cases he)
      have hc := C238_copied _ _ hret
      have hval : ∀ a, a = .doc ∨ a = .name ∨ a = .module_ ∨ a = .annotations → (stack ref own base (n + 1)).attrs a = some (val a) := by
        intro a ha
        refine (hc a).1 (val a) ?_ (hr _ _)
        have := hget a ha
        rcases ha with rfl | rfl | rfl | rfl <;> exact this
      have hs : (stack ref own base (n + 1)).attrs .signature = some sig := (hc .signature).1 sig i2 (hr _ _)
      refine ⟨hval, by simp [asSource, hs], fun _ => hs, ?_⟩
      intro m hm
      obtain rfl : n = m := by omega
      exact (hc .wrapped).1 (ref n) rfl (hr _ _)
  exact ⟨(key n).1, (key n).2.2.1, (key n).2.2.2⟩

/-! Cases that meet the hypotheses -/

/-- a function with a name and documentation, but without annotations and signature -/
def sample : Source String := { get := fun a => match a with | .doc => .ok "Adds." | .name => .ok "add" | .module_ => .ok "m" | _ => .error .attributeError, signature := .error .valueError, self := "<add>" }

/-- an object that refuses its name -/
def target : Target String := { attrs := fun a => match a with | .name => some "old" | .other 0 => some "x" | _ => none, refuses := fun a => if a = .name then some .typeError else none }

example : (wraps sample target).2 = none ∧ (wraps sample target).1.attrs .doc = some "Adds." ∧ (wraps sample target).1.attrs .name = some "old" ∧ (wraps sample target).1.attrs .signature = none ∧
    (wraps sample target).1.attrs .wrapped = some "<add>" ∧ (wraps sample target).1.attrs (.other 0) = some "x" := by decide
example : (wraps sample { target with refuses := fun a => if a = .module_ then some .typeError else none }).2 = some .typeError := by decide
example : ∀ a, Fine sample target a := (C238_returns sample target).1 (by decide)
/-- three functions, each wrapping the one before -/
example : let base : Nat → Target String := fun i => { attrs := fun a => match a with | .doc | .name | .module_ | .annotations => some (if i = 0 then "f" else "inner") | _ => none, refuses := fun _ => none }
    (stack (fun i => if i = 0 then "<f>" else "<inner>") (fun i => .ok (if i = 0 then "(a, b)" else "(*args)")) base 2).attrs .name = some "f" ∧
    (stack (fun i => if i = 0 then "<f>" else "<inner>") (fun i => .ok (if i = 0 then "(a, b)" else "(*args)")) base 2).attrs .signature = some "(a, b)" := by decide

end Verif.Wraps
