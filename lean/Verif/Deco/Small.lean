/-!
# Small decorators

`/repo/satella/coding/decorators/decorators.py:73-137`, `:270-362`, `/repo/satella/coding/decorators/arguments.py:79-125`,
`:378-417` and `chain_callables`, `/repo/satella/coding/misc.py:156-177`.

A function takes arguments `A`, may read and change the state `S` of the program, and returns a value
or raises.  How often and with what it is called shows in the state it leaves.
-/
namespace Verif.Small

/-- An exception: the classes it is an instance of, whether it is an `Exception` (and not, say, a
KeyboardInterrupt), and what `e.args` are.  (Part of the model of `call_method_on_exception`,
/repo/satella/coding/decorators/decorators.py:324-362.) -/
structure Exc where
  classes : List Nat
  ordinary : Bool
  /-- the texts given to the exception; `none` is something that is not a text -/
  args : List (Option String)
  deriving Repr, DecidableEq

/-- part of the model of `default_return`, /repo/satella/coding/decorators/decorators.py:73-100 -/
abbrev Fun (S A V : Type) := A → S → Except Exc V × S

section
variable {S A V W : Type}

/-- `default_return(v)`, `/repo/satella/coding/decorators/decorators.py:89-100`; None is `none`. -/
def defaultReturn (v : Option V) (f : Fun S A (Option V)) : Fun S A (Option V) := fun a s =>
  match f a s with
  | (.error e, s') => (.error e, s')
  | (.ok none, s') => (.ok v, s')
  | (.ok (some w), s') => (.ok (some w), s')

/-- What a generator does when resumed: gives a value, ends or raises.  (Part of the model of
`return_as_list`, /repo/satella/coding/decorators/decorators.py:103-137.) -/
inductive Next (S V : Type) where
  | value (v : V) (s : S)
  | stop (s : S)
  | raised (e : Exc) (s : S)

/-- The loop of `return_as_list`, `/repo/satella/coding/decorators/decorators.py:128-133`, over a generator
whose state is part of the state of the program; `none` if the fuel was not enough (it may never end). -/
def collect (ignoreNulls : Bool) (next : S → Next S (Option V)) : Nat → S → List (Option V) → Option (Except Exc (List (Option V)) × S)
  | 0, _, _ => none
  | fuel + 1, s, out =>
    match next s with
    | .stop s' => some (.ok out, s')
    | .raised e s' => some (.error e, s')
    | .value none s' => collect ignoreNulls next fuel s' (if ignoreNulls then out else out ++ [none])
    | .value (some v) s' => collect ignoreNulls next fuel s' (out ++ [some v])

/-- `short_none(clb)`, `/repo/satella/coding/decorators/decorators.py:314-321`. -/
def shortNone (f : Fun S A (Option V)) : Fun S (Option A) (Option V) := fun a s =>
  match a with
  | none => (.ok none, s)
  | some x => f x s

/-- `call_method_on_exception(exc_classes, method_name, ...)`, `/repo/satella/coding/decorators/decorators.py:349-362`;
`method` is the method already given its arguments. -/
def callMethodOnException (exc : List Nat) (method : Fun S Unit V) (f : Fun S A V) : Fun S A V := fun a s =>
  match f a s with
  | (.ok v, s') => (.ok v, s')
  | (.error e, s') => if e.ordinary && exc.any (fun c => c ∈ e.classes) then method () s' else (.error e, s')

/-- `execute_if_attribute_none(attribute)`, `/repo/satella/coding/decorators/arguments.py:388-396`; reading the
attribute may raise. -/
def ifAttributeNone (attr : Fun S Unit (Option W)) (f : Fun S A (Option V)) : Fun S A (Option V) := fun a s =>
  match attr () s with
  | (.error e, s') => (.error e, s')
  | (.ok none, s') => f a s'
  | (.ok (some _), s') => (.ok none, s')

/-- `execute_if_attribute_not_none(attribute)`, `/repo/satella/coding/decorators/arguments.py:409-417`. -/
def ifAttributeNotNone (attr : Fun S Unit (Option W)) (f : Fun S A (Option V)) : Fun S A (Option V) := fun a s =>
  match attr () s with
  | (.error e, s') => (.error e, s')
  | (.ok none, s') => (.ok none, s')
  | (.ok (some _), s') => f a s'

/-- The function given by `execute_before`, `/repo/satella/coding/decorators/arguments.py:109-111` and `:117-119`:
`before` is the callable given its arguments. -/
def executeBefore (before : Fun S Unit W) (f : Fun S A V) : Fun S A V := fun a s =>
  match before () s with
  | (.error e, s') => (.error e, s')
  | (.ok _, s') => f a s'

/-- What one may hand to a decorator made by `execute_before`: parameters, some of which may be
callable.  (Part of the model of `execute_before`, /repo/satella/coding/decorators/arguments.py:79-125.) -/
inductive Param where
  | callable (n : Nat)
  | value (n : Nat)
  deriving Repr, DecidableEq

/-- `outer(*args, **kwargs)` of `execute_before`, `/repo/satella/coding/decorators/arguments.py:106-123`, decides
whether it decorates: `some f` is the function decorated, and then the callable gets no arguments. -/
def decorates (args : List Param) (kwargs : List (String × Param)) : Option Nat :=
  match args, kwargs with
  | [.callable f], [] => some f
  | _, _ => none

/-- Whether a text has another in it, as lists of characters.  (Part of the model of `chain_callables`,
/repo/satella/coding/misc.py:156-177.) -/
def hasInfix (needle : List Char) : List Char → Bool
  | [] => needle.isEmpty
  | c :: rest => needle.isPrefixOf (c :: rest) || hasInfix needle rest

/-- The condition at `/repo/satella/coding/misc.py:171`. -/
def takesNoArgument (text : String) : Bool :=
  hasInfix "positional arguments but".toList text.toList && hasInfix "was given".toList text.toList && hasInfix "takes".toList text.toList

/-- part of the model of `chain_callables`, /repo/satella/coding/misc.py:156-177 -/
def TYPE_ERROR : Nat := 1
/-- part of the model of `chain_callables`, /repo/satella/coding/misc.py:156-177 -/
def indexError : Exc := ⟨[2], true, [some "tuple index out of range"]⟩
/-- part of the model of `chain_callables`, /repo/satella/coding/misc.py:156-177 -/
def notIterable : Exc := ⟨[1], true, [some "argument of type is not iterable"]⟩

/-- `chain_callables(callable1, callable2)`, `/repo/satella/coding/misc.py:166-177`.  `with1` is `callable2`
called with an argument, `with0` called with none. -/
def chainCallables (f : Fun S A V) (with1 : Fun S V W) (with0 : Fun S Unit W) : Fun S A W := fun a s =>
  match f a s with
  | (.error e, s1) => (.error e, s1)
  | (.ok r, s1) =>
    match with1 r s1 with
    | (.ok w, s2) => (.ok w, s2)
    | (.error e, s2) =>
      if TYPE_ERROR ∈ e.classes then
        match e.args with
        | [] => (.error indexError, s2)
        | none :: _ => (.error notIterable, s2)
        | some t :: _ => if takesNoArgument t then with0 () s2 else (.error e, s2)
      else (.error e, s2)

/-- `has_keys(keys)`, `/repo/satella/coding/decorators/decorators.py:289-293`: `none` is PreconditionError. -/
def hasKeys (keys : List Nat) (dict : List Nat) : Option Bool :=
  match keys with
  | [] => some true
  | k :: rest => if k ∈ dict then hasKeys rest dict else none

/-! ## Specification -/

/-- The text has each of the three phrases in it, wherever. -/
def TakesNone (text : String) : Prop :=
  ∀ phrase ∈ ["takes", "positional arguments but", "was given"], ∃ before after, text.toList = before ++ phrase.toList ++ after

/-- The call ends so. -/
def Ends (f : Fun S A V) (a : A) (s : S) (r : Except Exc V) (s' : S) : Prop := f a s = (r, s')

/-- A generator gives the values, ending with `fin`. -/
inductive Gives (next : S → Next S V) : S → List V → Option Exc → S → Prop
  | stop {s s'} : next s = .stop s' → Gives next s [] none s'
  | raised {s e s'} : next s = .raised e s' → Gives next s [] (some e) s'
  | value {s v s' vs fin s''} : next s = .value v s' → Gives next s' vs fin s'' → Gives next s (v :: vs) fin s''

/-! ## Properties -/

/-- **C194 (default_return)** The function is called once; its exceptions and results are passed on,
but None gives the default. -/
theorem C194_default_return (v : Option V) (f : Fun S A (Option V)) (a : A) (s s' : S) (r : Except Exc (Option V)) :
    Ends (defaultReturn v f) a s r s' ↔ (Ends f a s r s' ∧ r ≠ .ok none) ∨ (Ends f a s (.ok none) s' ∧ r = .ok v) := by
  unfold Ends defaultReturn
  rcases hf : f a s with ⟨(e | (_ | w)), s1⟩ <;> simp only [Prod.mk.injEq]
  · constructor
    · rintro ⟨rfl, rfl⟩; simp
    · rintro (⟨⟨rfl, rfl⟩, _⟩ | ⟨⟨h, _⟩, _⟩)
      · simp
      · simp at h
  · constructor
    · rintro ⟨rfl, rfl⟩; simp
    · rintro (⟨⟨rfl, rfl⟩, h⟩ | ⟨⟨_, rfl⟩, rfl⟩)
      · simp at h
      · simp
  · constructor
    · rintro ⟨rfl, rfl⟩; simp
    · rintro (⟨⟨rfl, rfl⟩, _⟩ | ⟨⟨h, _⟩, _⟩)
      · simp
      · simp at h

theorem collect_spec (ig : Bool) (next : S → Next S (Option V)) : ∀ fuel s out r s', collect ig next fuel s out = some (r, s') →
    ∃ vs fin, Gives next s vs fin s' ∧ ((fin = none ∧ r = .ok (out ++ vs.filter (fun v => v.isSome || !ig))) ∨ ∃ e, fin = some e ∧ r = .error e) := by
  intro fuel
  induction fuel with
  | zero => intro s out r s' h; simp [collect] at h
  | succ fuel ih =>
    intro s out r s' h
    simp only [collect] at h
    split at h
    · rename_i s1 hn
      simp only [Option.some.injEq, Prod.mk.injEq] at h
      obtain ⟨rfl, rfl⟩ := h
      exact ⟨[], none, .stop hn, Or.inl ⟨rfl, by simp⟩⟩
    · rename_i e s1 hn
      simp only [Option.some.injEq, Prod.mk.injEq] at h
      obtain ⟨rfl, rfl⟩ := h
      exact ⟨[], some e, .raised hn, Or.inr ⟨e, rfl, rfl⟩⟩
    · rename_i s1 hn
      obtain ⟨vs, fin, h1, h2⟩ := ih _ _ _ _ h
      refine ⟨none :: vs, fin, .value hn h1, ?_⟩
      rcases h2 with ⟨h2, h3⟩ | h2
      · left; refine ⟨h2, ?_⟩; rw [h3]; cases ig <;> simp
      · exact Or.inr h2
    · rename_i v s1 hn
      obtain ⟨vs, fin, h1, h2⟩ := ih _ _ _ _ h
      refine ⟨some v :: vs, fin, .value hn h1, ?_⟩
      rcases h2 with ⟨h2, h3⟩ | h2
      · left; refine ⟨h2, ?_⟩; rw [h3]; simp
      · exact Or.inr h2

theorem collect_complete (ig : Bool) (next : S → Next S (Option V)) {s vs fin s'} (h : Gives next s vs fin s') : ∀ fuel, vs.length < fuel → ∀ out,
    collect ig next fuel s out = some ((match fin with | none => .ok (out ++ vs.filter (fun v => v.isSome || !ig)) | some e => .error e), s') := by
  induction h with
  | stop hn => intro fuel hf out; cases fuel with
    | zero => omega
    | succ fuel => simp [collect, hn]
  | raised hn => intro fuel hf out; cases fuel with
    | zero => omega
    | succ fuel => simp [collect, hn]
  | @value s v s1 vs fin s2 hn _ ih =>
    intro fuel hf out
    cases fuel with
    | zero => omega
    | succ fuel =>
      have ih := ih fuel (by simp at hf; omega)
      cases v with
      | none =>
        simp only [collect, hn]
        rw [ih]
        cases fin <;> cases ig <;> simp
      | some v =>
        simp only [collect, hn]
        rw [ih]
        cases fin <;> simp

/-- **C194 (return_as_list)** The call returns a list exactly if the generator ends, and the list has
then all its values in order, without Nones if so asked; it raises exactly what the generator raises. -/
theorem C194_return_as_list (ig : Bool) (next : S → Next S (Option V)) (s s' : S) (r : Except Exc (List (Option V))) :
    (∃ n, ∀ fuel, n ≤ fuel → collect ig next fuel s [] = some (r, s')) ↔
    (∃ vs, Gives next s vs none s' ∧ r = .ok (vs.filter (fun v => v.isSome || !ig))) ∨ ∃ vs e, Gives next s vs (some e) s' ∧ r = .error e := by
  constructor
  · rintro ⟨n, hn⟩
    obtain ⟨vs, fin, h1, h2⟩ := collect_spec ig next n s [] r s' (hn n (Nat.le_refl _))
    rcases h2 with ⟨rfl, h2⟩ | ⟨e, rfl, h2⟩
    · exact Or.inl ⟨vs, h1, by simpa using h2⟩
    · exact Or.inr ⟨vs, e, h1, h2⟩
  · rintro (⟨vs, h1, rfl⟩ | ⟨vs, e, h1, rfl⟩)
    · exact ⟨vs.length + 1, fun fuel hf => by rw [collect_complete ig next h1 fuel (by omega)]; simp⟩
    · exact ⟨vs.length + 1, fun fuel hf => by rw [collect_complete ig next h1 fuel (by omega)]⟩

/-- **C194 (short_none)** None gives None, with nothing called; anything else is given to the
callable. -/
theorem C194_short_none (f : Fun S A (Option V)) (a : Option A) (s s' : S) (r : Except Exc (Option V)) :
    Ends (shortNone f) a s r s' ↔ (a = none ∧ r = .ok none ∧ s' = s) ∨ ∃ x, a = some x ∧ Ends f x s r s' := by
  unfold Ends shortNone
  cases a with
  | none => simp only [Prod.mk.injEq]; constructor
            · rintro ⟨rfl, rfl⟩; simp
            · rintro (⟨_, rfl, rfl⟩ | ⟨x, h, _⟩)
              · simp
              · simp at h
  | some x => simp

/-- **C194 (call_method_on_exception)** The method is called, once and after the function, exactly if
that raised an ordinary exception of one of the classes, and its outcome is then the outcome. -/
theorem C194_call_method (exc : List Nat) (m : Fun S Unit V) (f : Fun S A V) (a : A) (s s' : S) (r : Except Exc V) :
    Ends (callMethodOnException exc m f) a s r s' ↔
    (Ends f a s r s' ∧ ∀ e, r = .error e → e.ordinary = false ∨ ∀ c ∈ exc, c ∉ e.classes) ∨
    ∃ e c s1, Ends f a s (.error e) s1 ∧ e.ordinary = true ∧ c ∈ exc ∧ c ∈ e.classes ∧ Ends m () s1 r s' := by
  unfold Ends callMethodOnException
  rcases hf : f a s with ⟨(e | w), s1⟩
  · simp only
    split
    · rename_i h
      simp only [Bool.and_eq_true, List.any_eq_true, decide_eq_true_eq] at h
      obtain ⟨h1, c, h2, h3⟩ := h
      constructor
      · intro h; exact Or.inr ⟨e, c, s1, rfl, h1, h2, h3, h⟩
      · rintro (⟨h, hno⟩ | ⟨e', c', s1', h, _, _, _, hm⟩)
        · simp only [Prod.mk.injEq] at h
          rcases hno e h.1.symm with h | h
          · rw [h1] at h; simp at h
          · exact absurd h3 (h c h2)
        · simp only [Prod.mk.injEq, Except.error.injEq] at h
          obtain ⟨rfl, rfl⟩ := h
          exact hm
    · rename_i h
      simp only [Bool.and_eq_true, List.any_eq_true, decide_eq_true_eq, not_and, not_exists] at h
      constructor
      · intro h'
        refine Or.inl ⟨h', fun e' he => ?_⟩
        simp only [Prod.mk.injEq] at h'
        rw [← h'.1] at he
        cases he
        cases ho : e.ordinary
        · exact Or.inl rfl
        · exact Or.inr (fun c hc => h ho c hc)
      · rintro (⟨h', _⟩ | ⟨e', c', s1', h', ho, hc, hc', hm⟩)
        · exact h'
        · simp only [Prod.mk.injEq, Except.error.injEq] at h'
          obtain ⟨rfl, rfl⟩ := h'
          exact absurd hc' (h ho c' hc)
  · simp only [Prod.mk.injEq]
    constructor
    · rintro ⟨rfl, rfl⟩; simp
    · rintro (⟨h, _⟩ | ⟨e', c', s1', h, _⟩)
      · exact h
      · simp at h

/-- **C194 (guards on attributes)** The method is executed exactly if the attribute is None, or is not
None, and otherwise nothing is executed and None returned; if reading the attribute raises, that is raised. -/
theorem C194_attribute (attr : Fun S Unit (Option W)) (f : Fun S A (Option V)) (a : A) (s s1 : S) (w : Except Exc (Option W)) (h : Ends attr () s w s1) :
    (∀ r s', Ends (ifAttributeNone attr f) a s r s' ↔ (w = .ok none ∧ Ends f a s1 r s') ∨ ((∃ v, w = .ok (some v)) ∧ r = .ok none ∧ s' = s1) ∨ ∃ e, w = .error e ∧ r = .error e ∧ s' = s1) ∧
    ∀ r s', Ends (ifAttributeNotNone attr f) a s r s' ↔ ((∃ v, w = .ok (some v)) ∧ Ends f a s1 r s') ∨ (w = .ok none ∧ r = .ok none ∧ s' = s1) ∨ ∃ e, w = .error e ∧ r = .error e ∧ s' = s1 := by
  unfold Ends at h ⊢
  constructor <;> intro r s' <;> rcases w with e | (_ | w) <;> simp only [ifAttributeNone, ifAttributeNotNone, h, Prod.mk.injEq] <;> grind

/-- **C194 (execute_before)** The callable is called first; if it raises, the function is not called,
and otherwise the function is called once, with its arguments, and its outcome is the outcome. -/
theorem C194_execute_before (b : Fun S Unit W) (f : Fun S A V) (a : A) (s s' : S) (r : Except Exc V) :
    Ends (executeBefore b f) a s r s' ↔ (∃ e, Ends b () s (.error e) s' ∧ r = .error e) ∨ ∃ w s1, Ends b () s (.ok w) s1 ∧ Ends f a s1 r s' := by
  unfold Ends executeBefore
  rcases hb : b () s with ⟨(e | w), s1⟩ <;> simp only [Prod.mk.injEq]
  · constructor
    · rintro ⟨rfl, rfl⟩; exact Or.inl ⟨e, ⟨rfl, rfl⟩, rfl⟩
    · rintro (⟨e', ⟨h, h'⟩, rfl⟩ | ⟨w, s2, ⟨h, _⟩, _⟩)
      · cases h; exact ⟨rfl, h'⟩
      · cases h
  · constructor
    · intro h; exact Or.inr ⟨w, s1, ⟨rfl, rfl⟩, h⟩
    · rintro (⟨e', ⟨h, h'⟩, rfl⟩ | ⟨w, s2, ⟨_, rfl⟩, h⟩)
      · cases h
      · exact h

/-- **C194 (has_keys)** True exactly if all the keys are there, and otherwise PreconditionError. -/
theorem C194_has_keys (keys dict : List Nat) : (hasKeys keys dict = some true ↔ ∀ k ∈ keys, k ∈ dict) ∧ hasKeys keys dict ≠ some false := by
  induction keys with
  | nil => simp [hasKeys]
  | cons k keys ih =>
    simp only [hasKeys]
    split
    · rename_i h; simp [h, ih]
    · rename_i h; simp [h]

/-- **C195 (chain_callables), the violation** A second callable that takes an argument, got it and
raised a TypeError, of some call within it, that reads as of itself, is called again without one. -/
theorem C195_twice_violates : ∃ (f : Fun (List String) Unit Nat) (with1 : Fun (List String) Nat Nat) (with0 : Fun (List String) Unit Nat) (e : Exc),
    (∀ n s, with1 n s = (.error e, "called with one" :: s)) ∧
    chainCallables f with1 with0 () [] = (.ok 0, ["called with none", "called with one"]) := by
  refine ⟨fun _ s => (.ok 3, s), fun _ s => (.error ⟨[1], true, [some "helper() takes 0 positional arguments but 1 was given"]⟩, "called with one" :: s),
    fun _ s => (.ok 0, "called with none" :: s), _, fun _ _ => rfl, ?_⟩
  have : takesNoArgument "helper() takes 0 positional arguments but 1 was given" = true := by decide +kernel
  simp [chainCallables, TYPE_ERROR, this]

/-- **C195 (chain_callables), the violation** A TypeError raised with no arguments by the second
callable comes out as an IndexError. -/
theorem C195_index_error_violates (f : Fun S A V) (with1 : Fun S V W) (with0 : Fun S Unit W) (a : A) (s s1 s2 : S) (r : V) (hf : Ends f a s (.ok r) s1)
    (h1 : Ends with1 r s1 (.error ⟨[1], true, []⟩) s2) : Ends (chainCallables f with1 with0) a s (.error indexError) s2 := by
  unfold Ends at *
  simp [chainCallables, hf, h1, TYPE_ERROR]

/-- **C195 (parameters of execute_before), the violation** The documentation lets one give parameters to
the callable; a single one that is callable itself is taken for the function to decorate. -/
theorem C195_callable_parameter_violates (p : Nat) : decorates [.callable p] [] = some p := rfl

theorem hasInfix_iff (needle : List Char) : ∀ l, hasInfix needle l = true ↔ ∃ before after, l = before ++ needle ++ after := by
  intro l
  induction l with
  | nil => simp [hasInfix, List.isEmpty_iff]
  | cons c l ih =>
    simp only [hasInfix, Bool.or_eq_true, ih, List.isPrefixOf_iff_prefix]
    constructor
    · rintro (⟨t, h⟩ | ⟨b, a, h⟩)
      · exact ⟨[], t, by simpa using h.symm⟩
      · exact ⟨c :: b, a, by simp [h]⟩
    · rintro ⟨b, a, h⟩
      cases b with
      | nil => exact Or.inl ⟨a, by simpa using h.symm⟩
      | cons x b =>
        simp at h
        exact Or.inr ⟨b, a, by simpa using h.2⟩

theorem takesNoArgument_iff (t : String) : takesNoArgument t = true ↔ TakesNone t := by
  simp only [takesNoArgument, Bool.and_eq_true, hasInfix_iff, TakesNone, List.forall_mem_cons, List.not_mem_nil, false_implies, implies_true, and_true]
  grind

/-- **C195 (chain_callables), the part that holds** The first callable is called once and its
exceptions are passed on. A second callable that takes no argument (Python says so, and it is not
entered) is called once, without one; one that takes an argument is called once with the result of
the first, whatever it does but for raising a TypeError with such a text, or with no text. -/
theorem C195_chain_partial (f : Fun S A V) (with1 : Fun S V W) (with0 : Fun S Unit W) (a : A) (s s1 : S) :
    (∀ e, Ends f a s (.error e) s1 → Ends (chainCallables f with1 with0) a s (.error e) s1) ∧
    (∀ r e t rest, Ends f a s (.ok r) s1 → Ends with1 r s1 (.error e) s1 → TYPE_ERROR ∈ e.classes → e.args = some t :: rest → TakesNone t →
      ∀ o s2, Ends (chainCallables f with1 with0) a s o s2 ↔ Ends with0 () s1 o s2) ∧
    (∀ r o s2, Ends f a s (.ok r) s1 → Ends with1 r s1 o s2 →
      (∀ e, o = .error e → TYPE_ERROR ∉ e.classes ∨ ∃ t rest, e.args = some t :: rest ∧ ¬ TakesNone t) → Ends (chainCallables f with1 with0) a s o s2) := by
  simp only [← takesNoArgument_iff, Bool.not_eq_true]
  unfold Ends
  refine ⟨fun e h => by simp [chainCallables, h], fun r e t rest hf h1 ht ha hn o s2 => by simp [chainCallables, hf, h1, ht, ha, hn], fun r o s2 hf h1 hok => ?_⟩
  cases o with
  | ok w => simp [chainCallables, hf, h1]
  | error e =>
    rcases hok e rfl with h | ⟨t, rest, ha, hn⟩
    · simp [chainCallables, hf, h1, h]
    · simp only [chainCallables, hf, h1, ha, hn]; split <;> simp

/-- **C195 (parameters of execute_before), the part that holds** With other parameters the callable gets
them; and with a function alone that function is decorated. -/
theorem C195_parameters_partial (args : List Param) (kwargs : List (String × Param)) (f : Nat) :
    decorates args kwargs = some f ↔ args = [.callable f] ∧ kwargs = [] := by
  unfold decorates
  split <;> grind

end

/-! ## Examples -/

example : Gives (fun s : Nat => if s < 3 then Next.value (some s) (s + 1) else .stop s) 1 [some 1, some 2] none 3 :=
  .value rfl (.value rfl (.stop rfl))
example : takesNoArgument "f() takes 0 positional arguments but 1 was given" = true := by decide +kernel
example : takesNoArgument "unsupported operand" = false := by decide +kernel
example : callMethodOnException [7] (fun _ s => (.ok 5, s + 1)) (fun (_ : Unit) s => (.error ⟨[7], true, []⟩, s + 10)) () 0 = (.ok 5, 11) := by rfl
example : Ends (fun (_ : Unit) s => (Except.ok (some 1), s)) () 3 (.ok (some 1)) 3 := rfl

end Verif.Small
