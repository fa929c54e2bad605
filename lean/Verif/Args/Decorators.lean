import Verif.Args.Props
/-!
# Model of decorators that change arguments (satella/coding/decorators/arguments.py), C83

A decorated function makes a call of the function that it decorates: positional arguments and keyword arguments.  `none` means that it raises instead.
-/
namespace Verif.Args

/-- the names of keyword arguments as `*kwargs` gives them: strings, which are values like others.  (Part of the model of `transform_result`, /repo/satella/coding/decorators/arguments.py:20-44.) -/
structure Env where
  nameVal : Nat → Nat
  /-- a callable value, as a function of one argument -/
  apply : Nat → Option (Nat → Nat)

/-- `get_arguments(fun, *args, *kwargs)`: the names of the keyword arguments follow as positional arguments, /repo/satella/coding/decorators/arguments.py:38, :65 -/
def starBoth (E : Env) (s : Sig) (args names : List Nat) : Option Locals := getArguments s (args ++ names.map E.nameVal) noKw

/-- the arguments, some of them replaced by the value of an expression of the old arguments, /repo/satella/coding/decorators/arguments.py:66-71 -/
def evalAll (exprs : Nat → Option (Locals → Nat)) (old : Locals) : Locals := fun n =>
  match exprs n with
  | some e => some (.one (e old))
  | none => old n

/-- `transform_arguments`, /repo/satella/coding/decorators/arguments.py:47-76; `names` are the names of the keyword arguments -/
def transformArguments (E : Env) (exprs : Nat → Option (Locals → Nat)) (s : Sig) (args names : List Nat) : Option Call :=
  (starBoth E s args names).bind (fun old => callWith s (evalAll exprs old))

/-- `transform_result`, /repo/satella/coding/decorators/arguments.py:20-44, after the function has returned `r`: the expression sees the arguments, and the result as `x` -/
def transformResult (E : Env) (x : Nat) (expr : Locals → Nat) (s : Sig) (args names : List Nat) (r : Nat) : Option Nat :=
  (starBoth E s args names).map (fun local_ => expr (put local_ x (.one r)))

/-- `replace_argument_if`, /repo/satella/coding/decorators/arguments.py:128-168, for an argument `name`.  The predicate, if there is one, is not called.  `structure_` stands for `build_structure(structure, v)`.
  Only arguments with a value are modelled, not `*args` and `**kwargs`. -/
def replaceIf (name : Nat) (structure_ : Nat → Nat) (instanceOf : Nat → Bool) (predicate : Option (Nat → Bool)) (s : Sig) (args : List Nat) (kw : Kw) : Option Call :=
  (getArguments s args kw).bind (fun d =>
    match d name with
    | some (.one v) =>
      match predicate with
      | some _ => callWith s (put d name (.one (structure_ v)))
      | none => if instanceOf v then callWith s (put d name (.one (structure_ v))) else some ⟨args, kw, fun _ => none⟩
    | _ => some ⟨args, kw, fun _ => none⟩)

/-- the function has parameters with a default value, /repo/satella/coding/decorators/arguments.py:336-345 -/
def hasDefault (s : Sig) : Bool := s.params.any (fun p => p.default.isSome)

/-- `v = f(v)` if `f` is callable, /repo/satella/coding/decorators/arguments.py:355-358.  Only arguments with a value are modelled, not `*args` and `**kwargs`. -/
def applyOp (E : Env) (op : Option Bound) (v : Bound) : Bound :=
  match op, v with
  | some (.one f), .one v =>
    match E.apply f with
    | some g => .one (g v)
    | none => .one v
  | _, v => v

/-- the operations applied to all arguments, /repo/satella/coding/decorators/arguments.py:352-360 -/
def applyAll (E : Env) (ops vals : Locals) : Locals := fun n =>
  match vals n with
  | some v => some (applyOp E (ops n) v)
  | none => none

/-- one operation in the faster implementation, /repo/satella/coding/decorators/arguments.py:368-370; an operation that cannot be called would raise TypeError -/
def fastOp (E : Env) (op : Option Nat) (v : Nat) : Option Nat :=
  match op with
  | none => some v
  | some f =>
    match E.apply f with
    | some g => some (g v)
    | none => none

/-- `zip_longest` of arguments and operations, with at least as many arguments.  (Part of the model of `for_argument`, /repo/satella/coding/decorators/arguments.py:280-375.) -/
def fastArgs (E : Env) : List Nat → List Nat → Option (List Nat)
  | [], _ => some []
  | a :: as, ops =>
    match fastOp E ops.head? a, fastArgs E as ops.tail with
    | some x, some xs => some (x :: xs)
    | _, _ => none

/-- `for_argument`, /repo/satella/coding/decorators/arguments.py:280-375, with `None` already replaced by the function that gives its argument.  `returns` is not modelled.  If the signature has starred parameters, the model is not
  faithful: the operations would get a tuple or a dictionary. -/
def forArgument (E : Env) (ops : List Nat) (kwops : Kw) (s : Sig) (args : List Nat) (kw : Kw) : Option Call :=
  if hasDefault s then
    match getArguments' true s ops kwops, getArguments s args kw with
    | some o, some v => callWith s (applyAll E o v)
    | _, _ => none
  else if args.length < ops.length then none
  else
    match fastArgs E args ops with
    | some args' => some ⟨args', fun n => match kw n with | some v => fastOp E (kwops n) v | none => none, fun _ => none⟩
    | none => none

/-- `attach_arguments`, /repo/satella/coding/decorators/arguments.py:214-240 -/
def attach (extra : List Nat) (extraKw : Kw) (args : List Nat) (kw : Kw) : Call := ⟨args ++ extra, update kw extraKw, fun _ => none⟩

/-! ## Specification -/

/-- the function is called so that it has these local variables -/
def CalledWith (s : Sig) (c : Option Call) (loc : Locals) : Prop := ∃ x, c = some x ∧ (∀ n, x.rest n = none) ∧ Binds s x.args x.kw loc

/-- a parameter that is not starred -/
def Sig.plain (s : Sig) (n : Nat) : Prop := n ∈ s.positional.map (·.1.1) ∨ n ∈ s.kwOnly.map Prod.fst

/-- the operation meant for a parameter: that at its place, or that with its name -/
inductive IsOp (s : Sig) (ops : List Nat) (kwops : Kw) : Nat → Nat → Prop where
  | pos (i : Nat) (q : (Nat × Option Nat) × Bool) (f : Nat) : s.positional[i]? = some q → ops[i]? = some f → IsOp s ops kwops q.1.1 f
  | kw (n f : Nat) : kwops n = some f → IsOp s ops kwops n f

/-- every local variable went through its operation -/
structure Through (E : Env) (s : Sig) (ops : List Nat) (kwops : Kw) (loc loc' : Locals) : Prop where
  op : ∀ n f g v, IsOp s ops kwops n f → E.apply f = some g → loc n = some (.one v) → loc' n = some (.one (g v))
  noOp : ∀ n, (∀ f, ¬ IsOp s ops kwops n f) → loc' n = loc n

/-- the decorator is used sensibly: every operation can be called and is for one parameter, and every parameter has at most one -/
structure OpsOk (E : Env) (s : Sig) (ops : List Nat) (kwops : Kw) : Prop where
  few : ops.length ≤ s.positional.length
  known : ∀ n, kwops n ≠ none → s.keywordable n
  once : ∀ (i : Nat) q, s.positional[i]? = some q → i < ops.length → kwops q.1.1 = none
  callable : ∀ n f, IsOp s ops kwops n f → E.apply f ≠ none

/-- the guard of the partial theorem.  If there are default values then they are not callable; else all parameters with an operation at its place are given by position, and those with one by name are given by name. -/
def ForGuard (E : Env) (s : Sig) (ops : List Nat) (kwops : Kw) (args : List Nat) (kw : Kw) : Prop :=
  (hasDefault s = true → ∀ p ∈ s.params, ∀ d, p.default = some d → E.apply d = none) ∧
  (hasDefault s = false → ops.length ≤ args.length ∧ ∀ n, kwops n ≠ none → kw n ≠ none)

/-! ## Proofs -/

theorem plain_name (s : Sig) (n : Nat) (h : s.plain n) : n ∈ s.names := by
  rw [names_eq]
  rcases h with h | h
  · exact List.mem_append_left _ h
  · exact List.mem_append_right _ (List.mem_append_right _ (List.mem_append_left _ h))

/-- change of values of parameters that are not starred -/
theorem full_change (s : Sig) (h : s.Ok) (loc loc' : Locals) (hf : Full s loc) (hp : ∀ n, s.plain n → ∃ v, loc' n = some (.one v))
    (hn : ∀ n, ¬ s.plain n → loc' n = loc n) : Full s loc' := by
  have hA := apart s h
  constructor
  · intro q hq; exact hp _ (Or.inl (List.mem_map.2 ⟨q, hq, rfl⟩))
  · intro p hp'; exact hp _ (Or.inr (List.mem_map.2 ⟨p, hp', rfl⟩))
  · intro n hv
    obtain ⟨l, hl⟩ := hf.varPos n hv
    refine ⟨l, (hn n ?_).trans hl⟩
    rintro (h1 | h1)
    · exact (hA.varPos n hv).1 h1
    · exact (hA.varPos n hv).2.1 (Or.inr h1)
  · intro n hv
    obtain ⟨d, hd, hm⟩ := hf.varKw n hv
    refine ⟨d, (hn n ?_).trans hd, hm⟩
    rintro (h1 | h1)
    · exact (hA.varKw n hv).1 h1
    · exact (hA.varKw n hv).2 (Or.inr h1)
  · intro n hnn
    rw [hn n (fun hp' => hnn (plain_name s n hp')), hf.only n hnn]

theorem full_plain (s : Sig) (loc : Locals) (hf : Full s loc) (n : Nat) (h : s.plain n) : ∃ v, loc n = some (.one v) := by
  rcases h with h | h
  · obtain ⟨q, hq, rfl⟩ := List.mem_map.1 h; exact hf.positional q hq
  · obtain ⟨p, hp, rfl⟩ := List.mem_map.1 h; exact hf.kwOnly p hp

/-- **C83, transform_arguments** (partial: no keyword arguments, and the guard of C81). The function is called with the values of the expressions, which see the old arguments, and with the other arguments as they were. -/
theorem C83_transform_arguments_partial (E : Env) (exprs : Nat → Option (Locals → Nat)) (s : Sig) (h : s.Ok) (args : List Nat) (loc : Locals)
    (hb : Binds s args noKw loc) (hg : Guard s args) (he : ∀ n, exprs n ≠ none → s.plain n) :
    CalledWith s (transformArguments E exprs s args []) (fun n => match exprs n with | some e => some (.one (e loc)) | none => loc n) := by
  unfold transformArguments starBoth
  rw [List.map_nil, List.append_nil, C81_get_arguments_partial s h args noKw loc hb hg, Option.bind_some]
  have hfull := full_of_binds s args noKw loc hb
  have : Full s (evalAll exprs loc) := by
    apply full_change s h loc _ hfull
    · intro n hn
      unfold evalAll
      cases exprs n with
      | none => exact full_plain s loc hfull n hn
      | some e => exact ⟨_, rfl⟩
    · intro n hn
      unfold evalAll
      cases hx : exprs n with
      | none => rfl
      | some e => exact absurd (he n (by rw [hx]; simp)) hn
  exact call_full s h _ this

/-- **C83, transform_result** (partial, as above). The expression sees the arguments, and the result as `x`. -/
theorem C83_transform_result_partial (E : Env) (x : Nat) (expr : Locals → Nat) (s : Sig) (h : s.Ok) (args : List Nat) (loc : Locals) (r : Nat)
    (hb : Binds s args noKw loc) (hg : Guard s args) : transformResult E x expr s args [] r = some (expr (put loc x (.one r))) := by
  unfold transformResult starBoth
  rw [List.map_nil, List.append_nil, C81_get_arguments_partial s h args noKw loc hb hg]
  rfl

/-- **C83, violated for keyword arguments**: `transform_arguments(a='a + 1')` of a function of one parameter `a`, called as `f(a=y)`, calls it with the name of the parameter plus one, whatever `y` is. -/
theorem C83_keyword_violates (E : Env) (e : Locals → Nat) :
    ∃ c, transformArguments E (put (fun _ => none) 1 e) sigOne [] [1] = some c ∧ c.args = [e (put (fun _ => none) 1 (.one (E.nameVal 1)))] :=
  ⟨_, rfl, rfl⟩

/-- **C83, violated for keyword-only arguments**: `transform_result` of `f(*, a)`, called as `f(a=y)`, executes the function and then raises TypeError. -/
theorem C83_kwonly_violates (E : Env) (x : Nat) (expr : Locals → Nat) (r : Nat) : transformResult E x expr ⟨[], [], none, [(1, none)], none⟩ [] [1] r = none := rfl

/-- **C83, replace_argument_if** (partial: no predicate is given, and the guard of C81). The argument is replaced exactly if it is an instance of the type; all others stay. -/
theorem C83_replace_partial (name : Nat) (f : Nat → Nat) (inst : Nat → Bool) (s : Sig) (h : s.Ok) (args : List Nat) (kw : Kw) (loc : Locals) (v : Nat)
    (hb : Binds s args kw loc) (hg : Guard s args) (hp : s.plain name) (hv : loc name = some (.one v)) :
    CalledWith s (replaceIf name f inst none s args kw) (if inst v then put loc name (.one (f v)) else loc) := by
  unfold replaceIf
  rw [C81_get_arguments_partial s h args kw loc hb hg, Option.bind_some, hv]
  dsimp only
  cases inst v with
  | false => exact ⟨_, rfl, fun _ => rfl, hb⟩
  | true =>
    rw [if_pos rfl, if_pos rfl]
    refine call_full s h _ (full_change s h loc _ (full_of_binds s args kw loc hb) ?_ ?_)
    · intro n hn
      unfold put
      split
      · exact ⟨_, rfl⟩
      · exact full_plain s loc (full_of_binds s args kw loc hb) n hn
    · intro n hn
      exact if_neg (by rintro rfl; exact hn hp)

/-- **C83, violated: the predicate plays no role**. With a predicate that is never true the argument is replaced all the same. -/
theorem C83_predicate_violates (name : Nat) (f : Nat → Nat) (inst : Nat → Bool) (s : Sig) (h : s.Ok) (args : List Nat) (kw : Kw) (loc : Locals) (v : Nat)
    (hb : Binds s args kw loc) (hg : Guard s args) (hp : s.plain name) (hv : loc name = some (.one v)) :
    CalledWith s (replaceIf name f inst (some fun _ => false) s args kw) (put loc name (.one (f v))) := by
  unfold replaceIf
  rw [C81_get_arguments_partial s h args kw loc hb hg, Option.bind_some, hv]
  dsimp only
  refine call_full s h _ (full_change s h loc _ (full_of_binds s args kw loc hb) ?_ ?_)
  · intro n hn
    unfold put
    split
    · exact ⟨_, rfl⟩
    · exact full_plain s loc (full_of_binds s args kw loc hb) n hn
  · intro n hn
    exact if_neg (by rintro rfl; exact hn hp)

/-- **C83, attach_arguments**: the extra arguments follow those of the caller, and an attached keyword argument wins over that of the caller. -/
theorem C83_attach (extra : List Nat) (extraKw : Kw) (args : List Nat) (kw : Kw) :
    (∀ i, i < args.length → (attach extra extraKw args kw).args[i]? = args[i]?) ∧
    (∀ i, (attach extra extraKw args kw).args[args.length + i]? = extra[i]?) ∧
    (∀ n v, extraKw n = some v → (attach extra extraKw args kw).kw n = some v) ∧
    (∀ n, extraKw n = none → (attach extra extraKw args kw).kw n = kw n) := by
  refine ⟨?_, ?_, ?_, ?_⟩
  · intro i hi; exact List.getElem?_append_left hi
  · intro i
    show (args ++ extra)[args.length + i]? = _
    rw [List.getElem?_append_right (by omega)]; congr 1; omega
  · intro n v hv
    show (extraKw n).orElse (fun _ => kw n) = some v
    rw [hv]; rfl
  · intro n hn
    show (extraKw n).orElse (fun _ => kw n) = kw n
    rw [hn]; rfl

/-! ### for_argument: the operations -/

theorem posLoop_special (ps : List Param) (h : ∀ p ∈ ps, p.kind ≠ .varPos) : ∀ (args : List Nat) (L : Locals) (left : Nat → Bool),
    posLoop true ps args L left = posLoop false ps args L left := by
  induction ps with
  | nil => intro args L left; rfl
  | cons p ps ih =>
    intro args L left
    have ih' := ih (fun q hq => h q (List.mem_cons_of_mem _ hq))
    have hp := h p (List.mem_cons_self ..)
    rw [posLoop.eq_def, posLoop.eq_def false]
    dsimp only
    rw [if_neg (by simp), if_neg (by simp [hp])]
    cases args with
    | nil =>
      dsimp only
      cases p.default with
      | none => rfl
      | some d => exact ih' _ _ _
    | cons a args => exact ih' _ _ _

theorem kwLoop_special_frame (n : Nat) (ks : List Param) (hn : n ∉ ks.map Param.name) : ∀ (kw : Kw) (L : Locals), kwLoop true ks kw L n = L n := by
  induction ks with
  | nil => intro kw L; rfl
  | cons p ps ih =>
    intro kw L
    rw [List.map_cons, List.mem_cons, not_or] at hn
    rw [kwLoop, if_neg (by simp)]
    cases kw p.name with
    | some x => exact (ih hn.2 _ _).trans (if_neg hn.1)
    | none =>
      cases p.default with
      | some d => exact (ih hn.2 _ _).trans (if_neg hn.1)
      | none => exact (ih hn.2 _ _).trans (if_neg hn.1)

theorem kwLoop_special_get (ks : List Param) (hnd : (ks.map Param.name).Nodup) : ∀ (kw : Kw) (L : Locals) p, p ∈ ks →
    kwLoop true ks kw L p.name = kwValue kw p (some .none_) := by
  induction ks with
  | nil => intro kw L p hp; cases hp
  | cons q ps ih =>
    intro kw L p hp
    rw [List.map_cons, List.nodup_cons] at hnd
    rw [kwLoop, if_neg (by simp)]
    rcases List.mem_cons.1 hp with rfl | hp
    · unfold kwValue
      cases h1 : kw p.name with
      | some x => dsimp only; rw [kwLoop_special_frame _ _ hnd.1]; exact if_pos rfl
      | none =>
        dsimp only
        cases h2 : p.default with
        | some d => dsimp only; rw [kwLoop_special_frame _ _ hnd.1]; exact if_pos rfl
        | none => dsimp only; rw [if_pos rfl, kwLoop_special_frame _ _ hnd.1]; exact if_pos rfl
    · have hne : p.name ≠ q.name := fun e => hnd.1 (e ▸ List.mem_map.2 ⟨p, hp, rfl⟩)
      cases h1 : kw q.name with
      | some x =>
        dsimp only
        rw [ih hnd.2 _ _ p hp]
        unfold kwValue remove
        rw [if_neg hne]
      | none =>
        dsimp only
        cases h2 : q.default with
        | some d => exact ih hnd.2 _ _ p hp
        | none => rw [if_pos rfl]; exact ih hnd.2 _ _ p hp

theorem lastLoop_special (ps : List Param) : ∀ L : Locals, ∃ L', lastLoop true ps L = some L' ∧
    (∀ n x, L n = some x → L' n = some x) ∧ ∀ n, L n = none → L' n = none ∨ L' n = some .none_ := by
  induction ps with
  | nil => intro L; exact ⟨L, rfl, fun _ _ h => h, fun _ h => Or.inl h⟩
  | cons p ps ih =>
    intro L
    rw [lastLoop]
    cases hp : L p.name with
    | some x => exact ih L
    | none =>
      dsimp only
      rw [if_pos rfl]
      obtain ⟨L', h1, h2, h3⟩ := ih (put L p.name .none_)
      refine ⟨L', h1, ?_, ?_⟩
      · intro n x hx
        apply h2
        unfold put
        rw [if_neg]
        · exact hx
        · intro e; rw [e, hp] at hx; cases hx
      · intro n hn
        by_cases e : n = p.name
        · exact Or.inr (h2 n _ (by rw [e]; exact if_pos rfl))
        · exact h3 n (by unfold put; rw [if_neg e]; exact hn)

/-- what `_get_arguments` with the special behaviour gives for a parameter -/
theorem special_ops (E : Env) (s : Sig) (h : s.Ok) (hv : s.varPos = none) (hk : s.varKw = none) (ops : List Nat) (kwops : Kw) (hok : OpsOk E s ops kwops)
    (hd : ∀ p ∈ s.params, ∀ d, p.default = some d → E.apply d = none) :
    ∃ o, getArguments' true s ops kwops = some o ∧
      (∀ n f, IsOp s ops kwops n f → s.plain n → o n = some (.one f)) ∧
      (∀ n, (∀ f, ¬ IsOp s ops kwops n f) → ∀ v, applyOp E (o n) v = v) := by
  have hA := apart s h
  have ePos : afterPos true s ops = afterPos false s ops := by
    unfold afterPos
    apply posLoop_special
    intro p hp
    rw [filter_positional, hv, show star .varPos none = [] from rfl, List.append_nil] at hp
    obtain ⟨q, _, rfl⟩ := List.mem_map.1 hp
    exact toParam_kind q
  have eks : s.params.filter (fun p => p.kind.keyword && (afterPos true s ops).2 p.name) = ks s ops := by
    rw [ePos, filter_keyword s _ (by intro n e; rw [hk] at e; cases e), hk, show star .varKw none = [] from rfl, List.append_nil]
    rfl
  obtain ⟨L', h1, h2, h3⟩ := lastLoop_special s.params (kwLoop true (ks s ops) kwops (afterPos false s ops).1)
  refine ⟨L', ?_, ?_, ?_⟩
  · unfold getArguments'
    rw [eks, ePos, h1]
  · intro n f hop hpl
    apply h2
    -- a parameter given by keyword
    have hkw : ∀ p : Param, p ∈ kwParams s → (afterPos false s ops).2 p.name = true → kwops p.name = some f →
        kwLoop true (ks s ops) kwops (afterPos false s ops).1 p.name = some (.one f) := by
      intro p hp hl hf
      rw [kwLoop_special_get _ (ks_nodup s h ops) kwops _ p (List.mem_filter.2 ⟨hp, hl⟩)]
      unfold kwValue
      rw [hf]
    cases hop with
    | pos i q f hq hf =>
      obtain ⟨h4, h5⟩ := posLoop_arg s.varPos s.positional hA.pos (fun n e => (hA.varPos n e).1) ops (fun _ => none)
        (fun n => decide (n ∈ s.names)) i q f hq hf
      rw [← afterPos_eq] at h4 h5
      rw [kwLoop_special_frame, h4]
      intro hm
      rw [(ks_keywordable s ops _ hm).2] at h5
      cases h5
    | kw n f hf =>
      rcases hok.known n (by rw [hf]; simp) with hkb | hkb
      · obtain ⟨p, hp, rfl⟩ := List.mem_map.1 hkb
        have hm := pos_mem_positional s p hp
        obtain ⟨i, hi⟩ := List.mem_iff_getElem?.1 hm
        have hl : ops.length ≤ i := by
          refine Classical.byContradiction fun hc => ?_
          have := hok.once i _ hi (by omega)
          dsimp only at this
          rw [this] at hf; cases hf
        refine hkw (toParam (p, true)) (positional_kwParam s _ hm rfl) ?_ hf
        have := (posLoop_noarg s.varPos s.positional hA.pos (fun n e => (hA.varPos n e).1) ops (fun _ => none)
          (fun n => decide (n ∈ s.names)) i _ hi hl).1
        rw [← afterPos_eq] at this
        show (afterPos false s ops).2 p.1 = true
        rw [show p.1 = ((p, true) : (Nat × Option Nat) × Bool).1.1 from rfl, this]
        simp [positional_name s _ hm]
      · obtain ⟨p, hp, rfl⟩ := List.mem_map.1 hkb
        exact hkw ⟨p.1, .kwOnly, p.2⟩ (kwOnly_kwParam s p hp) (left_true s ops _ (hA.kwOnly p hp).1 (kwOnly_name s p hp)) hf
  · intro n hno v
    -- what is there is a default, None, or nothing
    have key : ∀ x, kwLoop true (ks s ops) kwops (afterPos false s ops).1 n = some x → x = .none_ ∨ ∃ d, x = .one d ∧ E.apply d = none := by
      intro x hx
      have hkn : kwops n = none := by
        cases hc : kwops n with
        | none => rfl
        | some f => exact absurd (IsOp.kw n f hc) (hno f)
      by_cases hm : n ∈ (ks s ops).map Param.name
      · obtain ⟨p, hp, rfl⟩ := List.mem_map.1 hm
        rw [kwLoop_special_get _ (ks_nodup s h ops) kwops _ p hp] at hx
        unfold kwValue at hx
        rw [hkn] at hx
        dsimp only at hx
        cases hpd : p.default with
        | none => rw [hpd] at hx; injection hx with hx; exact Or.inl hx.symm
        | some d =>
          rw [hpd] at hx
          injection hx with hx
          refine Or.inr ⟨d, hx.symm, hd p ?_ d hpd⟩
          have hp' := (List.mem_filter.1 hp).1
          unfold kwParams at hp'
          unfold Sig.params
          rcases List.mem_append.1 hp' with h4 | h4
          · exact List.mem_append_right _ (List.mem_append_left _ h4)
          · exact List.mem_append_right _ (List.mem_append_right _ (List.mem_append_right _ (List.mem_append_left _ h4)))
      · rw [kwLoop_special_frame n _ hm] at hx
        by_cases hpos : n ∈ s.positional.map (·.1.1)
        · obtain ⟨q, hq, rfl⟩ := List.mem_map.1 hpos
          obtain ⟨i, hi⟩ := List.mem_iff_getElem?.1 hq
          have hl : ops.length ≤ i := by
            refine Classical.byContradiction fun hc => ?_
            exact hno ops[i] (IsOp.pos i q _ hi (List.getElem?_eq_getElem (by omega)))
          obtain ⟨_, h5, h6⟩ := posLoop_noarg s.varPos s.positional hA.pos (fun n e => (hA.varPos n e).1) ops (fun _ => none)
            (fun n => decide (n ∈ s.names)) i q hi hl
          rw [← afterPos_eq] at h5 h6
          cases hqd : q.1.2 with
          | none => rw [h5 hqd] at hx; cases hx
          | some d =>
            -- whether or not the loop got there
            have h7 : (afterPos false s ops).1 q.1.1 = some (.one d) ∨ (afterPos false s ops).1 q.1.1 = none := by
              rw [afterPos_eq]
              exact posLoop_default s.varPos s.positional hA.pos (fun n e => (hA.varPos n e).1) ops (fun _ => none) _ i q hi hl d hqd
            rcases h7 with h7 | h7
            · rw [h7] at hx
              injection hx with hx
              exact Or.inr ⟨d, hx.symm, hd (toParam q) (positional_param s q hq) d hqd⟩
            · rw [h7] at hx; cases hx
        · rw [afterPos_eq, (posLoop_frame s.varPos n s.positional ops _ _ hpos).2 (by rw [hv]; simp)] at hx
          cases hx
    have key2 : L' n = none ∨ L' n = some .none_ ∨ ∃ d, L' n = some (.one d) ∧ E.apply d = none := by
      cases hL : kwLoop true (ks s ops) kwops (afterPos false s ops).1 n with
      | none =>
        rcases h3 n hL with h4 | h4
        · exact Or.inl h4
        · exact Or.inr (Or.inl h4)
      | some x =>
        have := h2 n x hL
        rcases key x hL with rfl | ⟨d, rfl, hdn⟩
        · exact Or.inr (Or.inl this)
        · exact Or.inr (Or.inr ⟨d, this, hdn⟩)
    rcases key2 with h4 | h4 | ⟨d, h4, h5⟩
    · rw [h4]; cases v <;> rfl
    · rw [h4]; cases v <;> rfl
    · rw [h4]; cases v <;> simp [applyOp, h5]

theorem applyOp_one (E : Env) (o : Option Bound) (v : Nat) : ∃ w, applyOp E o (.one v) = .one w := by
  unfold applyOp
  split
  · split <;> exact ⟨_, rfl⟩
  · exact ⟨_, rfl⟩

theorem plain_of_name (s : Sig) (hv : s.varPos = none) (hk : s.varKw = none) (n : Nat) (h : n ∈ s.names) : s.plain n := by
  rcases name_cases s n h with ⟨i, q, hq, rfl⟩ | h | ⟨p, hp, rfl⟩ | h
  · exact Or.inl (List.mem_map.2 ⟨q, List.mem_of_getElem? hq, rfl⟩)
  · rw [hv] at h; cases h
  · exact Or.inr (List.mem_map.2 ⟨p, hp, rfl⟩)
  · rw [hk] at h; cases h

/-! ### for_argument: the faster implementation -/

theorem same_place (s : Sig) (h : s.Ok) (i j : Nat) (p q : (Nat × Option Nat) × Bool) (hp : s.positional[i]? = some p) (hq : s.positional[j]? = some q)
    (e : p.1.1 = q.1.1) : i = j := by
  have hnd := (apart s h).pos
  have h1 : (s.positional.map (·.1.1))[i]? = some p.1.1 := by rw [List.getElem?_map, hp]; rfl
  have h2 : (s.positional.map (·.1.1))[j]? = some p.1.1 := by rw [List.getElem?_map, hq, e]; rfl
  have hi : i < (s.positional.map (·.1.1)).length := (List.getElem?_eq_some_iff.1 h1).1
  exact (List.getElem?_inj hi hnd).1 (h1.trans h2.symm)

theorem isOp_unique (E : Env) (s : Sig) (h : s.Ok) (ops : List Nat) (kwops : Kw) (hok : OpsOk E s ops kwops) (n f g : Nat)
    (hf : IsOp s ops kwops n f) (hg : IsOp s ops kwops n g) : f = g := by
  have once : ∀ (i : Nat) (q : (Nat × Option Nat) × Bool) (f g : Nat), s.positional[i]? = some q → ops[i]? = some f → kwops q.1.1 = some g → False := by
    intro i q f g hq hf hg
    rw [hok.once i q hq (List.getElem?_eq_some_iff.1 hf).1] at hg
    cases hg
  cases hf with
  | pos i q f hq hf =>
    generalize hn : q.1.1 = n at hg
    cases hg with
    | pos j q' g hq' hg =>
      have := same_place s h i j q q' hq hq' hn
      subst this
      rw [hf] at hg
      injection hg
    | kw n g hg => exact (once i q f g hq hf (hn ▸ hg)).elim
  | kw n f hf =>
    cases hg with
    | pos j q' g hq' hg => exact (once j q' g f hq' hg hf).elim
    | kw n g hg => rw [hf] at hg; injection hg

theorem fastArgs_spec (E : Env) : ∀ (args ops : List Nat), (∀ f ∈ ops, E.apply f ≠ none) →
    ∃ xs, fastArgs E args ops = some xs ∧ xs.length = args.length ∧ ∀ (i : Nat) a, args[i]? = some a → ∃ x, xs[i]? = some x ∧ fastOp E ops[i]? a = some x := by
  intro args
  induction args with
  | nil => intro ops _; exact ⟨[], rfl, rfl, by intro i a h; cases h⟩
  | cons b args ih =>
    intro ops hc
    obtain ⟨xs, h1, h2, h3⟩ := ih ops.tail (fun f hf => hc f (List.mem_of_mem_tail hf))
    obtain ⟨x, hx⟩ : ∃ x, fastOp E ops.head? b = some x := by
      unfold fastOp
      cases ho : ops.head? with
      | none => exact ⟨b, rfl⟩
      | some f =>
        dsimp only
        cases hf : E.apply f with
        | none => exact absurd hf (hc f (List.mem_of_head? ho))
        | some g => exact ⟨g b, rfl⟩
    refine ⟨x :: xs, ?_, by simp [h2], ?_⟩
    · rw [fastArgs, hx, h1]
    · intro i a ha
      cases i with
      | zero =>
        injection ha with ha
        subst ha
        refine ⟨x, rfl, ?_⟩
        rw [← hx, List.head?_eq_getElem?]
      | succ i =>
        obtain ⟨y, h4, h5⟩ := h3 i a ha
        refine ⟨y, h4, ?_⟩
        rw [← h5, List.getElem?_tail]

theorem fastOp_callable (E : Env) (o : Option Nat) (v : Nat) (h : ∀ f, o = some f → E.apply f ≠ none) : ∃ x, fastOp E o v = some x := by
  unfold fastOp
  cases o with
  | none => exact ⟨v, rfl⟩
  | some f =>
    dsimp only
    cases hf : E.apply f with
    | none => exact absurd hf (h f rfl)
    | some g => exact ⟨g v, rfl⟩

open Classical in
/-- the local variables after their operations -/
noncomputable def opLocals (E : Env) (s : Sig) (ops : List Nat) (kwops : Kw) (loc : Locals) : Locals := fun n =>
  if h : ∃ f, IsOp s ops kwops n f then (loc n).map (applyOp E (some (.one (choose h)))) else loc n

theorem opLocals_op (E : Env) (s : Sig) (h : s.Ok) (ops : List Nat) (kwops : Kw) (hok : OpsOk E s ops kwops) (loc : Locals) (n f v : Nat)
    (hf : IsOp s ops kwops n f) (hv : loc n = some (.one v)) (x : Nat) (hx : fastOp E (some f) v = some x) : opLocals E s ops kwops loc n = some (.one x) := by
  unfold opLocals
  have hex : ∃ f, IsOp s ops kwops n f := ⟨f, hf⟩
  rw [dif_pos hex, hv, isOp_unique E s h ops kwops hok n _ f (Classical.choose_spec hex) hf]
  simp only [fastOp] at hx
  simp only [Option.map_some, applyOp]
  cases hg : E.apply f with
  | none => rw [hg] at hx; cases hx
  | some g => rw [hg] at hx; injection hx with hx; rw [← hx]

theorem opLocals_noOp (E : Env) (s : Sig) (ops : List Nat) (kwops : Kw) (loc : Locals) (n : Nat) (hno : ∀ f, ¬ IsOp s ops kwops n f) :
    opLocals E s ops kwops loc n = loc n := by
  unfold opLocals
  rw [dif_neg (fun ⟨f, hf⟩ => hno f hf)]

theorem noDefault (s : Sig) (h : hasDefault s = false) (p : Param) (hp : p ∈ s.params) : p.default = none := by
  unfold hasDefault at h
  rw [List.any_eq_false] at h
  have := h p hp
  simpa using this

/-- **C83, for_argument** (partial: no starred parameters; default values are not callable; if there are no default values, the arguments are given the way the operations are). The function is called with every argument, and every
  default value, passed through its operation, and with all others as they were. -/
theorem C83_for_argument_partial (E : Env) (ops : List Nat) (kwops : Kw) (s : Sig) (h : s.Ok) (hv : s.varPos = none) (hk : s.varKw = none)
    (hok : OpsOk E s ops kwops) (args : List Nat) (kw : Kw) (loc : Locals) (hb : Binds s args kw loc) (hg : ForGuard E s ops kwops args kw) :
    ∃ loc', CalledWith s (forArgument E ops kwops s args kw) loc' ∧ Through E s ops kwops loc loc' := by
  have hA := apart s h
  cases hdef : hasDefault s with
  | true =>
    obtain ⟨o, h1, h2, h3⟩ := special_ops E s h hv hk ops kwops hok (hg.1 hdef)
    refine ⟨applyAll E o loc, ?_, ?_, ?_⟩
    · unfold forArgument
      rw [if_pos hdef, h1, C81_get_arguments_partial s h args kw loc hb (Or.inl hv)]
      refine call_full s h _ (full_change s h loc _ (full_of_binds s args kw loc hb) ?_ ?_)
      · intro n hn
        obtain ⟨v, hvn⟩ := full_plain s loc (full_of_binds s args kw loc hb) n hn
        obtain ⟨w, hw⟩ := applyOp_one E (o n) v
        exact ⟨w, by simp only [applyAll, hvn, hw]⟩
      · intro n hn
        have : loc n = none := by
          apply hb.only
          intro hname
          exact hn (plain_of_name s hv hk n hname)
        simp only [applyAll, this]
    · intro n f g v hop hfg hvn
      have hname : n ∈ s.names := by
        refine Classical.byContradiction fun hc => ?_
        rw [hb.only n hc] at hvn; cases hvn
      have := h2 n f hop (plain_of_name s hv hk n hname)
      simp only [applyAll, hvn, this, applyOp, hfg]
    · intro n hno
      unfold applyAll
      cases hl : loc n with
      | none => rfl
      | some v => dsimp only; rw [h3 n hno]
  | false =>
    obtain ⟨hlen, hkwg⟩ := hg.2 hdef
    have hcall : ∀ f ∈ ops, E.apply f ≠ none := by
      intro f hf
      obtain ⟨i, hi⟩ := List.mem_iff_getElem?.1 hf
      have hlt : i < s.positional.length := Nat.lt_of_lt_of_le (List.getElem?_eq_some_iff.1 hi).1 hok.few
      exact hok.callable _ f (IsOp.pos i _ f (List.getElem?_eq_getElem hlt) hi)
    obtain ⟨xs, h1, h2, h3⟩ := fastArgs_spec E args ops hcall
    have hkwop : ∀ n v, ∃ x, fastOp E (kwops n) v = some x := fun n v => fastOp_callable E _ v (fun f hf => hok.callable n f (IsOp.kw n f hf))
    -- a keyword argument of a parameter that has no operation at its place
    have hkey : ∀ n v x, loc n = some (.one v) → (∀ f, IsOp s ops kwops n f → kwops n = some f) → fastOp E (kwops n) v = some x →
        opLocals E s ops kwops loc n = some (.one x) := by
      intro n v x hl hop hx
      cases hkn : kwops n with
      | none =>
        rw [hkn] at hx
        injection hx with hx
        rw [opLocals_noOp, hl, hx]
        intro f hf
        have := hop f hf
        rw [hkn] at this; cases this
      | some f =>
        rw [hkn] at hx
        exact opLocals_op E s h ops kwops hok loc n f v (IsOp.kw n f hkn) hl x hx
    refine ⟨opLocals E s ops kwops loc, ⟨⟨xs, fun n => match kw n with | some v => fastOp E (kwops n) v | none => none, fun _ => none⟩, ?_, fun _ => rfl, ?_⟩, ?_, ?_⟩
    · unfold forArgument
      rw [if_neg (by rw [hdef]; simp), if_neg (by omega), h1]
    · constructor
      · intro i q hq
        have hm := List.mem_of_getElem? hq
        obtain ⟨v, hgv, hl⟩ := hb.positional i q hq
        rcases hgv with hgv | ⟨hle, hq2, hgv⟩ | ⟨_, _, hgv⟩
        · obtain ⟨x, h4, h5⟩ := h3 i v hgv
          refine ⟨x, Or.inl h4, ?_⟩
          cases hoi : ops[i]? with
          | some f =>
            rw [hoi] at h5
            exact opLocals_op E s h ops kwops hok loc _ f v (IsOp.pos i q f hq hoi) hl x h5
          | none =>
            rw [hoi] at h5
            injection h5 with h5
            rw [opLocals_noOp, hl, h5]
            intro f hf
            generalize hn : q.1.1 = n at hf
            cases hf with
            | pos j q' f hq' hf =>
              have := same_place s h i j q q' hq hq' hn
              subst this
              rw [hoi] at hf; cases hf
            | kw n f hf =>
              subst hn
              have hkb := hok.known q.1.1 (by rw [hf]; simp)
              have hq2 : q.2 = true := by
                cases hc : q.2 with
                | true => rfl
                | false => exact absurd hkb (hA.posOnly q hm hc)
              exact hkwg q.1.1 (by rw [hf]; simp) (hb.notTwice i q hq (List.getElem?_eq_some_iff.1 hgv).1 hq2)
        · obtain ⟨x, hx⟩ := hkwop q.1.1 v
          refine ⟨x, Or.inr (Or.inl ⟨by dsimp only; omega, hq2, by dsimp only; rw [hgv]; exact hx⟩), hkey q.1.1 v x hl ?_ hx⟩
          intro f hf
          generalize hn : q.1.1 = n at hf
          cases hf with
          | pos j q' f hq' hf =>
            have := same_place s h i j q q' hq hq' hn
            subst this
            have := (List.getElem?_eq_some_iff.1 hf).1
            omega
          | kw n f hf => exact hf
        · have := noDefault s hdef (toParam q) (positional_param s q hm)
          rw [show (toParam q).default = q.1.2 from rfl, hgv] at this
          cases this
      · intro i q hq hi hq2
        dsimp only at hi ⊢
        rw [hb.notTwice i q hq (by omega) hq2]
      · intro _
        have := hb.notTooMany hv
        dsimp only
        omega
      · intro n e; rw [hv] at e; cases e
      · intro p hp
        obtain ⟨v, hgv, hl⟩ := hb.kwOnly p hp
        rcases hgv with hgv | ⟨_, hgv⟩
        · obtain ⟨x, hx⟩ := hkwop p.1 v
          refine ⟨x, Or.inl (by dsimp only; rw [hgv]; exact hx), hkey p.1 v x hl ?_ hx⟩
          intro f hf
          generalize hn : p.1 = n at hf
          cases hf with
          | pos j q' f hq' hf =>
            exact ((hA.kwOnly p hp).1 (hn ▸ List.mem_map.2 ⟨q', List.mem_of_getElem? hq', rfl⟩)).elim
          | kw n f hf => exact hf
        · have := noDefault s hdef ⟨p.1, .kwOnly, p.2⟩ (kwOnly_param s p hp)
          dsimp only at this
          rw [hgv] at this; cases this
      · intro _ n hn
        apply hb.expected hk n
        intro e
        apply hn
        dsimp only
        rw [e]
      · intro n e; rw [hk] at e; cases e
      · intro n hn
        unfold opLocals
        split
        · rw [hb.only n hn]; rfl
        · exact hb.only n hn
    · intro n f g v hop hfg hl
      exact opLocals_op E s h ops kwops hok loc n f v hop hl (g v) (by simp [fastOp, hfg])
    · intro n hno
      exact opLocals_noOp E s ops kwops loc n hno

/-- values 5 and 6 are callable -/
def envTwo (f g : Nat → Nat) : Env := ⟨id, fun n => if n = 5 then some f else if n = 6 then some g else none⟩

/-- **C83, violated by a callable default**: for `f(a, b=c)` with `c` callable, `for_argument(op)` calls `c` on the second argument, although there is no operation for it. -/
theorem C83_callable_default_violates (f g : Nat → Nat) (x y : Nat) :
    ∃ r, forArgument (envTwo f g) [5] noKw ⟨[], [(1, none), (2, some 6)], none, [], none⟩ [x, y] noKw = some r ∧ r.args = [f x, g y] :=
  ⟨_, rfl, rfl⟩

/-- **C83, violated for an argument given by position**: for a function `f(a)` without default values, `for_argument(a=op)` does not apply the operation to the argument of `f(x)`. -/
theorem C83_positional_violates (E : Env) (op x : Nat) :
    ∃ r, forArgument E [] (put noKw 1 op) sigOne [x] noKw = some r ∧ r.args = [x] := ⟨_, rfl, rfl⟩

/-- **C83, violated for an argument given by name**: for a function `f(a)` without default values, `for_argument(op)` makes `f(a=x)` raise. -/
theorem C83_by_name_violates (E : Env) (op x : Nat) : forArgument E [op] noKw sigOne [] (put noKw 1 x) = none := rfl

/-! Cases that meet the hypotheses -/

/-- `f(a, b=7, *, c=8)` -/
def forSig : Sig := ⟨[], [(1, none), (2, some 7)], none, [(3, some 8)], none⟩

def forEnv : Env := envTwo (· + 100) (· + 200)

example : forSig.Ok := by unfold Sig.Ok; decide
example : OpsOk forEnv forSig [5] (put noKw 3 6) := by
  constructor
  · decide
  · intro n hn
    by_cases e : n = 3
    · subst e; exact Or.inr (List.mem_singleton.2 rfl)
    · exact absurd (if_neg e) hn
  · intro i q hq hi
    match i, hq, hi with
    | 0, hq, _ => cases hq; rfl
  · intro n f hf
    cases hf with
    | pos i q f hq hf =>
      match i, hf with
      | 0, hf => cases hf; simp [forEnv, envTwo]
    | kw n f hf =>
      unfold put at hf
      split at hf
      · cases hf; simp [forEnv, envTwo]
      · cases hf
example : ForGuard forEnv forSig [5] (put noKw 3 6) [1] noKw := by
  constructor
  · intro _ p hp d hd
    simp [forSig, Sig.params, params, star] at hp
    rcases hp with rfl | rfl | rfl
    · cases hd
    · cases hd; rfl
    · cases hd; rfl
  · intro h; cases h
/-- called as `f(1)`: the default values go through their operations too -/
example : ∃ r, forArgument forEnv [5] (put noKw 3 6) forSig [1] noKw = some r ∧ r.args = [101, 7] ∧ r.kw 3 = some 208 := ⟨_, rfl, rfl, rfl⟩
/-- the faster implementation, `f(a, b)` called as `f(1, b=2)` -/
example : ∃ r, forArgument forEnv [5] (put noKw 2 6) ⟨[], [(1, none), (2, none)], none, [], none⟩ [1] (put noKw 2 2) = some r ∧ r.args = [101] ∧ r.kw 2 = some 202 :=
  ⟨_, rfl, rfl, rfl⟩
/-- `transform_arguments(b='a + b')` of the function of `exampleSig`, called without keyword-only arguments `f(a, b)` -/
example : ∃ c, transformArguments forEnv (put (fun _ => none) 2 (fun l => valOf l 1 + valOf l 2)) ⟨[], [(1, none), (2, none)], none, [], none⟩ [10, 20] [] = some c ∧
    c.args = [10, 30] := ⟨_, rfl, rfl⟩
example : ∃ c, replaceIf 1 (· + 1) (· == 10) none sigOne [10] noKw = some c ∧ c.args = [11] := ⟨_, rfl, rfl⟩
example : ∃ c, replaceIf 1 (· + 1) (· == 10) none sigOne [9] noKw = some c ∧ c.args = [9] := ⟨_, rfl, rfl⟩

end Verif.Args
