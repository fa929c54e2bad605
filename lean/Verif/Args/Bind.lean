/-!
# Model of get_arguments and call_with_arguments (satella/coding/misc.py), C81, C82

Names of parameters and values are numbers.  Dictionaries are functions that give `none` where there is no key; the order of keys plays no role.
The signature of a function is what `inspect.signature` gives: for a bound method it has no `self`.
-/
namespace Verif.Args

/-- `Parameter.kind`.  (Part of the model of `_get_arguments`, /repo/satella/coding/misc.py:276-341.) -/
inductive Kind where
  | posOnly
  | posOrKw
  | varPos
  | kwOnly
  | varKw
  deriving DecidableEq, Repr

/-- a parameter; `default` is `none` for `Parameter.empty`.  (Part of the model of `_get_arguments`, /repo/satella/coding/misc.py:276-341.) -/
structure Param where
  name : Nat
  kind : Kind
  default : Option Nat
  deriving DecidableEq, Repr

/-- a dictionary of arguments.  (Part of the model of `_get_arguments`, /repo/satella/coding/misc.py:276-341.) -/
abbrev Kw := Nat → Option Nat

/-- what a local variable holds: a value, the tuple of the other positional arguments, the dictionary of the other keyword arguments, or None put there by `_get_arguments`.  (Part of the model of `_get_arguments`, /repo/satella/coding/misc.py:276-341.) -/
inductive Bound where
  | one (v : Nat)
  | many (l : List Nat)
  | kws (d : Kw)
  | none_

/-- the local variables.  (Part of the model of `_get_arguments`, /repo/satella/coding/misc.py:276-341.) -/
abbrev Locals := Nat → Option Bound

/-- assignment to a key.  (Part of the model of `_get_arguments`, /repo/satella/coding/misc.py:276-341.) -/
def put {α : Type} (f : Nat → Option α) (n : Nat) (x : α) : Nat → Option α := fun m => if m = n then some x else f m

/-- removal of a key.  (Part of the model of `_get_arguments`, /repo/satella/coding/misc.py:276-341.) -/
def remove {α : Type} (f : Nat → Option α) (n : Nat) : Nat → Option α := fun m => if m = n then none else f m

/-- a signature, in the order that Python demands.  (Part of the model of `_get_arguments`, /repo/satella/coding/misc.py:276-341.) -/
structure Sig where
  posOnly : List (Nat × Option Nat)
  pos : List (Nat × Option Nat)
  varPos : Option Nat
  kwOnly : List (Nat × Option Nat)
  varKw : Option Nat

/-- parameters of a kind.  (Part of the model of `_get_arguments`, /repo/satella/coding/misc.py:276-341.) -/
def params (k : Kind) (l : List (Nat × Option Nat)) : List Param := l.map (fun p => ⟨p.1, k, p.2⟩)

/-- the parameter with a star, or with two.  (Part of the model of `_get_arguments`, /repo/satella/coding/misc.py:276-341.) -/
def star (k : Kind) (n : Option Nat) : List Param :=
  match n with
  | some n => [⟨n, k, none⟩]
  | none => []

/-- `signature(function).parameters.values()`.  (Part of the model of `_get_arguments`, /repo/satella/coding/misc.py:276-341.) -/
def Sig.params (s : Sig) : List Param :=
  Args.params .posOnly s.posOnly ++ (Args.params .posOrKw s.pos ++ (star .varPos s.varPos ++ (Args.params .kwOnly s.kwOnly ++ star .varKw s.varKw)))

/-! ## get_arguments -/

/-- part of the model of `_get_arguments`, /repo/satella/coding/misc.py:276-341 -/
def Kind.positional : Kind → Bool
  | .posOnly | .posOrKw | .varPos => true
  | _ => false

/-- part of the model of `_get_arguments`, /repo/satella/coding/misc.py:276-341 -/
def Kind.keyword : Kind → Bool
  | .posOrKw | .kwOnly | .varKw => true
  | _ => false

/-- the loop over `positionals`, /repo/satella/coding/misc.py:290-307; `left` is `arguments_left` -/
def posLoop (special : Bool) : List Param → List Nat → Locals → (Nat → Bool) → Locals × (Nat → Bool)
  | [], _, L, left => (L, left)
  | p :: ps, args, L, left =>
    if p.kind = .varPos ∧ special = false then posLoop special ps args (put L p.name (.many args)) left
    else match args with
      | a :: args => posLoop special ps args (put L p.name (.one a)) (fun n => if n = p.name then false else left n)
      | [] =>
        match p.default with
        | none => (L, left)
        | some d => posLoop special ps [] (put L p.name (.one d)) left

/-- the loop over `keywords`, /repo/satella/coding/misc.py:314-332 -/
def kwLoop (special : Bool) : List Param → Kw → Locals → Locals
  | [], _, L => L
  | p :: ps, kw, L =>
    if p.kind = .varKw ∧ special = false then kwLoop special ps kw (put L p.name (.kws kw))
    else match kw p.name with
      | some v => kwLoop special ps (remove kw p.name) (put L p.name (.one v))
      | none =>
        match p.default with
        | some d => kwLoop special ps kw (put L p.name (.one d))
        | none => if special then kwLoop special ps kw (put L p.name .none_) else kwLoop special ps kw L

/-- the last loop, /repo/satella/coding/misc.py:334-341: `none` for TypeError -/
def lastLoop (special : Bool) : List Param → Locals → Option Locals
  | [], L => some L
  | p :: ps, L =>
    match L p.name with
    | some _ => lastLoop special ps L
    | none => if special then lastLoop special ps (put L p.name .none_) else none

/-- the state after the first loop.  (Part of the model of `_get_arguments`, /repo/satella/coding/misc.py:276-341.) -/
def afterPos (special : Bool) (s : Sig) (args : List Nat) : Locals × (Nat → Bool) :=
  posLoop special (s.params.filter (fun p => p.kind.positional)) args (fun _ => none) (fun n => decide (n ∈ s.params.map Param.name))

/-- `_get_arguments`, /repo/satella/coding/misc.py:276-341 -/
def getArguments' (special : Bool) (s : Sig) (args : List Nat) (kw : Kw) : Option Locals :=
  lastLoop special s.params
    (kwLoop special (s.params.filter (fun p => p.kind.keyword && (afterPos special s args).2 p.name)) kw (afterPos special s args).1)

/-- `get_arguments`, /repo/satella/coding/misc.py:257-272; `none` for TypeError -/
def getArguments (s : Sig) (args : List Nat) (kw : Kw) : Option Locals := getArguments' false s args kw

/-! ## call_with_arguments -/

/-- positional and keyword arguments of a call, and what is left of the dictionary.  (Part of the model of `call_with_arguments`, /repo/satella/coding/misc.py:344-384.) -/
structure Call where
  args : List Nat
  kw : Kw
  rest : Locals

/-- `dict.update`.  (Part of the model of `call_with_arguments`, /repo/satella/coding/misc.py:344-384.) -/
def update (a b : Kw) : Kw := fun n => (b n).orElse (fun _ => a n)

/-- the loop of `call_with_arguments`, /repo/satella/coding/misc.py:358-379; `none` for TypeError.  A value of the wrong kind (a number where a tuple is expected) is a TypeError too. -/
def callLoop : List Param → Call → Option Call
  | [], c => some c
  | p :: ps, c =>
    match c.rest p.name with
    | none =>
      if p.kind = .varKw ∨ p.kind = .varPos then callLoop ps c
      else if p.default = none then none else callLoop ps c
    | some b =>
      match p.kind, b with
      | .posOnly, .one v => callLoop ps ⟨c.args ++ [v], c.kw, remove c.rest p.name⟩
      | .posOrKw, .one v => callLoop ps ⟨c.args ++ [v], c.kw, remove c.rest p.name⟩
      | .varPos, .many l => callLoop ps ⟨c.args ++ l, c.kw, remove c.rest p.name⟩
      | .kwOnly, .one v => callLoop ps ⟨c.args, put c.kw p.name v, remove c.rest p.name⟩
      | .varKw, .kws d => callLoop ps ⟨c.args, update c.kw d, remove c.rest p.name⟩
      | _, _ => none

/-- the arguments that the function is called with by `call_with_arguments`, /repo/satella/coding/misc.py:344-384, if nothing is left over (ValueError otherwise) -/
def callWith (s : Sig) (arguments : Locals) : Option Call := callLoop s.params ⟨[], fun _ => none, arguments⟩

/-! ## Specification: how Python binds arguments -/

/-- the positional parameters, with whether they can be given by keyword -/
def Sig.positional (s : Sig) : List ((Nat × Option Nat) × Bool) := s.posOnly.map (fun p => (p, false)) ++ s.pos.map (fun p => (p, true))

/-- the name can be given by keyword -/
def Sig.keywordable (s : Sig) (n : Nat) : Prop := n ∈ s.pos.map Prod.fst ∨ n ∈ s.kwOnly.map Prod.fst

/-- all names -/
def Sig.names (s : Sig) : List Nat := s.params.map Param.name

/-- the value that the positional parameter at the place `i` gets: the argument at this place, or else the keyword argument, or else the default -/
def Given (args : List Nat) (kw : Kw) (i : Nat) (p : (Nat × Option Nat) × Bool) (v : Nat) : Prop :=
  args[i]? = some v ∨ (args.length ≤ i ∧ p.2 = true ∧ kw p.1.1 = some v) ∨ (args.length ≤ i ∧ (p.2 = false ∨ kw p.1.1 = none) ∧ p.1.2 = some v)

/-- A call with these arguments is possible, and in the function the local variables are these. -/
structure Binds (s : Sig) (args : List Nat) (kw : Kw) (loc : Locals) : Prop where
  positional : ∀ (i : Nat) p, s.positional[i]? = some p → ∃ v, Given args kw i p v ∧ loc p.1.1 = some (.one v)
  notTwice : ∀ (i : Nat) p, s.positional[i]? = some p → i < args.length → p.2 = true → kw p.1.1 = none
  notTooMany : s.varPos = none → args.length ≤ s.positional.length
  varPos : ∀ n, s.varPos = some n → loc n = some (.many (args.drop s.positional.length))
  kwOnly : ∀ p ∈ s.kwOnly, ∃ v, (kw p.1 = some v ∨ (kw p.1 = none ∧ p.2 = some v)) ∧ loc p.1 = some (.one v)
  expected : s.varKw = none → ∀ n, kw n ≠ none → s.keywordable n
  varKw : ∀ n, s.varKw = some n → ∃ d : Kw, loc n = some (.kws d) ∧ ∀ m, (s.keywordable m → d m = none) ∧ (¬ s.keywordable m → d m = kw m)
  only : ∀ n, n ∉ s.names → loc n = none

/-- the names of the parameters are different -/
def Sig.Ok (s : Sig) : Prop := s.names.Nodup

/-- the guard of the partial theorem: there is no starred parameter, or no parameter before it that has no default is given by keyword -/
def Guard (s : Sig) (args : List Nat) : Prop := s.varPos = none ∨ ∀ (i : Nat) p, s.positional[i]? = some p → args.length ≤ i → p.1.2 ≠ none

/-- `loc` is the arguments `a`, with the defaults, an empty tuple and an empty dictionary for what `a` leaves out -/
structure Completes (s : Sig) (a loc : Locals) : Prop where
  given : ∀ n x, a n = some x → loc n = some x
  positional : ∀ q ∈ s.positional, a q.1.1 = none → ∃ d, q.1.2 = some d ∧ loc q.1.1 = some (.one d)
  kwOnly : ∀ p ∈ s.kwOnly, a p.1 = none → ∃ d, p.2 = some d ∧ loc p.1 = some (.one d)
  varPos : ∀ n, s.varPos = some n → a n = none → loc n = some (.many [])
  varKw : ∀ n, s.varKw = some n → a n = none → loc n = some (.kws (fun _ => none))
  only : ∀ n, n ∉ s.names → loc n = none

/-- The arguments are of the right kind: a value for a usual parameter, a tuple for the starred one, for the doubly starred one a dictionary that has no names that can be given otherwise -/
structure Kinds (s : Sig) (a : Locals) : Prop where
  positional : ∀ q ∈ s.positional, a q.1.1 = none ∨ ∃ v, a q.1.1 = some (.one v)
  kwOnly : ∀ p ∈ s.kwOnly, a p.1 = none ∨ ∃ v, a p.1 = some (.one v)
  varPos : ∀ n, s.varPos = some n → a n = none ∨ ∃ l, a n = some (.many l)
  varKw : ∀ n, s.varKw = some n → a n = none ∨ ∃ d, a n = some (.kws d) ∧ ∀ m, s.keywordable m → d m = none

/-- the guard of the partial theorem: if a positional parameter is left out, then so are the positional parameters after it and the starred one (or that is empty) -/
def NoGap (s : Sig) (a : Locals) : Prop :=
  ∀ (i : Nat) p, s.positional[i]? = some p → a p.1.1 = none →
    (∀ (j : Nat) q, i ≤ j → s.positional[j]? = some q → a q.1.1 = none) ∧ ∀ n, s.varPos = some n → a n = none ∨ a n = some (.many [])

end Verif.Args
