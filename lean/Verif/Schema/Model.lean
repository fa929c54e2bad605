/-!
# Model of configuration schemas (satella/configuration/schema), C88

A descriptor is a tree.  The only thing about it that changes is whether a List descriptor still has its checker, so this is kept apart, by numbers of the List descriptors.
-/
namespace Verif.Schema

/-- a configuration value, or what a descriptor makes of one, `ConfigDictValue` of /repo/satella/configuration/schema/base.py:8.  Numbers stand for strings, floats and other objects.  Dictionaries are functions that give `none` where there is
  no key: the order of keys plays no role.  A tuple counts as a list. -/
inductive V where
  | null
  | bool (b : Bool)
  | int (i : Int)
  | str (s : Nat)
  | obj (n : Nat)
  | list (l : List V)
  | dict (d : Nat → Option V)

/-- what a maker or a casting function does: gives a value, raises ValueError (of which ConfigurationValidationError is a subclass, /repo/satella/exceptions.py:177-189), TypeError, or another exception -/
inductive Made where
  | ok (v : V)
  | valueError
  | typeError
  | other (e : Nat)

/-- what a call does: gives a value, raises ConfigurationValidationError, or another exception (0 is TypeError), /repo/satella/configuration/schema/base.py:69-82 -/
inductive Res (α : Type) where
  | ok (a : α)
  | invalid
  | exc (e : Nat)

/-- apply a function to the value.  (Part of the model of `Descriptor`, /repo/satella/configuration/schema/base.py:42-88.) -/
def Res.map {α β : Type} (f : α → β) : Res α → Res β
  | .ok a => .ok (f a)
  | .invalid => .invalid
  | .exc e => .exc e

mutual
/-- a descriptor: one that only has a maker (Descriptor, Boolean, Integer, Float, String, File, FileContents, Directory, /repo/satella/configuration/schema/base.py:42-51, /repo/satella/configuration/schema/basic.py:11-54, :135-193),
  Caster, List, Dict or Union, /repo/satella/configuration/schema/structs.py:10-148 -/
inductive D where
  | basic (m : V → Made)
  | caster (f : V → Made)
  | list (id : Nat) (d : D)
  | dict (ks : Keys) (u : Nat → V → V)
  | union (as : Alts)
/-- the keys of a Dict, `create_key`, /repo/satella/configuration/schema/structs.py:36-42; `opt` is the default of an optional key -/
inductive Keys where
  | nil
  | cons (name : Nat) (opt : Option V) (d : D) (rest : Keys)
/-- the descriptors of a Union, /repo/satella/configuration/schema/structs.py:138-140 -/
inductive Alts where
  | nil
  | cons (d : D) (rest : Alts)
end

/-- which List descriptors have lost their checker.  (Part of the model of `List`, /repo/satella/configuration/schema/structs.py:10-30.) -/
abbrev Lost := Nat → Bool

/-- `isinstance(v, (list, tuple))`, /repo/satella/configuration/schema/structs.py:17 -/
def V.isList : V → Bool
  | .list _ => true
  | _ => false

/-- `list(v)`, /repo/satella/configuration/schema/structs.py:18; `chars` gives the characters of a string, `keys` the keys of a dictionary (finitely many in Python) -/
structure Env where
  chars : Nat → List V
  keys : (Nat → Option V) → List V

/-- `list(v)`, /repo/satella/configuration/schema/structs.py:18; `none` for TypeError -/
def Env.listOf (E : Env) : V → Option (List V)
  | .list l => some l
  | .str s => some (E.chars s)
  | .dict d => some (E.keys d)
  | _ => none

/-- the comprehension `[self.type_descriptor(p) for p in value]`, /repo/satella/configuration/schema/structs.py:27 -/
def callAll (f : V → Lost → Res V × Lost) : List V → Lost → Res (List V) × Lost
  | [], s => (.ok [], s)
  | x :: l, s =>
    match f x s with
    | (.ok y, s') => ((callAll f l s').1.map (y :: ·), (callAll f l s').2)
    | (.invalid, s') => (.invalid, s')
    | (.exc e, s') => (.exc e, s')

/-- assignment to a key.  (Part of the model of `Descriptor`, /repo/satella/configuration/schema/base.py:42-88.) -/
def put (f : Nat → Option V) (n : Nat) (v : V) : Nat → Option V := fun m => if m = n then some v else f m

mutual
/-- `Descriptor.__call__`, /repo/satella/configuration/schema/base.py:69-82; `Caster.__call__`, /repo/satella/configuration/schema/structs.py:60-62; `List.__call__`, :24-27; `Dict.__call__`, :98-124; `Union.__call__`, :142-148.
  When the checker of a List raises it is lost, because the CallableGroup was cleared and only the callables that did not raise are added again, /repo/satella/coding/concurrent/callablegroup.py:168-188.
  The checker of a Dict is called only for dictionaries, so it never raises.  Not modelled: other checkers, `unknown_key_mapper` that raises, a ConfigurationSchemaError or a BaseException. -/
def call (E : Env) : D → V → Lost → Res V × Lost
  | .basic m, v, s =>
    match m v with
    | .ok x => (.ok x, s)
    | .valueError => (.invalid, s)
    | .typeError => (.invalid, s)
    | .other e => (.exc e, s)
  | .caster f, v, s =>
    match f v with
    | .ok x => (.ok x, s)
    | .valueError => (.invalid, s)
    | .typeError => (.exc 0, s)
    | .other e => (.exc e, s)
  | .list id d, v, s =>
    if !s id && !v.isList then (.invalid, fun n => if n = id then true else s n)
    else
      match E.listOf v with
      | none => (.invalid, s)
      | some l => ((callAll (call E d) l s).1.map .list, (callAll (call E d) l s).2)
  | .dict ks u, v, s =>
    match v with
    | .dict f => ((callKeys E ks f (fun n => (f n).map (u n)) s).1.map .dict, (callKeys E ks f (fun n => (f n).map (u n)) s).2)
    | _ => (.invalid, s)
  | .union as, v, s => callAlts E as v s
/-- the loop over the keys, /repo/satella/configuration/schema/structs.py:110-119; `output` already has the unknown keys, which the code adds afterwards, :121-122 -/
def callKeys (E : Env) : Keys → (Nat → Option V) → (Nat → Option V) → Lost → Res (Nat → Option V) × Lost
  | .nil, _, output, s => (.ok output, s)
  | .cons name opt d rest, f, output, s =>
    match f name with
    | none =>
      match opt with
      | some x => callKeys E rest f (put output name x) s
      | none => (.invalid, s)
    | some x =>
      match call E d x s with
      | (.ok y, s') => callKeys E rest f (put output name y) s'
      | (.invalid, s') => (.invalid, s')
      | (.exc e, s') => (.exc e, s')
/-- the loop of Union, /repo/satella/configuration/schema/structs.py:143-148 -/
def callAlts (E : Env) : Alts → V → Lost → Res V × Lost
  | .nil, _, s => (.invalid, s)
  | .cons d rest, v, s =>
    match call E d v s with
    | (.ok y, s') => (.ok y, s')
    | (.invalid, s') => callAlts E rest v s'
    | (.exc e, s') => (.exc e, s')
end

/-- several values, one after the other, for the same descriptor, /repo/satella/configuration/schema/base.py:69-82 -/
def callMany (E : Env) (d : D) : List V → Lost → List (Res V) × Lost
  | [], s => ([], s)
  | v :: l, s => ((call E d v s).1 :: (callMany E d l (call E d v s).2).1, (callMany E d l (call E d v s).2).2)

/-! ## Specification -/

/-- the names of the keys -/
def Keys.names : Keys → List Nat
  | .nil => []
  | .cons n _ _ rest => n :: rest.names

mutual
/-- the value `v` conforms to the schema, which makes `o` of it -/
def Fits : D → V → V → Prop
  | .basic m, v, o => m v = .ok o
  | .caster f, v, o => f v = .ok o
  | .list _ d, v, o => ∃ l l', v = .list l ∧ o = .list l' ∧ l'.length = l.length ∧ ∀ (i : Nat) x y, l[i]? = some x → l'[i]? = some y → Fits d x y
  | .dict ks u, v, o => ∃ f g, v = .dict f ∧ o = .dict g ∧ KeysFit ks f g ∧ ∀ n, n ∉ ks.names → g n = (f n).map (u n)
  | .union as, v, o => FirstFits as v o
/-- every key is there, and its value conforms, or it is optional, and gets its default -/
def KeysFit : Keys → (Nat → Option V) → (Nat → Option V) → Prop
  | .nil, _, _ => True
  | .cons name opt d rest, f, g =>
    ((∃ x y, f name = some x ∧ Fits d x y ∧ g name = some y) ∨ (f name = none ∧ ∃ y, opt = some y ∧ g name = some y)) ∧ KeysFit rest f g
/-- the first alternative that the value conforms to makes `o` of it -/
def FirstFits : Alts → V → V → Prop
  | .nil, _, _ => False
  | .cons d rest, v, o => Fits d v o ∨ ((∀ x, ¬ Fits d v x) ∧ FirstFits rest v o)
end

mutual
/-- no List has lost its checker -/
def Armed (s : Lost) : D → Prop
  | .basic _ => True
  | .caster _ => True
  | .list id d => s id = false ∧ Armed s d
  | .dict ks _ => KeysArmed s ks
  | .union as => AltsArmed s as
def KeysArmed (s : Lost) : Keys → Prop
  | .nil => True
  | .cons _ _ d rest => Armed s d ∧ KeysArmed s rest
def AltsArmed (s : Lost) : Alts → Prop
  | .nil => True
  | .cons d rest => Armed s d ∧ AltsArmed s rest
end

mutual
/-- there is no List in it -/
def NoList : D → Prop
  | .basic _ => True
  | .caster _ => True
  | .list _ _ => False
  | .dict ks _ => KeysNoList ks
  | .union as => AltsNoList as
def KeysNoList : Keys → Prop
  | .nil => True
  | .cons _ _ d rest => NoList d ∧ KeysNoList rest
def AltsNoList : Alts → Prop
  | .nil => True
  | .cons d rest => NoList d ∧ AltsNoList rest
end

mutual
/-- well formed: the names of keys differ, makers and casting functions raise no exceptions but those that are turned into ConfigurationValidationError; and there is no List below a Union -/
def Good : D → Prop
  | .basic m => ∀ v e, m v ≠ .other e
  | .caster f => ∀ v, f v ≠ .typeError ∧ ∀ e, f v ≠ .other e
  | .list _ d => Good d
  | .dict ks _ => ks.names.Nodup ∧ KeysGood ks
  | .union as => AltsGood as ∧ AltsNoList as
def KeysGood : Keys → Prop
  | .nil => True
  | .cons _ _ d rest => Good d ∧ KeysGood rest
def AltsGood : Alts → Prop
  | .nil => True
  | .cons d rest => Good d ∧ AltsGood rest
end

end Verif.Schema
