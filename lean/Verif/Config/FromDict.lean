/-!
# Sources of configuration described by dictionaries, and those reading environment variables

`/repo/satella/configuration/sources/from_dict.py` and `/repo/satella/configuration/sources/envvars.py`.
-/
namespace Verif.FromDict

/-- A value as JSON has it.  (Part of the model of `load_source_from_dict`, /repo/satella/configuration/sources/from_dict.py:34-81.) -/
inductive V where
  | none
  | bool (b : Bool)
  | num (n : Int)
  | str (s : String)
  | list (l : List V)
  | dict (d : List (String × V))

/-- A dictionary: each key once, in order of insertion.  (Part of the model of `load_source_from_dict`, /repo/satella/configuration/sources/from_dict.py:34-81.) -/
abbrev Entries := List (String × V)

/-- `d[k]`, as used throughout `/repo/satella/configuration/sources/from_dict.py:47-81`. -/
def get? (k : String) : Entries → Option V
  | [] => .none
  | (k', v) :: rest => if k' = k then some v else get? k rest

/-- `dct` after `dct.pop` of the keys that are not arguments, `/repo/satella/configuration/sources/from_dict.py:47-54`:
`'args'` is left if there is an `'arg'`. -/
def others (d : Entries) : Entries :=
  d.filter (fun e => e.1 ≠ "type" ∧ e.1 ≠ "optional" ∧ if (get? "arg" d).isSome then e.1 ≠ "arg" else e.1 ≠ "args")

/-- Whether a value counts as true, `if optional` at `/repo/satella/configuration/sources/from_dict.py:79`. -/
def truthy : V → Bool
  | .none => false
  | .bool b => b
  | .num n => n ≠ 0
  | .str s => s ≠ ""
  | .list l => !l.isEmpty
  | .dict d => !d.isEmpty

/-- What iterating over a value gives, `map(to_arg, args)` at `/repo/satella/configuration/sources/from_dict.py:71`;
`none` is the TypeError. -/
def iter : V → Option (List V)
  | .list l => some l
  | .str s => some (s.toList.map (fun c => .str (String.singleton c)))
  | .dict d => some (d.map (fun e => .str e.1))
  | _ => .none

/-- An argument handed to the constructor of a source.  (Part of the model of /repo/satella/configuration/sources/from_dict.py:26-31.) -/
inductive Arg (Obj : Type) where
  /-- as it was -/
  | val (v : V)
  /-- a source made of a nested description -/
  | src (o : Obj)
  /-- what one of `EXTRA_TYPES` made -/
  | made (n : Nat)

/-- What is in `satella.configuration.sources` and in `EXTRA_TYPES`
(`/repo/satella/configuration/sources/from_dict.py:26-31`); a failure of any is `none`. -/
structure Env (Obj : Type) where
  /-- `sources.__dict__[name](*args, **kwargs)`, for the names that are there -/
  source : String → Option (List (Arg Obj) → List (String × Arg Obj) → Option Obj)
  extra : String → Option (Entries → Option Nat)
  /-- `OptionalSource(s)`, `/repo/satella/configuration/sources/derivative.py:41-53` -/
  optional : Obj → Obj
  /-- `MergingSource(*sources)`, `/repo/satella/configuration/sources/derivative.py:76-81` -/
  merging : List Obj → Obj

/-- A loop applying a function that may fail to every element, as `map(to_arg, args)` consumed at
`/repo/satella/configuration/sources/from_dict.py:75`. -/
def each {A B : Type} (f : A → Option B) : List A → Option (List B)
  | [] => some []
  | a :: rest =>
    match f a with
    | .none => .none
    | some b =>
      match each f rest with
      | .none => .none
      | some bs => some (b :: bs)

/-- The positional arguments before `to_arg`, `/repo/satella/configuration/sources/from_dict.py:49-52`. -/
def positional (d : Entries) : Option (List V) :=
  match get? "arg" d with
  | some v => some [v]
  | .none =>
    match get? "args" d with
    | .none => some []
    | some v => iter v

/-- `to_arg`, `/repo/satella/configuration/sources/from_dict.py:56-69`, given the function loading nested
descriptions.  The branch of unknown types (`:64-67`) formats the variable `e`, which does not exist
there, and so fails. -/
def toArg {Obj : Type} (env : Env Obj) (load : Entries → Option Obj) : V → Option (Arg Obj)
  | .dict d =>
    match get? "type" d with
    | .none => some (.val (.dict d))
    | some (.str t) =>
      match env.extra t with
      | some f => (f d).map .made
      | .none => if (env.source t).isSome then (load d).map .src else .none
    | some _ => .none
  | v => some (.val v)

/-- `load_source_from_dict`, `/repo/satella/configuration/sources/from_dict.py:34-81`.  Any exception is
turned into ConfigurationError (`:34`), which is `none`, and so is the RecursionError of the fuel. -/
def load {Obj : Type} (env : Env Obj) : Nat → Entries → Option Obj
  | 0, _ => .none
  | fuel + 1, d =>
    match get? "type" d with
    | some (.str t) =>
      match positional d with
      | .none => .none
      | some vs =>
        match each (fun e : String × V => (toArg env (load env fuel) e.2).map (fun a => (e.1, a))) (others d) with
        | .none => .none
        | some kwargs =>
          match env.source t with
          | .none => .none
          | some make =>
            match each (toArg env (load env fuel)) vs with
            | .none => .none
            | some args =>
              match make args kwargs with
              | .none => .none
              | some o => if truthy ((get? "optional" d).getD (.bool false)) then some (env.optional o) else some o
    | _ => .none

/-- `load_source_from_list`, `/repo/satella/configuration/sources/from_dict.py:84-88`. -/
def loadList {Obj : Type} (env : Env Obj) (fuel : Nat) (l : List Entries) : Option Obj :=
  (each (load env fuel) l).map env.merging

/-! ## Environment variables -/

/-- part of the model of `EnvironmentSource`, /repo/satella/configuration/sources/envvars.py:16-44 -/
inductive Exc where
  | valueError | typeError | keyError | other (n : Nat)
  | configurationError
  deriving Repr, DecidableEq

/-- `EnvironmentSource(env_name, config_name, cast_to).provide()`,
`/repo/satella/configuration/sources/envvars.py:27-44`. -/
def environment {A : Type} (environ : String → Option String) (envName : String) (configName : Option String)
    (castTo : String → Except Exc A) : Except Exc (List (String × A)) :=
  let name := match configName with
    | some n => if n = "" then envName else n
    | .none => envName
  match environ envName with
  | .none => .error .configurationError
  | some s =>
    match castTo s with
    | .ok v => .ok [(name, v)]
    | .error .valueError => .error .configurationError
    | .error .typeError => .error .configurationError
    | .error .keyError => .error .configurationError
    | .error e => .error e

/-- `EnvVarsSource(env_name).provide()`, `/repo/satella/configuration/sources/envvars.py:53-61` with
`FormatSource.provide`, `/repo/satella/configuration/sources/format.py:45-60`, on text. `parse` are
`json.loads`: its only exceptions are ValueErrors, `none`. -/
def envVars (parse : String → Option V) (environ : String → Option String) (envName : String) : Except Exc Entries :=
  match environ envName with
  | .none => .error .configurationError
  | some s =>
    match parse s with
    | some (.dict d) => .ok d
    | _ => .error .configurationError

/-! ## Specification -/

/-- Pointwise. -/
inductive Each {A B : Type} (R : A → B → Prop) : List A → List B → Prop
  | nil : Each R [] []
  | cons {a b as bs} : R a b → Each R as bs → Each R (a :: as) (b :: bs)

/-- The positional arguments: `arg` alone, or else the elements of `args`. -/
def Positional (d : Entries) (vs : List V) : Prop :=
  (∃ v, get? "arg" d = some v ∧ vs = [v]) ∨ (get? "arg" d = .none ∧ get? "args" d = .none ∧ vs = []) ∨
  (get? "arg" d = .none ∧ ∃ v, get? "args" d = some v ∧ iter v = some vs)

/-- The arguments by name: all entries but `type`, `optional`, and `arg` if it is there or else `args`. -/
def byName (d : Entries) : Entries :=
  if (get? "arg" d).isSome then ((d.filter (fun e => e.1 != "type")).filter (fun e => e.1 != "optional")).filter (fun e => e.1 != "arg")
  else ((d.filter (fun e => e.1 != "type")).filter (fun e => e.1 != "optional")).filter (fun e => e.1 != "args")

mutual
/-- The description `d` says to build `o`: an object of the named type, of the arguments described,
wrapped in an `OptionalSource` if asked so. -/
inductive Builds {Obj : Type} (env : Env Obj) : Entries → Obj → Prop
  | required {d t make vs args kwargs o} : get? "type" d = some (.str t) → env.source t = some make → Positional d vs →
      Args env vs args → Keywords env (byName d) kwargs → make args kwargs = some o →
      truthy ((get? "optional" d).getD (.bool false)) = false → Builds env d o
  | optional {d t make vs args kwargs o} : get? "type" d = some (.str t) → env.source t = some make → Positional d vs →
      Args env vs args → Keywords env (byName d) kwargs → make args kwargs = some o →
      truthy ((get? "optional" d).getD (.bool false)) = true → Builds env d (env.optional o)
/-- What an argument means. -/
inductive Means {Obj : Type} (env : Env Obj) : V → Arg Obj → Prop
  | notDict {v} : (∀ d, v ≠ .dict d) → Means env v (.val v)
  | noType {d} : get? "type" d = .none → Means env (.dict d) (.val (.dict d))
  | extra {d t f n} : get? "type" d = some (.str t) → env.extra t = some f → f d = some n → Means env (.dict d) (.made n)
  | source {d t o} : get? "type" d = some (.str t) → env.extra t = .none → (env.source t).isSome → Builds env d o → Means env (.dict d) (.src o)
inductive Args {Obj : Type} (env : Env Obj) : List V → List (Arg Obj) → Prop
  | nil : Args env [] []
  | cons {v a vs as} : Means env v a → Args env vs as → Args env (v :: vs) (a :: as)
inductive Keywords {Obj : Type} (env : Env Obj) : Entries → List (String × Arg Obj) → Prop
  | nil : Keywords env [] []
  | cons {k v a vs as} : Means env v a → Keywords env vs as → Keywords env ((k, v) :: vs) ((k, a) :: as)
end

/-! ## Lemmas -/

section
variable {Obj : Type} {env : Env Obj}

theorem positional_iff (d : Entries) (vs : List V) : positional d = some vs ↔ Positional d vs := by
  unfold positional Positional
  cases h1 : get? "arg" d with
  | some v => simp [eq_comm]
  | none =>
    cases h2 : get? "args" d with
    | none => simp [eq_comm]
    | some v => simp

theorem means_of_toArg {ld : Entries → Option Obj} (hl : ∀ d o, ld d = some o → Builds env d o) {v : V} {a : Arg Obj}
    (h : toArg env ld v = some a) : Means env v a := by
  cases v with
  | dict d =>
    simp only [toArg] at h
    cases ht : get? "type" d with
    | none => simp only [ht, Option.some.injEq] at h; subst h; exact .noType ht
    | some tv =>
      cases tv with
      | str t =>
        simp only [ht] at h
        cases he : env.extra t with
        | some f =>
          simp only [he, Option.map_eq_some_iff] at h
          obtain ⟨n, h1, rfl⟩ := h
          exact .extra ht he h1
        | none =>
          simp only [he] at h
          split at h
          · rename_i hs
            simp only [Option.map_eq_some_iff] at h
            obtain ⟨o, h1, rfl⟩ := h
            exact .source ht he hs (hl d o h1)
          · simp at h
      | _ => simp [ht] at h
  | _ => simp only [toArg, Option.some.injEq] at h; subst h; exact .notDict (by simp)

theorem args_of_each {ld : Entries → Option Obj} (hl : ∀ d o, ld d = some o → Builds env d o) : ∀ {vs : List V} {as : List (Arg Obj)},
    each (toArg env ld) vs = some as → Args env vs as := by
  intro vs
  induction vs with
  | nil => intro as h; simp [each] at h; subst h; exact .nil
  | cons v vs ih =>
    intro as h
    simp only [each] at h
    cases h1 : toArg env ld v with
    | none => simp [h1] at h
    | some a =>
      cases h2 : each (toArg env ld) vs with
      | none => simp [h1, h2] at h
      | some as' =>
        simp only [h1, h2, Option.some.injEq] at h
        subst h
        exact .cons (means_of_toArg hl h1) (ih h2)

theorem keywords_of_each {ld : Entries → Option Obj} (hl : ∀ d o, ld d = some o → Builds env d o) : ∀ {vs : Entries} {as : List (String × Arg Obj)},
    each (fun e : String × V => (toArg env ld e.2).map (fun a => (e.1, a))) vs = some as → Keywords env vs as := by
  intro vs
  induction vs with
  | nil => intro as h; simp [each] at h; subst h; exact .nil
  | cons v vs ih =>
    intro as h
    obtain ⟨k, v⟩ := v
    simp only [each] at h
    cases h1 : toArg env ld v with
    | none => simp [h1] at h
    | some a =>
      simp only [h1, Option.map_some] at h
      cases h2 : each (fun e : String × V => (toArg env ld e.2).map (fun a => (e.1, a))) vs with
      | none => simp [h2] at h
      | some as' =>
        simp only [h2, Option.some.injEq] at h
        subst h
        exact .cons (means_of_toArg hl h1) (ih h2)

theorem others_eq (d : Entries) : others d = byName d := by
  unfold others byName
  by_cases h : (get? "arg" d).isSome = true
  · simp only [h, if_true, List.filter_filter]
    congr 1; funext e; simp [bne, and_assoc, and_comm, and_left_comm]; grind
  · simp only [h, if_false, List.filter_filter]
    congr 1; funext e; simp [bne, and_assoc, and_comm, and_left_comm]; grind

theorem load_sound (fuel : Nat) : ∀ (d : Entries) (o : Obj), load env fuel d = some o → Builds env d o := by
  induction fuel with
  | zero => intro d o h; simp [load] at h
  | succ fuel ih =>
    intro d o h
    simp only [load] at h
    cases ht : get? "type" d with
    | none => simp [ht] at h
    | some tv =>
      cases tv with
      | str t =>
        simp only [ht] at h
        cases hp : positional d with
        | none => simp [hp] at h
        | some vs =>
          simp only [hp] at h
          cases hk : each (fun e : String × V => (toArg env (load env fuel) e.2).map (fun a => (e.1, a))) (others d) with
          | none => simp [hk] at h
          | some kwargs =>
            simp only [hk] at h
            cases hs : env.source t with
            | none => simp [hs] at h
            | some make =>
              simp only [hs] at h
              cases ha : each (toArg env (load env fuel)) vs with
              | none => simp [ha] at h
              | some args =>
                simp only [ha] at h
                cases hm : make args kwargs with
                | none => simp [hm] at h
                | some o' =>
                  simp only [hm] at h
                  have hp' := (positional_iff d vs).1 hp
                  have ha' := args_of_each ih ha
                  have hk' := others_eq d ▸ keywords_of_each ih hk
                  split at h
                  · rename_i htr
                    simp only [Option.some.injEq] at h; subst h
                    exact .optional ht hs hp' ha' hk' hm htr
                  · rename_i htr
                    simp only [Option.some.injEq] at h; subst h
                    exact .required ht hs hp' ha' hk' hm (by simpa using htr)
      | _ => simp [ht] at h

/-- Enough fuel for all of several needs. -/
theorem load_step {d : Entries} {t : String} {make : List (Arg Obj) → List (String × Arg Obj) → Option Obj} {vs : List V}
    {args : List (Arg Obj)} {kwargs : List (String × Arg Obj)} {o : Obj} (h1 : get? "type" d = some (.str t)) (h2 : env.source t = some make)
    (h3 : Positional d vs) (h6 : make args kwargs = some o)
    (h4 : ∃ n, ∀ fuel, n ≤ fuel → each (toArg env (load env fuel)) vs = some args)
    (h5 : ∃ n, ∀ fuel, n ≤ fuel → each (fun e : String × V => (toArg env (load env fuel) e.2).map (fun a => (e.1, a))) (byName d) = some kwargs) :
    ∃ n, ∀ fuel, n ≤ fuel → load env fuel d = if truthy ((get? "optional" d).getD (.bool false)) then some (env.optional o) else some o := by
  obtain ⟨n, hn⟩ := h4
  rw [← others_eq] at h5
  obtain ⟨m, hm⟩ := h5
  refine ⟨n + m + 1, fun fuel hf => ?_⟩
  obtain ⟨f, rfl⟩ : ∃ f, fuel = f + 1 := ⟨fuel - 1, by omega⟩
  simp only [load, h1, (positional_iff d vs).2 h3, hm f (by omega), h2, hn f (by omega), h6]

theorem load_complete {d : Entries} {o : Obj} (h : Builds env d o) : ∃ n, ∀ fuel, n ≤ fuel → load env fuel d = some o := by
  refine Builds.rec (motive_1 := fun d o _ => ∃ n, ∀ fuel, n ≤ fuel → load env fuel d = some o)
    (motive_2 := fun v a _ => ∃ n, ∀ fuel, n ≤ fuel → toArg env (load env fuel) v = some a)
    (motive_3 := fun vs as _ => ∃ n, ∀ fuel, n ≤ fuel → each (toArg env (load env fuel)) vs = some as)
    (motive_4 := fun vs as _ => ∃ n, ∀ fuel, n ≤ fuel → each (fun e : String × V => (toArg env (load env fuel) e.2).map (fun a => (e.1, a))) vs = some as)
    ?_ ?_ ?_ ?_ ?_ ?_ ?_ ?_ ?_ ?_ h
  · intro d t make vs args kwargs o h1 h2 h3 _ _ h6 h7 h4 h5
    have := load_step h1 h2 h3 h6 h4 h5
    simpa [h7] using this
  · intro d t make vs args kwargs o h1 h2 h3 _ _ h6 h7 h4 h5
    have := load_step h1 h2 h3 h6 h4 h5
    simpa [h7] using this
  · intro v h
    refine ⟨0, fun fuel _ => ?_⟩
    cases v with
    | dict d => exact absurd rfl (h d)
    | _ => rfl
  · intro d h; exact ⟨0, fun fuel _ => by simp [toArg, h]⟩
  · intro d t f n h1 h2 h3; exact ⟨0, fun fuel _ => by simp [toArg, h1, h2, h3]⟩
  · intro d t o h1 h2 h3 _ ⟨n, hn⟩
    exact ⟨n, fun fuel hf => by simp [toArg, h1, h2, h3, hn fuel hf]⟩
  · exact ⟨0, fun _ _ => rfl⟩
  · intro v a vs as _ _ ⟨n, hn⟩ ⟨m, hm⟩
    exact ⟨n + m, fun fuel hf => by simp [each, hn fuel (by omega), hm fuel (by omega)]⟩
  · exact ⟨0, fun _ _ => rfl⟩
  · intro k v a vs as _ _ ⟨n, hn⟩ ⟨m, hm⟩
    exact ⟨n + m, fun fuel hf => by simp [each, hn fuel (by omega), hm fuel (by omega)]⟩

/-! ## Properties -/

/-- **C185 (optional sources)** The entry `optional` asks for nothing exactly if it is None, False, zero or empty. -/
theorem C185_truth (v : V) : truthy v = false ↔ v = .none ∨ v = .bool false ∨ v = .num 0 ∨ v = .str "" ∨ v = .list [] ∨ v = .dict [] := by
  cases v <;> simp [truthy]

/-- **C185 (sequences of arguments)** The arguments in `args` are the elements of a list, the characters of a string or the
keys of a dictionary; other values are refused. -/
theorem C185_iterated (v : V) (vs : List V) : iter v = some vs ↔ v = .list vs ∨ (∃ s, v = .str s ∧ vs = s.toList.map (fun c => .str (String.singleton c))) ∨
    ∃ d, v = .dict d ∧ vs = d.map (fun e => .str e.1) := by
  cases v <;> simp [iter, eq_comm]

/-- **C185 (descriptions are followed)** Loading a description gives an object, with enough depth of
recursion, exactly if that is the object described: the named type called with the arguments
described, nested descriptions being loaded first, and wrapped if optional. -/
theorem C185_exactly (d : Entries) (o : Obj) : (∃ n, ∀ fuel, n ≤ fuel → load env fuel d = some o) ↔ Builds env d o :=
  ⟨fun ⟨n, hn⟩ => load_sound n d o (hn n (Nat.le_refl _)), load_complete⟩

/-- **C185 (never something else)** At no depth of recursion does loading give anything else than what
is described; so it fails, always with ConfigurationError, if nothing is described. -/
theorem C185_sound (fuel : Nat) (d : Entries) (o : Obj) (h : load env fuel d = some o) : Builds env d o := load_sound fuel d o h

theorem each_iff {A B : Type} (f : A → Option B) (l : List A) (r : List B) : each f l = some r ↔ Each (fun a b => f a = some b) l r := by
  induction l generalizing r with
  | nil =>
    simp only [each, Option.some.injEq]
    constructor
    · rintro rfl; exact .nil
    · intro h; cases h; rfl
  | cons a l ih =>
    simp only [each]
    constructor
    · intro h
      cases h1 : f a with
      | none => simp [h1] at h
      | some b =>
        cases h2 : each f l with
        | none => simp [h1, h2] at h
        | some bs =>
          simp only [h1, h2, Option.some.injEq] at h
          subst h
          exact .cons h1 ((ih bs).1 h2)
    · intro h
      cases h with
      | cons h1 h2 => simp [h1, (ih _).2 h2]

/-- **C185 (lists)** A list of descriptions gives the merging of all the sources described, in order,
or fails if any of them does. -/
theorem C185_list (l : List Entries) (o : Obj) :
    (∃ n, ∀ fuel, n ≤ fuel → loadList env fuel l = some o) ↔ ∃ os, Each (Builds env) l os ∧ o = env.merging os := by
  constructor
  · rintro ⟨n, hn⟩
    have := hn n (Nat.le_refl _)
    simp only [loadList, Option.map_eq_some_iff] at this
    obtain ⟨os, h1, h2⟩ := this
    refine ⟨os, ?_, h2.symm⟩
    rw [each_iff] at h1
    clear h2 hn
    induction h1 with
    | nil => exact .nil
    | cons h1 _ ih => exact .cons (load_sound _ _ _ h1) ih
  · rintro ⟨os, h, rfl⟩
    have : ∃ n, ∀ fuel, n ≤ fuel → each (load env fuel) l = some os := by
      induction h with
      | nil => exact ⟨0, fun _ _ => rfl⟩
      | cons h1 _ ih =>
        obtain ⟨n, hn⟩ := load_complete h1
        obtain ⟨m, hm⟩ := ih
        exact ⟨n + m, fun fuel hf => by simp [each, hn fuel (by omega), hm fuel (by omega)]⟩
    obtain ⟨n, hn⟩ := this
    exact ⟨n, fun fuel hf => by simp [loadList, hn fuel hf]⟩

/-- **C186 (a dictionary with an unknown type is handed over), the violation** The code is to warn and
to hand over the dictionary as it is; loading fails instead, at any depth, whatever the constructor
would do with it. -/
theorem C186_unknown_type_violates (env : Env Obj) (t u : String) (rest : Entries) (make : List (Arg Obj) → List (String × Arg Obj) → Option Obj)
    (ht : env.source t = some make) (hu : env.source u = none) (he : env.extra u = none) (fuel : Nat) :
    load env fuel [("type", .str t), ("args", .list [.dict (("type", .str u) :: rest)])] = none := by
  cases fuel with
  | zero => rfl
  | succ fuel =>
    simp [load, get?, positional, iter, others, each, ht, toArg, he, hu]

/-- **C186 (a dictionary as an argument), the part that holds** A dictionary without a type is handed
over as it is. -/
theorem C186_no_type_partial (env : Env Obj) (t : String) (d : Entries) (make : List (Arg Obj) → List (String × Arg Obj) → Option Obj)
    (ht : env.source t = some make) (hd : get? "type" d = none) (fuel : Nat) :
    load env (fuel + 1) [("type", .str t), ("args", .list [.dict d])] = make [.val (.dict d)] [] := by
  simp [load, get?, positional, iter, others, each, ht, toArg, hd]
  cases make [.val (.dict d)] [] <;> simp [truthy]

end

/-- **C187 (environment variables)** An `EnvironmentSource` provides one entry, of the name given or
else of the variable, with the value of the variable after the cast; an absent variable and a cast
failing with ValueError, TypeError or KeyError are ConfigurationErrors, and other exceptions of the
cast are left as they are. -/
theorem C187_environment {A : Type} (environ : String → Option String) (name : String) (config : Option String) (cast : String → Except Exc A)
    (hcast : ∀ s, cast s ≠ .error .configurationError) :
    (∀ r, environment environ name config cast = .ok r ↔ ∃ s v, environ name = some s ∧ cast s = .ok v ∧
      ((config = none ∨ config = some "") ∧ r = [(name, v)] ∨ ∃ c, config = some c ∧ c ≠ "" ∧ r = [(c, v)])) ∧
    (environment environ name config cast = .error .configurationError ↔ environ name = none ∨
      ∃ s e, environ name = some s ∧ cast s = .error e ∧ (e = .valueError ∨ e = .typeError ∨ e = .keyError)) ∧
    (∀ n, environment environ name config cast = .error (.other n) ↔ ∃ s, environ name = some s ∧ cast s = .error (.other n)) := by
  unfold environment
  cases he : environ name with
  | none => simp
  | some s =>
    have := hcast s
    cases hc : cast s with
    | ok v =>
      refine ⟨fun r => ?_, by simp [hc], by simp [hc]⟩
      cases config with
      | none => simp [hc, eq_comm]
      | some c =>
        by_cases hce : c = ""
        · simp [hc, hce, eq_comm]
        · simp [hc, hce, eq_comm]
    | error e =>
      cases e <;> simp_all

/-- **C187 (JSON in a variable)** An `EnvVarsSource` provides the dictionary that the variable has as
JSON; if there is no variable, no JSON in it, or not a dictionary, it is a ConfigurationError. -/
theorem C187_json (parse : String → Option V) (environ : String → Option String) (name : String) :
    (∀ d, envVars parse environ name = .ok d ↔ ∃ s, environ name = some s ∧ parse s = some (.dict d)) ∧
    ((∀ d, envVars parse environ name ≠ .ok d) → envVars parse environ name = .error .configurationError) := by
  unfold envVars
  cases he : environ name with
  | none => simp
  | some s =>
    cases hp : parse s with
    | none => simp [hp]
    | some v => cases v <;> simp [hp]

/-! ## Examples -/

/-- Sources are texts: `Direct` of anything with one argument, `Merge` of any sources. -/
def env1 : Env String where
  source := fun t =>
    if t = "Direct" then some (fun args kw => match args, kw with
      | [.val (.num n)], [] => some s!"direct {n}"
      | [.made n], [] => some s!"made {n}"
      | _, _ => none)
    else if t = "Merge" then some (fun args _ => some ("merge" ++ String.join (args.map (fun a => match a with | .src o => s!" ({o})" | _ => " ?"))))
    else none
  extra := fun t => if t = "binary" then some (fun d => some d.length) else none
  optional := fun o => "optional " ++ o
  merging := fun l => String.join (l.map (fun o => "(" ++ o ++ ")"))

example : load env1 3 [("type", .str "Merge"), ("args", .list [.dict [("type", .str "Direct"), ("arg", .num 2)],
    .dict [("type", .str "Direct"), ("arg", .dict [("type", .str "binary")]), ("optional", .bool true)]])] =
    some "merge (direct 2) (optional made 1)" := by simp [load, get?, positional, iter, others, each, toArg, env1, truthy]; decide +kernel
example : Builds env1 [("type", .str "Direct"), ("arg", .num 2)] "direct 2" :=
  (C185_exactly _ _).1 ⟨1, fun fuel hf => by
    obtain ⟨f, rfl⟩ : ∃ f, fuel = f + 1 := ⟨fuel - 1, by omega⟩
    simp [load, get?, positional, others, each, toArg, env1, truthy]; decide +kernel⟩
example : ∃ make, env1.source "Direct" = some make ∧ env1.source "mysql" = none ∧ env1.extra "mysql" = none := by simp [env1]
example : environment (fun n => if n = "PORT" then some "80" else none) "PORT" (some "port") (fun s => if s = "80" then .ok 80 else .error .valueError) =
    .ok [("port", 80)] := rfl

end Verif.FromDict
