import Verif.Py.Dict

/-!
# Importing everything from a package (satella/imports.py), C159, C160

Modules are given with what importing them defines; importing has no other effects here.
-/
namespace Verif.Imports

open Verif

/-! ## Model -/

/-- values in a namespace: what a module defines, and packages with their `__all__` and namespace after the import; /repo/satella/imports.py:69, :85 -/
inductive Val
  | item (n : Nat)
  | pkg (all : Option (List String)) (dict : List (String × Val))

/-- what `pkgutil.walk_packages` finds: a module with its `__all__` and namespace, or a package with its own and what is in it.  Simplified: the top-level name of a package found is not importable by itself, so its modules are only walked by the recursive call.  /repo/satella/imports.py:51 -/
inductive Node
  | module (name : String) (all : Option (List String)) (dict : List (String × Nat))
  | package (name : String) (all : Option (List String)) (dict : List (String × Val)) (children : List Node)

/-- arguments of `import_from`, /repo/satella/imports.py:25-29 -/
structure Cfg where
  recursive : Bool := true
  failOnAttributeError : Bool := true
  createAll : Bool := true
  skipSingleUnderscores : Bool := true
  skipNotHavingAll : Bool := false

/-- `__all__` and the namespace that are added to, /repo/satella/imports.py:25-26 -/
abbrev St := List String × Dict String Val

/-- is the name left out, /repo/satella/imports.py:53, :82 -/
def skips (c : Cfg) (name : String) : Bool := name.startsWith "_" && c.skipSingleUnderscores

/-- appending to `all_`, /repo/satella/imports.py:70-71, :90-91 -/
def addName (all : List String) (n : String) : List String := if n ∈ all then all else all ++ [n]

/-- the loop over items of a module, `none` is AttributeError; /repo/satella/imports.py:81-91 -/
def importItems (c : Cfg) (dict : Dict String Nat) : List String → St → Option St
  | [], s => some s
  | n :: l, s =>
    if skips c n then importItems c dict l s
    else match dict.get? n with
      | some v => importItems c dict l (addName s.1 n, s.2.set n (.item v))
      | none => if c.failOnAttributeError then none else importItems c dict l s

mutual

/-- one turn of the loop over what was found; `dir()` is taken in the order of the namespace, it is sorted in fact.  /repo/satella/imports.py:52-91 -/
def importNode (c : Cfg) : Node → St → Option St
  | .package name all dict children, s =>
    if c.recursive then
      if skips c name then some s
      else if all.isNone && c.skipNotHavingAll then some s
      else match importNodes c children (all.getD [], dict) with
        | none => none
        | some r => some (addName s.1 name, s.2.set name (.pkg (if all.isSome || c.createAll then some r.1 else none) r.2))
    else some s
  | .module _ all dict, s => importItems c dict (all.getD (Dict.keys dict)) s

/-- `import_from`, /repo/satella/imports.py:25-91 -/
def importNodes (c : Cfg) : List Node → St → Option St
  | [], s => some s
  | x :: l, s =>
    match importNode c x s with
    | none => none
    | some s' => importNodes c l s'

end

/-- the name of what was found, /repo/satella/imports.py:51 -/
def Node.name : Node → String
  | .module n _ _ => n
  | .package n _ _ _ => n

/-- is it a package, /repo/satella/imports.py:51 -/
def Node.isPkg : Node → Bool
  | .module _ _ _ => false
  | .package _ _ _ _ => true

/-- what is in it, /repo/satella/imports.py:51 -/
def Node.children : Node → List Node
  | .module _ _ _ => []
  | .package _ _ _ l => l

/-- the names that `walk_packages(path)` gives: each name found, and for a package, as no prefix is given, those in the top-level package of the same name, if there is one, after a dot; `top` gives what is in a top-level package.  /repo/satella/imports.py:51 -/
def walk (top : String → List String) : List Node → List (String × Option String)
  | [] => []
  | x :: l => (x.name, none) :: (if x.isPkg then (top x.name).map (fun n => (x.name, some n)) else []) ++ walk top l

/-- can the name be imported from the package that holds these, or is it ModuleNotFoundError; /repo/satella/imports.py:55, :73 -/
def canImport (l : List Node) : String × Option String → Bool
  | (n, none) => l.any (fun x => x.name == n)
  | (n, some m) => l.any (fun x => x.name == n && x.children.any (fun y => y.name == m))

/-- `import_class(path)`: the path is split at the last dot, the module imported and asked for the name; `importModule` gives the namespace of a module.  `none` is ImportError.  /repo/satella/imports.py:17-22 -/
def importClass (importModule : String → Option (Dict String Nat)) (parts : List String) : Option Nat :=
  match parts.getLast? with
  | none => none
  | some cls =>
    match importModule (".".intercalate parts.dropLast) with
    | none => none
    | some m => m.get? cls

/-! ## Specification -/

/-- a name is left out if it starts with an underscore, and this was asked for -/
def Hidden (c : Cfg) (n : String) : Prop := c.skipSingleUnderscores = true ∧ n.startsWith "_" = true

/-- the names that a module lists: its `__all__`, or all that it has -/
def Lists (all : Option (List String)) (dict : List (String × Nat)) (n : String) : Prop :=
  (∀ l, all = some l → n ∈ l) ∧ (all = none → n ∈ dict.map Prod.fst)

/-- a package that is gone into -/
def Entered (c : Cfg) (name : String) (all : Option (List String)) : Prop :=
  c.recursive = true ∧ ¬ Hidden c name ∧ ¬ (all = none ∧ c.skipNotHavingAll = true)

/-- what a module or package contributes: a module what it lists and has, a package itself, with all that is in it imported into it -/
inductive Offers (c : Cfg) : Node → String → Val → Prop
  | module (name all dict n v) : Lists all dict n → ¬ Hidden c n → Dict.get? dict n = some v → Offers c (.module name all dict) n (.item v)
  | package (name all dict children l ns) : Entered c name all → importNodes c children (all.getD [], dict) = some (l, ns) →
      Offers c (.package name all dict children) name (.pkg (if all ≠ none ∨ c.createAll = true then some l else none) ns)

/-- something listed is not there, at any depth -/
inductive Missing (c : Cfg) : Node → Prop
  | module (name all dict n) : Lists all dict n → ¬ Hidden c n → Dict.get? dict n = none → Missing c (.module name all dict)
  | package (name all dict children x) : Entered c name all → x ∈ children → Missing c x → Missing c (.package name all dict children)

/-! ## Proofs -/

theorem skips_iff (c : Cfg) (n : String) : skips c n = true ↔ Hidden c n := by
  simp [skips, Hidden, and_comm]

theorem addName_spec (all : List String) (n : String) : (∃ t, addName all n = all ++ t) ∧ (∀ m, m ∈ addName all n ↔ m ∈ all ∨ m = n) ∧ (all.Nodup → (addName all n).Nodup) := by
  unfold addName
  split
  · next h => exact ⟨⟨[], by simp⟩, fun m => ⟨Or.inl, fun hm => hm.elim id (fun e => e ▸ h)⟩, id⟩
  · next h =>
    refine ⟨⟨[n], rfl⟩, fun m => by simp, fun hn => ?_⟩
    rw [List.nodup_append]
    refine ⟨hn, by simp, fun a ha b hb => ?_⟩
    simp at hb
    subst hb
    exact fun e => h (e ▸ ha)

/-- what an import does to a state, for contributions `P` -/
structure Adds (P : String → Val → Prop) (s s' : St) : Prop where
  pre : ∃ t, s'.1 = s.1 ++ t
  nodup : s.1.Nodup → s'.1.Nodup
  names : ∀ n, n ∈ s'.1 ↔ n ∈ s.1 ∨ ∃ v, P n v
  other : ∀ n, (∀ v, ¬ P n v) → s'.2.get? n = s.2.get? n
  some' : ∀ n v, P n v → ∃ w, P n w ∧ s'.2.get? n = some w

theorem Adds.single (s : St) (n : String) (v : Val) : Adds (fun m w => m = n ∧ w = v) s (addName s.1 n, s.2.set n v) where
  pre := (addName_spec s.1 n).1
  nodup := (addName_spec s.1 n).2.2
  names := fun m => by simp [(addName_spec s.1 n).2.1 m]
  other := fun m h => by
    have : n ≠ m := fun e => h v ⟨e.symm, rfl⟩
    simp [this]
  some' := fun m w h => ⟨v, ⟨h.1, rfl⟩, by simp [h.1]⟩

theorem Adds.none' (s : St) : Adds (fun _ _ => False) s s where
  pre := ⟨[], by simp⟩
  nodup := id
  names := by simp
  other := fun _ _ => rfl
  some' := by simp

theorem Adds.trans {P Q : String → Val → Prop} {s s' s'' : St} (h : Adds P s s') (h' : Adds Q s' s'') : Adds (fun n v => P n v ∨ Q n v) s s'' where
  pre := by
    obtain ⟨t, ht⟩ := h.pre
    obtain ⟨t', ht'⟩ := h'.pre
    exact ⟨t ++ t', by rw [ht', ht]; simp⟩
  nodup := h'.nodup ∘ h.nodup
  names := fun n => by
    rw [h'.names, h.names]
    constructor
    · rintro ((h1 | ⟨v, h1⟩) | ⟨v, h1⟩)
      · exact Or.inl h1
      · exact Or.inr ⟨v, Or.inl h1⟩
      · exact Or.inr ⟨v, Or.inr h1⟩
    · rintro (h1 | ⟨v, h1 | h1⟩)
      · exact Or.inl (Or.inl h1)
      · exact Or.inl (Or.inr ⟨v, h1⟩)
      · exact Or.inr ⟨v, h1⟩
  other := fun n hn => by rw [h'.other n (fun v hv => hn v (Or.inr hv)), h.other n (fun v hv => hn v (Or.inl hv))]
  some' := fun n v hv => by
    by_cases hq : ∃ w, Q n w
    · obtain ⟨w, hw⟩ := hq
      obtain ⟨w', h1, h2⟩ := h'.some' n w hw
      exact ⟨w', Or.inr h1, h2⟩
    · rcases hv with hv | hv
      · obtain ⟨w', h1, h2⟩ := h.some' n v hv
        exact ⟨w', Or.inl h1, by rw [h'.other n (fun v hv => hq ⟨v, hv⟩)]; exact h2⟩
      · exact absurd ⟨v, hv⟩ hq

theorem Adds.congr {P Q : String → Val → Prop} {s s' : St} (h : Adds P s s') (e : ∀ n v, P n v ↔ Q n v) : Adds Q s s' := by
  have : P = Q := funext fun n => funext fun v => propext (e n v)
  exact this ▸ h

theorem importItems_spec (c : Cfg) (dict : Dict String Nat) (l : List String) (s : St) :
    (∀ s', importItems c dict l s = some s' → Adds (fun n v => n ∈ l ∧ ¬ Hidden c n ∧ ∃ k, dict.get? n = some k ∧ v = .item k) s s') ∧
    (importItems c dict l s = none ↔ c.failOnAttributeError = true ∧ ∃ n ∈ l, ¬ Hidden c n ∧ dict.get? n = none) := by
  induction l generalizing s with
  | nil => exact ⟨fun s' h => by simp [importItems] at h; subst h; exact (Adds.none' s).congr (by simp), by simp [importItems]⟩
  | cons n l ih =>
    simp only [importItems]
    by_cases hs : skips c n = true
    · have hh := (skips_iff c n).1 hs
      rw [if_pos hs]
      obtain ⟨h1, h2⟩ := ih s
      refine ⟨fun s' h => (h1 s' h).congr (fun m v => ?_), by rw [h2]; simp [hh]⟩
      constructor
      · rintro ⟨a, b, d⟩; exact ⟨by simp [a], b, d⟩
      · rintro ⟨a, b, d⟩
        rcases List.mem_cons.1 a with rfl | a
        · exact absurd hh b
        · exact ⟨a, b, d⟩
    · have hh : ¬ Hidden c n := fun h => hs ((skips_iff c n).2 h)
      rw [if_neg hs]
      cases hg : dict.get? n with
      | some k =>
        obtain ⟨h1, h2⟩ := ih (addName s.1 n, s.2.set n (.item k))
        refine ⟨fun s' h => ((Adds.single s n (.item k)).trans (h1 s' h)).congr (fun m v => ?_), ?_⟩
        · constructor
          · rintro (⟨rfl, rfl⟩ | ⟨a, b, d⟩)
            · exact ⟨by simp, hh, k, hg, rfl⟩
            · exact ⟨by simp [a], b, d⟩
          · rintro ⟨a, b, k', d, rfl⟩
            rcases List.mem_cons.1 a with rfl | a
            · rw [hg] at d; simp at d; subst d; exact Or.inl ⟨rfl, rfl⟩
            · exact Or.inr ⟨a, b, k', d, rfl⟩
        · simp only [h2]; simp [hg]
      | none =>
        obtain ⟨h1, h2⟩ := ih s
        by_cases hf : c.failOnAttributeError = true
        · simp only [hf, ↓reduceIte]
          exact ⟨by simp, by simp; exact Or.inl ⟨hh, hg⟩⟩
        · rw [if_neg hf]
          refine ⟨fun s' h => (h1 s' h).congr (fun m v => ?_), by rw [h2]; simp [hf]⟩
          constructor
          · rintro ⟨a, b, d⟩; exact ⟨by simp [a], b, d⟩
          · rintro ⟨a, b, k', d, rfl⟩
            rcases List.mem_cons.1 a with rfl | a
            · rw [hg] at d; simp at d
            · exact ⟨a, b, k', d, rfl⟩

theorem lists_iff (all : Option (List String)) (dict : Dict String Nat) (n : String) : n ∈ all.getD dict.keys ↔ Lists all dict n := by
  cases all with
  | none => simp [Lists, Dict.keys]
  | some l => simp [Lists]

theorem entered_cases (c : Cfg) (name : String) (all : Option (List String)) : Entered c name all ↔ c.recursive = true ∧ skips c name = false ∧ (all.isNone && c.skipNotHavingAll) = false := by
  have h1 : skips c name = false ↔ ¬ Hidden c name := by rw [← skips_iff]; simp
  rw [h1]
  cases all <;> simp [Entered]

mutual

theorem importNode_spec (c : Cfg) : ∀ (x : Node) (s : St),
    (∀ s', importNode c x s = some s' → Adds (Offers c x) s s') ∧ (importNode c x s = none ↔ c.failOnAttributeError = true ∧ Missing c x)
  | .module name all dict, s => by
    rw [importNode]
    obtain ⟨h1, h2⟩ := importItems_spec c dict (all.getD (Dict.keys dict)) s
    refine ⟨fun s' h => (h1 s' h).congr (fun n v => ?_), ?_⟩
    · rw [lists_iff]
      constructor
      · rintro ⟨a, b, k, d, rfl⟩; exact .module _ _ _ _ _ a b d
      · rintro ⟨⟩; exact ⟨by assumption, by assumption, _, by assumption, rfl⟩
    · rw [h2]
      constructor
      · rintro ⟨a, n, b, d, e⟩; exact ⟨a, .module _ _ _ n ((lists_iff _ _ _).1 b) d e⟩
      · rintro ⟨a, ⟨⟩⟩; exact ⟨a, _, (lists_iff _ _ _).2 (by assumption), by assumption, by assumption⟩
  | .package name all dict children, s => by
    obtain ⟨h1, h2⟩ := importNodes_spec c children (all.getD [], dict)
    by_cases he : Entered c name all
    · obtain ⟨e1, e2, e3⟩ := (entered_cases c name all).1 he
      rw [importNode, if_pos e1, e2, e3]
      simp only [Bool.false_eq_true, ↓reduceIte]
      cases hr : importNodes c children (all.getD [], dict) with
      | none =>
        refine ⟨by simp, ?_⟩
        simp only [true_iff]
        obtain ⟨a, x, b, d⟩ := h2.1 hr
        exact ⟨a, .package _ _ _ _ x he b d⟩
      | some r =>
        have hor : (all.isSome || c.createAll) = true ↔ (all ≠ none ∨ c.createAll = true) := by cases all <;> simp
        refine ⟨fun s' h => ?_, ?_⟩
        · simp only [Option.some.injEq] at h
          subst h
          refine (Adds.single s name _).congr (fun n v => ?_)
          constructor
          · rintro ⟨rfl, rfl⟩
            have := Offers.package (c := c) n all dict children r.1 r.2 he hr
            simpa only [hor] using this
          · rintro ⟨⟩
            next l ns _ hr' =>
            rw [hr] at hr'
            simp only [Option.some.injEq] at hr'
            subst hr'
            exact ⟨rfl, by simp only [hor]⟩
        · simp only [reduceCtorEq, false_iff]
          rintro ⟨a, hm⟩
          obtain ⟨x, hx, hm⟩ : ∃ x ∈ children, Missing c x := by
            cases hm
            exact ⟨_, by assumption, by assumption⟩
          have := h2.2 ⟨a, x, hx, hm⟩
          rw [hr] at this
          simp at this
    · have hi : importNode c (.package name all dict children) s = some s := by
        rw [entered_cases] at he
        rw [importNode]
        split
        · next a =>
          split
          · rfl
          · next b =>
            split
            · rfl
            · next d => exact absurd ⟨a, by simpa using b, by simpa using d⟩ he
        · rfl
      rw [hi]
      refine ⟨fun s' h => ?_, ?_⟩
      · simp at h; subst h
        refine (Adds.none' s).congr (fun n v => ?_)
        simp only [false_iff]
        rintro ⟨⟩
        exact he (by assumption)
      · simp only [reduceCtorEq, false_iff]
        rintro ⟨_, ⟨⟩⟩
        exact he (by assumption)

theorem importNodes_spec (c : Cfg) : ∀ (l : List Node) (s : St),
    (∀ s', importNodes c l s = some s' → Adds (fun n v => ∃ x ∈ l, Offers c x n v) s s') ∧ (importNodes c l s = none ↔ c.failOnAttributeError = true ∧ ∃ x ∈ l, Missing c x)
  | [], s => by
    rw [importNodes]
    exact ⟨fun s' h => by simp at h; subst h; exact (Adds.none' s).congr (by simp), by simp⟩
  | x :: l, s => by
    rw [importNodes]
    obtain ⟨h1, h2⟩ := importNode_spec c x s
    cases hx : importNode c x s with
    | none =>
      obtain ⟨a, b⟩ := h2.1 hx
      exact ⟨by simp, by simp only [true_iff]; exact ⟨a, x, by simp, b⟩⟩
    | some s1 =>
      obtain ⟨h3, h4⟩ := importNodes_spec c l s1
      refine ⟨fun s' h => ((h1 s1 hx).trans (h3 s' h)).congr (by simp), ?_⟩
      rw [h4]
      constructor
      · rintro ⟨a, y, b, d⟩; exact ⟨a, y, by simp [b], d⟩
      · rintro ⟨a, y, b, d⟩
        rcases List.mem_cons.1 b with rfl | b
        · have := h2.2 ⟨a, d⟩
          rw [hx] at this
          simp at this
        · exact ⟨a, y, b, d⟩

end

/-- **C159 (names)**: after import_from, all_ is as before followed by new names, without duplicates; a name is in it exactly if it was before, or one of the modules or packages contributes it: a module what it lists and has and is not to be left out, an entered package itself. Each of these is then in the namespace, as contributed; anything else in the namespace is as it was. -/
theorem C159_names (c : Cfg) (l : List Node) (all all' : List String) (ns ns' : Dict String Val) (h : importNodes c l (all, ns) = some (all', ns')) :
    (∃ t, all' = all ++ t) ∧ (all.Nodup → all'.Nodup) ∧ (∀ n, n ∈ all' ↔ n ∈ all ∨ ∃ v, ∃ x ∈ l, Offers c x n v) ∧
    (∀ n v x, x ∈ l → Offers c x n v → ∃ w, ∃ y ∈ l, Offers c y n w ∧ ns'.get? n = some w) ∧ (∀ n, (∀ v, ∀ x ∈ l, ¬ Offers c x n v) → ns'.get? n = ns.get? n) := by
  obtain ⟨h1, h2, h3, h4, h5⟩ := (importNodes_spec c l (all, ns)).1 _ h
  refine ⟨h1, h2, h3, fun n v x hx ho => ?_, fun n hn => h4 n (fun v ⟨x, hx, ho⟩ => hn v x hx ho)⟩
  obtain ⟨w, ⟨y, hy, ho'⟩, hw⟩ := h5 n v ⟨x, hx, ho⟩
  exact ⟨w, y, hy, ho', hw⟩

theorem importNodes_append (c : Cfg) (a b : List Node) (s : St) : importNodes c (a ++ b) s = (importNodes c a s).bind (importNodes c b) := by
  induction a generalizing s with
  | nil => simp [importNodes]
  | cons x a ih =>
    simp only [List.cons_append, importNodes]
    cases importNode c x s with
    | none => rfl
    | some s' => exact ih s'

/-- **C159 (last wins)**: of several that contribute a name, the last one found is in the namespace. -/
theorem C159_last (c : Cfg) (pre post : List Node) (x : Node) (s s' : St) (h : importNodes c (pre ++ x :: post) s = some s') (n : String) (v : Val) (ho : Offers c x n v)
    (hlast : ∀ y ∈ post, ∀ w, ¬ Offers c y n w) : ∃ w, Offers c x n w ∧ s'.2.get? n = some w := by
  rw [importNodes_append] at h
  cases h1 : importNodes c pre s with
  | none => simp [h1] at h
  | some s1 =>
    rw [h1] at h
    simp only [Option.bind_some, importNodes] at h
    cases h2 : importNode c x s1 with
    | none => simp [h2] at h
    | some s2 =>
      rw [h2] at h
      obtain ⟨w, hw1, hw2⟩ := ((importNode_spec c x s1).1 s2 h2).some' n v ho
      refine ⟨w, hw1, ?_⟩
      rw [((importNodes_spec c post s2).1 s' h).other n (fun w ⟨y, hy, hw⟩ => hlast y hy w hw)]
      exact hw2

/-- **C159 (failing)**: AttributeError is raised exactly if it was asked for and a module, at any depth that is entered, lists a name, not one to be left out, that it does not have. -/
theorem C159_fails (c : Cfg) (l : List Node) (s : St) : importNodes c l s = none ↔ c.failOnAttributeError = true ∧ ∃ x ∈ l, Missing c x :=
  (importNodes_spec c l s).2

/-- the package of the examples -/
def exampleNodes : List Node := [.module "a" (some ["f", "g"]) [("f", 1), ("g", 2), ("h", 3)], .package "p" none [] [.module "b" none [("k", 4), ("_k", 5)]]]

example : importNodes {} exampleNodes ([], []) = some (["f", "g", "p"], [("f", .item 1), ("g", .item 2), ("p", .pkg (some ["k"]) [("k", .item 4)])]) := by
  have h1 : ("f".startsWith "_") = false := by decide +kernel
  have h2 : ("g".startsWith "_") = false := by decide +kernel
  have h3 : ("p".startsWith "_") = false := by decide +kernel
  have h4 : ("k".startsWith "_") = false := by decide +kernel
  have h5 : ("_k".startsWith "_") = true := by decide +kernel
  simp [importNodes, importNode, importItems, exampleNodes, skips, h1, h2, h3, h4, h5, addName, Dict.get?, Dict.set, Dict.keys]

/-- **C159 (class)**: import_class gives what the module before the last dot has under the name after it, else ImportError. -/
theorem C159_class (importModule : String → Option (Dict String Nat)) (pre : List String) (cls : String) :
    importClass importModule (pre ++ [cls]) = (importModule (".".intercalate pre)).bind (fun m => m.get? cls) := by
  simp only [importClass, List.getLast?_append, List.getLast?_singleton, Option.some_or, List.dropLast_concat]
  cases importModule (".".intercalate pre) <;> rfl

example : importClass (fun m => if m = "subprocess" then some [("Popen", 7)] else none) ["subprocess", "Popen"] = some 7 := by decide

/-! ## C160 -/

/-- **C160 (violation), modules with underscores**: skip_single_underscores "pertains to modules as well as items", but the name of a module, unlike that of a package, is not looked at: what `_a` has is imported. -/
theorem C160_underscore_violates : (∀ c n m all dict s, importNode c (.module n all dict) s = importNode c (.module m all dict) s) ∧
    importNodes {} [.module "_a" (some ["f"]) [("f", 1)]] ([], []) = some (["f"], [("f", .item 1)]) := by
  refine ⟨fun c n m all dict s => by simp only [importNode], ?_⟩
  have h1 : ("f".startsWith "_") = false := by decide +kernel
  simp [importNodes, importNode, importItems, skips, h1, addName, Dict.get?, Dict.set]

/-- **C160 (violation), modules without `__all__`**: skip_not_having_all is for packages only, all that a module without `__all__` has is imported. -/
theorem C160_no_all_violates : importNodes { skipNotHavingAll := true } [.module "a" none [("f", 1)]] ([], []) = some (["f"], [("f", .item 1)]) := by
  have h1 : ("f".startsWith "_") = false := by decide +kernel
  simp [importNodes, importNode, importItems, skips, h1, addName, Dict.get?, Dict.set, Dict.keys]

/-- **C160 (violation), names of other packages**: packages are walked without their prefix, so if a package inside has the name of an importable top-level one, as `json`, the modules of the latter are asked for in the former, which is ModuleNotFoundError. -/
theorem C160_top_level_violates (top : String → List String) (sub : String) (h : sub ∈ top "json") (children : List Node) (hc : ∀ y ∈ children, y.name ≠ sub) :
    ∃ p ∈ walk top [.package "json" none [] children], canImport [.package "json" none [] children] p = false := by
  refine ⟨("json", some sub), by simp [walk, Node.name, Node.isPkg, h], ?_⟩
  simp [canImport, Node.children]
  exact fun _ y hy => hc y hy

example : "decoder" ∈ (fun n => if n = "json" then ["decoder", "encoder"] else []) "json" := by decide

/-- **C160 (partial), names of other packages**: all that is walked can be imported exactly if, for each package, what is in a top-level one of the same name is also in it or in another of this name. -/
theorem C160_walk_partial (top : String → List String) (l : List Node) :
    (∀ p ∈ walk top l, canImport l p = true) ↔ ∀ x ∈ l, (∃ name all dict ch, x = .package name all dict ch) → ∀ n ∈ top x.name, ∃ y ∈ l, y.name = x.name ∧ ∃ z ∈ y.children, z.name = n := by
  have hpkg : ∀ x : Node, (∃ name all dict ch, x = .package name all dict ch) ↔ x.isPkg = true := by
    intro x
    cases x <;> simp [Node.isPkg]
  simp only [hpkg]
  have hmem : ∀ (l : List Node) p, p ∈ walk top l ↔ ∃ x ∈ l, p = (x.name, none) ∨ (x.isPkg = true ∧ ∃ n ∈ top x.name, p = (x.name, some n)) := by
    intro l
    induction l with
    | nil => simp [walk]
    | cons x l ih =>
      intro p
      simp only [walk, List.cons_append, List.mem_cons, List.mem_append, ih]
      constructor
      · rintro (h | h | ⟨y, hy, h⟩)
        · exact ⟨x, by simp, Or.inl h⟩
        · split at h
          · next hp =>
            simp only [List.mem_map] at h
            obtain ⟨n, hn, h⟩ := h
            exact ⟨x, by simp, Or.inr ⟨hp, n, hn, h.symm⟩⟩
          · simp at h
        · exact ⟨y, by simp [hy], h⟩
      · rintro ⟨y, rfl | hy, h⟩
        · rcases h with h | ⟨hp, n, hn, h⟩
          · exact Or.inl h
          · exact Or.inr (Or.inl (by rw [if_pos hp]; simp only [List.mem_map]; exact ⟨n, hn, h.symm⟩))
        · exact Or.inr (Or.inr ⟨y, hy, h⟩)
  constructor
  · intro h x hx hp n hn
    have := h (x.name, some n) ((hmem l _).2 ⟨x, hx, Or.inr ⟨hp, n, hn, rfl⟩⟩)
    simp only [canImport, List.any_eq_true, Bool.and_eq_true, beq_iff_eq] at this
    obtain ⟨y, hy, e, z, hz, e'⟩ := this
    exact ⟨y, hy, e, z, hz, e'⟩
  · intro h p hp
    obtain ⟨x, hx, rfl | ⟨hpk, n, hn, rfl⟩⟩ := (hmem l p).1 hp
    · simp only [canImport, List.any_eq_true, beq_iff_eq]
      exact ⟨x, hx, rfl⟩
    · obtain ⟨y, hy, e, z, hz, e'⟩ := h x hx hpk n hn
      simp only [canImport, List.any_eq_true, Bool.and_eq_true, beq_iff_eq]
      exact ⟨y, hy, e, z, hz, e'⟩

end Verif.Imports
