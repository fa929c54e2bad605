import Verif.Py.Basic
import Verif.Py.Dict
import Verif.Py.Run

/-!
# KeyAwareDefaultDict (satella/coding/structures/dictionaries/objects.py), C102
-/
namespace Verif.KeyAware

open Verif

variable {K V : Type} [DecidableEq K]

/-- a KeyAwareDefaultDict, /repo/satella/coding/structures/dictionaries/objects.py:97-99, and the keys for which the factory was called -/
structure St (K V : Type) where
  dict : Dict K V
  calls : List K

/-- calls: those defined, and those inherited from MutableMapping, /repo/satella/coding/structures/dictionaries/objects.py:91-111 -/
inductive Op (K V : Type) where
  | getitem (k : K)
  | set (k : K) (v : V)
  | del (k : K)
  | len
  | iter
  | contains (k : K)
  | get (k : K) (default : V)
  | pop (k : K) (default : Option V)
  | setdefault (k : K) (v : V)

/-- what a call returns, /repo/satella/coding/structures/dictionaries/objects.py:91-111 -/
inductive Res (K V : Type) where
  | unit
  | keyError
  | raised (n : Nat)
  | val (v : V)
  | bool (b : Bool)
  | nat (n : Nat)
  | keys (l : List K)

/-- what the factory does: a value, KeyError, or another exception; /repo/satella/coding/structures/dictionaries/objects.py:104 -/
inductive Made (V : Type) where
  | ok (v : V)
  | keyError
  | raised (n : Nat)

variable (factory : K → Made V)

/-- `__getitem__`, /repo/satella/coding/structures/dictionaries/objects.py:101-105 -/
def getitem (s : St K V) (k : K) : St K V × Made V :=
  match Dict.get? s.dict k with
  | some v => (s, .ok v)
  | none =>
    match factory k with
    | .ok v => ({ dict := Dict.set s.dict k v, calls := s.calls ++ [k] }, .ok v)
    | e => ({ s with calls := s.calls ++ [k] }, e)

/-- one call, /repo/satella/coding/structures/dictionaries/objects.py:91-111.  `in`, `get`, `pop` and `setdefault` are those of Mapping and MutableMapping: they call `__getitem__` and wait for KeyError. -/
def step (s : St K V) : Op K V → St K V × Res K V
  | .getitem k =>
    match getitem factory s k with
    | (s', .ok v) => (s', .val v)
    | (s', .keyError) => (s', .keyError)
    | (s', .raised n) => (s', .raised n)
  | .set k v => ({ s with dict := Dict.set s.dict k v }, .unit)
  | .del k => if Dict.has s.dict k then ({ s with dict := Dict.del s.dict k }, .unit) else (s, .keyError)
  | .len => (s, .nat s.dict.length)
  | .iter => (s, .keys (Dict.keys s.dict))
  | .contains k =>
    match getitem factory s k with
    | (s', .ok _) => (s', .bool true)
    | (s', .keyError) => (s', .bool false)
    | (s', .raised n) => (s', .raised n)
  | .get k d =>
    match getitem factory s k with
    | (s', .ok v) => (s', .val v)
    | (s', .keyError) => (s', .val d)
    | (s', .raised n) => (s', .raised n)
  | .pop k d =>
    match getitem factory s k with
    | (s', .ok v) => ({ s' with dict := Dict.del s'.dict k }, .val v)
    | (s', .keyError) => (s', match d with | some v => .val v | none => .keyError)
    | (s', .raised n) => (s', .raised n)
  | .setdefault k v =>
    match getitem factory s k with
    | (s', .ok w) => (s', .val w)
    | (s', .keyError) => ({ s' with dict := Dict.set s'.dict k v }, .val v)
    | (s', .raised n) => (s', .raised n)

/-! ## Specification -/

/-- the contents, and for which keys the factory was called -/
structure Abs (K V : Type) where
  get : K → Option V
  calls : List K

/-- all keys, each once -/
def Lists (get : K → Option V) (l : List K) : Prop := l.Nodup ∧ ∀ k, k ∈ l ↔ get k ≠ none

/-- only the key `k` is changed, and the factory is not called -/
def Put (b : Abs K V) (k : K) (x : Option V) (b' : Abs K V) : Prop := b'.calls = b.calls ∧ ∀ j, b'.get j = if j = k then x else b.get j

/-- the specification, as for defaultdict: only indexing calls the factory, once, if the key is not there -/
def Spec (b : Abs K V) : Op K V → Res K V → Abs K V → Prop
  | .getitem k, r, b' => (∃ v, b.get k = some v ∧ r = .val v ∧ b' = b) ∨
      (b.get k = none ∧ b'.calls = b.calls ++ [k] ∧
        ((∃ v, factory k = .ok v ∧ r = .val v ∧ ∀ j, b'.get j = if j = k then some v else b.get j) ∨
         (factory k = .keyError ∧ r = .keyError ∧ b'.get = b.get) ∨ (∃ n, factory k = .raised n ∧ r = .raised n ∧ b'.get = b.get)))
  | .set k v, r, b' => r = .unit ∧ Put b k (some v) b'
  | .del k, r, b' => (b.get k ≠ none ∧ r = .unit ∧ Put b k none b') ∨ (b.get k = none ∧ r = .keyError ∧ b' = b)
  | .len, r, b' => b' = b ∧ ∃ l, Lists b.get l ∧ r = .nat l.length
  | .iter, r, b' => b' = b ∧ ∃ l, Lists b.get l ∧ r = .keys l
  | .contains k, r, b' => b' = b ∧ r = .bool (b.get k).isSome
  | .get k d, r, b' => b' = b ∧ r = .val ((b.get k).getD d)
  | .pop k d, r, b' => (∃ v, b.get k = some v ∧ r = .val v ∧ Put b k none b') ∨
      (b.get k = none ∧ b' = b ∧ ((∃ v, d = some v ∧ r = .val v) ∨ (d = none ∧ r = .keyError)))
  | .setdefault k v, r, b' => (∃ w, b.get k = some w ∧ r = .val w ∧ b' = b) ∨ (b.get k = none ∧ r = .val v ∧ Put b k (some v) b')

/-- `in`, `get`, `pop` and `setdefault` only for keys that are there -/
def Known (s : St K V) : Op K V → Prop
  | .contains k => (Dict.get? s.dict k).isSome = true
  | .get k _ => (Dict.get? s.dict k).isSome = true
  | .pop k _ => (Dict.get? s.dict k).isSome = true
  | .setdefault k _ => (Dict.get? s.dict k).isSome = true
  | _ => True

/-! ## Proofs -/

/-- the contents and calls of a state -/
def absOf (s : St K V) : Abs K V := { get := Dict.get? s.dict, calls := s.calls }

/-- these are the contents and calls -/
def Rep (s : St K V) (b : Abs K V) : Prop := Dict.WF s.dict ∧ b = absOf s

theorem lists_of (d : Dict K V) (h : Dict.WF d) : Lists (Dict.get? d) (Dict.keys d) := by
  refine ⟨h, fun k => ?_⟩
  rw [← Dict.get?_isSome_iff]
  cases Dict.get? d k <;> simp

theorem step_sim (s : St K V) (b : Abs K V) (o : Op K V) (hk : Known s o) (h : Rep s b) :
    ∃ b', Spec factory b o (step factory s o).2 b' ∧ Rep (step factory s o).1 b' := by
  obtain ⟨hw, rfl⟩ := h
  have known : ∀ k, (Dict.get? s.dict k).isSome = true → ∃ v, Dict.get? s.dict k = some v ∧ getitem factory s k = (s, .ok v) := by
    intro k hk
    obtain ⟨v, hv⟩ := Option.isSome_iff_exists.1 hk
    exact ⟨v, hv, by simp [getitem, hv]⟩
  cases o with
  | getitem k =>
    simp only [step]
    cases hg : Dict.get? s.dict k with
    | some v => simp only [getitem, hg]; exact ⟨absOf s, Or.inl ⟨v, hg, rfl, rfl⟩, hw, rfl⟩
    | none =>
      cases hf : factory k with
      | ok v =>
        simp only [getitem, hg, hf]
        refine ⟨absOf _, Or.inr ⟨hg, rfl, Or.inl ⟨v, hf, rfl, fun j => ?_⟩⟩, Dict.wf_set hw _ _, rfl⟩
        simp only [absOf]
        rw [Dict.get?_set]; by_cases e : k = j <;> simp [e, eq_comm]
      | keyError => simp only [getitem, hg, hf]; refine ⟨absOf _, ?_, hw, rfl⟩; exact Or.inr ⟨hg, rfl, Or.inr (Or.inl ⟨hf, rfl, rfl⟩)⟩
      | raised n => simp only [getitem, hg, hf]; refine ⟨absOf _, ?_, hw, rfl⟩; exact Or.inr ⟨hg, rfl, Or.inr (Or.inr ⟨n, hf, rfl, rfl⟩)⟩
  | set k v =>
    refine ⟨absOf _, ?_, Dict.wf_set hw k v, rfl⟩
    refine ⟨rfl, rfl, fun j => ?_⟩
    simp only [absOf, step]
    rw [Dict.get?_set]; by_cases e : k = j <;> simp [e, eq_comm]
  | del k =>
    cases hg : Dict.get? s.dict k with
    | some v =>
      have es : step factory s (.del k) = ({ s with dict := Dict.del s.dict k }, .unit) := by simp [step, Dict.has, hg]
      rw [es]
      refine ⟨absOf _, ?_, Dict.wf_del hw k, rfl⟩
      refine Or.inl ⟨by simp [absOf, hg], rfl, rfl, fun j => ?_⟩
      simp only [absOf]
      rw [Dict.get?_del]; by_cases e : k = j <;> simp [e, eq_comm]
    | none =>
      have es : step factory s (.del k) = (s, .keyError) := by simp [step, Dict.has, hg]
      rw [es]
      exact ⟨absOf _, Or.inr ⟨hg, rfl, rfl⟩, hw, rfl⟩
  | len => exact ⟨_, ⟨rfl, _, lists_of _ hw, by simp [step, Dict.keys]⟩, hw, rfl⟩
  | iter => exact ⟨_, ⟨rfl, _, lists_of _ hw, rfl⟩, hw, rfl⟩
  | contains k =>
    obtain ⟨v, hv, e⟩ := known k hk
    simp only [step, e]
    exact ⟨absOf _, ⟨rfl, by simp [absOf, hv]⟩, hw, rfl⟩
  | get k d =>
    obtain ⟨v, hv, e⟩ := known k hk
    simp only [step, e]
    exact ⟨absOf _, ⟨rfl, by simp [absOf, hv]⟩, hw, rfl⟩
  | pop k d =>
    obtain ⟨v, hv, e⟩ := known k hk
    simp only [step, e]
    refine ⟨absOf _, ?_, Dict.wf_del hw k, rfl⟩
    refine Or.inl ⟨v, hv, rfl, rfl, fun j => ?_⟩
    simp only [absOf]
    rw [Dict.get?_del]; by_cases e : k = j <;> simp [e, eq_comm]
  | setdefault k v =>
    obtain ⟨w, hv, e⟩ := known k hk
    simp only [step, e]
    exact ⟨_, Or.inl ⟨w, hv, rfl, rfl⟩, hw, rfl⟩

/-- **C102** (partial: `in`, `get`, `pop` and `setdefault` are called for keys that are there only). Indexing gives what is stored, or calls the factory once and stores what it gives; nothing else calls it. -/
theorem C102_default_dict_partial (init : Dict K V) (hw : Dict.WF init) (ops : List (Op K V)) (hk : AllSteps Known (step factory) { dict := init, calls := [] } ops) :
    ∃ b', History (Spec factory) { get := Dict.get? init, calls := [] } ops (runOps (step factory) { dict := init, calls := [] } ops).2 b' := by
  obtain ⟨b', h1, _⟩ := history_of_sim' (spec := Spec factory) Rep Known (fun s b o => step_sim factory s b o) { dict := init, calls := [] } _ ops hk ⟨hw, rfl⟩
  exact ⟨b', h1⟩

/-- **C102** (partial, keys the factory refuses). If the factory raises KeyError for a key that is not there, then `in`, `get`, `pop` and `setdefault` do for it what they do with a dictionary; but the factory is called. -/
theorem C102_refused_partial (s : St K V) (k : K) (v : V) (hk : Dict.get? s.dict k = none) (hf : factory k = .keyError) :
    step factory s (.contains k) = ({ s with calls := s.calls ++ [k] }, .bool false) ∧ step factory s (.get k v) = ({ s with calls := s.calls ++ [k] }, .val v) ∧
    step factory s (.pop k none) = ({ s with calls := s.calls ++ [k] }, .keyError) ∧ step factory s (.pop k (some v)) = ({ s with calls := s.calls ++ [k] }, .val v) ∧
    (step factory s (.setdefault k v)).2 = .val v ∧ (∀ j, Dict.get? (step factory s (.setdefault k v)).1.dict j = if j = k then some v else Dict.get? s.dict j) := by
  have h : getitem factory s k = ({ s with calls := s.calls ++ [k] }, .keyError) := by simp [getitem, hk, hf]
  refine ⟨by simp [step, h], by simp [step, h], by simp [step, h], by simp [step, h], by simp [step, h], fun j => ?_⟩
  simp only [step, h]
  rw [Dict.get?_set]; by_cases e : k = j <;> simp [e, eq_comm]

example : Dict.get? ([] : Dict Nat Nat) 3 = none ∧ (fun _ => .keyError : Nat → Made Nat) 3 = .keyError := ⟨rfl, rfl⟩

/-- **C102, violated by `in`, `get`, `pop` and `setdefault`**: for a key that is not there they call the factory.  So, if it does not raise, `in` is true and adds the key, `get` and `setdefault` ignore the default, and `pop` gives what was never stored. -/
theorem C102_lookups_violates (s : St K V) (k : K) (v w : V) (hk : Dict.get? s.dict k = none) (hf : factory k = .ok v) :
    (step factory s (.contains k)).2 = .bool true ∧ Dict.get? (step factory s (.contains k)).1.dict k = some v ∧
    (step factory s (.get k w)).2 = .val v ∧ Dict.get? (step factory s (.get k w)).1.dict k = some v ∧
    (step factory s (.setdefault k w)).2 = .val v ∧ (step factory s (.pop k none)).2 = .val v := by
  have e : getitem factory s k = ({ dict := Dict.set s.dict k v, calls := s.calls ++ [k] }, .ok v) := by simp [getitem, hk, hf]
  simp [step, e]

/-- the factory is called once per key; a key that is there can be asked for -/
example : (runOps (step (fun k : Nat => .ok (k + 100))) { dict := [], calls := [] } [.getitem 1, .getitem 1, .contains 1, .len]) =
    ({ dict := [(1, 101)], calls := [1] }, [.val 101, .val 101, .bool true, .nat 1]) := by rfl
example : AllSteps Known (step (fun k : Nat => .ok (k + 100))) { dict := [], calls := [] } [.getitem 1, .getitem 1, .contains 1, .len] :=
  ⟨trivial, trivial, rfl, trivial, trivial⟩
/-- `5 in d` for an empty d -/
example : (step (fun k : Nat => Made.ok (k + 100)) { dict := [], calls := [] } (.contains 5)).2 = .bool true := rfl

end Verif.KeyAware
