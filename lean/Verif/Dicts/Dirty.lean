import Verif.Py.Basic
import Verif.Py.Dict
import Verif.Py.Run

/-!
# DirtyDict (satella/coding/structures/dictionaries/objects.py), C97

`==` of values is a function `eqv`, which need not be equality of the model.
-/
namespace Verif.DirtyDict

open Verif

variable {K V : Type} [DecidableEq K]

/-- a DirtyDict, /repo/satella/coding/structures/dictionaries/objects.py:29-31 -/
structure St (K V : Type) where
  data : Dict K V
  dirty : Bool

/-- calls, with those inherited from MutableMapping, /repo/satella/coding/structures/dictionaries/objects.py:20-79 -/
inductive Op (K V : Type) where
  | get (k : K)
  | contains (k : K)
  | len
  | iter
  | isDirty
  | set (k : K) (v : V)
  | del (k : K)
  | clearDirty
  | swap
  | copyClear
  | copy
  | pop (k : K) (default : Option V)
  | popitem
  | clear
  | update (l : List (K × V))
  | setdefault (k : K) (v : V)

/-- what a call returns, /repo/satella/coding/structures/dictionaries/objects.py:20-79 -/
inductive Res (K V : Type) where
  | unit
  | keyError
  | val (v : V)
  | bool (b : Bool)
  | nat (n : Nat)
  | keys (l : List K)
  | item (k : K) (v : V)
  | dict (d : Dict K V)

variable (eqv : V → V → Bool)

/-- `__setitem__`, /repo/satella/coding/structures/dictionaries/objects.py:38-43 -/
def setitem (s : St K V) (k : K) (v : V) : St K V :=
  match Dict.get? s.data k with
  | some w => if eqv w v then s else { data := Dict.set s.data k v, dirty := true }
  | none => { data := Dict.set s.data k v, dirty := true }

/-- `__delitem__`, /repo/satella/coding/structures/dictionaries/objects.py:45-47; `none` is KeyError -/
def delitem (s : St K V) (k : K) : Option (St K V) :=
  if (Dict.get? s.data k).isSome then some { data := Dict.del s.data k, dirty := true } else none

/-- `popitem`, inherited from MutableMapping: the first key of /repo/satella/coding/structures/dictionaries/objects.py:23-24 is deleted -/
def popitem (s : St K V) : Option (K × V × St K V) :=
  match s.data with
  | [] => none
  | (k, v) :: _ => (delitem s k).map fun s' => (k, v, s')

/-- `clear`, inherited from MutableMapping: `popitem` until KeyError (see :45-47 of /repo/satella/coding/structures/dictionaries/objects.py:45-47).  There are as many iterations as there are items. -/
def clearLoop : Nat → St K V → St K V
  | 0, s => s
  | n + 1, s =>
    match popitem s with
    | none => s
    | some (_, _, s') => clearLoop n s'

/-- `update`, inherited from MutableMapping: a loop of `__setitem__`, /repo/satella/coding/structures/dictionaries/objects.py:38-43 -/
def updateLoop : List (K × V) → St K V → St K V
  | [], s => s
  | p :: l, s => updateLoop l (setitem eqv s p.1 p.2)

/-- one call, /repo/satella/coding/structures/dictionaries/objects.py:20-79 -/
def step (s : St K V) : Op K V → St K V × Res K V
  | .get k => (s, match Dict.get? s.data k with | some v => .val v | none => .keyError)
  | .contains k => (s, .bool (Dict.has s.data k))
  | .len => (s, .nat s.data.length)
  | .iter => (s, .keys (Dict.keys s.data))
  | .isDirty => (s, .bool s.dirty)
  | .set k v => (setitem eqv s k v, .unit)
  | .del k => match delitem s k with | some s' => (s', .unit) | none => (s, .keyError)
  | .clearDirty => ({ s with dirty := false }, .unit)
  | .swap => ({ data := [], dirty := false }, .dict s.data)
  | .copyClear => ({ s with dirty := false }, .dict s.data)
  | .copy => ({ data := s.data, dirty := s.dirty }, .unit)
  | .pop k d =>
    match Dict.get? s.data k with
    | some v => match delitem s k with | some s' => (s', .val v) | none => (s, .keyError)
    | none => (s, match d with | some v => .val v | none => .keyError)
  | .popitem => match popitem s with | some (k, v, s') => (s', .item k v) | none => (s, .keyError)
  | .clear => (clearLoop (s.data.length + 1) s, .unit)
  | .update l => (updateLoop eqv l s, .unit)
  | .setdefault k v =>
    match Dict.get? s.data k with
    | some w => (s, .val w)
    | none => (setitem eqv s k v, .val v)

/-! ## Specification -/

/-- what the caller knows: the contents, and whether they were changed since the flag was last cleared -/
structure Abs (K V : Type) where
  get : K → Option V
  changed : Prop

/-- the keys, each once -/
def Lists (get : K → Option V) (l : List K) : Prop := l.Nodup ∧ ∀ k, k ∈ l ↔ get k ≠ none

/-- a call that does not clear the flag: changed now exactly if it was before or the contents became others -/
def Marks (b b' : Abs K V) : Prop := b'.changed ↔ b.changed ∨ b'.get ≠ b.get

/-- the contents after setting: an equal value is not set again -/
def SetTo (b : Abs K V) (k : K) (v : V) (b' : Abs K V) : Prop :=
  Marks b b' ∧ (∀ j, j ≠ k → b'.get j = b.get j) ∧
    ((∃ w, b.get k = some w ∧ eqv w v = true ∧ b'.get k = some w) ∨ ((∀ w, b.get k = some w → eqv w v = false) ∧ b'.get k = some v))

/-- the contents after deleting -/
def Removed (b : Abs K V) (k : K) (b' : Abs K V) : Prop :=
  Marks b b' ∧ b'.get k = none ∧ ∀ j, j ≠ k → b'.get j = b.get j

/-- the specification of a call -/
def Spec (b : Abs K V) : Op K V → Res K V → Abs K V → Prop
  | .get k, r, b' => b' = b ∧ ((∃ v, b.get k = some v ∧ r = .val v) ∨ (b.get k = none ∧ r = .keyError))
  | .contains k, r, b' => b' = b ∧ ∃ x, r = .bool x ∧ (x = true ↔ b.get k ≠ none)
  | .len, r, b' => b' = b ∧ ∃ l, Lists b.get l ∧ r = .nat l.length
  | .iter, r, b' => b' = b ∧ ∃ l, Lists b.get l ∧ r = .keys l
  | .isDirty, r, b' => b' = b ∧ ∃ x, r = .bool x ∧ (x = true ↔ b.changed)
  | .set k v, r, b' => r = .unit ∧ SetTo eqv b k v b'
  | .del k, r, b' => (b.get k ≠ none ∧ r = .unit ∧ Removed b k b') ∨ (b.get k = none ∧ r = .keyError ∧ b' = b)
  | .clearDirty, r, b' => r = .unit ∧ b'.get = b.get ∧ ¬ b'.changed
  | .swap, r, b' => (∃ d, r = .dict d ∧ Dict.WF d ∧ ∀ k, Dict.get? d k = b.get k) ∧ (∀ k, b'.get k = none) ∧ ¬ b'.changed
  | .copyClear, r, b' => (∃ d, r = .dict d ∧ Dict.WF d ∧ ∀ k, Dict.get? d k = b.get k) ∧ b'.get = b.get ∧ ¬ b'.changed
  | .copy, r, b' => r = .unit ∧ b' = b
  | .pop k d, r, b' => (∃ v, b.get k = some v ∧ r = .val v ∧ Removed b k b') ∨
      (b.get k = none ∧ b' = b ∧ ((∃ v, d = some v ∧ r = .val v) ∨ (d = none ∧ r = .keyError)))
  | .popitem, r, b' => (∃ k v, b.get k = some v ∧ r = .item k v ∧ Removed b k b') ∨ ((∀ k, b.get k = none) ∧ r = .keyError ∧ b' = b)
  | .clear, r, b' => r = .unit ∧ Marks b b' ∧ ∀ k, b'.get k = none
  | .update l, r, b' => r = .unit ∧ History (fun c (p : K × V) (_ : Unit) c' => SetTo eqv c p.1 p.2 c') b l (l.map fun _ => ()) b'
  | .setdefault k v, r, b' => (∃ w, b.get k = some w ∧ r = .val w ∧ b' = b) ∨ (b.get k = none ∧ r = .val v ∧ SetTo eqv b k v b')

/-! ## Proofs -/

/-- the dictionary has these contents and this flag -/
def Rep (s : St K V) (b : Abs K V) : Prop := Dict.WF s.data ∧ (∀ k, Dict.get? s.data k = b.get k) ∧ (s.dirty = true ↔ b.changed)

/-- the abstract value of a state -/
def absOf (s : St K V) : Abs K V := { get := Dict.get? s.data, changed := s.dirty = true }

theorem rep_abs (s : St K V) (h : Dict.WF s.data) : Rep s (absOf s) := ⟨h, fun _ => rfl, Iff.rfl⟩

theorem setitem_spec (hr : ∀ v, eqv v v = true) (s : St K V) (b : Abs K V) (k : K) (v : V) (h : Rep s b) :
    ∃ b', SetTo eqv b k v b' ∧ Rep (setitem eqv s k v) b' := by
  obtain ⟨hw, hg, hd⟩ := h
  have hset : ∀ j, j ≠ k → Dict.get? (Dict.set s.data k v) j = b.get j := by
    intro j hj; rw [Dict.get?_set, if_neg (fun e => hj e.symm), hg]
  have fresh : (∀ w, b.get k = some w → eqv w v = false) →
      SetTo eqv b k v (absOf { data := Dict.set s.data k v, dirty := true }) := by
    intro hn
    refine ⟨?_, hset, Or.inr ⟨hn, by simp [absOf]⟩⟩
    refine ⟨fun _ => Or.inr ?_, fun _ => rfl⟩
    intro e
    have e1 : some v = b.get k := by rw [← e]; simp [absOf]
    have := hn v e1.symm
    rw [hr] at this; cases this
  unfold setitem
  cases hk : Dict.get? s.data k with
  | none =>
    exact ⟨_, fresh (by intro w hw; rw [← hg, hk] at hw; cases hw), rep_abs _ (Dict.wf_set hw _ _)⟩
  | some w =>
    dsimp only
    cases he : eqv w v with
    | true =>
      refine ⟨b, ⟨⟨Or.inl, fun h => h.elim id fun h => absurd rfl h⟩, fun _ _ => rfl, Or.inl ⟨w, by rw [← hg, hk], he, by rw [← hg, hk]⟩⟩, ?_⟩
      exact ⟨hw, hg, hd⟩
    | false =>
      exact ⟨_, fresh (by intro u hu; rw [← hg, hk] at hu; injection hu with hu; rw [← hu]; exact he), rep_abs _ (Dict.wf_set hw _ _)⟩

theorem delitem_spec (s : St K V) (b : Abs K V) (k : K) (h : Rep s b) :
    (∃ s' b', delitem s k = some s' ∧ b.get k ≠ none ∧ Removed b k b' ∧ Rep s' b') ∨ (delitem s k = none ∧ b.get k = none) := by
  obtain ⟨hw, hg, hd⟩ := h
  unfold delitem
  cases hk : Dict.get? s.data k with
  | none => right; exact ⟨rfl, by rw [← hg, hk]⟩
  | some w =>
    left
    refine ⟨_, absOf { data := Dict.del s.data k, dirty := true }, rfl, by rw [← hg, hk]; simp, ⟨?_, by simp [absOf], ?_⟩, rep_abs _ (Dict.wf_del hw k)⟩
    · refine ⟨fun _ => Or.inr ?_, fun _ => rfl⟩
      intro e
      have e1 : none = b.get k := by rw [← e]; simp [absOf]
      rw [← hg, hk] at e1; cases e1
    · intro j hj; simp only [absOf]; rw [Dict.get?_del, if_neg (fun e => hj e.symm), hg]

theorem popitem_spec (s : St K V) (b : Abs K V) (h : Rep s b) :
    (∃ k v s' b', popitem s = some (k, v, s') ∧ b.get k = some v ∧ Removed b k b' ∧ Rep s' b' ∧ s'.data.length < s.data.length) ∨ (popitem s = none ∧ (∀ k, b.get k = none) ∧ s.data = []) := by
  unfold popitem
  cases hs : s.data with
  | nil => right; exact ⟨rfl, fun k => by rw [← h.2.1, hs]; rfl, rfl⟩
  | cons p l =>
    obtain ⟨k, v⟩ := p
    have hk : Dict.get? s.data k = some v := by rw [hs]; simp [Dict.get?]
    left
    rcases delitem_spec s b k h with ⟨s', b', e, _, hr, hrep⟩ | ⟨_, hn⟩
    · refine ⟨k, v, s', b', by simp [e], by rw [← h.2.1, hk], hr, hrep, ?_⟩
      have : s' = { data := Dict.del s.data k, dirty := true } := by
        unfold delitem at e; rw [hk] at e; simpa using e.symm
      rw [this, ← hs]
      exact Dict.length_del_lt ((Dict.get?_isSome_iff _ _).1 (by rw [hk]; rfl))
    · rw [← h.2.1, hk] at hn; cases hn

omit [DecidableEq K] in
theorem marks_trans (a b c : Abs K V) (h1 : Marks a b) (h2 : Marks b c) (hab : a.get ≠ b.get → a.get ≠ c.get) : Marks a c := by
  unfold Marks at *
  rw [h2, h1]
  constructor
  · rintro ((h | h) | h)
    · exact Or.inl h
    · exact Or.inr fun e => hab (fun e' => h e'.symm) e.symm
    · by_cases e : a.get = b.get
      · right; rw [e]; exact h
      · right; exact fun e' => hab e e'.symm
  · rintro (h | h)
    · exact Or.inl (Or.inl h)
    · by_cases e : b.get = a.get
      · right; rw [e]; exact h
      · exact Or.inl (Or.inr e)

theorem clearLoop_spec (n : Nat) (s : St K V) (b : Abs K V) (h : Rep s b) (hn : s.data.length < n) :
    ∃ b', Marks b b' ∧ (∀ k, b'.get k = none) ∧ Rep (clearLoop n s) b' := by
  induction n generalizing s b with
  | zero => omega
  | succ n ih =>
    rcases popitem_spec s b h with ⟨k, v, s', b1, e, hk, hr, hrep, hl⟩ | ⟨e, hall, _⟩
    · obtain ⟨b', hm, hnone, hrep'⟩ := ih s' b1 hrep (by omega)
      refine ⟨b', ?_, hnone, by simpa [clearLoop, e] using hrep'⟩
      refine marks_trans b b1 b' hr.1 hm ?_
      intro _ e'
      have : b.get k = none := by rw [e']; exact hnone k
      rw [hk] at this; cases this
    · exact ⟨b, ⟨Or.inl, fun h => h.elim id fun h => absurd rfl h⟩, hall, by simpa [clearLoop, e] using h⟩

theorem updateLoop_spec (hr : ∀ v, eqv v v = true) (l : List (K × V)) (s : St K V) (b : Abs K V) (h : Rep s b) :
    ∃ b', History (fun c (p : K × V) (_ : Unit) c' => SetTo eqv c p.1 p.2 c') b l (l.map fun _ => ()) b' ∧ Rep (updateLoop eqv l s) b' := by
  induction l generalizing s b with
  | nil => exact ⟨b, rfl, h⟩
  | cons p l ih =>
    obtain ⟨b1, h1, h2⟩ := setitem_spec eqv hr s b p.1 p.2 h
    obtain ⟨b', h3, h4⟩ := ih _ b1 h2
    exact ⟨b', ⟨b1, h1, h3⟩, h4⟩

theorem lists_of_rep (s : St K V) (b : Abs K V) (h : Rep s b) : Lists b.get (Dict.keys s.data) := by
  refine ⟨h.1, fun k => ?_⟩
  rw [← Dict.get?_isSome_iff, h.2.1]
  cases b.get k <;> simp

theorem step_sim (hr : ∀ v, eqv v v = true) (s : St K V) (b : Abs K V) (o : Op K V) (h : Rep s b) :
    ∃ b', Spec eqv b o (step eqv s o).2 b' ∧ Rep (step eqv s o).1 b' := by
  have hg := h.2.1
  cases o with
  | get k =>
    refine ⟨b, ⟨rfl, ?_⟩, h⟩
    simp only [step]
    cases hk : Dict.get? s.data k with
    | none => right; exact ⟨by rw [← hg, hk], rfl⟩
    | some v => left; exact ⟨v, by rw [← hg, hk], rfl⟩
  | contains k =>
    refine ⟨b, ⟨rfl, _, rfl, ?_⟩, h⟩
    simp only [Dict.has, hg]
    cases b.get k <;> simp
  | len => exact ⟨b, ⟨rfl, _, lists_of_rep s b h, by simp [step, Dict.keys]⟩, h⟩
  | iter => exact ⟨b, ⟨rfl, _, lists_of_rep s b h, rfl⟩, h⟩
  | isDirty => exact ⟨b, ⟨rfl, _, rfl, h.2.2⟩, h⟩
  | set k v =>
    obtain ⟨b', h1, h2⟩ := setitem_spec eqv hr s b k v h
    exact ⟨b', ⟨rfl, h1⟩, h2⟩
  | del k =>
    rcases delitem_spec s b k h with ⟨s', b', e, hk, hrm, hrep⟩ | ⟨e, hk⟩
    · exact ⟨b', by simp only [step, e]; exact Or.inl ⟨hk, rfl, hrm⟩, by simpa only [step, e] using hrep⟩
    · exact ⟨b, by simp only [step, e]; exact Or.inr ⟨hk, rfl, rfl⟩, by simpa only [step, e] using h⟩
  | clearDirty => exact ⟨{ b with changed := False }, ⟨rfl, rfl, id⟩, h.1, hg, by simp [step]⟩
  | swap => exact ⟨{ get := fun _ => none, changed := False }, ⟨⟨_, rfl, h.1, hg⟩, fun _ => rfl, id⟩, Dict.wf_nil, fun _ => rfl, by simp [step]⟩
  | copyClear => exact ⟨{ b with changed := False }, ⟨⟨_, rfl, h.1, hg⟩, rfl, id⟩, h.1, hg, by simp [step]⟩
  | copy => exact ⟨b, ⟨rfl, rfl⟩, h⟩
  | pop k d =>
    simp only [step]
    cases hk : Dict.get? s.data k with
    | none =>
      refine ⟨b, Or.inr ⟨by rw [← hg, hk], rfl, ?_⟩, h⟩
      cases d with
      | none => exact Or.inr ⟨rfl, rfl⟩
      | some v => exact Or.inl ⟨v, rfl, rfl⟩
    | some v =>
      rcases delitem_spec s b k h with ⟨s', b', e, _, hrm, hrep⟩ | ⟨_, hn⟩
      · exact ⟨b', by simp only [e]; exact Or.inl ⟨v, by rw [← hg, hk], rfl, hrm⟩, by simpa only [e] using hrep⟩
      · rw [← hg, hk] at hn; cases hn
  | popitem =>
    rcases popitem_spec s b h with ⟨k, v, s', b', e, hk, hrm, hrep, _⟩ | ⟨e, hall, _⟩
    · exact ⟨b', by simp only [step, e]; exact Or.inl ⟨k, v, hk, rfl, hrm⟩, by simpa only [step, e] using hrep⟩
    · exact ⟨b, by simp only [step, e]; exact Or.inr ⟨hall, rfl, rfl⟩, by simpa only [step, e] using h⟩
  | clear =>
    obtain ⟨b', hm, hn, hrep⟩ := clearLoop_spec (s.data.length + 1) s b h (by omega)
    exact ⟨b', ⟨rfl, hm, hn⟩, hrep⟩
  | update l =>
    obtain ⟨b', h1, h2⟩ := updateLoop_spec eqv hr l s b h
    exact ⟨b', ⟨rfl, h1⟩, h2⟩
  | setdefault k v =>
    simp only [step]
    cases hk : Dict.get? s.data k with
    | none =>
      obtain ⟨b', h1, h2⟩ := setitem_spec eqv hr s b k v h
      exact ⟨b', Or.inr ⟨by rw [← hg, hk], rfl, h1⟩, h2⟩
    | some w => exact ⟨b, Or.inl ⟨w, by rw [← hg, hk], rfl, rfl⟩, h⟩

/-- **C97**: whatever is called on a DirtyDict, it is a dictionary, except that setting an equal value does nothing; and the flag is set exactly if the contents were changed since it was last cleared. -/
theorem C97_dirty_dict (hr : ∀ v, eqv v v = true) (init : Dict K V) (hw : Dict.WF init) (ops : List (Op K V)) :
    ∃ b', History (Spec eqv) { get := Dict.get? init, changed := False } ops (runOps (step eqv) { data := init, dirty := false } ops).2 b' ∧
      ((runOps (step eqv) { data := init, dirty := false } ops).1.dirty = true ↔ b'.changed) := by
  obtain ⟨b', h1, h2⟩ := history_of_sim (spec := Spec eqv) Rep (fun _ => True) (fun s b o _ => step_sim eqv hr s b o) { data := init, dirty := false } { get := Dict.get? init, changed := False } ops (fun _ _ => trivial)
    ⟨hw, fun _ => rfl, by simp⟩
  exact ⟨b', h1, h2.2.2⟩

/-- a concrete history: an equal value leaves the flag clear, another one sets it, and clearing an empty dictionary does not -/
example : (runOps (step (fun a b : Nat => a == b)) { data := [(1, 5)], dirty := false }
    [.set 1 5, .isDirty, .set 1 6, .isDirty, .swap, .clear, .isDirty]).2 = [.unit, .bool false, .unit, .bool true, .dict [(1, 6)], .unit, .bool false] := by rfl

end Verif.DirtyDict
