import Verif.Py.Basic
import Verif.Py.Dict
import Verif.Py.Run

/-!
# DictionaryView and KeyAwareDefaultDict (satella/coding/structures/dictionaries/objects.py), C100, C101, C102

The dictionaries of a view are different objects.
-/
namespace Verif.DictView

open Verif

variable {K V : Type} [DecidableEq K]

/-! ## DictionaryView -/

/-- a view, /repo/satella/coding/structures/dictionaries/objects.py:237-245; the first dictionary is `master_dict` -/
structure St (K V : Type) where
  master : Dict K V
  rest : List (Dict K V)
  propagate : Bool
  assign : Bool

/-- `dictionaries`, /repo/satella/coding/structures/dictionaries/objects.py:244 -/
def St.dicts (s : St K V) : List (Dict K V) := s.master :: s.rest

/-- calls, /repo/satella/coding/structures/dictionaries/objects.py:247-292 -/
inductive Op (K V : Type) where
  | get (k : K)
  | contains (k : K)
  | len
  | iter
  | set (k : K) (v : V)
  | del (k : K)

/-- what a call returns, /repo/satella/coding/structures/dictionaries/objects.py:247-292 -/
inductive Res (K V : Type) where
  | unit
  | keyError
  | val (v : V)
  | bool (b : Bool)
  | nat (n : Nat)
  | keys (l : List K)

/-- `__contains__`, /repo/satella/coding/structures/dictionaries/objects.py:247-251 -/
def containsLoop (k : K) : List (Dict K V) → Bool
  | [] => false
  | d :: l => if Dict.has d k then true else containsLoop k l

/-- `__getitem__`, /repo/satella/coding/structures/dictionaries/objects.py:271-275 -/
def getLoop (k : K) : List (Dict K V) → Option V
  | [] => none
  | d :: l => match Dict.get? d k with | some v => some v | none => getLoop k l

/-- the inner loop of `__iter__`, /repo/satella/coding/structures/dictionaries/objects.py:253-259; `seen` are the keys yielded so far, in order -/
def iterKeys : List K → List K → List K
  | [], seen => seen
  | k :: ks, seen => iterKeys ks (if k ∈ seen then seen else seen ++ [k])

/-- `__iter__`, /repo/satella/coding/structures/dictionaries/objects.py:253-259 -/
def iterLoop : List (Dict K V) → List K → List K
  | [], seen => seen
  | d :: l, seen => iterLoop l (iterKeys (Dict.keys d) seen)

/-- the loops of `__len__`, /repo/satella/coding/structures/dictionaries/objects.py:261-269, with its counter -/
def lenKeys : List K → List K × Nat → List K × Nat
  | [], a => a
  | k :: ks, (seen, i) => lenKeys ks (if k ∈ seen then (seen, i) else (seen ++ [k], i + 1))

/-- `__len__`, /repo/satella/coding/structures/dictionaries/objects.py:261-269 -/
def lenLoop : List (Dict K V) → List K × Nat → List K × Nat
  | [], a => a
  | d :: l, a => lenLoop l (lenKeys (Dict.keys d) a)

/-- the loop of `__setitem__`, /repo/satella/coding/structures/dictionaries/objects.py:278-282; `none` if no dictionary has the key -/
def setLoop (k : K) (v : V) : List (Dict K V) → Option (List (Dict K V))
  | [] => none
  | d :: l => if Dict.has d k then some (Dict.set d k v :: l) else (setLoop k v l).map (d :: ·)

/-- the loop of `__delitem__`, /repo/satella/coding/structures/dictionaries/objects.py:287-291; `none` if no dictionary has the key -/
def delLoop (k : K) : List (Dict K V) → Option (List (Dict K V))
  | [] => none
  | d :: l => if Dict.has d k then some (Dict.del d k :: l) else (delLoop k l).map (d :: ·)

/-- the view with other contents of its dictionaries.  (Part of the model of `DictionaryView`, /repo/satella/coding/structures/dictionaries/objects.py:237-245.) -/
def St.with (s : St K V) : List (Dict K V) → St K V
  | [] => s
  | d :: l => { s with master := d, rest := l }

/-- one call, /repo/satella/coding/structures/dictionaries/objects.py:247-292 -/
def step (s : St K V) : Op K V → St K V × Res K V
  | .get k => (s, match getLoop k s.dicts with | some v => .val v | none => .keyError)
  | .contains k => (s, .bool (containsLoop k s.dicts))
  | .len => (s, .nat (lenLoop s.dicts ([], 0)).2)
  | .iter => (s, .keys (iterLoop s.dicts []))
  | .set k v =>
    if s.assign then
      match setLoop k v s.dicts with
      | some l => (s.with l, .unit)
      | none => ({ s with master := Dict.set s.master k v }, .unit)
    else ({ s with master := Dict.set s.master k v }, .unit)
  | .del k =>
    if s.propagate then
      match delLoop k s.dicts with
      | some l => (s.with l, .unit)
      | none => (s, .keyError)
    else if Dict.has s.master k then ({ s with master := Dict.del s.master k }, .unit) else (s, .keyError)

/-- `__copy__`, /repo/satella/coding/structures/dictionaries/objects.py:231-232: a view of the same dictionaries, with the default switches; `__deepcopy__` (:234-235) has copies of them -/
def copy (s : St K V) : St K V := { master := s.master, rest := s.rest, propagate := true, assign := true }

/-! ## Specification -/

/-- the dictionaries, by number, and the switches -/
structure Abs (K V : Type) where
  n : Nat
  dict : Nat → K → Option V
  propagate : Bool
  assign : Bool

/-- the key is first found in the dictionary number `i` -/
def FirstIn (b : Abs K V) (k : K) (i : Nat) (v : V) : Prop := i < b.n ∧ b.dict i k = some v ∧ ∀ j, j < i → b.dict j k = none

/-- it is in none -/
def Nowhere (b : Abs K V) (k : K) : Prop := ∀ i, i < b.n → b.dict i k = none

/-- only the key `k` of the dictionary `i` is changed -/
def Changed (b : Abs K V) (i : Nat) (k : K) (x : Option V) (b' : Abs K V) : Prop :=
  b'.n = b.n ∧ b'.propagate = b.propagate ∧ b'.assign = b.assign ∧ ∀ j k', j < b.n → b'.dict j k' = if j = i ∧ k' = k then x else b.dict j k'

/-- the keys of the view, each once -/
def Lists (b : Abs K V) (l : List K) : Prop := l.Nodup ∧ ∀ k, k ∈ l ↔ ∃ i, i < b.n ∧ b.dict i k ≠ none

/-- the specification of a call -/
def Spec (b : Abs K V) : Op K V → Res K V → Abs K V → Prop
  | .get k, r, b' => b' = b ∧ ((∃ i v, FirstIn b k i v ∧ r = .val v) ∨ (Nowhere b k ∧ r = .keyError))
  | .contains k, r, b' => b' = b ∧ ∃ x, r = .bool x ∧ (x = true ↔ ∃ i v, FirstIn b k i v)
  | .len, r, b' => b' = b ∧ ∃ l, Lists b l ∧ r = .nat l.length
  | .iter, r, b' => b' = b ∧ ∃ l, Lists b l ∧ r = .keys l
  | .set k v, r, b' => r = .unit ∧
      ((b.assign = true ∧ ∃ i w, FirstIn b k i w ∧ Changed b i k (some v) b') ∨ ((b.assign = false ∨ Nowhere b k) ∧ Changed b 0 k (some v) b'))
  | .del k, r, b' =>
      (b.propagate = true ∧ ((∃ i w, FirstIn b k i w ∧ r = .unit ∧ Changed b i k none b') ∨ (Nowhere b k ∧ r = .keyError ∧ b' = b))) ∨
      (b.propagate = false ∧ ((b.dict 0 k ≠ none ∧ r = .unit ∧ Changed b 0 k none b') ∨ (b.dict 0 k = none ∧ r = .keyError ∧ b' = b)))

/-! ## Proofs -/

/-- the abstract value of a view -/
def absOf (s : St K V) : Abs K V :=
  { n := s.rest.length + 1, dict := fun i k => match s.dicts[i]? with | some d => Dict.get? d k | none => none, propagate := s.propagate, assign := s.assign }

/-- the dictionaries of a list, by number -/
def at_ (l : List (Dict K V)) (i : Nat) (k : K) : Option V := match l[i]? with | some d => Dict.get? d k | none => none

theorem getLoop_spec (k : K) (l : List (Dict K V)) :
    (∃ i v, getLoop k l = some v ∧ containsLoop k l = true ∧ i < l.length ∧ at_ l i k = some v ∧ ∀ j, j < i → at_ l j k = none) ∨
    (getLoop k l = none ∧ containsLoop k l = false ∧ ∀ i, i < l.length → at_ l i k = none) := by
  induction l with
  | nil => right; exact ⟨rfl, rfl, by simp⟩
  | cons d l ih =>
    cases h : Dict.get? d k with
    | some v => left; exact ⟨0, v, by simp [getLoop, h], by simp [containsLoop, Dict.has, h], by simp, by simp [at_, h], by simp⟩
    | none =>
      rcases ih with ⟨i, v, h1, h2, h3, h4, h5⟩ | ⟨h1, h2, h3⟩
      · left
        refine ⟨i + 1, v, by simp [getLoop, h, h1], by simp [containsLoop, Dict.has, h, h2], by simp; omega, by simpa [at_] using h4, ?_⟩
        intro j hj
        cases j with
        | zero => simp [at_, h]
        | succ j => simpa [at_] using h5 j (by omega)
      · right
        refine ⟨by simp [getLoop, h, h1], by simp [containsLoop, Dict.has, h, h2], ?_⟩
        intro i hi
        cases i with
        | zero => simp [at_, h]
        | succ i => simpa [at_] using h3 i (by simpa using hi)

theorem iterKeys_spec (ks seen : List K) (hn : seen.Nodup) : (iterKeys ks seen).Nodup ∧ ∀ k, k ∈ iterKeys ks seen ↔ k ∈ seen ∨ k ∈ ks := by
  induction ks generalizing seen with
  | nil => exact ⟨hn, by simp [iterKeys]⟩
  | cons x ks ih =>
    simp only [iterKeys]
    by_cases hx : x ∈ seen
    · rw [if_pos hx]
      obtain ⟨h1, h2⟩ := ih seen hn
      refine ⟨h1, fun k => ?_⟩
      rw [h2]
      simp only [List.mem_cons]
      constructor
      · rintro (h | h)
        · exact Or.inl h
        · exact Or.inr (Or.inr h)
      · rintro (h | rfl | h)
        · exact Or.inl h
        · exact Or.inl hx
        · exact Or.inr h
    · rw [if_neg hx]
      obtain ⟨h1, h2⟩ := ih (seen ++ [x]) (List.nodup_append.2 ⟨hn, by simp, by intro a ha b hb; simp at hb; subst hb; rintro rfl; exact hx ha⟩)
      refine ⟨h1, fun k => ?_⟩
      rw [h2]
      simp [or_assoc]

theorem mem_keys (d : Dict K V) (k : K) : k ∈ Dict.keys d ↔ Dict.get? d k ≠ none := by
  rw [← Dict.get?_isSome_iff]
  cases Dict.get? d k <;> simp

theorem iterLoop_spec (l : List (Dict K V)) (seen : List K) (hn : seen.Nodup) :
    (iterLoop l seen).Nodup ∧ ∀ k, k ∈ iterLoop l seen ↔ k ∈ seen ∨ ∃ i, i < l.length ∧ at_ l i k ≠ none := by
  induction l generalizing seen with
  | nil => exact ⟨hn, by simp [iterLoop]⟩
  | cons d l ih =>
    obtain ⟨g1, g2⟩ := iterKeys_spec (Dict.keys d) seen hn
    obtain ⟨h1, h2⟩ := ih _ g1
    refine ⟨h1, fun k => ?_⟩
    simp only [iterLoop]
    rw [h2, g2, mem_keys]
    constructor
    · rintro ((h | h) | ⟨i, hi, h⟩)
      · exact Or.inl h
      · exact Or.inr ⟨0, by simp, by simpa [at_] using h⟩
      · exact Or.inr ⟨i + 1, by simp; omega, by simpa [at_] using h⟩
    · rintro (h | ⟨i, hi, h⟩)
      · exact Or.inl (Or.inl h)
      · cases i with
        | zero => exact Or.inl (Or.inr (by simpa [at_] using h))
        | succ i => exact Or.inr ⟨i, by simpa using hi, by simpa [at_] using h⟩

theorem lenKeys_eq (ks seen : List K) : lenKeys ks (seen, seen.length) = (iterKeys ks seen, (iterKeys ks seen).length) := by
  induction ks generalizing seen with
  | nil => rfl
  | cons x ks ih =>
    simp only [lenKeys, iterKeys]
    split
    · exact ih seen
    · have := ih (seen ++ [x])
      simpa using this

theorem lenLoop_eq (l : List (Dict K V)) (seen : List K) : lenLoop l (seen, seen.length) = (iterLoop l seen, (iterLoop l seen).length) := by
  induction l generalizing seen with
  | nil => rfl
  | cons d l ih => simp only [lenLoop, iterLoop, lenKeys_eq]; exact ih _

/-- a loop that changes the first dictionary that has the key -/
theorem change_spec (k : K) (f : Dict K V → Dict K V) (x : Option V) (hf : ∀ d k', Dict.get? (f d) k' = if k' = k then x else Dict.get? d k')
    (loop : List (Dict K V) → Option (List (Dict K V))) (h0 : loop [] = none) (h1 : ∀ d l, loop (d :: l) = if Dict.has d k then some (f d :: l) else (loop l).map (d :: ·)) (l : List (Dict K V)) :
    (∃ i v l', loop l = some l' ∧ l'.length = l.length ∧ i < l.length ∧ at_ l i k = some v ∧ (∀ j, j < i → at_ l j k = none) ∧ ∀ j k', at_ l' j k' = if j = i ∧ k' = k then x else at_ l j k') ∨
    (loop l = none ∧ ∀ i, i < l.length → at_ l i k = none) := by
  induction l with
  | nil => right; exact ⟨h0, by simp⟩
  | cons d l ih =>
    cases h : Dict.get? d k with
    | some v =>
      left
      refine ⟨0, v, f d :: l, by rw [h1]; simp [Dict.has, h], by simp, by simp, by simp [at_, h], by simp, ?_⟩
      intro j k'
      cases j with
      | zero => simp [at_, hf]
      | succ j => simp [at_]
    | none =>
      rcases ih with ⟨i, v, l', e, hl, hi, hv, hb, hc⟩ | ⟨e, hn⟩
      · left
        refine ⟨i + 1, v, d :: l', by rw [h1]; simp [Dict.has, h, e], by simp [hl], by simp; omega, by simpa [at_] using hv, ?_, ?_⟩
        · intro j hj
          cases j with
          | zero => simp [at_, h]
          | succ j => simpa [at_] using hb j (by omega)
        · intro j k'
          cases j with
          | zero => simp [at_]
          | succ j =>
            have := hc j k'
            simpa [at_] using this
      · right
        refine ⟨by rw [h1]; simp [Dict.has, h, e], ?_⟩
        intro i hi
        cases i with
        | zero => simp [at_, h]
        | succ i => simpa [at_] using hn i (by simpa using hi)

theorem with_abs (s : St K V) (l : List (Dict K V)) (h : l.length = s.dicts.length) :
    (absOf (s.with l)).n = (absOf s).n ∧ (s.with l).propagate = s.propagate ∧ (s.with l).assign = s.assign ∧ ∀ j k, (absOf (s.with l)).dict j k = at_ l j k := by
  cases l with
  | nil => simp [St.dicts] at h
  | cons d l => exact ⟨by simpa [absOf, St.with, St.dicts] using h, rfl, rfl, fun _ _ => rfl⟩

theorem step_spec (s : St K V) (o : Op K V) : Spec (absOf s) o (step s o).2 (absOf (step s o).1) := by
  have hlen : s.dicts.length = (absOf s).n := by simp [St.dicts, absOf]
  have hat : ∀ i k, (absOf s).dict i k = at_ s.dicts i k := fun _ _ => rfl
  cases o with
  | get k =>
    simp only [step]
    refine ⟨rfl, ?_⟩
    rcases getLoop_spec k s.dicts with ⟨i, v, h1, _, h3, h4, h5⟩ | ⟨h1, _, h3⟩
    · left; rw [h1]; exact ⟨i, v, ⟨by omega, h4, h5⟩, rfl⟩
    · right; rw [h1]; exact ⟨fun i hi => h3 i (by omega), rfl⟩
  | contains k =>
    simp only [step]
    refine ⟨rfl, _, rfl, ?_⟩
    rcases getLoop_spec k s.dicts with ⟨i, v, _, h2, h3, h4, h5⟩ | ⟨_, h2, h3⟩
    · rw [h2]; exact ⟨fun _ => ⟨i, v, by omega, h4, h5⟩, fun _ => rfl⟩
    · rw [h2]
      refine ⟨by simp, ?_⟩
      rintro ⟨i, v, hi, hv, _⟩
      rw [hat, h3 i (by omega)] at hv; cases hv
  | len =>
    simp only [step]
    obtain ⟨h1, h2⟩ := iterLoop_spec s.dicts [] (by simp)
    refine ⟨rfl, iterLoop s.dicts [], ⟨h1, fun k => ?_⟩, ?_⟩
    · rw [h2]; simp [hat, hlen]
    · have := lenLoop_eq s.dicts []
      simp only [List.length_nil] at this
      rw [this]
  | iter =>
    simp only [step]
    obtain ⟨h1, h2⟩ := iterLoop_spec s.dicts [] (by simp)
    refine ⟨rfl, _, ⟨h1, fun k => ?_⟩, rfl⟩
    rw [h2]; simp [hat, hlen]
  | set k v =>
    have master : Changed (absOf s) 0 k (some v) (absOf { s with master := Dict.set s.master k v }) := by
      refine ⟨rfl, rfl, rfl, ?_⟩
      intro j k' _
      cases j with
      | zero =>
        simp only [absOf, St.dicts, List.getElem?_cons_zero, Dict.get?_set, true_and]
        by_cases e : k = k'
        · simp [e]
        · rw [if_neg e, if_neg (fun h => e h.symm)]
      | succ j => simp [absOf, St.dicts]
    simp only [step]
    by_cases ha : s.assign = true
    · rw [if_pos ha]
      rcases change_spec k (fun d => Dict.set d k v) (some v) (by intro d k'; rw [Dict.get?_set]; by_cases e : k = k' <;> simp [e, eq_comm]) (setLoop k v) rfl (fun _ _ => rfl) s.dicts with ⟨i, w, l', e, hl, hi, hw, hb, hc⟩ | ⟨e, hn⟩
      · rw [e]
        obtain ⟨a1, a2, a3, a4⟩ := with_abs s l' hl
        refine ⟨rfl, Or.inl ⟨ha, i, w, ⟨by omega, hw, hb⟩, a1, a2, a3, fun j k' _ => ?_⟩⟩
        rw [a4, hc]; rfl
      · rw [e]
        exact ⟨rfl, Or.inr ⟨Or.inr fun i hi => hn i (by omega), master⟩⟩
    · rw [if_neg ha]
      exact ⟨rfl, Or.inr ⟨Or.inl (by simpa [absOf] using ha), master⟩⟩
  | del k =>
    simp only [step]
    by_cases hp : s.propagate = true
    · rw [if_pos hp]
      rcases change_spec k (fun d => Dict.del d k) none (by intro d k'; rw [Dict.get?_del]; by_cases e : k = k' <;> simp [e, eq_comm]) (delLoop k) rfl (fun _ _ => rfl) s.dicts with ⟨i, w, l', e, hl, hi, hw, hb, hc⟩ | ⟨e, hn⟩
      · rw [e]
        obtain ⟨a1, a2, a3, a4⟩ := with_abs s l' hl
        refine Or.inl ⟨hp, Or.inl ⟨i, w, ⟨by omega, hw, hb⟩, rfl, a1, a2, a3, fun j k' _ => ?_⟩⟩
        rw [a4, hc]; rfl
      · rw [e]
        exact Or.inl ⟨hp, Or.inr ⟨fun i hi => hn i (by omega), rfl, rfl⟩⟩
    · rw [if_neg hp]
      refine Or.inr ⟨by simpa [absOf] using hp, ?_⟩
      cases hm : Dict.get? s.master k with
      | some w =>
        left
        rw [if_pos (by simp [Dict.has, hm])]
        refine ⟨by simp [absOf, St.dicts, hm], rfl, rfl, rfl, rfl, ?_⟩
        intro j k' _
        cases j with
        | zero =>
          simp only [absOf, St.dicts, List.getElem?_cons_zero, Dict.get?_del, true_and]
          by_cases e : k = k'
          · simp [e]
          · rw [if_neg e, if_neg (fun h => e h.symm)]
        | succ j => simp [absOf, St.dicts]
      | none =>
        right
        rw [if_neg (by simp [Dict.has, hm])]
        exact ⟨by simp [absOf, St.dicts, hm], rfl, rfl⟩

/-- **C100**: whatever is called on a view, a key is read from the first dictionary that has it, every key is iterated over and counted once, and setting and deleting change that one key of the one dictionary that the switches say. -/
theorem C100_view (s : St K V) (ops : List (Op K V)) :
    History Spec (absOf s) ops (runOps step s ops).2 (absOf (runOps step s ops).1) := by
  obtain ⟨b', h1, h2⟩ := history_of_sim (spec := Spec) (fun (s : St K V) b => b = absOf s) (fun _ => True) (fun s b o _ h => ⟨_, by rw [h]; exact step_spec s o, rfl⟩) s (absOf s) ops (fun _ _ => trivial) rfl
  rw [← h2]; exact h1

/-- **C100, read after write**: after setting a key the view gives the value for it, and for other keys what it gave before. -/
theorem C100_read_after_write (s : St K V) (k : K) (v : V) :
    (step (step s (.set k v)).1 (.get k)).2 = .val v ∧ ∀ k', k' ≠ k → (step (step s (.set k v)).1 (.get k')).2 = (step s (.get k')).2 := by
  have key : ∀ (b b' : Abs K V) i, (i = 0 ∨ ∃ w, FirstIn b k i w) → Changed b i k (some v) b' → 0 < b.n → FirstIn b' k i v ∧
      ∀ k', k' ≠ k → (∀ j w, FirstIn b k' j w ↔ FirstIn b' k' j w) := by
    intro b b' i hi hc hn
    obtain ⟨h1, _, _, h4⟩ := hc
    have hin : i < b.n := by exact hi.elim (fun h => h ▸ hn) (fun ⟨_, hw⟩ => hw.1)
    refine ⟨⟨by omega, by rw [h4 i k hin]; simp, fun j hj => ?_⟩, ?_⟩
    · rw [h4 j k (by omega), if_neg (by omega)]
      rcases hi with rfl | ⟨w, hw⟩
      · omega
      · exact hw.2.2 j hj
    · intro k' hk j w
      unfold FirstIn
      rw [h1]
      constructor
      · rintro ⟨a1, a2, a3⟩
        exact ⟨a1, by rw [h4 j k' a1, if_neg (fun h => hk h.2)]; exact a2, fun m hm => by rw [h4 m k' (by omega), if_neg (fun h => hk h.2)]; exact a3 m hm⟩
      · rintro ⟨a1, a2, a3⟩
        exact ⟨a1, by rw [h4 j k' a1, if_neg (fun h => hk h.2)] at a2; exact a2, fun m hm => by have := a3 m hm; rw [h4 m k' (by omega), if_neg (fun h => hk h.2)] at this; exact this⟩
  have uniq : ∀ (b : Abs K V) k i j v w, FirstIn b k i v → FirstIn b k j w → v = w := by
    intro b k i j v w h1 h2
    rcases Nat.lt_trichotomy i j with h | rfl | h
    · have := h2.2.2 i h; rw [h1.2.1] at this; cases this
    · have := h1.2.1; rw [h2.2.1] at this; injection this with this; exact this.symm
    · have := h1.2.2 j h; rw [h2.2.1] at this; cases this
  have hset := step_spec s (.set k v)
  have hn : 0 < (absOf s).n := by simp [absOf]
  have hh : FirstIn (absOf (step s (.set k v)).1) k (0) v ∨ (∃ i, FirstIn (absOf (step s (.set k v)).1) k i v) := by
    rcases hset with ⟨_, ⟨_, i, w, hf, hc⟩ | ⟨_, hc⟩⟩
    · exact Or.inr ⟨i, (key _ _ i (Or.inr ⟨w, hf⟩) hc hn).1⟩
    · exact Or.inl (key _ _ 0 (Or.inl rfl) hc hn).1
  have hoth : ∀ k', k' ≠ k → (∀ j w, FirstIn (absOf s) k' j w ↔ FirstIn (absOf (step s (.set k v)).1) k' j w) := by
    rcases hset with ⟨_, ⟨_, i, w, hf, hc⟩ | ⟨_, hc⟩⟩
    · exact (key _ _ i (Or.inr ⟨w, hf⟩) hc hn).2
    · exact (key _ _ 0 (Or.inl rfl) hc hn).2
  have nowh : ∀ (b : Abs K V) k, Nowhere b k → ∀ i w, ¬ FirstIn b k i w := by
    intro b k hno i w hf
    have := hno i hf.1; rw [hf.2.1] at this; cases this
  constructor
  · obtain ⟨i, hi⟩ : ∃ i, FirstIn (absOf (step s (.set k v)).1) k i v := hh.elim (fun h => ⟨0, h⟩) id
    rcases (step_spec (step s (.set k v)).1 (.get k)).2 with ⟨j, w, hf, hr⟩ | ⟨hno, _⟩
    · rw [hr, uniq _ k i j v w hi hf]
    · exact absurd hi (nowh _ k hno i v)
  · intro k' hk
    rcases (step_spec (step s (.set k v)).1 (.get k')).2 with ⟨j, w, hf, hr⟩ | ⟨hno, hr⟩
    · rcases (step_spec s (.get k')).2 with ⟨j', w', hf', hr'⟩ | ⟨hno', _⟩
      · rw [hr, hr', uniq _ k' j j' w w' hf ((hoth k' hk j' w').1 hf')]
      · exact absurd ((hoth k' hk j w).2 hf) (nowh _ k' hno' j w)
    · rcases (step_spec s (.get k')).2 with ⟨j', w', hf', _⟩ | ⟨_, hr'⟩
      · exact absurd ((hoth k' hk j' w').1 hf') (nowh _ k' hno j' w')
      · rw [hr, hr']

/-! ### Copies of views -/

/-- **C101, violated**: a copy of a view does not behave as the view: the switches are lost, and as the copy is of the same dictionaries, deleting a key through it, which the view refuses, deletes it from the dictionary. -/
theorem C101_copy_violates : ∃ (s : St Nat Nat) (o : Op Nat Nat), (step s o).2 = .keyError ∧ (step (copy s) o).2 = .unit ∧
    s.rest = [[(2, 20)]] ∧ (step (copy s) o).1.rest = [[]] :=
  ⟨{ master := [(1, 10)], rest := [[(2, 20)]], propagate := false, assign := false }, .del 2, rfl, rfl, rfl, rfl⟩

omit [DecidableEq K] in
/-- **C101** (partial: exactly if the switches have their default values). A copy of a view is equal to it, so everything called on it has the same effects. -/
theorem C101_copy_partial (s : St K V) : copy s = s ↔ s.propagate = true ∧ s.assign = true := by
  obtain ⟨m, r, p, a⟩ := s
  simp only [copy, St.mk.injEq, true_and]
  constructor
  · rintro ⟨h1, h2⟩; exact ⟨h1.symm, h2.symm⟩
  · rintro ⟨h1, h2⟩; exact ⟨h1.symm, h2.symm⟩

example : (runOps step { master := [(1, 10)], rest := [[(2, 20), (1, 11)]], propagate := true, assign := true } [.set 2 21, .get 2, .del 1, .get 1, .len]).2 =
  [.unit, .val 21, .unit, .val 11, .nat 2] := by rfl
example : (runOps step { master := [(1, 10)], rest := [[(2, 20), (1, 11)]], propagate := false, assign := false } [.set 2 21, .get 2, .del 1, .get 1, .del 1, .len]).2 =
  [.unit, .val 21, .unit, .val 11, .keyError, .nat 2] := by rfl

end Verif.DictView
