import Verif.Py.Dict
import Verif.Py.Run

/-!
# Dictionaries with access by attributes (satella/coding/structures/dictionaries/dict_object.py), C155, C156
-/
namespace Verif.DictObject

open Verif

/-! ## Model -/

/-- keys: strings, and others; /repo/satella/coding/structures/dictionaries/dict_object.py:15-16 -/
inductive Key
  | str (s : String)
  | other (n : Nat)
deriving DecidableEq

/-- calls: attributes, and items as of any dict; /repo/satella/coding/structures/dictionaries/dict_object.py:38-47 -/
inductive Op (ν : Type)
  | getAttr (name : String)
  | setAttr (name : String) (v : ν)
  | delAttr (name : String)
  | getItem (k : Key)
  | setItem (k : Key) (v : ν)
  | delItem (k : Key)
  | contains (k : Key)
deriving DecidableEq

/-- what a call gives; `method` is an attribute of the class, such as a method of dict.  /repo/satella/coding/structures/dictionaries/dict_object.py:38-47 -/
inductive Res (ν : Type)
  | done
  | value (v : ν)
  | bool (b : Bool)
  | method (name : String)
  | keyError
  | attributeError
deriving DecidableEq

variable {ν : Type}

/-- what the class has by itself: the public names of dict, and `is_valid_schema`.  Names with two underscores are left out.  /repo/satella/coding/structures/dictionaries/dict_object.py:9, :49 -/
def classNames : List String :=
  ["clear", "copy", "fromkeys", "get", "items", "keys", "pop", "popitem", "setdefault", "update", "values", "is_valid_schema"]

/-- KeyError becomes AttributeError, /repo/satella/coding/structures/dictionaries/dict_object.py:38, :45 -/
def rethrow : Res ν → Res ν
  | .keyError => .attributeError
  | r => r

/-- `self[item]`, /repo/satella/coding/structures/dictionaries/dict_object.py:40 -/
def getItem (d : Dict Key ν) (k : Key) : Res ν :=
  match d.get? k with
  | some v => .value v
  | none => .keyError

/-- `del self[key]`, /repo/satella/coding/structures/dictionaries/dict_object.py:47 -/
def delItem (d : Dict Key ν) (k : Key) : Dict Key ν × Res ν :=
  if d.has k then (d.del k, .done) else (d, .keyError)

/-- a call.  `__getattr__` is asked only about names that the class does not have, while `__setattr__` and `__delattr__` are for all names.  /repo/satella/coding/structures/dictionaries/dict_object.py:38-47 -/
def step (d : Dict Key ν) : Op ν → Dict Key ν × Res ν
  | .getAttr n => if n ∈ classNames then (d, .method n) else (d, rethrow (getItem d (.str n)))
  | .setAttr n v => (d.set (.str n) v, .done)
  | .delAttr n => ((delItem d (.str n)).1, rethrow (delItem d (.str n)).2)
  | .getItem k => (d, getItem d k)
  | .setItem k v => (d.set k v, .done)
  | .delItem k => delItem d k
  | .contains k => (d, .bool (d.has k))

/-- values for `apply_dict_object`: dicts, DictObjects, lists and others; /repo/satella/coding/structures/dictionaries/dict_object.py:87-96 -/
inductive V
  | dict (d : List (Key × V))
  | obj (d : List (Key × V))
  | list (l : List V)
  | other (n : Nat)

mutual

/-- `apply_dict_object`, /repo/satella/coding/structures/dictionaries/dict_object.py:79-96 -/
def apply : V → V
  | .obj d => .obj d
  | .list l => .list (applyList l)
  | .dict d => .obj (applyDict d)
  | .other n => .other n

/-- the list comprehension, /repo/satella/coding/structures/dictionaries/dict_object.py:90 -/
def applyList : List V → List V
  | [] => []
  | x :: l => apply x :: applyList l

/-- the dict comprehension, whose keys are those of a dict, so different from each other; /repo/satella/coding/structures/dictionaries/dict_object.py:92-94 -/
def applyDict : List (Key × V) → List (Key × V)
  | [] => []
  | (k, v) :: d => (k, apply v) :: applyDict d

end

/-- objects by their number: whether it is a DictObject, and the entries; /repo/satella/coding/structures/dictionaries/dict_object.py:25-30 -/
abbrev Heap (ν : Type) := List (Bool × Dict Key ν)

/-- `DictObject(arg)`, with the number of what it returns: a DictObject is returned as it is, then updated with itself; anything else is copied.  /repo/satella/coding/structures/dictionaries/dict_object.py:25-30 -/
def construct (h : Heap ν) (i : Nat) : Heap ν × Nat :=
  match h[i]? with
  | some (true, _) => (h, i)
  | some (false, d) => (h ++ [(true, d)], h.length)
  | none => (h, i)

/-- a call on an object of the heap, /repo/satella/coding/structures/dictionaries/dict_object.py:38-47 -/
def hstep (h : Heap ν) (i : Nat) (o : Op ν) : Heap ν :=
  match h[i]? with
  | some (b, d) => h.set i (b, (step d o).1)
  | none => h

/-! ## Specification -/

/-- one map behind attributes and items: an attribute is the item of that name, except that a missing one is AttributeError instead of KeyError -/
def spec (m : Key → Option ν) (o : Op ν) (r : Res ν) (m' : Key → Option ν) : Prop :=
  match o with
  | .getAttr n => m' = m ∧ (∀ v, m (.str n) = some v → r = .value v) ∧ (m (.str n) = none → r = .attributeError)
  | .setAttr n v => (m' (.str n) = some v ∧ ∀ k, k ≠ .str n → m' k = m k) ∧ r = .done
  | .delAttr n => (m' (.str n) = none ∧ ∀ k, k ≠ .str n → m' k = m k) ∧ (m (.str n) ≠ none → r = .done) ∧ (m (.str n) = none → r = .attributeError)
  | .getItem k => m' = m ∧ (∀ v, m k = some v → r = .value v) ∧ (m k = none → r = .keyError)
  | .setItem k v => (m' k = some v ∧ ∀ k', k' ≠ k → m' k' = m k') ∧ r = .done
  | .delItem k => (m' k = none ∧ ∀ k', k' ≠ k → m' k' = m k') ∧ (m k ≠ none → r = .done) ∧ (m k = none → r = .keyError)
  | .contains k => m' = m ∧ r = .bool (m k).isSome

/-- what is anywhere inside a value, itself included -/
inductive Inside : V → V → Prop
  | self (v) : Inside v v
  | list (w x l) : x ∈ l → Inside w x → Inside w (.list l)
  | dict (w k x d) : (k, x) ∈ d → Inside w x → Inside w (.dict d)
  | obj (w k x d) : (k, x) ∈ d → Inside w x → Inside w (.obj d)

/-- the same, with the same keys and elements, but for dicts that became DictObjects -/
inductive Like : V → V → Prop
  | other (n) : Like (.other n) (.other n)
  | obj (d) : Like (.obj d) (.obj d)
  | list (l m) : l.length = m.length → (∀ (i : Nat) a b, l[i]? = some a → m[i]? = some b → Like a b) → Like (.list l) (.list m)
  | dict (d e) : d.map Prod.fst = e.map Prod.fst → (∀ (i : Nat) p q, d[i]? = some p → e[i]? = some q → Like p.2 q.2) → Like (.dict d) (.obj e)

/-! ## Proofs -/

/-- **C155 (attributes)**: for every history of calls, in which attributes that are read are not names of the class, the object behaves as one map, in which an attribute is the item of that name; what is written or deleted by one way is so for the other. -/
theorem C155_attributes (d : Dict Key ν) (ops : List (Op ν)) (h : ∀ n, Op.getAttr n ∈ ops → n ∉ classNames) :
    ∃ m : Key → Option ν, History spec (fun k => d.get? k) ops (runOps step d ops).2 m ∧ ∀ k, (runOps step d ops).1.get? k = m k := by
  refine history_of_sim (R := fun (d : Dict Key ν) (m : Key → Option ν) => ∀ k, d.get? k = m k) (P := fun o => ∀ n, o = .getAttr n → n ∉ classNames) ?_ d _ ops ?_ (fun _ => rfl)
  · intro s b o hP hR
    cases o with
    | getAttr n =>
      refine ⟨b, ⟨rfl, fun v hv => ?_, fun hn => ?_⟩, fun k => ?_⟩
      · simp [step, hP n rfl, getItem, hR, hv, rethrow]
      · simp [step, hP n rfl, getItem, hR, hn, rethrow]
      · simp [step, hP n rfl, hR]
    | setAttr n v => exact ⟨fun k => (s.set (.str n) v).get? k, ⟨⟨by simp, fun k hk => by simp [Ne.symm hk, hR]⟩, rfl⟩, fun _ => rfl⟩
    | delAttr n =>
      have hm : ∀ k, k ≠ .str n → ((step s (.delAttr n)).1).get? k = b k := by
        intro k hk
        simp only [step, delItem]
        split <;> simp [Ne.symm hk, hR]
      refine ⟨fun k => ((step s (.delAttr n)).1).get? k, ⟨⟨?_, hm⟩, fun hs => ?_, fun hn => ?_⟩, fun _ => rfl⟩
      · simp only [step, delItem]
        split
        · simp
        · next hh => simpa [Dict.has] using hh
      · have : s.has (.str n) = true := by simp [Dict.has, hR, Option.isSome_iff_ne_none, hs]
        simp [step, delItem, this, rethrow]
      · have : s.has (.str n) = false := by simp [Dict.has, hR, hn]
        simp [step, delItem, this, rethrow]
    | getItem k =>
      refine ⟨b, ⟨rfl, fun v hv => ?_, fun hn => ?_⟩, fun k => hR k⟩
      · simp [step, getItem, hR, hv]
      · simp [step, getItem, hR, hn]
    | setItem k v => exact ⟨fun k' => (s.set k v).get? k', ⟨⟨by simp, fun k' hk => by simp [Ne.symm hk, hR]⟩, rfl⟩, fun _ => rfl⟩
    | delItem k =>
      have hm : ∀ k', k' ≠ k → ((step s (.delItem k)).1).get? k' = b k' := by
        intro k' hk
        simp only [step, delItem]
        split <;> simp [Ne.symm hk, hR]
      refine ⟨fun k' => ((step s (.delItem k)).1).get? k', ⟨⟨?_, hm⟩, fun hs => ?_, fun hn => ?_⟩, fun _ => rfl⟩
      · simp only [step, delItem]
        split
        · simp
        · next hh => simpa [Dict.has] using hh
      · have : s.has k = true := by simp [Dict.has, hR, Option.isSome_iff_ne_none, hs]
        simp [step, delItem, this]
      · have : s.has k = false := by simp [Dict.has, hR, hn]
        simp [step, delItem, this]
    | contains k => exact ⟨b, ⟨rfl, by simp [step, Dict.has, hR]⟩, fun k' => hR k'⟩
  · intro o ho n hn
    exact h n (hn ▸ ho)

/-- the history of the examples -/
example : runOps step ([(.str "test", 5)] : Dict Key Nat) [.getAttr "test", .setAttr "x" 1, .getItem (.str "x"), .delItem (.str "test"), .getAttr "test", .delAttr "test", .getItem (.other 3)] =
    ([(.str "x", 1)], [.value 5, .done, .value 1, .done, .attributeError, .attributeError, .keyError]) := by decide

mutual

theorem like_apply : ∀ v : V, Like v (apply v)
  | .obj d => by rw [apply]; exact .obj d
  | .other n => by rw [apply]; exact .other n
  | .list l => by
    rw [apply]
    obtain ⟨h1, h2⟩ := like_applyList l
    exact .list _ _ h1 h2
  | .dict d => by
    rw [apply]
    obtain ⟨h1, h2⟩ := like_applyDict d
    exact .dict _ _ h1 h2

theorem like_applyList : ∀ l : List V, l.length = (applyList l).length ∧ ∀ (i : Nat) a b, l[i]? = some a → (applyList l)[i]? = some b → Like a b
  | [] => by simp [applyList]
  | x :: l => by
    obtain ⟨h1, h2⟩ := like_applyList l
    refine ⟨by simp [applyList, ← h1], fun i a b ha hb => ?_⟩
    rw [applyList] at hb
    cases i with
    | zero => simp at ha hb; subst ha; subst hb; exact like_apply x
    | succ i => exact h2 i a b (by simpa using ha) (by simpa using hb)

theorem like_applyDict : ∀ d : List (Key × V), d.map Prod.fst = (applyDict d).map Prod.fst ∧ ∀ (i : Nat) p q, d[i]? = some p → (applyDict d)[i]? = some q → Like p.2 q.2
  | [] => by simp [applyDict]
  | (k, v) :: d => by
    obtain ⟨h1, h2⟩ := like_applyDict d
    refine ⟨by simp [applyDict, ← h1], fun i p q hp hq => ?_⟩
    rw [applyDict] at hq
    cases i with
    | zero => simp at hp hq; subst hp; subst hq; exact like_apply v
    | succ i => exact h2 i p q (by simpa using hp) (by simpa using hq)

end

mutual

theorem inside_apply : ∀ (v : V) (e : List (Key × V)), Inside (.dict e) (apply v) → ∃ d, Inside (.obj d) v ∧ Inside (.dict e) (.obj d)
  | .obj d, e, h => by rw [apply] at h; exact ⟨d, .self _, h⟩
  | .other n, e, h => by rw [apply] at h; cases h
  | .list l, e, h => by
    rw [apply] at h
    cases h with
    | list x _ hx hw =>
      obtain ⟨y, hy, d, h1, h2⟩ := inside_applyList l x hx e hw
      exact ⟨d, .list _ y _ hy h1, h2⟩
  | .dict d, e, h => by
    rw [apply] at h
    cases h with
    | obj k x _ hx hw =>
      obtain ⟨y, hy, d', h1, h2⟩ := inside_applyDict d k x hx e hw
      exact ⟨d', .dict _ k y _ hy h1, h2⟩

theorem inside_applyList : ∀ (l : List V) (x : V), x ∈ applyList l → ∀ e, Inside (.dict e) x → ∃ y ∈ l, ∃ d, Inside (.obj d) y ∧ Inside (.dict e) (.obj d)
  | [], x, hx, e, hw => by simp [applyList] at hx
  | y :: l, x, hx, e, hw => by
    rw [applyList] at hx
    rcases List.mem_cons.1 hx with h | h
    · exact ⟨y, by simp, inside_apply y e (h ▸ hw)⟩
    · obtain ⟨z, hz, h'⟩ := inside_applyList l x h e hw
      exact ⟨z, by simp [hz], h'⟩

theorem inside_applyDict : ∀ (d : List (Key × V)) (k : Key) (x : V), (k, x) ∈ applyDict d → ∀ e, Inside (.dict e) x → ∃ y, (k, y) ∈ d ∧ ∃ d', Inside (.obj d') y ∧ Inside (.dict e) (.obj d')
  | [], k, x, hx, e, hw => by simp [applyDict] at hx
  | (k', y) :: d, k, x, hx, e, hw => by
    rw [applyDict] at hx
    rcases List.mem_cons.1 hx with h | h
    · have h1 : k = k' := congrArg Prod.fst h
      have h2 : x = apply y := congrArg Prod.snd h
      exact ⟨y, by simp [h1], inside_apply y e (h2 ▸ hw)⟩
    · obtain ⟨z, hz, h'⟩ := inside_applyDict d k x h e hw
      exact ⟨z, by simp [hz], h'⟩

end

/-- **C155 (apply)**: apply_dict_object gives the same value, with the same keys, elements and order, in which dicts have become DictObjects; no plain dict is left, but in DictObjects that were there before. -/
theorem C155_apply (v : V) : Like v (apply v) ∧ ∀ e, Inside (.dict e) (apply v) → ∃ d, Inside (.obj d) v ∧ Inside (.dict e) (.obj d) :=
  ⟨like_apply v, inside_apply v⟩

/-- **C155 (apply, plain)**: of a value without DictObjects, such as one read from JSON, no plain dict is left. -/
theorem C155_apply_plain (v : V) (h : ∀ d, ¬ Inside (.obj d) v) (e : List (Key × V)) : ¬ Inside (.dict e) (apply v) := by
  intro hi
  obtain ⟨d, hd, _⟩ := inside_apply v e hi
  exact h d hd

/-- the value of the examples -/
example : apply (.dict [(.str "a", .list [.dict [(.other 1, .other 2)], .other 3])]) = .obj [(.str "a", .list [.obj [(.other 1, .other 2)], .other 3])] := by simp [apply, applyDict, applyList]

theorem hsteps_other (ops : List (Op ν)) (h : Heap ν) (i j : Nat) (hne : i ≠ j) : (ops.foldl (fun h o => hstep h j o) h)[i]? = h[i]? := by
  induction ops generalizing h with
  | nil => rfl
  | cons o ops ih =>
    simp only [List.foldl_cons]
    rw [ih]
    simp only [hstep]
    split
    · rw [List.getElem?_set_ne (Ne.symm hne)]
    · rfl

/-- **C155 (construct)**: DictObject of a plain dict is a new object with the same entries: whatever is then done to it, the dict stays as it was, and the other way round. -/
theorem C155_construct (h : Heap ν) (i : Nat) (d : Dict Key ν) (hi : h[i]? = some (false, d)) (ops : List (Op ν)) :
    ∃ j, (construct h i).2 = j ∧ (construct h i).1[j]? = some (true, d) ∧
    (ops.foldl (fun h o => hstep h j o) (construct h i).1)[i]? = some (false, d) ∧
    (ops.foldl (fun h o => hstep h i o) (construct h i).1)[j]? = some (true, d) := by
  have hlt : i < h.length := by
    rcases Nat.lt_or_ge i h.length with hl | hl
    · exact hl
    · rw [List.getElem?_eq_none hl] at hi; simp at hi
  have hne : i ≠ h.length := by omega
  have hc : construct h i = (h ++ [(true, d)], h.length) := by simp [construct, hi]
  refine ⟨h.length, by rw [hc], ?_, ?_, ?_⟩
  · rw [hc]; simp
  · rw [hsteps_other ops _ i h.length hne, hc]
    simp [List.getElem?_append_left hlt, hi]
  · rw [hsteps_other ops _ h.length i (Ne.symm hne), hc]
    simp

/-! ## C156 -/

/-- **C156 (violation), names of the class**: an item with the name of a method of dict cannot be read as an attribute: after `a.items = 5` the attribute is still the method, although it was stored and can be deleted as an attribute. -/
theorem C156_names_violates (d : Dict Key ν) (v : ν) (n : String) (hn : n ∈ classNames) :
    (runOps step d [.setAttr n v, .getAttr n, .getItem (.str n), .delAttr n]).2 = [.done, .method n, .value v, .done] := by
  have h1 : (d.set (.str n) v).has (.str n) = true := by simp [Dict.has]
  simp [runOps, step, hn, getItem, delItem, h1, rethrow]

example : "items" ∈ classNames := by decide

/-- **C156 (partial), names of the class**: reading an attribute gives the item, or AttributeError if there is none, exactly if it is not a name of the class. -/
theorem C156_names_partial (d : Dict Key ν) (n : String) :
    ((∀ v, d.get? (.str n) = some v → (step d (.getAttr n)).2 = .value v) ∧ (d.get? (.str n) = none → (step d (.getAttr n)).2 = .attributeError)) ↔ n ∉ classNames := by
  constructor
  · rintro ⟨h1, h2⟩ hn
    cases hg : d.get? (.str n) with
    | none => have := h2 hg; simp [step, hn] at this
    | some v => have := h1 v hg; simp [step, hn] at this
  · intro hn
    refine ⟨fun v hv => ?_, fun hv => ?_⟩ <;> simp [step, hn, getItem, hv, rethrow]

/-- **C156 (violation), every dict inside**: a DictObject is returned as it is, so dicts inside of it stay plain dicts. -/
theorem C156_every_dict_violates : (∀ d, apply (.obj d) = .obj d) ∧ ∃ v e, Inside (.dict e) (apply v) := by
  refine ⟨fun d => by rw [apply], .obj [(.str "a", .dict [])], [], ?_⟩
  rw [apply]
  exact .obj _ (.str "a") (.dict []) _ (by simp) (.self _)

/-- **C156 (partial), every dict inside**: no plain dict is left if none was inside of a DictObject. -/
theorem C156_every_dict_partial (v : V) (h : ∀ d e, Inside (.obj d) v → ¬ Inside (.dict e) (.obj d)) (e : List (Key × V)) : ¬ Inside (.dict e) (apply v) := by
  intro hi
  obtain ⟨d, h1, h2⟩ := inside_apply v e hi
  exact h d e h1 h2

/-- **C156 (violation), copies**: unlike dict, DictObject of a DictObject is not a copy but the same object: what is then stored in it is seen in the original. -/
theorem C156_copy_violates (h : Heap ν) (i : Nat) (d : Dict Key ν) (hi : h[i]? = some (true, d)) (n : String) (v : ν) :
    construct h i = (h, i) ∧ (hstep h (construct h i).2 (.setAttr n v))[i]? = some (true, d.set (.str n) v) := by
  have hlt : i < h.length := by
    rcases Nat.lt_or_ge i h.length with hl | hl
    · exact hl
    · rw [List.getElem?_eq_none hl] at hi; simp at hi
  have hc : construct h i = (h, i) := by simp [construct, hi]
  refine ⟨hc, ?_⟩
  rw [hc]
  simp only [hstep, hi, step]
  simp [hlt]

example : ([(true, [(.str "a", 1)])] : Heap Nat)[0]? = some (true, [(.str "a", 1)]) := rfl

end Verif.DictObject
