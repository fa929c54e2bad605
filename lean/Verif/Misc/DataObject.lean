import Verif.Py.Dict

/-!
# Data objects with conversion to JSON (satella/json.py, JSONAbleDataObject), C157, C158
-/
namespace Verif.DataObject

open Verif

/-! ## Model -/

variable {α : Type} [DecidableEq α]

/-- a class: the fields annotated in its body, those annotated in the bodies of its bases, and class attributes, its own and inherited, which are the defaults.  Simplified: the class has annotations in its own body.  /repo/satella/json.py:133-139 -/
structure Cls (α : Type) where
  own : List String
  inherited : List String := []
  defaults : Dict String α := []
deriving DecidableEq

/-- an object, /repo/satella/json.py:127 -/
structure Obj (α : Type) where
  cls : Cls α
  attrs : Dict String α
deriving DecidableEq

/-- `getattr(self, name)`, `none` is AttributeError; /repo/satella/json.py:149, :154, :166, :173 -/
def Obj.attr (o : Obj α) (n : String) : Option α :=
  match o.attrs.get? n with
  | some v => some v
  | none => o.cls.defaults.get? n

/-- the loop of `__init__`, `none` is ValueError; /repo/satella/json.py:161-167 -/
def initLoop (c : Cls α) : List String → Dict String α → Dict String α → Option (Dict String α)
  | [], _, attrs => some attrs
  | n :: ns, kwargs, attrs =>
    match kwargs.get? n with
    | some v => initLoop c ns (kwargs.del n) (attrs.set n v)
    | none => if (Obj.attr { cls := c, attrs := attrs } n).isSome then initLoop c ns kwargs attrs else none

/-- `__init__`, /repo/satella/json.py:157-167 -/
def init (c : Cls α) (kwargs : Dict String α) : Option (Obj α) :=
  (initLoop c c.own kwargs []).map (fun attrs => { cls := c, attrs := attrs })

/-- the loop of `to_json`, `none` is AttributeError; /repo/satella/json.py:171-174 -/
def toJsonLoop (o : Obj α) : List String → Dict String α → Option (Dict String α)
  | [], result => some result
  | n :: ns, result =>
    match o.attr n with
    | some v => toJsonLoop o ns (result.set n v)
    | none => none

/-- `to_json`, /repo/satella/json.py:169-174 -/
def toJson (o : Obj α) : Option (Dict String α) := toJsonLoop o o.cls.own []

/-- `from_json`, /repo/satella/json.py:176-178 -/
def fromJson (c : Cls α) (jsonable : Dict String α) : Option (Obj α) := init c jsonable

/-- what `==` gives: a boolean or AttributeError; /repo/satella/json.py:148-149 -/
inductive Eq
  | bool (b : Bool)
  | attributeError
deriving DecidableEq

/-- the loop of `__eq__`, which ends at the first difference; `other` by its attributes.  /repo/satella/json.py:149 -/
def eqLoop (o : Obj α) (other : String → Option α) : List String → Eq
  | [] => .bool true
  | n :: ns =>
    match o.attr n, other n with
    | some x, some y => if x = y then eqLoop o other ns else .bool false
    | _, _ => .attributeError

/-- `__eq__`, /repo/satella/json.py:148-149 -/
def eq (o : Obj α) (other : String → Option α) : Eq := eqLoop o other o.cls.own

/-- `__hash__`, for hashes of values, `none` is AttributeError; /repo/satella/json.py:151-155 -/
def hash (h : α → Nat) (o : Obj α) : Option Nat :=
  o.cls.own.foldl (fun acc n => match acc, o.attr n with
    | some a, some v => some (a ^^^ h v)
    | _, _ => none) (some 0)

/-! ## Proofs -/

omit [DecidableEq α] in
theorem initLoop_some (c : Cls α) (ns : List String) (hn : ns.Nodup) (kwargs attrs : Dict String α) (ha : ∀ n ∈ ns, attrs.get? n = none) :
    (∀ r, initLoop c ns kwargs attrs = some r → (∀ n ∈ ns, r.get? n = kwargs.get? n ∧ (kwargs.get? n = none → (c.defaults.get? n).isSome)) ∧ ∀ n, n ∉ ns → r.get? n = attrs.get? n) ∧
    (initLoop c ns kwargs attrs = none → ∃ n ∈ ns, kwargs.get? n = none ∧ c.defaults.get? n = none) := by
  induction ns generalizing kwargs attrs with
  | nil => simp [initLoop]
  | cons n ns ih =>
    obtain ⟨hn1, hn2⟩ := List.nodup_cons.1 hn
    simp only [initLoop]
    cases hk : kwargs.get? n with
    | some v =>
      have ha' : ∀ m ∈ ns, (attrs.set n v).get? m = none := by
        intro m hm
        have : n ≠ m := fun h => hn1 (h ▸ hm)
        simp [this, ha m (by simp [hm])]
      obtain ⟨h1, h2⟩ := ih hn2 (kwargs.del n) (attrs.set n v) ha'
      have hdel : ∀ m ∈ ns, (kwargs.del n).get? m = kwargs.get? m := by
        intro m hm
        have : n ≠ m := fun h => hn1 (h ▸ hm)
        simp [this]
      refine ⟨fun r hr => ?_, fun hr => ?_⟩
      · obtain ⟨h3, h4⟩ := h1 r hr
        refine ⟨fun m hm => ?_, fun m hm => ?_⟩
        · rcases List.mem_cons.1 hm with rfl | hm
          · rw [h4 m hn1]; simp [hk]
          · obtain ⟨h5, h6⟩ := h3 m hm
            rw [hdel m hm] at h5 h6
            exact ⟨h5, h6⟩
        · simp at hm
          rw [h4 m hm.2]
          simp [Ne.symm hm.1]
      · obtain ⟨m, hm, h3, h4⟩ := h2 hr
        rw [hdel m hm] at h3
        exact ⟨m, by simp [hm], h3, h4⟩
    | none =>
      have hattr : Obj.attr { cls := c, attrs := attrs } n = c.defaults.get? n := by simp [Obj.attr, ha n (by simp)]
      simp only [hattr]
      obtain ⟨h1, h2⟩ := ih hn2 kwargs attrs (fun m hm => ha m (by simp [hm]))
      split
      · next hd =>
        refine ⟨fun r hr => ?_, fun hr => ?_⟩
        · obtain ⟨h3, h4⟩ := h1 r hr
          refine ⟨fun m hm => ?_, fun m hm => ?_⟩
          · rcases List.mem_cons.1 hm with rfl | hm
            · rw [h4 m hn1, ha m (by simp), hk]; exact ⟨rfl, fun _ => hd⟩
            · exact h3 m hm
          · simp at hm; exact h4 m hm.2
        · obtain ⟨m, hm, h3⟩ := h2 hr
          exact ⟨m, by simp [hm], h3⟩
      · next hd => exact ⟨by simp, fun _ => ⟨n, by simp, hk, by simpa using hd⟩⟩

omit [DecidableEq α] in
/-- **C157 (init)**: an object is created exactly if a value is given for each field without a default, else ValueError; its fields are then as given, or as the default. -/
theorem C157_init (c : Cls α) (hn : c.own.Nodup) (kwargs : Dict String α) :
    (init c kwargs = none ↔ ∃ n ∈ c.own, kwargs.get? n = none ∧ c.defaults.get? n = none) ∧
    (∀ o, init c kwargs = some o → o.cls = c ∧ ∀ n ∈ c.own, (∀ v, kwargs.get? n = some v → o.attr n = some v) ∧ (kwargs.get? n = none → (c.defaults.get? n).isSome ∧ o.attr n = c.defaults.get? n)) := by
  obtain ⟨h1, h2⟩ := initLoop_some c c.own hn kwargs [] (fun _ _ => rfl)
  refine ⟨⟨fun h => h2 (by simpa [init] using h), fun ⟨n, hnm, h3, h4⟩ => ?_⟩, fun o ho => ?_⟩
  · cases hi : initLoop c c.own kwargs [] with
    | none => simp [init, hi]
    | some r =>
      have := (h1 r hi).1 n hnm
      rw [h3, h4] at this
      simp at this
  · simp only [init, Option.map_eq_some_iff] at ho
    obtain ⟨r, hr, rfl⟩ := ho
    refine ⟨rfl, fun n hnm => ?_⟩
    obtain ⟨h3, h4⟩ := (h1 r hr).1 n hnm
    refine ⟨fun v hv => by simp [Obj.attr, h3, hv], fun hk => ⟨h4 hk, by simp [Obj.attr, h3, hk]⟩⟩

/-- the class of the docs -/
def culture : Cls String := { own := ["language", "timezone", "units"], defaults := [("units", "metric")] }

example : init culture [("language", "pl"), ("timezone", "Europe/Warsaw")] = some { cls := culture, attrs := [("language", "pl"), ("timezone", "Europe/Warsaw")] } := by decide

example : init culture [("language", "pl")] = none := by decide

omit [DecidableEq α] in
theorem toJsonLoop_eq (o : Obj α) (ns : List String) (hn : ns.Nodup) (hall : ∀ n ∈ ns, (o.attr n).isSome) (result : Dict String α) (hr : ∀ n ∈ ns, n ∉ result.keys) :
    ∃ r, toJsonLoop o ns result = some (result ++ r) ∧ r.map Prod.fst = ns ∧ ∀ n v, (n, v) ∈ r → o.attr n = some v := by
  induction ns generalizing result with
  | nil => exact ⟨[], by simp [toJsonLoop], rfl, by simp⟩
  | cons n ns ih =>
    obtain ⟨hn1, hn2⟩ := List.nodup_cons.1 hn
    cases hv : o.attr n with
    | none => have := hall n (by simp); simp [hv] at this
    | some v =>
      have hset : result.set n v = result ++ [(n, v)] := Dict.set_of_not_mem (hr n (by simp)) v
      obtain ⟨r, h1, h2, h3⟩ := ih hn2 (fun m hm => hall m (by simp [hm])) (result ++ [(n, v)]) (fun m hm hk => by
        have hne : m ≠ n := fun h => hn1 (h ▸ hm)
        have := hr m (by simp [hm])
        simp [Dict.keys] at hk this
        rcases hk with ⟨w, hk⟩ | hk
        · exact this w hk
        · exact hne hk)
      refine ⟨(n, v) :: r, ?_, by simp [h2], fun m w hm => ?_⟩
      · simp only [toJsonLoop, hv, hset, h1]
        simp
      · rcases List.mem_cons.1 hm with h | h
        · have h4 : m = n := congrArg Prod.fst h
          have h5 : w = v := congrArg Prod.snd h
          rw [h4, h5, hv]
        · exact h3 m w h

omit [DecidableEq α] in
/-- **C157 (to_json)**: to_json of an object that has all its fields gives exactly these, in order, with their values. -/
theorem C157_to_json (o : Obj α) (hn : o.cls.own.Nodup) (hall : ∀ n ∈ o.cls.own, (o.attr n).isSome) :
    ∃ r, toJson o = some r ∧ r.map Prod.fst = o.cls.own ∧ ∀ n v, (n, v) ∈ r → o.attr n = some v := by
  obtain ⟨r, h1, h2, h3⟩ := toJsonLoop_eq o o.cls.own hn hall [] (by simp [Dict.keys])
  exact ⟨r, by simpa [toJson] using h1, h2, h3⟩

theorem eqLoop_spec (o : Obj α) (other : String → Option α) (ns : List String) (h1 : ∀ n ∈ ns, (o.attr n).isSome) (h2 : ∀ n ∈ ns, (other n).isSome) :
    eqLoop o other ns = .bool (decide (∀ n ∈ ns, o.attr n = other n)) := by
  induction ns with
  | nil => simp [eqLoop]
  | cons n ns ih =>
    obtain ⟨x, hx⟩ := Option.isSome_iff_exists.1 (h1 n (by simp))
    obtain ⟨y, hy⟩ := Option.isSome_iff_exists.1 (h2 n (by simp))
    simp only [eqLoop, hx, hy]
    split
    · next he =>
      rw [ih (fun m hm => h1 m (by simp [hm])) (fun m hm => h2 m (by simp [hm]))]
      subst he
      simp [hx, hy]
    · next he =>
      have : ¬ (∀ m ∈ n :: ns, o.attr m = other m) := by
        intro h
        have := h n (by simp)
        rw [hx, hy] at this
        exact he (Option.some.inj this)
      simp only [this, decide_false]

/-- **C157 (equality)**: two objects of a class that have all its fields are equal exactly if all fields are; so comparing them never raises, and is symmetric. -/
theorem C157_eq (a b : Obj α) (hc : a.cls = b.cls) (ha : ∀ n ∈ a.cls.own, (a.attr n).isSome) (hb : ∀ n ∈ b.cls.own, (b.attr n).isSome) :
    (eq a b.attr = .bool true ↔ ∀ n ∈ a.cls.own, a.attr n = b.attr n) ∧ (eq a b.attr = .bool false ↔ ¬ ∀ n ∈ a.cls.own, a.attr n = b.attr n) ∧ eq a b.attr = eq b a.attr := by
  have h1 := eqLoop_spec a b.attr a.cls.own ha (by rw [hc]; exact hb)
  have h2 := eqLoop_spec b a.attr b.cls.own hb (by rw [← hc]; exact ha)
  unfold eq
  rw [h1, h2, ← hc]
  refine ⟨by simp, by simp, ?_⟩
  simp only [Eq.bool.injEq, decide_eq_decide]
  exact ⟨fun h n hn => (h n hn).symm, fun h n hn => (h n hn).symm⟩

/-- **C157 (hash)**: equal objects of a class have equal hashes, and objects that have all their fields have one. -/
theorem C157_hash (h : α → Nat) (a b : Obj α) (hc : a.cls = b.cls) (ha : ∀ n ∈ a.cls.own, (a.attr n).isSome) (hb : ∀ n ∈ b.cls.own, (b.attr n).isSome) :
    (hash h a).isSome ∧ (eq a b.attr = .bool true → hash h a = hash h b) := by
  constructor
  · unfold hash
    suffices ∀ (ns : List String) (acc : Nat), (∀ n ∈ ns, (a.attr n).isSome) → (ns.foldl (fun acc n => match acc, a.attr n with
      | some a, some v => some (a ^^^ h v)
      | _, _ => none) (some acc)).isSome from this _ 0 ha
    intro ns
    induction ns with
    | nil => simp
    | cons n ns ih =>
      intro acc hs
      obtain ⟨x, hx⟩ := Option.isSome_iff_exists.1 (hs n (by simp))
      simp only [List.foldl_cons, hx]
      exact ih _ (fun m hm => hs m (by simp [hm]))
  · intro he
    have hall := (C157_eq a b hc ha hb).1.1 he
    unfold hash
    rw [← hc]
    suffices ∀ (ns : List String) (acc : Option Nat), (∀ n ∈ ns, a.attr n = b.attr n) → ns.foldl (fun acc n => match acc, a.attr n with
      | some a, some v => some (a ^^^ h v)
      | _, _ => none) acc = ns.foldl (fun acc n => match acc, b.attr n with
      | some a, some v => some (a ^^^ h v)
      | _, _ => none) acc from this _ _ hall
    intro ns
    induction ns with
    | nil => simp
    | cons n ns ih =>
      intro acc hs
      simp only [List.foldl_cons, hs n (by simp)]
      exact ih _ (fun m hm => hs m (by simp [hm]))

/-- **C157 (round trip)**: what to_json gives can be read with from_json, and the result is equal to the object. -/
theorem C157_round_trip (o : Obj α) (hn : o.cls.own.Nodup) (hall : ∀ n ∈ o.cls.own, (o.attr n).isSome) :
    ∃ j p, toJson o = some j ∧ fromJson o.cls j = some p ∧ p.cls = o.cls ∧ eq p o.attr = .bool true ∧ eq o p.attr = .bool true := by
  obtain ⟨j, h1, h2, h3⟩ := C157_to_json o hn hall
  have hwf : Dict.WF j := by rw [Dict.WF, h2]; exact hn
  have hget : ∀ n ∈ o.cls.own, j.get? n = o.attr n := by
    intro n hnm
    have : n ∈ j.keys := by rw [Dict.keys, h2]; exact hnm
    obtain ⟨v, hv⟩ := Option.isSome_iff_exists.1 ((Dict.get?_isSome_iff j n).2 this)
    rw [hv, h3 n v (Dict.mem_of_get? hv)]
  obtain ⟨hi1, hi2⟩ := C157_init o.cls hn j
  cases hp : init o.cls j with
  | none =>
    obtain ⟨n, hnm, h4, _⟩ := hi1.1 hp
    rw [hget n hnm] at h4
    have := hall n hnm
    simp [h4] at this
  | some p =>
    obtain ⟨hpc, hpa⟩ := hi2 p hp
    have hattr : ∀ n ∈ o.cls.own, p.attr n = o.attr n := by
      intro n hnm
      obtain ⟨v, hv⟩ := Option.isSome_iff_exists.1 (hall n hnm)
      rw [hv]
      exact (hpa n hnm).1 v (by rw [hget n hnm, hv])
    have hpall : ∀ n ∈ p.cls.own, (p.attr n).isSome := by
      rw [hpc]
      intro n hnm
      rw [hattr n hnm]
      exact hall n hnm
    have he := (C157_eq p o hpc hpall hall).1.2 (by rw [hpc]; exact hattr)
    exact ⟨j, p, h1, hp, hpc, he, by rw [← (C157_eq p o hpc hpall hall).2.2]; exact he⟩

example : toJson { cls := culture, attrs := [("language", "pl"), ("timezone", "Europe/Warsaw")] } = some [("language", "pl"), ("timezone", "Europe/Warsaw"), ("units", "metric")] := by decide

/-! ## C158 -/

/-- **C158 (violation), inherited fields**: only fields of the class itself are looked at: inherited ones need not be given, are dropped when given, and are not in to_json; so objects given different ones are equal. -/
theorem C158_inherited_violates : ∃ c : Cls String, c.inherited = ["language"] ∧ ∃ a b,
    init c [("language", "pl"), ("units", "metric")] = some a ∧ init c [("language", "en"), ("units", "metric")] = some b ∧
    a.attr "language" = none ∧ toJson a = some [("units", "metric")] ∧ eq a b.attr = .bool true ∧ init c [("units", "metric")] = some a :=
  ⟨{ own := ["units"], inherited := ["language"] }, rfl, { cls := { own := ["units"], inherited := ["language"] }, attrs := [("units", "metric")] }, { cls := { own := ["units"], inherited := ["language"] }, attrs := [("units", "metric")] },
    by decide, by decide, by decide, by decide, by decide, by decide⟩

/-- **C158 (violation), comparing with others**: an object compared with anything that lacks the first of its fields, such as None, raises AttributeError instead of giving False. -/
theorem C158_other_violates (o : Obj α) (other : String → Option α) (n : String) (ns : List String) (h : o.cls.own = n :: ns) (hn : other n = none) : eq o other = .attributeError := by
  unfold eq
  rw [h]
  simp only [eqLoop, hn]
  cases o.attr n <;> rfl

/-- **C158 (violation), symmetry**: objects of different classes may be equal one way only. -/
theorem C158_symmetry_violates : ∃ a b : Obj Nat, eq a b.attr = .bool true ∧ eq b a.attr = .attributeError :=
  ⟨{ cls := { own := ["x"] }, attrs := [("x", 1)] }, { cls := { own := ["x", "y"] }, attrs := [("x", 1), ("y", 2)] }, by decide, by decide⟩

/-- **C158 (violation), names**: an argument that is no field, such as a misspelt one, is dropped without an error and the default is used. -/
theorem C158_names_violates : init culture [("language", "pl"), ("timezone", "UTC"), ("unit", "imperial")] = init culture [("language", "pl"), ("timezone", "UTC")] := by decide

/-- **C158 (partial)**: comparing with anything that has all the fields gives a boolean: whether they are equal. -/
theorem C158_other_partial (o : Obj α) (other : String → Option α) (h1 : ∀ n ∈ o.cls.own, (o.attr n).isSome) (h2 : ∀ n ∈ o.cls.own, (other n).isSome) :
    eq o other = .bool (decide (∀ n ∈ o.cls.own, o.attr n = other n)) := eqLoop_spec o other _ h1 h2

end Verif.DataObject
