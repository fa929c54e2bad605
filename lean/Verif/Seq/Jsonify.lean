/-!
# jsonify and stringify (satella/coding/transforms/jsonify.py, transforms/__init__.py), C129-C132
-/
namespace Verif.Jsonify

/-! ## Model -/

/-- values: None, numbers, strings, members of enumerations with a name and value, JSONAble objects with what `to_json` returns, mappings, sequences, iterables that are not sequences, other objects; the last three and JSONAbles are told apart for `str` by an identity.  /repo/satella/coding/transforms/jsonify.py:21-41, transforms/__init__.py:220-236 -/
inductive V
  | none
  | num (n : Int)
  | str (s : List Char)
  | enum (name : List Char) (value : V)
  | jsonable (id : Nat) (toJson : V)
  | map (d : List (V × V))
  | seq (l : List V)
  | iterable (id : Nat) (l : List V)
  | obj (id : Nat)

/-- equality of keys, when they are None, numbers or strings; other keys are not considered equal.  /repo/satella/coding/transforms/jsonify.py:32 -/
def sameKey : V → V → Bool
  | .none, .none => true
  | .num n, .num m => n = m
  | .str s, .str t => s = t
  | _, _ => false

/-- whether the value may be a key of a dictionary: lists and dictionaries may not.  Simplified: other values that are not None, numbers or strings may not either.  /repo/satella/coding/transforms/jsonify.py:32 -/
def hashable : V → Bool
  | .none | .num _ | .str _ => true
  | _ => false

/-- `new_mapping[k] = v`, /repo/satella/coding/transforms/jsonify.py:32 -/
def put (k v : V) : List (V × V) → List (V × V)
  | [] => [(k, v)]
  | (k', v') :: d => if sameKey k' k then (k', v) :: d else (k', v') :: put k v d

variable (str : V → List Char)

mutual

/-- `jsonify`, `str` is what str() gives; `none` is a TypeError.  /repo/satella/coding/transforms/jsonify.py:7-41 -/
def jsonify : V → Option V
  | .none => some .none
  | .num n => some (.num n)
  | .str s => some (.str s)
  | .enum _ v => some v
  | .jsonable _ v => jsonify v
  | .map d => (jsonifyMap d []).map .map
  | .seq l => (jsonifyList l).map .seq
  | .iterable _ l => (jsonifyList l).map .seq
  | .obj i => some (.str (str (.obj i)))

/-- the comprehension, /repo/satella/coding/transforms/jsonify.py:35 -/
def jsonifyList : List V → Option (List V)
  | [] => some []
  | x :: l =>
    match jsonify x with
    | Option.none => Option.none
    | some y => (jsonifyList l).map (y :: ·)

/-- the loop, /repo/satella/coding/transforms/jsonify.py:30-33 -/
def jsonifyMap : List (V × V) → List (V × V) → Option (List (V × V))
  | [], acc => some acc
  | (k, v) :: d, acc =>
    match jsonify v, jsonify k with
    | some v', some k' => if hashable k' then jsonifyMap d (put k' v' acc) else Option.none
    | _, _ => Option.none

end

mutual

/-- `stringify` with recursively=True, `str` is the stringifier; /repo/satella/coding/transforms/__init__.py:220-236, _stringify_none at :110-114 -/
def stringify (strNone : Bool) : V → Option V
  | .none => some (if strNone then .str (str .none) else .none)
  | .num n => some (.str (str (.num n)))
  | .str s => some (.str s)
  | .enum n _ => some (.str n)
  | .jsonable i v => some (.str (str (.jsonable i v)))
  | .map d => (stringifyMap strNone d []).map .map
  | .seq l => (stringifyList strNone l).map .seq
  | .iterable i l => some (.str (str (.iterable i l)))
  | .obj i => some (.str (str (.obj i)))

/-- the list comprehension, /repo/satella/coding/transforms/__init__.py:231 -/
def stringifyList (strNone : Bool) : List V → Option (List V)
  | [] => some []
  | x :: l =>
    match stringify strNone x with
    | Option.none => Option.none
    | some y => (stringifyList strNone l).map (y :: ·)

/-- the dict comprehension, /repo/satella/coding/transforms/__init__.py:227 -/
def stringifyMap (strNone : Bool) : List (V × V) → List (V × V) → Option (List (V × V))
  | [], acc => some acc
  | (k, v) :: d, acc =>
    match stringify strNone k, stringify strNone v with
    | some k', some v' => if hashable k' then stringifyMap strNone d (put k' v' acc) else Option.none
    | _, _ => Option.none

end

/-- `stringify` with recursively=False, /repo/satella/coding/transforms/__init__.py:220-236 -/
def stringifyFlat (strNone : Bool) : V → V
  | .none => if strNone then .str (str .none) else .none
  | .str s => .str s
  | .enum n _ => .str n
  | .map d => .map (d.foldl (fun acc p => put (.str (str p.1)) (.str (str p.2)) acc) [])
  | .seq l => .seq (l.map (fun x => .str (str x)))
  | x => .str (str x)

/-! ## Specification -/

/-- JSON: None, numbers, strings, lists and dictionaries of JSON; keys are None, numbers and strings, different from each other -/
inductive Json : V → Prop
  | none : Json .none
  | num (n) : Json (.num n)
  | str (s) : Json (.str s)
  | seq (l : List V) : (∀ x ∈ l, Json x) → Json (.seq l)
  | map (d : List (V × V)) : (∀ k v, (k, v) ∈ d → k = .none ∨ (∃ n, k = .num n) ∨ ∃ s, k = .str s) → (d.map Prod.fst).Nodup → (∀ k v, (k, v) ∈ d → Json v) → Json (.map d)

/-- what the documentation says the result is: enums become their values, JSONAble objects what their to_json gives, mappings dictionaries with converted keys and values, iterables lists, other objects strings -/
inductive JRep : V → V → Prop
  | none : JRep .none .none
  | num (n) : JRep (.num n) (.num n)
  | str (s) : JRep (.str s) (.str s)
  | enum (n v) : JRep (.enum n v) v
  | jsonable (i v j) : JRep v j → JRep (.jsonable i v) j
  | seq (l m : List V) : l.length = m.length → (∀ (i : Nat) x y, l[i]? = some x → m[i]? = some y → JRep x y) → JRep (.seq l) (.seq m)
  | iterable (i) (l m : List V) : l.length = m.length → (∀ (i : Nat) x y, l[i]? = some x → m[i]? = some y → JRep x y) → JRep (.iterable i l) (.seq m)
  | map (d e : List (V × V)) : d.length = e.length → (∀ (i : Nat) k v k' v', d[i]? = some (k, v) → e[i]? = some (k', v') → JRep k k') →
      (∀ (i : Nat) k v k' v', d[i]? = some (k, v) → e[i]? = some (k', v') → JRep v v') → JRep (.map d) (.map e)
  | obj (i) : JRep (.obj i) (.str (str (.obj i)))

/-- recursive stringification: strings stay, enums become names, everything else that is not a mapping or sequence becomes what the stringifier gives for it; None stays if `strNone` is false -/
inductive SRep (strNone : Bool) : V → V → Prop
  | none : strNone = false → SRep strNone .none .none
  | noneStr : strNone = true → SRep strNone .none (.str (str .none))
  | num (n) : SRep strNone (.num n) (.str (str (.num n)))
  | str (s) : SRep strNone (.str s) (.str s)
  | enum (n v) : SRep strNone (.enum n v) (.str n)
  | jsonable (i v) : SRep strNone (.jsonable i v) (.str (str (.jsonable i v)))
  | iterable (i l) : SRep strNone (.iterable i l) (.str (str (.iterable i l)))
  | obj (i) : SRep strNone (.obj i) (.str (str (.obj i)))
  | seq (l m : List V) : l.length = m.length → (∀ (i : Nat) x y, l[i]? = some x → m[i]? = some y → SRep strNone x y) → SRep strNone (.seq l) (.seq m)
  | map (d e : List (V × V)) : d.length = e.length → (∀ (i : Nat) k v k' v', d[i]? = some (k, v) → e[i]? = some (k', v') → SRep strNone k k') →
      (∀ (i : Nat) k v k' v', d[i]? = some (k, v) → e[i]? = some (k', v') → SRep strNone v v') → SRep strNone (.map d) (.map e)

/-- leaves are strings, or None if `strNone` is false -/
inductive Strings (strNone : Bool) : V → Prop
  | none : strNone = false → Strings strNone .none
  | str (s) : Strings strNone (.str s)
  | seq (l : List V) : (∀ x ∈ l, Strings strNone x) → Strings strNone (.seq l)
  | map (d : List (V × V)) : (∀ k v, (k, v) ∈ d → Strings strNone k) → (∀ k v, (k, v) ∈ d → Strings strNone v) → Strings strNone (.map d)

/-- values of enumerations in the value are JSON -/
inductive EnumsJson : V → Prop
  | none : EnumsJson .none
  | num (n) : EnumsJson (.num n)
  | str (s) : EnumsJson (.str s)
  | enum (n v) : Json v → EnumsJson (.enum n v)
  | jsonable (i v) : EnumsJson v → EnumsJson (.jsonable i v)
  | seq (l : List V) : (∀ x ∈ l, EnumsJson x) → EnumsJson (.seq l)
  | iterable (i) (l : List V) : (∀ x ∈ l, EnumsJson x) → EnumsJson (.iterable i l)
  | map (d : List (V × V)) : (∀ k v, (k, v) ∈ d → EnumsJson k) → (∀ k v, (k, v) ∈ d → EnumsJson v) → EnumsJson (.map d)
  | obj (i) : EnumsJson (.obj i)

/-- None, a number or a string -/
def Scalar (k : V) : Prop := k = .none ∨ (∃ n, k = .num n) ∨ ∃ s, k = .str s

/-! ## Proofs -/

theorem sameKey_eq {k k' : V} (h : sameKey k' k = true) : k' = k := by
  cases k' <;> cases k <;> simp [sameKey] at h <;> simp [h]

theorem sameKey_refl {k : V} (h : Scalar k) : sameKey k k = true := by
  rcases h with rfl | ⟨n, rfl⟩ | ⟨s, rfl⟩ <;> simp [sameKey]

theorem hashable_iff (k : V) : hashable k = true ↔ Scalar k := by
  cases k <;> simp [hashable, Scalar]

theorem scalar_json {k : V} (h : Scalar k) : Json k := by
  rcases h with rfl | ⟨n, rfl⟩ | ⟨s, rfl⟩
  · exact .none
  · exact .num _
  · exact .str _

theorem put_fresh (k v : V) (acc : List (V × V)) (h : k ∉ acc.map Prod.fst) : put k v acc = acc ++ [(k, v)] := by
  induction acc with
  | nil => rfl
  | cons p acc ih =>
    obtain ⟨k', v'⟩ := p
    simp only [List.map_cons, List.mem_cons, not_or] at h
    have : sameKey k' k = false := by
      rw [Bool.eq_false_iff]
      intro hs
      exact h.1 (sameKey_eq hs).symm
    simp [put, this, ih h.2]

theorem mem_put {k v : V} {acc : List (V × V)} {p : V × V} (h : p ∈ put k v acc) : p ∈ acc ∨ (p.1 = k ∧ p.2 = v) := by
  induction acc with
  | nil => simp [put] at h; exact Or.inr (by simp [h])
  | cons q acc ih =>
    obtain ⟨k', v'⟩ := q
    simp only [put] at h
    split at h
    · rename_i hs
      rcases List.mem_cons.1 h with h | h
      · exact Or.inr (by rw [h]; exact ⟨sameKey_eq hs, rfl⟩)
      · exact Or.inl (by simp [h])
    · rcases List.mem_cons.1 h with h | h
      · exact Or.inl (by simp [h])
      · rcases ih h with h | h
        · exact Or.inl (by simp [h])
        · exact Or.inr h

theorem put_nodup {k v : V} (hk : Scalar k) {acc : List (V × V)} (h : (acc.map Prod.fst).Nodup) : ((put k v acc).map Prod.fst).Nodup := by
  induction acc with
  | nil => simp [put]
  | cons q acc ih =>
    obtain ⟨k', v'⟩ := q
    rw [List.map_cons, List.nodup_cons] at h
    simp only [put]
    split
    · rw [List.map_cons, List.nodup_cons]; exact h
    · rename_i hs
      rw [List.map_cons, List.nodup_cons]
      refine ⟨fun hm => ?_, ih h.2⟩
      obtain ⟨p, hp, e⟩ := List.mem_map.1 hm
      rcases mem_put hp with hp | ⟨hp, _⟩
      · exact h.1 (List.mem_map.2 ⟨p, hp, e⟩)
      · simp only at e
        rw [hp] at e
        subst e
        exact hs (sameKey_refl hk)

theorem jsonifyList_of (l m : List V) (hl : l.length = m.length) (h : ∀ (i : Nat) x y, l[i]? = some x → m[i]? = some y → jsonify str x = some y) : jsonifyList str l = some m := by
  induction l generalizing m with
  | nil =>
    cases m with
    | nil => simp [jsonifyList]
    | cons _ _ => simp at hl
  | cons x l ih =>
    cases m with
    | nil => simp at hl
    | cons y m =>
      have h0 := h 0 x y rfl rfl
      have := ih m (by simpa using hl) (fun i a b ha hb => h (i + 1) a b (by simpa using ha) (by simpa using hb))
      simp [jsonifyList, h0, this]

theorem jsonifyMap_of (d e acc : List (V × V)) (hl : d.length = e.length)
    (hk : ∀ (i : Nat) k v k' v', d[i]? = some (k, v) → e[i]? = some (k', v') → jsonify str k = some k')
    (hv : ∀ (i : Nat) k v k' v', d[i]? = some (k, v) → e[i]? = some (k', v') → jsonify str v = some v')
    (hs : ∀ k v, (k, v) ∈ e → Scalar k) (hn : ((acc ++ e).map Prod.fst).Nodup) : jsonifyMap str d acc = some (acc ++ e) := by
  induction d generalizing e acc with
  | nil =>
    cases e with
    | nil => simp [jsonifyMap]
    | cons _ _ => simp at hl
  | cons p d ih =>
    cases e with
    | nil => simp at hl
    | cons q e =>
      obtain ⟨k, v⟩ := p
      obtain ⟨k', v'⟩ := q
      have h1 := hk 0 k v k' v' rfl rfl
      have h2 := hv 0 k v k' v' rfl rfl
      have h3 : hashable k' = true := (hashable_iff k').2 (hs k' v' (by simp))
      have h4 : k' ∉ acc.map Prod.fst := by
        rw [List.map_append, List.nodup_append] at hn
        intro hm
        exact hn.2.2 k' hm k' (by simp) rfl
      have := ih e (acc ++ [(k', v')]) (by simpa using hl) (fun i a b a' b' ha hb => hk (i + 1) a b a' b' (by simpa using ha) (by simpa using hb))
        (fun i a b a' b' ha hb => hv (i + 1) a b a' b' (by simpa using ha) (by simpa using hb)) (fun a b h => hs a b (by simp [h])) (by simpa using hn)
      simp only [jsonifyMap, h1, h2, h3, ↓reduceIte, put_fresh _ _ _ h4, this]
      simp

/-- **C129 (the documented result)**: whenever what the documentation describes is JSON, jsonify returns it. -/
theorem C129_jsonify {v j : V} (h : JRep str v j) (hj : Json j) : jsonify str v = some j := by
  induction h with
  | none => simp [jsonify]
  | num n => simp [jsonify]
  | str n => simp [jsonify]
  | enum n v => simp [jsonify]
  | jsonable i v j _ ih => simpa [jsonify] using ih hj
  | obj i => simp [jsonify]
  | seq l m hl _ ih =>
    cases hj with
    | seq _ hm => simp [jsonify, jsonifyList_of str l m hl (fun i x y hx hy => ih i x y hx hy (hm y (List.mem_of_getElem? hy)))]
  | iterable i l m hl _ ih =>
    cases hj with
    | seq _ hm => simp [jsonify, jsonifyList_of str l m hl (fun i x y hx hy => ih i x y hx hy (hm y (List.mem_of_getElem? hy)))]
  | map d e hl _ _ ihk ihv =>
    cases hj with
    | map _ hs hn hv =>
      have := jsonifyMap_of str d e [] hl (fun i k v k' v' h1 h2 => ihk i k v k' v' h1 h2 (scalar_json (hs k' v' (List.mem_of_getElem? h2))))
        (fun i k v k' v' h1 h2 => ihv i k v k' v' h1 h2 (hv k' v' (List.mem_of_getElem? h2))) hs hn
      simp [jsonify, this]

theorem jrep_self {j : V} (h : Json j) : JRep str j j := by
  induction h with
  | none => exact .none
  | num n => exact .num _
  | str n => exact .str _
  | seq l _ ih =>
    refine .seq _ _ rfl (fun i x y hx hy => ?_)
    rw [hx] at hy
    obtain rfl : x = y := by simpa using hy
    exact ih x (List.mem_of_getElem? hx)
  | map d hs _ _ ih =>
    refine .map _ _ rfl (fun i k v k' v' h1 h2 => ?_) (fun i k v k' v' h1 h2 => ?_)
    · rw [h1] at h2
      simp only [Option.some.injEq, Prod.mk.injEq] at h2
      obtain ⟨rfl, rfl⟩ := h2
      rcases hs k v (List.mem_of_getElem? h1) with rfl | ⟨n, rfl⟩ | ⟨s, rfl⟩
      · exact .none
      · exact .num _
      · exact .str _
    · rw [h1] at h2
      simp only [Option.some.injEq, Prod.mk.injEq] at h2
      obtain ⟨rfl, rfl⟩ := h2
      exact ih k v (List.mem_of_getElem? h1)

/-- **C129 (JSON)**: jsonify does not change what is already JSON. -/
theorem C129_json_unchanged {j : V} (h : Json j) : jsonify str j = some j := C129_jsonify str (jrep_self str h) h

/-- a mapping with an object whose to_json gives a tuple of an enum and an object -/
def someV : V := .map [(.enum ['A'] (.num 1), .jsonable 0 (.iterable 0 [.enum ['B'] (.str ['b']), .obj 7])), (.str ['k'], .none)]
/-- what it is converted to -/
def someJ : V := .map [(.num 1, .seq [.str ['b'], .str (str (.obj 7))]), (.str ['k'], .none)]
example : jsonify str someV = some (someJ str) := by
  simp [someV, someJ, jsonify, jsonifyMap, jsonifyList, hashable, put, sameKey]
example : Json (someJ str) := by
  refine .map _ ?_ (by simp) ?_
  · intro k v h
    simp at h
    rcases h with ⟨rfl, _⟩ | ⟨rfl, _⟩ <;> simp
  · intro k v h
    simp at h
    rcases h with ⟨_, rfl⟩ | ⟨_, rfl⟩
    · refine .seq _ (fun x hx => ?_)
      simp at hx
      rcases hx with rfl | rfl <;> exact .str _
    · exact .none
example : JRep str someV (someJ str) := by
  refine .map _ _ rfl ?_ ?_
  · intro i k v k' v' h1 h2
    match i with
    | 0 => simp at h1 h2; obtain ⟨rfl, _⟩ := h1; obtain ⟨rfl, _⟩ := h2; exact .enum _ _
    | 1 => simp at h1 h2; obtain ⟨rfl, _⟩ := h1; obtain ⟨rfl, _⟩ := h2; exact .str _
    | i + 2 => simp at h1
  · intro i k v k' v' h1 h2
    match i with
    | 0 =>
      simp at h1 h2; obtain ⟨_, rfl⟩ := h1; obtain ⟨_, rfl⟩ := h2
      refine .jsonable _ _ _ (.iterable _ _ _ rfl (fun i x y hx hy => ?_))
      match i with
      | 0 => simp at hx hy; subst hx; subst hy; exact .enum _ _
      | 1 => simp at hx hy; subst hx; subst hy; exact .obj _
      | i + 2 => simp at hx
    | 1 => simp at h1 h2; obtain ⟨_, rfl⟩ := h1; obtain ⟨_, rfl⟩ := h2; exact .none
    | i + 2 => simp at h1

/-! ## C130 -/

/-- **C130 (violation), enums**: a member of an enumeration whose value is an object is converted to the object, which is not JSON. -/
theorem C130_enum_violates : ∃ v j : V, jsonify str v = some j ∧ ¬ Json j :=
  ⟨.enum ['A'] (.obj 0), .obj 0, by simp [jsonify], fun h => by cases h⟩

/-- **C130 (violation), keys**: a dictionary with a tuple as a key raises TypeError. -/
theorem C130_tuple_key_violates : ∃ v : V, EnumsJson v ∧ jsonify str v = none :=
  ⟨.map [(.seq [.num 1], .num 2)], .map _ (by intro k v h; simp at h; rw [h.1]; exact .seq _ (by intro x hx; simp at hx; subst hx; exact .num _)) (by intro k v h; simp at h; rw [h.2]; exact .num _),
    by simp [jsonify, jsonifyMap, jsonifyList, hashable]⟩

/-- **C130 (violation), entries**: two entries become one when a member of an enumeration is a key besides its value. -/
theorem C130_entries_violates : ∃ (d : List (V × V)) (e : List (V × V)), (d.map Prod.fst).Nodup ∧ jsonify str (.map d) = some (.map e) ∧ e.length < d.length :=
  ⟨[(.num 1, .str ['a']), (.enum ['A'] (.num 1), .str ['b'])], [(.num 1, .str ['b'])], by simp, by simp [jsonify, jsonifyMap, hashable, put, sameKey], by simp⟩

mutual

theorem json_of : ∀ (v : V), EnumsJson v → ∀ j, jsonify str v = some j → Json j
  | .none, _, j, h => by simp [jsonify] at h; subst h; exact .none
  | .num _, _, j, h => by simp [jsonify] at h; subst h; exact .num _
  | .str _, _, j, h => by simp [jsonify] at h; subst h; exact .str _
  | .enum _ v, he, j, h => by
    simp [jsonify] at h
    subst h
    cases he with | enum _ _ hv => exact hv
  | .jsonable _ v, he, j, h => by
    cases he with
    | jsonable _ _ hv => exact json_of v hv j (by simpa [jsonify] using h)
  | .obj _, _, j, h => by simp [jsonify] at h; subst h; exact .str _
  | .seq l, he, j, h => by
    cases he with
    | seq _ hl =>
      simp only [jsonify, Option.map_eq_some_iff] at h
      obtain ⟨m, hm, rfl⟩ := h
      exact .seq _ (json_list l hl m hm)
  | .iterable _ l, he, j, h => by
    cases he with
    | iterable _ _ hl =>
      simp only [jsonify, Option.map_eq_some_iff] at h
      obtain ⟨m, hm, rfl⟩ := h
      exact .seq _ (json_list l hl m hm)
  | .map d, he, j, h => by
    cases he with
    | map _ hk hv =>
      simp only [jsonify, Option.map_eq_some_iff] at h
      obtain ⟨m, hm, rfl⟩ := h
      obtain ⟨a, b, c⟩ := json_map d hk hv [] m (by intro k v h; simp at h) (by simp) (by intro k v h; simp at h) hm
      exact .map _ a b c

theorem json_list : ∀ (l : List V), (∀ x ∈ l, EnumsJson x) → ∀ m, jsonifyList str l = some m → ∀ y ∈ m, Json y
  | [], _, m, h => by simp [jsonifyList] at h; subst h; simp
  | x :: l, hl, m, h => by
    simp only [jsonifyList] at h
    cases hx : jsonify str x with
    | none => rw [hx] at h; simp at h
    | some y =>
      rw [hx] at h
      simp only [Option.map_eq_some_iff] at h
      obtain ⟨m', hm', rfl⟩ := h
      intro z hz
      rcases List.mem_cons.1 hz with rfl | hz
      · exact json_of x (hl x (by simp)) _ hx
      · exact json_list l (fun a ha => hl a (by simp [ha])) m' hm' z hz

theorem json_map : ∀ (d : List (V × V)), (∀ k v, (k, v) ∈ d → EnumsJson k) → (∀ k v, (k, v) ∈ d → EnumsJson v) → ∀ acc m,
    (∀ k v, (k, v) ∈ acc → Scalar k) → (acc.map Prod.fst).Nodup → (∀ k v, (k, v) ∈ acc → Json v) → jsonifyMap str d acc = some m →
    (∀ k v, (k, v) ∈ m → Scalar k) ∧ (m.map Prod.fst).Nodup ∧ (∀ k v, (k, v) ∈ m → Json v)
  | [], _, _, acc, m, h1, h2, h3, h => by simp [jsonifyMap] at h; subst h; exact ⟨h1, h2, h3⟩
  | (k, v) :: d, hk, hv, acc, m, h1, h2, h3, h => by
    simp only [jsonifyMap] at h
    cases hjv : jsonify str v with
    | none => rw [hjv] at h; simp at h
    | some v' =>
      cases hjk : jsonify str k with
      | none => rw [hjv, hjk] at h; simp at h
      | some k' =>
        rw [hjv, hjk] at h
        by_cases hh : hashable k' = true
        · simp only [hh, ↓reduceIte] at h
          have hs := (hashable_iff k').1 hh
          have hjv' := json_of v (hv k v (by simp)) v' hjv
          refine json_map d (fun a b hm => hk a b (by simp [hm])) (fun a b hm => hv a b (by simp [hm])) _ m ?_ (put_nodup hs h2) ?_ h
          · intro a b hm
            rcases mem_put hm with hm | ⟨e, _⟩
            · exact h1 a b hm
            · simp only at e; subst e; exact hs
          · intro a b hm
            rcases mem_put hm with hm | ⟨_, e⟩
            · exact h3 a b hm
            · simp only at e; subst e; exact hjv'
        · simp [hh] at h

end

/-- **C130 (partial)**: what jsonify returns is JSON, if values of enumerations are. -/
theorem C130_result_is_json_partial (v : V) (h : EnumsJson v) (j : V) (hj : jsonify str v = some j) : Json j := json_of str v h j hj

/-! ## C131 -/

theorem stringifyList_of (b : Bool) (l m : List V) (hl : l.length = m.length) (h : ∀ (i : Nat) x y, l[i]? = some x → m[i]? = some y → stringify str b x = some y) : stringifyList str b l = some m := by
  induction l generalizing m with
  | nil =>
    cases m with
    | nil => simp [stringifyList]
    | cons _ _ => simp at hl
  | cons x l ih =>
    cases m with
    | nil => simp at hl
    | cons y m =>
      have h0 := h 0 x y rfl rfl
      have := ih m (by simpa using hl) (fun i a b ha hb => h (i + 1) a b (by simpa using ha) (by simpa using hb))
      simp [stringifyList, h0, this]

theorem stringifyMap_of (b : Bool) (d e acc : List (V × V)) (hl : d.length = e.length)
    (hk : ∀ (i : Nat) k v k' v', d[i]? = some (k, v) → e[i]? = some (k', v') → stringify str b k = some k')
    (hv : ∀ (i : Nat) k v k' v', d[i]? = some (k, v) → e[i]? = some (k', v') → stringify str b v = some v')
    (hs : ∀ k v, (k, v) ∈ e → Scalar k) (hn : ((acc ++ e).map Prod.fst).Nodup) : stringifyMap str b d acc = some (acc ++ e) := by
  induction d generalizing e acc with
  | nil =>
    cases e with
    | nil => simp [stringifyMap]
    | cons _ _ => simp at hl
  | cons p d ih =>
    cases e with
    | nil => simp at hl
    | cons q e =>
      obtain ⟨k, v⟩ := p
      obtain ⟨k', v'⟩ := q
      have h1 := hk 0 k v k' v' rfl rfl
      have h2 := hv 0 k v k' v' rfl rfl
      have h3 : hashable k' = true := (hashable_iff k').2 (hs k' v' (by simp))
      have h4 : k' ∉ acc.map Prod.fst := by
        rw [List.map_append, List.nodup_append] at hn
        intro hm
        exact hn.2.2 k' hm k' (by simp) rfl
      have := ih e (acc ++ [(k', v')]) (by simpa using hl) (fun i a b a' b' ha hb => hk (i + 1) a b a' b' (by simpa using ha) (by simpa using hb))
        (fun i a b a' b' ha hb => hv (i + 1) a b a' b' (by simpa using ha) (by simpa using hb)) (fun a b h => hs a b (by simp [h])) (by simpa using hn)
      simp only [stringifyMap, h1, h2, h3, ↓reduceIte, put_fresh _ _ _ h4, this]
      simp

/-- **C131 (the documented result)**: whenever the keys that the documentation describes are different scalars, recursive stringify returns what it describes. -/
theorem C131_stringify (b : Bool) {v w : V} (h : SRep str b v w) (hw : Json w) : stringify str b v = some w := by
  induction h with
  | none hb => simp [stringify, hb]
  | noneStr hb => simp [stringify, hb]
  | num n => simp [stringify]
  | str n => simp [stringify]
  | enum n v => simp [stringify]
  | jsonable i v => simp [stringify]
  | iterable i l => simp [stringify]
  | obj i => simp [stringify]
  | seq l m hl _ ih =>
    cases hw with
    | seq _ hm => simp [stringify, stringifyList_of str b l m hl (fun i x y hx hy => ih i x y hx hy (hm y (List.mem_of_getElem? hy)))]
  | map d e hl _ _ ihk ihv =>
    cases hw with
    | map _ hs hn hv =>
      have := stringifyMap_of str b d e [] hl (fun i k v k' v' h1 h2 => ihk i k v k' v' h1 h2 (scalar_json (hs k' v' (List.mem_of_getElem? h2))))
        (fun i k v k' v' h1 h2 => ihv i k v k' v' h1 h2 (hv k' v' (List.mem_of_getElem? h2))) hs hn
      simp [stringify, this]

mutual

theorem strings_of (b : Bool) : ∀ (v : V), ∀ j, stringify str b v = some j → Strings b j ∧ Json j
  | .none, j, h => by
    cases b with
    | false => simp [stringify] at h; subst h; exact ⟨.none rfl, .none⟩
    | true => simp [stringify] at h; subst h; exact ⟨.str _, .str _⟩
  | .num _, j, h => by simp [stringify] at h; subst h; exact ⟨.str _, .str _⟩
  | .str _, j, h => by simp [stringify] at h; subst h; exact ⟨.str _, .str _⟩
  | .enum _ v, j, h => by simp [stringify] at h; subst h; exact ⟨.str _, .str _⟩
  | .jsonable _ v, j, h => by simp [stringify] at h; subst h; exact ⟨.str _, .str _⟩
  | .obj _, j, h => by simp [stringify] at h; subst h; exact ⟨.str _, .str _⟩
  | .iterable _ l, j, h => by simp [stringify] at h; subst h; exact ⟨.str _, .str _⟩
  | .seq l, j, h => by
    simp only [stringify, Option.map_eq_some_iff] at h
    obtain ⟨m, hm, rfl⟩ := h
    have := strings_list b l m hm
    exact ⟨.seq _ (fun y hy => (this y hy).1), .seq _ (fun y hy => (this y hy).2)⟩
  | .map d, j, h => by
    simp only [stringify, Option.map_eq_some_iff] at h
    obtain ⟨m, hm, rfl⟩ := h
    obtain ⟨a, b, c⟩ := strings_map b d [] m (by intro k v h; simp at h) (by simp) (by intro k v h; simp at h) hm
    exact ⟨.map _ (fun k v h => (a k v h).2) (fun k v h => (c k v h).1), .map _ (fun k v h => (a k v h).1) b (fun k v h => (c k v h).2)⟩

theorem strings_list (b : Bool) : ∀ (l : List V), ∀ m, stringifyList str b l = some m → ∀ y ∈ m, Strings b y ∧ Json y
  | [], m, h => by simp [stringifyList] at h; subst h; simp
  | x :: l, m, h => by
    simp only [stringifyList] at h
    cases hx : stringify str b x with
    | none => rw [hx] at h; simp at h
    | some y =>
      rw [hx] at h
      simp only [Option.map_eq_some_iff] at h
      obtain ⟨m', hm', rfl⟩ := h
      intro z hz
      rcases List.mem_cons.1 hz with rfl | hz
      · exact strings_of b x _ hx
      · exact strings_list b l m' hm' z hz

theorem strings_map (b : Bool) : ∀ (d : List (V × V)), ∀ acc m,
    (∀ k v, (k, v) ∈ acc → Scalar k ∧ Strings b k) → (acc.map Prod.fst).Nodup → (∀ k v, (k, v) ∈ acc → Strings b v ∧ Json v) → stringifyMap str b d acc = some m →
    (∀ k v, (k, v) ∈ m → Scalar k ∧ Strings b k) ∧ (m.map Prod.fst).Nodup ∧ (∀ k v, (k, v) ∈ m → Strings b v ∧ Json v)
  | [], acc, m, h1, h2, h3, h => by simp [stringifyMap] at h; subst h; exact ⟨h1, h2, h3⟩
  | (k, v) :: d, acc, m, h1, h2, h3, h => by
    simp only [stringifyMap] at h
    cases hjk : stringify str b k with
    | none => rw [hjk] at h; simp at h
    | some k' =>
      cases hjv : stringify str b v with
      | none => rw [hjv, hjk] at h; simp at h
      | some v' =>
        rw [hjv, hjk] at h
        by_cases hh : hashable k' = true
        · simp only [hh, ↓reduceIte] at h
          have hs := (hashable_iff k').1 hh
          have hjv' := strings_of b v v' hjv
          have hjk' := strings_of b k k' hjk
          refine strings_map b d _ m ?_ (put_nodup hs h2) ?_ h
          · intro x y hm
            rcases mem_put hm with hm | ⟨e, _⟩
            · exact h1 x y hm
            · simp only at e; subst e; exact ⟨hs, hjk'.1⟩
          · intro x y hm
            rcases mem_put hm with hm | ⟨_, e⟩
            · exact h3 x y hm
            · simp only at e; subst e; exact hjv'
        · simp [hh] at h

end

/-- **C131 (strings)**: everything in what recursive stringify returns is a string, or None if str_none is False. -/
theorem C131_strings (b : Bool) (v w : V) (h : stringify str b v = some w) : Strings b w := (strings_of str b v w h).1

theorem srep_self (b : Bool) {w : V} (h : Strings b w) : SRep str b w w := by
  induction h with
  | none hb => exact .none hb
  | str s => exact .str _
  | seq l _ ih =>
    refine .seq _ _ rfl (fun i x y hx hy => ?_)
    rw [hx] at hy
    obtain rfl : x = y := by simpa using hy
    exact ih x (List.mem_of_getElem? hx)
  | map d _ _ ihk ihv =>
    refine .map _ _ rfl (fun i k v k' v' h1 h2 => ?_) (fun i k v k' v' h1 h2 => ?_) <;>
    · rw [h1] at h2
      simp only [Option.some.injEq, Prod.mk.injEq] at h2
      obtain ⟨rfl, rfl⟩ := h2
      first | exact ihk k v (List.mem_of_getElem? h1) | exact ihv k v (List.mem_of_getElem? h1)

/-- **C131 (again)**: stringifying the result again changes nothing. -/
theorem C131_idempotent (b : Bool) (v w : V) (h : stringify str b v = some w) : stringify str b w = some w :=
  C131_stringify str b (srep_self str b (strings_of str b v w h).1) (strings_of str b v w h).2

/-- what the example of C129 is stringified to -/
def someS : V := .map [(.str ['A'], .str (str (.jsonable 0 (.iterable 0 [.enum ['B'] (.str ['b']), .obj 7])))), (.str ['k'], .none)]
example : stringify str false someV = some (someS str) := by
  simp [someV, someS, stringify, stringifyMap, hashable, put, sameKey]
example : SRep str false (.seq [.enum ['A'] (.num 1), .none]) (.seq [.str ['A'], .none]) := by
  refine .seq _ _ rfl (fun i x y hx hy => ?_)
  match i with
  | 0 => simp at hx hy; subst hx; subst hy; exact .enum _ _
  | 1 => simp at hx hy; subst hx; subst hy; exact .none rfl
  | i + 2 => simp at hx

/-! ## C132 -/

/-- **C132 (violation), enums**: without recursively an enum in a list is given to the stringifier, so it does not become its name. -/
theorem C132_enum_violates : ∃ (str : V → List Char) (n : List Char) (v : V), stringifyFlat str false (.seq [.enum n v]) ≠ .seq [.str n] ∧ stringifyFlat str false (.enum n v) = .str n :=
  ⟨fun _ => ['E', '.', 'A'], ['A'], .num 0, by simp [stringifyFlat], rfl⟩

/-- **C132 (violation), None**: without recursively, None in a list becomes a string although str_none is False. -/
theorem C132_none_violates : ∀ str : V → List Char, stringifyFlat str false (.seq [.none]) = .seq [.str (str .none)] ∧ stringifyFlat str false .none = .none :=
  fun _ => ⟨rfl, rfl⟩

/-- **C132 (violation), keys**: a recursively stringified dictionary with a tuple as a key raises TypeError. -/
theorem C132_tuple_key_violates (b : Bool) : ∃ v : V, stringify str b v = none :=
  ⟨.map [(.seq [], .num 2)], by simp [stringify, stringifyMap, stringifyList, hashable]⟩

/-- **C132 (violation), entries**: entries are lost when different keys become the same string. -/
theorem C132_entries_violates (b : Bool) : ∃ (str : V → List Char) (d e : List (V × V)), (d.map Prod.fst).Nodup ∧ stringify str b (.map d) = some (.map e) ∧ e.length < d.length :=
  ⟨fun _ => ['1'], [(.num 1, .str ['a']), (.str ['1'], .str ['b'])], [(.str ['1'], .str ['b'])], by simp, by simp [stringify, stringifyMap, hashable, put, sameKey], by simp⟩

/-- neither a container, an enum nor None; a string is what the stringifier gives for it -/
def Plain : V → Prop
  | .num _ | .obj _ | .jsonable _ _ | .iterable _ _ => True
  | .str s => str (.str s) = s
  | _ => False

/-- **C132 (partial)**: for lists of other values, stringify gives the same recursively or not. -/
theorem C132_flat_partial (b : Bool) (l : List V) (h : ∀ x ∈ l, Plain str x) : stringify str b (.seq l) = some (stringifyFlat str b (.seq l)) := by
  have : stringifyList str b l = some (l.map (fun x => .str (str x))) := by
    induction l with
    | nil => simp [stringifyList]
    | cons x l ih =>
      have hx := h x (by simp)
      have e : stringify str b x = some (.str (str x)) := by
        cases x <;> simp [Plain] at hx <;> simp [stringify]
        exact hx.symm
      simp [stringifyList, e, ih (fun y hy => h y (by simp [hy]))]
  simp [stringify, stringifyFlat, this]

/-- not a dictionary or a sequence -/
def Atom : V → Prop
  | .map _ | .seq _ => False
  | _ => True

/-- **C132 (partial), recursively or not**: the same holds, whatever str_none is, for anything that is not a dictionary or a sequence. -/
theorem C132_atom_partial (b : Bool) (v : V) (h : Atom v) : stringify str b v = some (stringifyFlat str b v) := by
  cases v <;> simp [Atom] at h <;> simp [stringify, stringifyFlat]

example : ∀ x ∈ [V.num 1, .obj 2], Plain str x := by simp [Plain]

end Verif.Jsonify
