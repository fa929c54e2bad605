/-!
# JSON encoding of objects (satella/json.py), C149, C150

Floats are taken as integers; objects do not contain themselves.
-/
namespace Verif.JsonEncode

/-! ## Model -/

/-- values: None, booleans, numbers, strings, members of enumerations with their value, lists, tuples, dictionaries, objects with `__dict__`, objects with `__slots__` given as a tuple (`none` is an attribute that is not set) or as one string, objects with what their `to_json` returns, and others, such as sets; the latter are given with the name of their class.  /repo/satella/json.py:34-58 -/
inductive V
  | none
  | bool (b : Bool)
  | int (n : Int)
  | str (s : String)
  | enum (value : V)
  | list (l : List V)
  | tuple (l : List V)
  | dict (d : List (V × V))
  | obj (attrs : List (String × V))
  | slots (cls : String) (attrs : List (String × Option V))
  | slotStr (cls : String) (name : String) (value : V)
  | jsonable (toJson : V)
  | other (cls : String)

/-- JSON as written, keys are strings; /repo/satella/json.py:62-68 -/
inductive J
  | null
  | bool (b : Bool)
  | int (n : Int)
  | str (s : String)
  | arr (l : List J)
  | obj (d : List (String × J))

/-- equal keys, when they are None, booleans, numbers or strings; other keys are not taken for equal.  Simplified: True and 1 are different.  /repo/satella/json.py:44 -/
def sameKey : V → V → Bool
  | .none, .none => true
  | .bool a, .bool b => a = b
  | .int n, .int m => n = m
  | .str s, .str t => s = t
  | _, _ => false

/-- may the value be a key of a dictionary, /repo/satella/json.py:44 -/
def hashable : V → Bool
  | .list _ | .dict _ => false
  | _ => true

/-- storing in a dictionary, /repo/satella/json.py:44 -/
def put (k v : V) : List (V × V) → List (V × V)
  | [] => [(k, v)]
  | (k', v') :: d => if sameKey k' k then (k', v) :: d else (k', v') :: put k v d

/-- the text for objects that have no attributes to be found, /repo/satella/json.py:58 -/
def instanceOf (cls : String) : V := .str ("<an instance of " ++ cls ++ ">")

mutual

/-- `JSONEncoder.default`; `none` is a TypeError.  /repo/satella/json.py:34-59 -/
def dflt : V → Option V
  | .jsonable v => some v
  | .none => some .none
  | .bool b => some (.bool b)
  | .int n => some (.int n)
  | .str s => some (.str s)
  | .enum v => some v
  | .list l => (dfltList l).map .list
  | .tuple l => (dfltList l).map .list
  | .dict d => (dfltDict d []).map .dict
  | .obj attrs => (dfltAttrs attrs).map .dict
  | .slots cls attrs =>
    match dfltSlots attrs with
    | Option.none => Option.none
    | some Option.none => some (instanceOf cls)
    | some (some d) => some (.dict d)
  | .slotStr cls name v =>
    if name.length = 1 then (dflt v).map (fun w => .dict [(.str name, w)]) else some (instanceOf cls)
  | .other cls => some (instanceOf cls)

/-- the list comprehension, /repo/satella/json.py:42 -/
def dfltList : List V → Option (List V)
  | [] => some []
  | x :: l =>
    match dflt x, dfltList l with
    | some y, some m => some (y :: m)
    | _, _ => Option.none

/-- the dict comprehension, /repo/satella/json.py:44 -/
def dfltDict : List (V × V) → List (V × V) → Option (List (V × V))
  | [], acc => some acc
  | (k, v) :: d, acc =>
    match dflt k, dflt v with
    | some k', some v' => if hashable k' then dfltDict d (put k' v' acc) else Option.none
    | _, _ => Option.none

/-- the loop over `__dict__`, its keys are different from each other; /repo/satella/json.py:51-52 -/
def dfltAttrs : List (String × V) → Option (List (V × V))
  | [] => some []
  | (n, v) :: l =>
    match dflt v, dfltAttrs l with
    | some w, some d => some ((.str n, w) :: d)
    | _, _ => Option.none

/-- the loop over `__slots__`: `none` is a TypeError, `some none` is an AttributeError.  /repo/satella/json.py:55-57 -/
def dfltSlots : List (String × Option V) → Option (Option (List (V × V)))
  | [] => some (some [])
  | (_, Option.none) :: _ => some Option.none
  | (n, some v) :: l =>
    match dflt v with
    | Option.none => Option.none
    | some w =>
      match dfltSlots l with
      | Option.none => Option.none
      | some Option.none => some Option.none
      | some (some d) => some (some ((.str n, w) :: d))

end

/-- how encoding went; `more` is that the fuel was not enough.  /repo/satella/json.py:68 -/
inductive Out (α : Type)
  | ok (a : α)
  | typeError
  | more

/-- encoding elements in order, by the encoder of the standard library; /repo/satella/json.py:68 -/
def encList (f : V → Out J) : List V → Out (List J)
  | [] => .ok []
  | x :: l =>
    match f x with
    | .ok j =>
      match encList f l with
      | .ok m => .ok (j :: m)
      | .typeError => .typeError
      | .more => .more
    | .typeError => .typeError
    | .more => .more

/-- a key as the encoder of the standard library writes it; `none` is TypeError, which `default` is not asked about.  /repo/satella/json.py:68 -/
def encKey : V → Option String
  | .str s => some s
  | .int n => some (toString n)
  | .bool b => some (if b then "true" else "false")
  | .none => some "null"
  | _ => Option.none

/-- encoding entries in order, by the encoder of the standard library; /repo/satella/json.py:68 -/
def encDict (f : V → Out J) : List (V × V) → Out (List (String × J))
  | [] => .ok []
  | (k, v) :: d =>
    match encKey k with
    | Option.none => .typeError
    | some s =>
      match f v with
      | .ok j =>
        match encDict f d with
        | .ok m => .ok ((s, j) :: m)
        | .typeError => .typeError
        | .more => .more
      | .typeError => .typeError
      | .more => .more

/-- a constructor of JSON put around, /repo/satella/json.py:68 -/
def Out.map {α β : Type} (g : α → β) : Out α → Out β
  | .ok a => .ok (g a)
  | .typeError => .typeError
  | .more => .more

/-- `json_encode`: the encoder of the standard library, which asks `default` about what it does not know, and encodes what that gives; /repo/satella/json.py:62-68 -/
def encode : Nat → V → Out J
  | 0, _ => .more
  | fuel + 1, v =>
    match v with
    | .none => .ok .null
    | .bool b => .ok (.bool b)
    | .int n => .ok (.int n)
    | .str s => .ok (.str s)
    | .list l => (encList (encode fuel) l).map .arr
    | .tuple l => (encList (encode fuel) l).map .arr
    | .dict d => (encDict (encode fuel) d).map .obj
    | v =>
      match dflt v with
      | some w => encode fuel w
      | Option.none => .typeError

/-- `write_json_to_file`: the file is opened for writing, which empties it, before the value is encoded.  Contents of the file afterwards, and whether it raised; `render` is the text of JSON.  /repo/satella/json.py:83-84 -/
def writeJson (render : J → String) (fuel : Nat) (_file : Option String) (v : V) : Option String × Bool :=
  match encode fuel v with
  | .ok j => (some (render j), false)
  | _ => (some "", true)

/-- `write_json_to_file_if_different`, with whether the write happened, `none` if it raised.  /repo/satella/json.py:101-102 -/
def writeIfDifferent (render : J → String) (fuel : Nat) (file : Option String) (v : V) : Option String × Option Bool :=
  match encode fuel v with
  | .ok j => if file = some (render j) then (file, some false) else (some (render j), some true)
  | _ => (file, Option.none)

/-! ## Specification -/

/-- what the JSON of a value is: members of enumerations are their values, objects are dictionaries of their attributes, or what their to_json gives, or a text with the name of the class if no attributes can be found -/
inductive Enc : V → J → Prop
  | none : Enc .none .null
  | bool (b) : Enc (.bool b) (.bool b)
  | int (n) : Enc (.int n) (.int n)
  | str (s) : Enc (.str s) (.str s)
  | enum (v j) : Enc v j → Enc (.enum v) j
  | list (l m) : l.length = m.length → (∀ (i : Nat) v j, l[i]? = some v → m[i]? = some j → Enc v j) → Enc (.list l) (.arr m)
  | tuple (l m) : l.length = m.length → (∀ (i : Nat) v j, l[i]? = some v → m[i]? = some j → Enc v j) → Enc (.tuple l) (.arr m)
  | dict (ks : List String) (vs : List V) (js : List J) : ks.Nodup → ks.length = vs.length → vs.length = js.length → (∀ (i : Nat) v j, vs[i]? = some v → js[i]? = some j → Enc v j) →
      Enc (.dict ((ks.map V.str).zip vs)) (.obj (ks.zip js))
  | obj (ks : List String) (vs : List V) (js : List J) : ks.length = vs.length → vs.length = js.length → (∀ (i : Nat) v j, vs[i]? = some v → js[i]? = some j → Enc v j) →
      Enc (.obj (ks.zip vs)) (.obj (ks.zip js))
  | slots (cls) (ks : List String) (vs : List V) (js : List J) : ks.length = vs.length → vs.length = js.length → (∀ (i : Nat) v j, vs[i]? = some v → js[i]? = some j → Enc v j) →
      Enc (.slots cls (ks.zip (vs.map some))) (.obj (ks.zip js))
  | jsonable (v j) : Enc v j → Enc (.jsonable v) j
  | other (cls) : Enc (.other cls) (.str ("<an instance of " ++ cls ++ ">"))

/-! ## Proofs -/

/-- with enough fuel, the value is encoded so -/
def Ends (v : V) (j : J) : Prop := ∃ n, ∀ fuel, n ≤ fuel → encode fuel v = .ok j

theorem encList_ends (l : List V) (m : List J) (hl : l.length = m.length) (h : ∀ (i : Nat) v j, l[i]? = some v → m[i]? = some j → Ends v j) : ∃ n, ∀ fuel, n ≤ fuel → encList (encode fuel) l = .ok m := by
  induction l generalizing m with
  | nil => obtain rfl := List.length_eq_zero_iff.1 hl.symm; exact ⟨0, fun _ _ => rfl⟩
  | cons x l ih =>
    cases m with
    | nil => simp at hl
    | cons j m =>
      obtain ⟨a, ha⟩ := h 0 x j rfl rfl
      obtain ⟨b, hb⟩ := ih m (by simpa using hl) (fun i v j hv hj => h (i + 1) v j (by simpa using hv) (by simpa using hj))
      exact ⟨max a b, fun fuel hf => by simp only [encList, ha fuel (by omega), hb fuel (by omega)]⟩

theorem encDict_ends (ks : List String) (vs : List V) (js : List J) (h1 : ks.length = vs.length) (h2 : vs.length = js.length) (h : ∀ (i : Nat) v j, vs[i]? = some v → js[i]? = some j → Ends v j) : ∃ n, ∀ fuel, n ≤ fuel → encDict (encode fuel) ((ks.map V.str).zip vs) = .ok (ks.zip js) := by
  induction ks generalizing vs js with
  | nil => exact ⟨0, fun _ _ => rfl⟩
  | cons k ks ih =>
    cases vs with
    | nil => simp at h1
    | cons v vs =>
      cases js with
      | nil => simp at h2
      | cons j js =>
        obtain ⟨a, ha⟩ := h 0 v j rfl rfl
        obtain ⟨b, hb⟩ := ih vs js (by simpa using h1) (by simpa using h2) (fun i v j hv hj => h (i + 1) v j (by simpa using hv) (by simpa using hj))
        exact ⟨max a b, fun fuel hf => by simp only [List.map_cons, List.zip_cons_cons, encDict, encKey, ha fuel (by omega), hb fuel (by omega)]⟩

theorem Ends.arr {l : List V} {m : List J} (h : ∃ n, ∀ fuel, n ≤ fuel → encList (encode fuel) l = .ok m) : Ends (.list l) (.arr m) ∧ Ends (.tuple l) (.arr m) := by
  obtain ⟨n, h⟩ := h
  refine ⟨⟨n + 1, fun fuel hf => ?_⟩, ⟨n + 1, fun fuel hf => ?_⟩⟩ <;>
  · cases fuel with
    | zero => omega
    | succ fuel => simp only [encode, h fuel (by omega), Out.map]

theorem Ends.obj {d : List (V × V)} {m : List (String × J)} (h : ∃ n, ∀ fuel, n ≤ fuel → encDict (encode fuel) d = .ok m) : Ends (.dict d) (.obj m) := by
  obtain ⟨n, h⟩ := h
  refine ⟨n + 1, fun fuel hf => ?_⟩
  cases fuel with
  | zero => omega
  | succ fuel => simp only [encode, h fuel (by omega), Out.map]

/-- values that the encoder of the standard library asks about -/
inductive Asked : V → Prop
  | enum (v) : Asked (.enum v)
  | obj (a) : Asked (.obj a)
  | slots (c a) : Asked (.slots c a)
  | slotStr (c n v) : Asked (.slotStr c n v)
  | jsonable (v) : Asked (.jsonable v)
  | other (c) : Asked (.other c)

theorem Ends.asked {v w : V} {j : J} (ha : Asked v) (hd : dflt v = some w) (h : Ends w j) : Ends v j := by
  obtain ⟨n, h⟩ := h
  refine ⟨n + 1, fun fuel hf => ?_⟩
  cases fuel with
  | zero => omega
  | succ fuel => cases ha <;> simp only [encode, hd, h fuel (by omega)]

/-- what is known of elements: `default` gives something for each, which is encoded as they are -/
def Gives (v : V) (j : J) : Prop := ∃ w, dflt v = some w ∧ Ends w j

theorem gives_list (l : List V) (m : List J) (hl : l.length = m.length) (h : ∀ (i : Nat) v j, l[i]? = some v → m[i]? = some j → Gives v j) : ∃ l', dfltList l = some l' ∧ l'.length = m.length ∧ ∀ (i : Nat) v j, l'[i]? = some v → m[i]? = some j → Ends v j := by
  induction l generalizing m with
  | nil => obtain rfl := List.length_eq_zero_iff.1 hl.symm; exact ⟨[], by simp [dfltList], rfl, by simp⟩
  | cons x l ih =>
    cases m with
    | nil => simp at hl
    | cons j m =>
      obtain ⟨w, hw, he⟩ := h 0 x j rfl rfl
      obtain ⟨l', a, b, c⟩ := ih m (by simpa using hl) (fun i v j hv hj => h (i + 1) v j (by simpa using hv) (by simpa using hj))
      refine ⟨w :: l', by simp [dfltList, hw, a], by simp [b], fun i v j' hv hj => ?_⟩
      cases i with
      | zero => simp at hv hj; subst hv hj; exact he
      | succ i => exact c i v j' (by simpa using hv) (by simpa using hj)

theorem dfltList_length (l l' : List V) (h : dfltList l = some l') : l'.length = l.length := by
  induction l generalizing l' with
  | nil => simp [dfltList] at h; subst h; rfl
  | cons x l ih =>
    simp only [dfltList] at h
    split at h
    · next y m hy hm => simp at h; subst h; simp [ih m hm]
    · simp at h

theorem attrs_eq (ks : List String) (vs vs' : List V) (h : dfltList vs = some vs') (hl : ks.length = vs.length) : dfltAttrs (ks.zip vs) = some ((ks.map V.str).zip vs') ∧ dfltSlots (ks.zip (vs.map some)) = some (some ((ks.map V.str).zip vs')) := by
  induction ks generalizing vs vs' with
  | nil => simp [dfltAttrs, dfltSlots]
  | cons k ks ih =>
    cases vs with
    | nil => simp at hl
    | cons v vs =>
      simp only [dfltList] at h
      split at h
      · next y m hy hm =>
        simp at h
        subst h
        obtain ⟨a, b⟩ := ih vs m hm (by simpa using hl)
        exact ⟨by simp [dfltAttrs, hy, a], by simp [dfltSlots, hy, b]⟩
      · simp at h

theorem put_new (k v : V) (acc : List (V × V)) (h : ∀ p ∈ acc, sameKey p.1 k = false) : put k v acc = acc ++ [(k, v)] := by
  induction acc with
  | nil => rfl
  | cons p acc ih =>
    obtain ⟨a, b⟩ := p
    simp only [put, h (a, b) (by simp), Bool.false_eq_true, ↓reduceIte, List.cons_append]
    rw [ih (fun p hp => h p (by simp [hp]))]

theorem dict_eq (ks : List String) (vs vs' : List V) (acc : List (V × V)) (h : dfltList vs = some vs') (hl : ks.length = vs.length) (hn : ks.Nodup) (hacc : ∀ p ∈ acc, ∃ s, p.1 = .str s ∧ s ∉ ks) : dfltDict ((ks.map V.str).zip vs) acc = some (acc ++ (ks.map V.str).zip vs') := by
  induction ks generalizing vs vs' acc with
  | nil => simp [dfltDict]
  | cons k ks ih =>
    cases vs with
    | nil => simp at hl
    | cons v vs =>
      simp only [dfltList] at h
      split at h
      · next y m hy hm =>
        simp at h
        subst h
        have hp : put (.str k) y acc = acc ++ [(.str k, y)] := put_new _ _ _ (fun p hp => by
          obtain ⟨s, h1, h2⟩ := hacc p hp
          rw [h1]
          simp only [sameKey, decide_eq_false_iff_not]
          rintro rfl
          exact h2 (by simp))
        simp only [List.map_cons, List.zip_cons_cons, dfltDict, dflt, hy, hashable, ↓reduceIte, hp]
        have := ih vs m (acc ++ [(.str k, y)]) hm (by simpa using hl) (List.nodup_cons.1 hn).2 (fun p hp => by
          rcases List.mem_append.1 hp with h | h
          · obtain ⟨s, h1, h2⟩ := hacc p h
            exact ⟨s, h1, fun hs => h2 (by simp [hs])⟩
          · simp at h
            subst h
            exact ⟨k, rfl, (List.nodup_cons.1 hn).1⟩)
        rw [this]
        simp
      · simp at h

theorem enc_both {v : V} {j : J} (h : Enc v j) : Ends v j ∧ Gives v j := by
  have scalar : ∀ (v : V) (j : J), dflt v = some v → (∀ fuel, encode (fuel + 1) v = .ok j) → Ends v j ∧ Gives v j := by
    intro v j h1 h2
    have he : Ends v j := ⟨1, fun fuel hf => by
      cases fuel with
      | zero => omega
      | succ fuel => exact h2 fuel⟩
    exact ⟨he, v, h1, he⟩
  induction h with
  | none => exact scalar _ _ (by simp [dflt]) (fun _ => rfl)
  | bool b => exact scalar _ _ (by simp [dflt]) (fun _ => rfl)
  | int n => exact scalar _ _ (by simp [dflt]) (fun _ => rfl)
  | str s => exact scalar _ _ (by simp [dflt]) (fun _ => rfl)
  | enum v j _ ih => exact ⟨Ends.asked (.enum v) (by simp [dflt]) ih.1, v, by simp [dflt], ih.1⟩
  | jsonable v j _ ih => exact ⟨Ends.asked (.jsonable v) (by simp [dflt]) ih.1, v, by simp [dflt], ih.1⟩
  | other cls =>
    have he : Ends (instanceOf cls) (.str ("<an instance of " ++ cls ++ ">")) := (scalar _ _ (by simp [instanceOf, dflt]) (fun _ => rfl)).1
    exact ⟨Ends.asked (.other cls) (by simp [dflt]) he, _, by simp [dflt], he⟩
  | list l m hl _ ih =>
    obtain ⟨l', a, b, c⟩ := gives_list l m hl (fun i v j hv hj => (ih i v j hv hj).2)
    exact ⟨(Ends.arr (encList_ends l m hl (fun i v j hv hj => (ih i v j hv hj).1))).1, _, by simp [dflt, a], (Ends.arr (encList_ends l' m b c)).1⟩
  | tuple l m hl _ ih =>
    obtain ⟨l', a, b, c⟩ := gives_list l m hl (fun i v j hv hj => (ih i v j hv hj).2)
    exact ⟨(Ends.arr (encList_ends l m hl (fun i v j hv hj => (ih i v j hv hj).1))).2, _, by simp [dflt, a], (Ends.arr (encList_ends l' m b c)).1⟩
  | dict ks vs js hn h1 h2 _ ih =>
    obtain ⟨l', a, b, c⟩ := gives_list vs js h2 (fun i v j hv hj => (ih i v j hv hj).2)
    have hd := dict_eq ks vs l' [] a h1 hn (by simp)
    exact ⟨Ends.obj (encDict_ends ks vs js h1 h2 (fun i v j hv hj => (ih i v j hv hj).1)), _, by simp [dflt, hd], Ends.obj (encDict_ends ks l' js (by omega) b c)⟩
  | obj ks vs js h1 h2 _ ih =>
    obtain ⟨l', a, b, c⟩ := gives_list vs js h2 (fun i v j hv hj => (ih i v j hv hj).2)
    have hd : dflt (.obj (ks.zip vs)) = some (.dict ((ks.map V.str).zip l')) := by simp [dflt, (attrs_eq ks vs l' a h1).1]
    have he := Ends.obj (encDict_ends ks l' js (by omega) b c)
    exact ⟨Ends.asked (.obj _) hd he, _, hd, he⟩
  | slots cls ks vs js h1 h2 _ ih =>
    obtain ⟨l', a, b, c⟩ := gives_list vs js h2 (fun i v j hv hj => (ih i v j hv hj).2)
    have hd : dflt (.slots cls (ks.zip (vs.map some))) = some (.dict ((ks.map V.str).zip l')) := by simp [dflt, (attrs_eq ks vs l' a h1).2]
    have he := Ends.obj (encDict_ends ks l' js (by omega) b c)
    exact ⟨Ends.asked (.slots cls _) hd he, _, hd, he⟩

/-- **C149 (encoding)**: a value that has a JSON, as specified, is encoded to it: encoding ends, and raises nothing. -/
theorem C149_encode {v : V} {j : J} (h : Enc v j) : ∃ n, ∀ fuel, n ≤ fuel → encode fuel v = .ok j := (enc_both h).1

/-- values with string keys in dictionaries, and all slots set and given as a tuple -/
inductive Regular : V → Prop
  | none : Regular .none
  | bool (b) : Regular (.bool b)
  | int (n) : Regular (.int n)
  | str (s) : Regular (.str s)
  | enum (v) : Regular v → Regular (.enum v)
  | list (l : List V) : (∀ v ∈ l, Regular v) → Regular (.list l)
  | tuple (l : List V) : (∀ v ∈ l, Regular v) → Regular (.tuple l)
  | dict (ks : List String) (vs : List V) : ks.Nodup → ks.length = vs.length → (∀ v ∈ vs, Regular v) → Regular (.dict ((ks.map V.str).zip vs))
  | obj (ks : List String) (vs : List V) : ks.length = vs.length → (∀ v ∈ vs, Regular v) → Regular (.obj (ks.zip vs))
  | slots (cls) (ks : List String) (vs : List V) : ks.length = vs.length → (∀ v ∈ vs, Regular v) → Regular (.slots cls (ks.zip (vs.map some)))
  | jsonable (v) : Regular v → Regular (.jsonable v)
  | other (cls) : Regular (.other cls)

theorem choose_list (l : List V) (h : ∀ v ∈ l, ∃ j, Enc v j) : ∃ m : List J, l.length = m.length ∧ ∀ (i : Nat) v j, l[i]? = some v → m[i]? = some j → Enc v j := by
  induction l with
  | nil => exact ⟨[], rfl, by simp⟩
  | cons x l ih =>
    obtain ⟨j, hj⟩ := h x (by simp)
    obtain ⟨m, h1, h2⟩ := ih (fun v hv => h v (by simp [hv]))
    refine ⟨j :: m, by simp [h1], fun i v j' hv hj' => ?_⟩
    cases i with
    | zero => simp at hv hj'; subst hv hj'; exact hj
    | succ i => exact h2 i v j' (by simpa using hv) (by simpa using hj')

/-- **C149 (everything regular)**: each value made of None, booleans, numbers, strings, members of enumerations, lists, tuples, dictionaries with strings for keys, objects with attributes, objects with to_json and others has a JSON, and is encoded to it. -/
theorem C149_total {v : V} (h : Regular v) : ∃ j, Enc v j ∧ ∃ n, ∀ fuel, n ≤ fuel → encode fuel v = .ok j := by
  suffices ∃ j, Enc v j by obtain ⟨j, hj⟩ := this; exact ⟨j, hj, C149_encode hj⟩
  induction h with
  | none => exact ⟨_, .none⟩
  | bool b => exact ⟨_, .bool b⟩
  | int n => exact ⟨_, .int n⟩
  | str s => exact ⟨_, .str s⟩
  | enum v _ ih => obtain ⟨j, hj⟩ := ih; exact ⟨j, .enum v j hj⟩
  | jsonable v _ ih => obtain ⟨j, hj⟩ := ih; exact ⟨j, .jsonable v j hj⟩
  | other cls => exact ⟨_, .other cls⟩
  | list l _ ih => obtain ⟨m, h1, h2⟩ := choose_list l ih; exact ⟨_, .list l m h1 h2⟩
  | tuple l _ ih => obtain ⟨m, h1, h2⟩ := choose_list l ih; exact ⟨_, .tuple l m h1 h2⟩
  | dict ks vs hn hl _ ih => obtain ⟨m, h1, h2⟩ := choose_list vs ih; exact ⟨_, .dict ks vs m hn hl h1 h2⟩
  | obj ks vs hl _ ih => obtain ⟨m, h1, h2⟩ := choose_list vs ih; exact ⟨_, .obj ks vs m hl h1 h2⟩
  | slots cls ks vs hl _ ih => obtain ⟨m, h1, h2⟩ := choose_list vs ih; exact ⟨_, .slots cls ks vs m hl h1 h2⟩

/-- **C149 (files)**: a value that has a JSON is written so to the file; write_json_to_file_if_different writes exactly if the file is not there or has another text, and leaves it as it is if the value cannot be encoded. -/
theorem C149_files (render : J → String) (file : Option String) {v : V} {j : J} (h : Enc v j) :
    (∃ n, ∀ fuel, n ≤ fuel → writeJson render fuel file v = (some (render j), false) ∧
      (writeIfDifferent render fuel file v).1 = some (render j) ∧ ((writeIfDifferent render fuel file v).2 = some true ↔ file ≠ some (render j)) ∧ ((writeIfDifferent render fuel file v).2 = some false ↔ file = some (render j))) ∧
    ∀ fuel w, encode fuel w = .typeError → writeIfDifferent render fuel file w = (file, none) := by
  refine ⟨?_, fun fuel w hw => by simp [writeIfDifferent, hw]⟩
  obtain ⟨n, hn⟩ := C149_encode h
  refine ⟨n, fun fuel hf => ?_⟩
  simp only [writeJson, writeIfDifferent, hn fuel hf]
  by_cases hc : file = some (render j) <;> simp [hc]

example : Regular (.obj (["name", "tags"].zip [.enum (.str "x"), .tuple [.int 1, .jsonable (.dict ((["k"].map V.str).zip [.other "set"]))]])) := by
  refine .obj _ _ rfl (fun v hv => ?_)
  simp only [List.mem_cons, List.not_mem_nil, or_false] at hv
  rcases hv with rfl | rfl
  · exact .enum _ (.str _)
  · refine .tuple _ (fun v hv => ?_)
    simp only [List.mem_cons, List.not_mem_nil, or_false] at hv
    rcases hv with rfl | rfl
    · exact .int 1
    · exact .jsonable _ (.dict _ _ (by simp) rfl (by simp; exact .other _))

/-! ## C150 -/

/-- **C150 (violation), keys**: a dictionary with a member of an enumeration, a tuple or an object for a key is not encoded: TypeError is raised, although everything is to be encoded. -/
theorem C150_keys_violates (fuel : Nat) (v w : V) (l : List V) (attrs : List (String × V)) : encode (fuel + 1) (.dict [(.enum v, w)]) = .typeError ∧ encode (fuel + 1) (.dict [(.tuple l, w)]) = .typeError ∧ encode (fuel + 1) (.dict [(.obj attrs, w)]) = .typeError := ⟨rfl, rfl, rfl⟩

/-- **C150 (violation), keys within objects**: an attribute that is a dictionary with a tuple for a key makes the object not encoded, while members of enumerations are there converted. -/
theorem C150_keys_in_objects_violates (fuel : Nat) (n : String) : encode (fuel + 1) (.obj [(n, .dict [(.tuple [.int 1], .none)])]) = .typeError ∧ encode (fuel + 4) (.obj [(n, .dict [(.enum (.str "a"), .none)])]) = .ok (.obj [(n, .obj [("a", .null)])]) := by
  have h1 : dflt (.obj [(n, .dict [(.tuple [.int 1], .none)])]) = none := by simp [dflt, dfltAttrs, dfltDict, dfltList, hashable]
  have h2 : dflt (.obj [(n, .dict [(.enum (.str "a"), .none)])]) = some (.dict [(.str n, .dict [(.str "a", .none)])]) := by simp [dflt, dfltAttrs, dfltDict, hashable, put]
  exact ⟨by simp only [encode, h1], by simp only [encode, h2, encDict, encKey, Out.map]⟩

theorem encList_bad (f : V → Out J) (pre post : List V) (x : V) (h1 : ∀ v ∈ pre, ∃ j, f v = .ok j) (h2 : f x = .typeError) : encList f (pre ++ x :: post) = .typeError := by
  induction pre with
  | nil => simp [encList, h2]
  | cons v pre ih =>
    obtain ⟨j, hj⟩ := h1 v (by simp)
    simp [encList, hj, ih (fun w hw => h1 w (by simp [hw]))]

theorem encDict_bad (f : V → Out J) (pre post : List (V × V)) (k x : V) (h1 : ∀ p ∈ pre, (∃ n, p.1 = .str n) ∧ ∃ j, f p.2 = .ok j) (hk : ∃ n, k = .str n) (h2 : f x = .typeError) :
    encDict f (pre ++ (k, x) :: post) = .typeError := by
  induction pre with
  | nil => obtain ⟨n, rfl⟩ := hk; simp [encDict, encKey, h2]
  | cons p pre ih =>
    obtain ⟨k', v⟩ := p
    obtain ⟨⟨n, hn⟩, j, hj⟩ := h1 (k', v) (by simp)
    simp only at hn hj
    subst hn
    simp [encDict, encKey, hj, ih (fun w hw => h1 w (by simp [hw]))]

theorem enc_all (l : List V) (h : ∀ v ∈ l, ∃ j, Enc v j) : ∃ n, ∀ fuel, n ≤ fuel → ∀ v ∈ l, ∃ j, encode fuel v = .ok j := by
  induction l with
  | nil => exact ⟨0, by simp⟩
  | cons v l ih =>
    obtain ⟨n, hn⟩ := ih (fun w hw => h w (by simp [hw]))
    obtain ⟨j, hj⟩ := h v (by simp)
    obtain ⟨m, hm⟩ := C149_encode hj
    refine ⟨max n m, fun fuel hf w hw => ?_⟩
    rcases List.mem_cons.1 hw with rfl | hw
    · exact ⟨j, hm fuel (by omega)⟩
    · exact hn fuel (by omega) w hw

/-- **C150 (violation), within lists and dictionaries**: one value that is not encoded makes all of the list, tuple or dictionary it is in not encoded, wherever in it that value is: TypeError is raised. -/
theorem C150_within_violates (pre post : List V) (ks : List String) (k : String) (rest : List (V × V)) (x : V) (m : Nat) (h1 : ∀ v ∈ pre, ∃ j, Enc v j) (h2 : ∀ fuel, m ≤ fuel → encode fuel x = .typeError) :
    ∃ n, ∀ fuel, n ≤ fuel → encode fuel (.list (pre ++ x :: post)) = .typeError ∧ encode fuel (.tuple (pre ++ x :: post)) = .typeError ∧
      encode fuel (.dict ((ks.map V.str).zip pre ++ (.str k, x) :: rest)) = .typeError := by
  obtain ⟨n, hn⟩ := enc_all pre h1
  refine ⟨max n m + 1, fun fuel hf => ?_⟩
  obtain ⟨fuel, rfl⟩ : ∃ f, fuel = f + 1 := ⟨fuel - 1, by omega⟩
  have e1 := hn fuel (by omega)
  have e2 := h2 fuel (by omega)
  have e3 := encList_bad (encode fuel) pre post x e1 e2
  have e4 := encDict_bad (encode fuel) ((ks.map V.str).zip pre) rest (.str k) x
    (by
      intro p hp
      obtain ⟨p1, p2⟩ := p
      have := List.of_mem_zip hp
      obtain ⟨s, -, hs⟩ := List.mem_map.1 this.1
      exact ⟨⟨s, hs.symm⟩, e1 _ this.2⟩) ⟨k, rfl⟩ e2
  refine ⟨?_, ?_, ?_⟩ <;> simp [encode, e3, e4, Out.map]

example : (∃ j, Enc (.int 1) j) ∧ ∀ fuel, 1 ≤ fuel → encode fuel (.dict [(.tuple [], .none)]) = .typeError := by
  refine ⟨⟨_, .int 1⟩, fun fuel h => ?_⟩
  obtain ⟨f, rfl⟩ : ∃ f, fuel = f + 1 := ⟨fuel - 1, by omega⟩
  rfl

/-- **C150 (violation), slots**: if one attribute of slots is not set, or the slots are given as one string, all attributes are lost. -/
theorem C150_slots_violates (fuel : Nat) (cls n name : String) (v : V) (hn : name.length ≠ 1) :
    encode (fuel + 2) (.slots cls [("a", some (.int 1)), (n, none)]) = .ok (.str ("<an instance of " ++ cls ++ ">")) ∧ encode (fuel + 2) (.slotStr cls name v) = .ok (.str ("<an instance of " ++ cls ++ ">")) := by
  have h1 : dflt (.slots cls [("a", some (.int 1)), (n, none)]) = some (instanceOf cls) := by simp [dflt, dfltSlots]
  have h2 : dflt (.slotStr cls name v) = some (instanceOf cls) := by simp [dflt, hn]
  exact ⟨by simp only [encode, h1, instanceOf], by simp only [encode, h2, instanceOf]⟩

/-- **C150 (violation), the file is lost**: if the value cannot be encoded, write_json_to_file leaves the file empty. -/
theorem C150_file_violates (render : J → String) (fuel : Nat) (file : Option String) (v : V) (h : encode fuel v = .typeError) : writeJson render fuel file v = (some "", true) := by
  simp [writeJson, h]

example : encode 5 (.dict [(.tuple [], .none)]) = .typeError := rfl
/-- keys of different kinds are different, and equal keys are one -/
example (v w : V) : put (.str "1") w [(.int 1, v)] = [(.int 1, v), (.str "1", w)] ∧ put .none w [(.bool true, v)] = [(.bool true, v), (.none, w)] ∧ put (.int 1) w [(.int 1, v)] = [(.int 1, w)] := by
  simp [put, sameKey]

/-- **C149 (keys)**: an entry whose key is a string is written under it, under its digits if it is a number, and under true, false or null. -/
theorem C149_keys (fuel : Nat) (k : V) (name : String) (h : k = .str name ∨ (∃ n : Int, k = .int n ∧ name = toString n) ∨ (k = .bool true ∧ name = "true") ∨ (k = .bool false ∧ name = "false") ∨ (k = .none ∧ name = "null")) :
    encode (fuel + 2) (.dict [(k, .none)]) = .ok (.obj [(name, .null)]) := by
  rcases h with rfl | ⟨n, rfl, rfl⟩ | ⟨rfl, rfl⟩ | ⟨rfl, rfl⟩ | ⟨rfl, rfl⟩ <;> simp [encode, encDict, encKey, Out.map]

/-- **C150 (partial), slots given as one string** of one character: this one attribute is encoded. -/
theorem C150_slot_partial (fuel : Nat) (cls name : String) (n : Int) (hn : name.length = 1) : encode (fuel + 3) (.slotStr cls name (.int n)) = .ok (.obj [(name, .int n)]) := by
  have h : dflt (.slotStr cls name (.int n)) = some (.dict [(.str name, .int n)]) := by simp [dflt, hn]
  simp only [encode, h, encDict, encKey, Out.map]

example : ("a" : String).length = 1 := by decide +kernel

/-- **C150 (partial)**: without such keys, slots not set and slots given as one string, everything is encoded, and the file has it. -/
theorem C150_partial (render : J → String) (file : Option String) {v : V} (h : Regular v) : ∃ j, Enc v j ∧ ∃ n, ∀ fuel, n ≤ fuel → encode fuel v = .ok j ∧ writeJson render fuel file v = (some (render j), false) := by
  obtain ⟨j, hj, n, hn⟩ := C149_total h
  exact ⟨j, hj, n, fun fuel hf => ⟨hn fuel hf, by simp [writeJson, hn fuel hf]⟩⟩

end Verif.JsonEncode
