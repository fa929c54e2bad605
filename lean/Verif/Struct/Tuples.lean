/-!
# Vector, typednamedtuple and SetZip (satella/coding/structures/tuples.py, typednamedtuple.py, zip_dict.py), C133, C134
-/
namespace Verif.Tuples

/-! ## Vector: model -/

/-- `__add__`, `__iadd__` of Vector; numbers are rationals.  /repo/satella/coding/structures/tuples.py:17-21, :29 -/
def vadd (a b : List Rat) : List Rat := List.zipWith (· + ·) a b

/-- `__sub__`, `__isub__`, /repo/satella/coding/structures/tuples.py:23-27, :30 -/
def vsub (a b : List Rat) : List Rat := List.zipWith (· - ·) a b

/-- `__mul__`, `__imul__`, /repo/satella/coding/structures/tuples.py:32-36, :44 -/
def vmul (a : List Rat) (c : Rat) : List Rat := a.map (· * c)

/-- `__truediv__`, `__itruediv__`: `none` is ZeroDivisionError, raised at the first entry.  /repo/satella/coding/structures/tuples.py:38-42, :45 -/
def vdiv (a : List Rat) (c : Rat) : Option (List Rat) := a.mapM (fun x => if c = 0 then none else some (x / c))

/-! ## typednamedtuple: model -/

/-- what constructors may raise; `key` is KeyError.  /repo/satella/coding/structures/typednamedtuple.py:52-55 -/
inductive Err | type | key | other (e : Nat)
deriving DecidableEq

/-- types of fields: None and 'self' are `none`; `inst` is isinstance and `conv` calls the type.  /repo/satella/coding/structures/typednamedtuple.py:9-13 -/
structure Types (T V : Type) where
  inst : T → V → Bool
  conv : T → V → Except Err V

variable {T V : Type} (C : Types T V)

/-- `_adjust`, /repo/satella/coding/structures/typednamedtuple.py:9-13 -/
def adjust (v : V) : Option T → Except Err V
  | none => .ok v
  | some t => if C.inst t v then .ok v else C.conv t v

/-- `map(_adjust, zip(args, typeops))`, /repo/satella/coding/structures/typednamedtuple.py:49 -/
def positional : List V → List (String × Option T) → Except Err (List V)
  | v :: vs, f :: fs =>
    match adjust C v f.2 with
    | .error e => .error e
    | .ok w =>
      match positional vs fs with
      | .error e => .error e
      | .ok ws => .ok (w :: ws)
  | _, _ => .ok []

/-- `kwargs.pop(name)`, /repo/satella/coding/structures/typednamedtuple.py:53 -/
def pop (name : String) : List (String × V) → Option (V × List (String × V))
  | [] => none
  | p :: r => if p.1 = name then some (p.2, r) else (pop name r).map (fun q => (q.1, p :: q.2))

/-- the loop over the fields that are left: a KeyError, of `pop` or of the type, becomes a TypeError.  /repo/satella/coding/structures/typednamedtuple.py:51-55 -/
def named : List (String × Option T) → List (String × V) → Except Err (List V × List (String × V))
  | [], kw => .ok ([], kw)
  | f :: fs, kw =>
    match pop f.1 kw with
    | none => .error .type
    | some (v, kw') =>
      match adjust C v f.2 with
      | .error .key => .error .type
      | .error e => .error e
      | .ok w =>
        match named fs kw' with
        | .error e => .error e
        | .ok (ws, kw'') => .ok (w :: ws, kw'')

/-- `__new__`, /repo/satella/coding/structures/typednamedtuple.py:47-60 -/
def new (fields : List (String × Option T)) (args : List V) (kwargs : List (String × V)) : Except Err (List V) :=
  match positional C args fields with
  | .error e => .error e
  | .ok ws =>
    match named C (fields.drop ws.length) kwargs with
    | .error e => .error e
    | .ok (ws', kw) => if kw.isEmpty then .ok (ws ++ ws') else .error .type

/-! ## SetZip: model -/

/-- a SetZip: its sets, each as the list that iteration over it gives; /repo/satella/coding/structures/zip_dict.py:21-22 -/
abbrev Zip := List (List Nat)

/-- `__iadd__`, /repo/satella/coding/structures/zip_dict.py:17-19 -/
def Zip.iadd (z : Zip) (s : List Nat) : Zip := z ++ [s]

/-- `__contains__`, /repo/satella/coding/structures/zip_dict.py:24-25 -/
def Zip.contains (z : Zip) (x : Nat) : Bool := z.any (fun s => List.contains s x)

/-- `__len__`, /repo/satella/coding/structures/zip_dict.py:27-28 -/
def Zip.len (z : Zip) : Nat := (z.map List.length).sum

/-- `__iter__`, /repo/satella/coding/structures/zip_dict.py:30-32 -/
def Zip.iter : Zip → List Nat
  | [] => []
  | s :: z => s ++ Zip.iter z

/-! ## Specification -/

/-- the value of a field: as given, if its type is None, 'self' or a type it already has, and otherwise converted -/
def Coerced (C : Types T V) (ty : Option T) (v w : V) : Prop :=
  match ty with
  | none => w = v
  | some t => (C.inst t v = true ∧ w = v) ∨ (C.inst t v = false ∧ C.conv t v = .ok w)

/-- the value is not of the type, and the conversion raises -/
def Refused (C : Types T V) (ty : Option T) (v : V) : Prop := ∃ t e, ty = some t ∧ C.inst t v = false ∧ C.conv t v = .error e

/-! ## Proofs: Vector -/

/-- **C133 (addition of vectors)**: the sum and difference of two vectors of the same length have that length, and each entry is the sum or difference of entries. -/
theorem C133_vector_sum (a b : List Rat) (h : a.length = b.length) :
    (vadd a b).length = a.length ∧ (vsub a b).length = a.length ∧
    ∀ (i : Nat) x y, a[i]? = some x → b[i]? = some y → (vadd a b)[i]? = some (x + y) ∧ (vsub a b)[i]? = some (x - y) := by
  refine ⟨by simp [vadd, h], by simp [vsub, h], fun i x y hx hy => ?_⟩
  simp [vadd, vsub, List.getElem?_zipWith, hx, hy]

/-- **C133 (inverses)**: subtracting what was added, or dividing by what was multiplied by, gives the vector back. -/
theorem C133_vector_inverse (a b : List Rat) (h : a.length = b.length) (c : Rat) (hc : c ≠ 0) : vsub (vadd a b) b = a ∧ vdiv (vmul a c) c = some a := by
  constructor
  · induction a generalizing b with
    | nil => rfl
    | cons x a ih =>
      cases b with
      | nil => simp at h
      | cons y b =>
        have := ih b (by simpa using h)
        simp only [vadd, vsub, List.zipWith_cons_cons] at this ⊢
        rw [this]
        congr 1
        grind
  · clear h
    induction a with
    | nil => rfl
    | cons x a ih =>
      have e : x * c / c = x := by grind
      simp only [vmul, vdiv, if_neg hc, List.map_cons, List.mapM_cons] at ih ⊢
      rw [ih]
      simp [e]

/-- **C133 (scalars)**: multiplication and division apply to each entry; division by zero raises, if there are entries. -/
theorem C133_vector_scalar (a : List Rat) (c : Rat) :
    (vmul a c).length = a.length ∧ (∀ (i : Nat) x, a[i]? = some x → (vmul a c)[i]? = some (x * c)) ∧
    (c ≠ 0 → ∃ r, vdiv a c = some r ∧ r.length = a.length ∧ ∀ (i : Nat) x, a[i]? = some x → r[i]? = some (x / c)) ∧ (c = 0 → a ≠ [] → vdiv a c = none) := by
  refine ⟨by simp [vmul], fun i x hx => by simp [vmul, hx], fun hc => ⟨a.map (· / c), ?_, by simp, fun i x hx => by simp [hx]⟩, fun hc ha => ?_⟩
  · induction a with
    | nil => rfl
    | cons x a ih =>
      simp only [vdiv, if_neg hc, List.mapM_cons] at ih ⊢
      rw [ih]
      rfl
  · cases a with
    | nil => exact absurd rfl ha
    | cons x a => simp [vdiv, hc, List.mapM_cons]

example : ([1, 2] : List Rat).length = ([3, 4] : List Rat).length ∧ (2 : Rat) ≠ 0 := ⟨rfl, by decide⟩

/-! ## Proofs: typednamedtuple -/

theorem adjust_ok {ty : Option T} {v w : V} (h : Coerced C ty v w) : adjust C v ty = .ok w := by
  cases ty with
  | none => simp only [Coerced] at h; simp [adjust, h]
  | some t =>
    rcases h with ⟨h1, h2⟩ | ⟨h1, h2⟩
    · simp [adjust, h1, h2]
    · simp [adjust, h1, h2]

theorem adjust_cases (ty : Option T) (v : V) : (∃ w, Coerced C ty v w ∧ adjust C v ty = .ok w) ∨ (Refused C ty v ∧ ∃ e, adjust C v ty = .error e) := by
  cases ty with
  | none => exact Or.inl ⟨v, rfl, rfl⟩
  | some t =>
    by_cases h : C.inst t v = true
    · exact Or.inl ⟨v, Or.inl ⟨h, rfl⟩, by simp [adjust, h]⟩
    · cases hc : C.conv t v with
      | ok w => exact Or.inl ⟨w, Or.inr ⟨by simpa using h, hc⟩, by simp [adjust, h, hc]⟩
      | error e => exact Or.inr ⟨⟨t, e, rfl, by simpa using h, hc⟩, e, by simp [adjust, h, hc]⟩

theorem coerced_fun {ty : Option T} {v w w' : V} (h : Coerced C ty v w) (h' : Coerced C ty v w') : w = w' := by
  have := adjust_ok C h
  rw [adjust_ok C h'] at this
  simpa using this.symm

theorem positional_ok (fs : List (String × Option T)) (vs : List V) (hl : vs.length ≤ fs.length) :
    (∃ ws, positional C vs fs = .ok ws ∧ ws.length = vs.length ∧ ∀ (i : Nat) f v w, fs[i]? = some f → vs[i]? = some v → ws[i]? = some w → Coerced C f.2 v w) ∨
    ((∃ e, positional C vs fs = .error e) ∧ ∃ (i : Nat) (f : String × Option T) (v : V), fs[i]? = some f ∧ vs[i]? = some v ∧ Refused C f.2 v) := by
  induction vs generalizing fs with
  | nil => exact Or.inl ⟨[], by simp [positional], rfl, by intro i f v w _ h; simp at h⟩
  | cons v vs ih =>
    cases fs with
    | nil => simp at hl
    | cons f fs =>
      rcases adjust_cases C f.2 v with ⟨w, hw, e⟩ | ⟨hr, x, e⟩
      · rcases ih fs (by simpa using hl) with ⟨ws, h1, h2, h3⟩ | ⟨⟨x, h1⟩, i, f', v', h2, h3, h4⟩
        · refine Or.inl ⟨w :: ws, by simp [positional, e, h1], by simp [h2], ?_⟩
          intro i f' v' w' a b c
          cases i with
          | zero => simp at a b c; subst a; subst b; subst c; exact hw
          | succ i => exact h3 i f' v' w' (by simpa using a) (by simpa using b) (by simpa using c)
        · exact Or.inr ⟨⟨x, by simp [positional, e, h1]⟩, i + 1, f', v', by simpa using h2, by simpa using h3, h4⟩
      · exact Or.inr ⟨⟨x, by simp [positional, e]⟩, 0, f, v, rfl, rfl, hr⟩

/-- the values that keywords give -/
def lookup (kw : List (String × V)) (n : String) : Option V := (kw.find? (fun p => p.1 = n)).map Prod.snd

theorem pop_none {n : String} {kw : List (String × V)} : pop n kw = none ↔ n ∉ kw.map Prod.fst := by
  induction kw with
  | nil => simp [pop]
  | cons p kw ih =>
    by_cases h : p.1 = n
    · simp [pop, h]
    · have h' : ¬ n = p.1 := fun e => h e.symm
      simp only [pop, if_neg h, Option.map_eq_none_iff, ih, List.map_cons, List.mem_cons, not_or]
      exact ⟨fun x => ⟨h', x⟩, fun x => x.2⟩

theorem pop_some {n : String} {kw kw' : List (String × V)} {v : V} (hn : (kw.map Prod.fst).Nodup) (h : pop n kw = some (v, kw')) :
    (n, v) ∈ kw ∧ (kw'.map Prod.fst).Nodup ∧ ∀ m w, (m, w) ∈ kw' ↔ (m, w) ∈ kw ∧ m ≠ n := by
  induction kw generalizing kw' with
  | nil => simp [pop] at h
  | cons p kw ih =>
    obtain ⟨k, x⟩ := p
    rw [List.map_cons, List.nodup_cons] at hn
    by_cases hk : k = n
    · subst hk
      simp only [pop, ↓reduceIte, Option.some.injEq, Prod.mk.injEq] at h
      obtain ⟨rfl, rfl⟩ := h
      refine ⟨by simp, hn.2, fun m w => ⟨fun hm => ⟨by simp [hm], ?_⟩, fun hm => ?_⟩⟩
      · rintro rfl; exact hn.1 (List.mem_map.2 ⟨(m, w), hm, rfl⟩)
      · rcases List.mem_cons.1 hm.1 with h | h
        · cases h; exact absurd rfl hm.2
        · exact h
    · simp only [pop, if_neg hk, Option.map_eq_some_iff] at h
      obtain ⟨⟨v', r⟩, hp, he⟩ := h
      simp only [Prod.mk.injEq] at he
      obtain ⟨rfl, rfl⟩ := he
      obtain ⟨a, b, c⟩ := ih hn.2 hp
      refine ⟨by simp [a], ?_, fun m w => ?_⟩
      · rw [List.map_cons, List.nodup_cons]
        refine ⟨fun hm => ?_, b⟩
        obtain ⟨⟨m, w⟩, hm', e⟩ := List.mem_map.1 hm
        simp only at e
        subst e
        exact hn.1 (List.mem_map.2 ⟨(m, w), ((c m w).1 hm').1, rfl⟩)
      · simp only [List.mem_cons, c, Prod.mk.injEq]
        constructor
        · rintro (⟨rfl, rfl⟩ | ⟨h1, h2⟩)
          · exact ⟨Or.inl ⟨rfl, rfl⟩, hk⟩
          · exact ⟨Or.inr h1, h2⟩
        · rintro ⟨h1 | h1, h2⟩
          · exact Or.inl h1
          · exact Or.inr ⟨h1, h2⟩

theorem named_ok (fs : List (String × Option T)) (hf : (fs.map Prod.fst).Nodup) (kw : List (String × V)) (hn : (kw.map Prod.fst).Nodup) :
    (∃ ws kw', named C fs kw = .ok (ws, kw') ∧ ws.length = fs.length ∧ (∀ m w, (m, w) ∈ kw' ↔ (m, w) ∈ kw ∧ m ∉ fs.map Prod.fst) ∧
      ∀ (i : Nat) f w, fs[i]? = some f → ws[i]? = some w → ∃ v, (f.1, v) ∈ kw ∧ Coerced C f.2 v w) ∨
    ((∃ e, named C fs kw = .error e) ∧ ∃ f ∈ fs, f.1 ∉ kw.map Prod.fst ∨ ∃ v, (f.1, v) ∈ kw ∧ Refused C f.2 v) := by
  induction fs generalizing kw with
  | nil => exact Or.inl ⟨[], kw, rfl, rfl, by simp, by intro i f w h; simp at h⟩
  | cons f fs ih =>
    rw [List.map_cons, List.nodup_cons] at hf
    cases hp : pop f.1 kw with
    | none => exact Or.inr ⟨⟨.type, by simp only [named, hp]⟩, f, by simp, Or.inl (pop_none.1 hp)⟩
    | some q =>
      obtain ⟨v, kw1⟩ := q
      obtain ⟨h1, h2, h3⟩ := pop_some hn hp
      rcases adjust_cases C f.2 v with ⟨w, hw, e⟩ | ⟨hr, x, e⟩
      · rcases ih hf.2 kw1 h2 with ⟨ws, kw', a, b, c, d⟩ | ⟨⟨x, a⟩, g, hg, b⟩
        · refine Or.inl ⟨w :: ws, kw', by simp only [named, hp, e, a], by simp [b], ?_, ?_⟩
          · intro m y
            rw [c, h3]
            simp only [List.map_cons, List.mem_cons, not_or]
            exact ⟨fun h => ⟨h.1.1, h.1.2, h.2⟩, fun h => ⟨⟨h.1, h.2.1⟩, h.2.2⟩⟩
          · intro i f' w' hf' hw'
            cases i with
            | zero => simp at hf' hw'; subst hf'; subst hw'; exact ⟨v, h1, hw⟩
            | succ i =>
              obtain ⟨v', h4, h5⟩ := d i f' w' (by simpa using hf') (by simpa using hw')
              exact ⟨v', ((h3 _ _).1 h4).1, h5⟩
        · refine Or.inr ⟨⟨x, by simp only [named, hp, e, a]⟩, g, by simp [hg], ?_⟩
          rcases b with b | ⟨v', h4, h5⟩
          · left
            intro hm
            obtain ⟨⟨m, y⟩, hm', e'⟩ := List.mem_map.1 hm
            simp only at e'
            subst e'
            exact b (List.mem_map.2 ⟨(g.1, y), (h3 _ _).2 ⟨hm', fun e => hf.1 (e ▸ List.mem_map.2 ⟨g, hg, rfl⟩)⟩, rfl⟩)
          · exact Or.inr ⟨v', ((h3 _ _).1 h4).1, h5⟩
      · refine Or.inr ⟨?_, f, by simp, Or.inr ⟨v, h1, hr⟩⟩
        cases x <;> exact ⟨_, by simp only [named, hp, e]; rfl⟩

/-- **C133 (typednamedtuple)**: with no more positional arguments than fields, a tuple is returned exactly when every field that has no positional argument has a keyword argument, there are no others, and no conversion raises; each of its fields has the value given for it, converted if it is not of the type already. -/
theorem C133_typednamedtuple (fields : List (String × Option T)) (hf : (fields.map Prod.fst).Nodup) (args : List V) (kwargs : List (String × V)) (hk : (kwargs.map Prod.fst).Nodup) (hl : args.length ≤ fields.length) :
    ((∃ t, new C fields args kwargs = .ok t) ↔
      (∀ n, n ∈ kwargs.map Prod.fst ↔ n ∈ (fields.drop args.length).map Prod.fst) ∧
      (∀ (i : Nat) f v, fields[i]? = some f → args[i]? = some v → ¬ Refused C f.2 v) ∧ (∀ (i : Nat) f v, args.length ≤ i → fields[i]? = some f → (f.1, v) ∈ kwargs → ¬ Refused C f.2 v)) ∧
    ∀ t, new C fields args kwargs = .ok t → t.length = fields.length ∧
      ∀ (i : Nat) f w, fields[i]? = some f → t[i]? = some w → ∃ v, (args[i]? = some v ∨ (args.length ≤ i ∧ (f.1, v) ∈ kwargs)) ∧ Coerced C f.2 v w := by
  have hex : ∀ {ty : Option T} {v w}, Coerced C ty v w → ¬ Refused C ty v := by
    intro ty v w hc ⟨t, e, h1, h2, h3⟩
    subst h1
    have := adjust_ok C hc
    simp [adjust, h2, h3] at this
  have hfd : ((fields.drop args.length).map Prod.fst).Nodup := by
    rw [List.map_drop]
    exact hf.sublist (List.drop_sublist _ _)
  rcases positional_ok C fields args hl with ⟨ws, h1, h2, h3⟩ | ⟨⟨e, h1⟩, i, f, v, h2, h3, h4⟩
  · rcases named_ok C (fields.drop args.length) hfd kwargs hk with ⟨ws', kw', a, b, c, d⟩ | ⟨⟨e, a⟩, f, hfm, b⟩
    · have hnew : new C fields args kwargs = if kw'.isEmpty then .ok (ws ++ ws') else .error .type := by
        simp only [new, h1, h2, a]
      have hfield : ∀ (i : Nat) f w, fields[i]? = some f → (ws ++ ws')[i]? = some w → ∃ v, (args[i]? = some v ∨ (args.length ≤ i ∧ (f.1, v) ∈ kwargs)) ∧ Coerced C f.2 v w := by
        intro i f w hi hw
        by_cases hlt : i < args.length
        · obtain ⟨v, hv⟩ : ∃ v, args[i]? = some v := ⟨args[i], by simp [hlt]⟩
          rw [List.getElem?_append_left (by omega)] at hw
          exact ⟨v, Or.inl hv, h3 i f v w hi hv hw⟩
        · rw [List.getElem?_append_right (by omega), h2] at hw
          obtain ⟨v, hv, hc⟩ := d (i - args.length) f w (by rw [List.getElem?_drop, show args.length + (i - args.length) = i by omega]; exact hi) hw
          exact ⟨v, Or.inr ⟨by omega, hv⟩, hc⟩
      have hlen : (ws ++ ws').length = fields.length := by
        rw [List.length_append, h2, b, List.length_drop]; omega
      refine ⟨?_, ?_⟩
      · rw [hnew]
        constructor
        · rintro ⟨t, ht⟩
          by_cases he : kw'.isEmpty = true
          · refine ⟨fun n => ⟨fun hn => ?_, fun hn => ?_⟩, fun i f v hi hv hr => ?_, fun i f v hle hi hv hr => ?_⟩
            · apply Classical.byContradiction
              intro hno
              obtain ⟨⟨m, y⟩, hm, e⟩ := List.mem_map.1 hn
              simp only at e
              subst e
              have := (c m y).2 ⟨hm, hno⟩
              rw [List.isEmpty_iff.1 he] at this
              simp at this
            · obtain ⟨g, hg, e⟩ := List.mem_map.1 hn
              obtain ⟨i, hi⟩ := List.mem_iff_getElem?.1 hg
              obtain ⟨w, hw⟩ : ∃ w, ws'[i]? = some w := by
                have : i < ws'.length := by
                  rw [b]
                  apply Classical.byContradiction
                  intro hge
                  rw [List.getElem?_eq_none (by omega)] at hi
                  simp at hi
                exact ⟨ws'[i], by simp [this]⟩
              obtain ⟨v, hv, _⟩ := d i g w hi hw
              exact List.mem_map.2 ⟨(g.1, v), hv, e⟩
            · obtain ⟨hlt, _⟩ := List.getElem?_eq_some_iff.1 hv
              obtain ⟨w, hw⟩ : ∃ w, ws[i]? = some w := ⟨ws[i]'(by omega), by rw [List.getElem?_eq_getElem]⟩
              exact hex (h3 i f v w hi hv hw) hr
            · obtain ⟨hlt, _⟩ := List.getElem?_eq_some_iff.1 hi
              have hlt' : i - args.length < ws'.length := by rw [b, List.length_drop]; omega
              have hw : ws'[i - args.length]? = some ws'[i - args.length] := by rw [List.getElem?_eq_getElem]
              obtain ⟨v', hv', hc⟩ := d (i - args.length) f _ (by rw [List.getElem?_drop, show args.length + (i - args.length) = i by omega]; exact hi) hw
              have : v' = v := by
                have huniq : ∀ (kw : List (String × V)), (kw.map Prod.fst).Nodup → (f.1, v') ∈ kw → (f.1, v) ∈ kw → v' = v := by
                  intro kw
                  induction kw with
                  | nil => intro _ h; simp at h
                  | cons p kw ih =>
                    intro hn ha hb
                    rw [List.map_cons, List.nodup_cons] at hn
                    rcases List.mem_cons.1 ha with ha | ha <;> rcases List.mem_cons.1 hb with hb | hb
                    · rw [← ha] at hb; simpa using hb.symm
                    · exact absurd (List.mem_map.2 ⟨_, hb, by rw [← ha]⟩) hn.1
                    · exact absurd (List.mem_map.2 ⟨_, ha, by rw [← hb]⟩) hn.1
                    · exact ih hn.2 ha hb
                exact huniq kwargs hk hv' hv
              exact hex (this ▸ hc) hr
          · rw [if_neg he] at ht; simp at ht
        · rintro ⟨hn, _, _⟩
          refine ⟨ws ++ ws', if_pos ?_⟩
          rw [List.isEmpty_iff]
          apply List.eq_nil_iff_forall_not_mem.2
          rintro ⟨m, y⟩ hm
          have := (c m y).1 hm
          exact this.2 ((hn m).1 (List.mem_map.2 ⟨_, this.1, rfl⟩))
      · intro t ht
        rw [hnew] at ht
        by_cases he : kw'.isEmpty = true
        · rw [if_pos he] at ht
          obtain rfl : ws ++ ws' = t := by simpa using ht
          exact ⟨hlen, hfield⟩
        · rw [if_neg he] at ht; simp at ht
    · have hnew : new C fields args kwargs = .error e := by simp only [new, h1, h2, a]
      rw [hnew]
      refine ⟨⟨fun ⟨t, ht⟩ => by simp at ht, fun ⟨hn, _, hr⟩ => ?_⟩, fun t ht => by simp at ht⟩
      rcases b with b | ⟨v, hv, hv'⟩
      · exact absurd ((hn f.1).2 (List.mem_map.2 ⟨f, hfm, rfl⟩)) b
      · obtain ⟨i, hi⟩ := List.mem_iff_getElem?.1 hfm
        rw [List.getElem?_drop] at hi
        exact absurd hv' (hr (args.length + i) f v (by omega) hi hv)
  · have hnew : new C fields args kwargs = .error e := by simp only [new, h1]
    rw [hnew]
    exact ⟨⟨fun ⟨t, ht⟩ => by simp at ht, fun ⟨_, hr, _⟩ => absurd h4 (hr i f v h2 h3)⟩, fun t ht => by simp at ht⟩

theorem positional_err (fs : List (String × Option T)) (vs : List V) (i : Nat) (f : String × Option T) (v : V) (t : T) (e : Err) (hf : fs[i]? = some f) (hv : vs[i]? = some v)
    (ht : f.2 = some t) (hi : C.inst t v = false) (hc : C.conv t v = .error e) (hb : ∀ (j : Nat) g w, j < i → fs[j]? = some g → vs[j]? = some w → ¬ Refused C g.2 w) : positional C vs fs = .error e := by
  induction i generalizing fs vs with
  | zero =>
    cases fs with
    | nil => simp at hf
    | cons g fs =>
      cases vs with
      | nil => simp at hv
      | cons w vs =>
        simp only [List.getElem?_cons_zero, Option.some.injEq] at hf hv
        subst hf; subst hv
        simp [positional, adjust, ht, hi, hc]
  | succ i ih =>
    cases fs with
    | nil => simp at hf
    | cons g fs =>
      cases vs with
      | nil => simp at hv
      | cons w vs =>
        have h0 := hb 0 g w (by omega) rfl rfl
        rcases adjust_cases C g.2 w with ⟨w', _, h1⟩ | ⟨hr, _⟩
        · simp only [positional, h1, ih fs vs (by simpa using hf) (by simpa using hv) (fun j g' w' hj h1 h2 => hb (j + 1) g' w' (by omega) (by simpa using h1) (by simpa using h2))]
        · exact absurd hr h0

theorem named_err (fs : List (String × Option T)) (hf : (fs.map Prod.fst).Nodup) (kw : List (String × V)) (hn : (kw.map Prod.fst).Nodup) (i : Nat) (f : String × Option T) (hi : fs[i]? = some f)
    (hb : ∀ (j : Nat) g, j < i → fs[j]? = some g → ∃ v, (g.1, v) ∈ kw ∧ ¬ Refused C g.2 v) :
    (f.1 ∉ kw.map Prod.fst → named C fs kw = .error .type) ∧
    ∀ v t e, (f.1, v) ∈ kw → f.2 = some t → C.inst t v = false → C.conv t v = .error e → named C fs kw = .error (if e = .key then .type else e) := by
  have hval : ∀ {kw : List (String × V)} {n : String} {v w : V}, (kw.map Prod.fst).Nodup → (n, v) ∈ kw → (n, w) ∈ kw → v = w := by
    intro kw n v w hn h1 h2
    induction kw with
    | nil => cases h1
    | cons p kw ih =>
      rw [List.map_cons, List.nodup_cons] at hn
      rcases List.mem_cons.1 h1 with g1 | g1 <;> rcases List.mem_cons.1 h2 with g2 | g2
      · have := g1.trans g2.symm; injection this
      · exact absurd (List.mem_map.2 ⟨_, g2, by rw [← g1]⟩) hn.1
      · exact absurd (List.mem_map.2 ⟨_, g1, by rw [← g2]⟩) hn.1
      · exact ih hn.2 g1 g2
  induction i generalizing fs kw with
  | zero =>
    cases fs with
    | nil => simp at hi
    | cons g fs =>
      simp only [List.getElem?_cons_zero, Option.some.injEq] at hi
      subst hi
      refine ⟨fun h => by simp only [named, pop_none.2 h], fun v t e hv ht h1 h2 => ?_⟩
      cases hp : pop g.1 kw with
      | none => exact absurd (List.mem_map.2 ⟨_, hv, rfl⟩) (pop_none.1 hp)
      | some q =>
        obtain ⟨w, kw'⟩ := q
        obtain ⟨h3, _, _⟩ := pop_some hn hp
        cases hval hn hv h3
        have : adjust C v g.2 = .error e := by simp [adjust, ht, h1, h2]
        cases e <;> simp only [named, hp, this] <;> simp
  | succ i ih =>
    cases fs with
    | nil => simp at hi
    | cons g fs =>
      rw [List.map_cons, List.nodup_cons] at hf
      obtain ⟨v0, h0, hr0⟩ := hb 0 g (by omega) rfl
      cases hp : pop g.1 kw with
      | none => exact absurd (List.mem_map.2 ⟨_, h0, rfl⟩) (pop_none.1 hp)
      | some q =>
        obtain ⟨w, kw'⟩ := q
        obtain ⟨h3, h4, h5⟩ := pop_some hn hp
        cases hval hn h0 h3
        have hfs : ∀ g' ∈ fs, g'.1 ≠ g.1 := fun g' hg' e => hf.1 (List.mem_map.2 ⟨g', hg', e⟩)
        have hfm : f ∈ fs := List.mem_of_getElem? (show fs[i]? = some f by simpa using hi)
        have := ih fs hf.2 kw' h4 (by simpa using hi) (fun j g' hj hg' => by
          obtain ⟨v, hv, hr⟩ := hb (j + 1) g' (by omega) (by simpa using hg')
          exact ⟨v, (h5 _ _).2 ⟨hv, hfs g' (List.mem_of_getElem? hg')⟩, hr⟩)
        rcases adjust_cases C g.2 v0 with ⟨w', _, h1⟩ | ⟨hr, _⟩
        · refine ⟨fun hno => ?_, fun v t e hv ht h6 h7 => ?_⟩
          · simp only [named, hp, h1]
            rw [this.1 ?_]
            intro hm
            obtain ⟨⟨m, y⟩, hm', e⟩ := List.mem_map.1 hm
            exact hno (List.mem_map.2 ⟨_, ((h5 _ _).1 hm').1, e⟩)
          · simp only [named, hp, h1]
            rw [this.2 v t e ((h5 _ _).2 ⟨hv, hfs f hfm⟩) ht h6 h7]
        · exact absurd hr hr0

/-- **C133 (typednamedtuple, exceptions)**: the first conversion that raises, fields being taken in order, makes it raise: what the conversion raises, except that KeyError of a field given by name becomes TypeError; a field that is not given is a TypeError. -/
theorem C133_raises (fields : List (String × Option T)) (hf : (fields.map Prod.fst).Nodup) (args : List V) (kwargs : List (String × V)) (hk : (kwargs.map Prod.fst).Nodup) (hl : args.length ≤ fields.length)
    (i : Nat) (f : String × Option T) (hi : fields[i]? = some f) (h1 : ∀ (j : Nat) g w, j < i → fields[j]? = some g → args[j]? = some w → ¬ Refused C g.2 w)
    (h2 : ∀ (j : Nat) g, args.length ≤ j → j < i → fields[j]? = some g → ∃ v, (g.1, v) ∈ kwargs ∧ ¬ Refused C g.2 v) :
    (∀ v t e, args[i]? = some v → f.2 = some t → C.inst t v = false → C.conv t v = .error e → new C fields args kwargs = .error e) ∧
    (args.length ≤ i → f.1 ∉ kwargs.map Prod.fst → new C fields args kwargs = .error .type) ∧
    (∀ v t e, args.length ≤ i → (f.1, v) ∈ kwargs → f.2 = some t → C.inst t v = false → C.conv t v = .error e → new C fields args kwargs = .error (if e = .key then .type else e)) := by
  refine ⟨fun v t e hv ht h3 h4 => by simp only [new, positional_err C fields args i f v t e hi hv ht h3 h4 h1], ?_⟩
  have hfd : ((fields.drop args.length).map Prod.fst).Nodup := by
    rw [List.map_drop]
    exact hf.sublist (List.drop_sublist _ _)
  have pos : args.length ≤ i → ∃ ws, positional C args fields = .ok ws ∧ ws.length = args.length := by
    intro hle
    rcases positional_ok C fields args hl with ⟨ws, h3, h4, _⟩ | ⟨_, j, g, w, hg, hw, hr⟩
    · exact ⟨ws, h3, h4⟩
    · have : j < args.length := by
        apply Classical.byContradiction
        intro hge
        rw [List.getElem?_eq_none (by omega)] at hw
        cases hw
      exact absurd hr (h1 j g w (by omega) hg hw)
  have main : ∀ hle : args.length ≤ i, _ := fun hle => named_err C (fields.drop args.length) hfd kwargs hk (i - args.length) f
    (by rw [List.getElem?_drop, show args.length + (i - args.length) = i by omega]; exact hi)
    (fun j g hj hg => h2 (args.length + j) g (by omega) (by omega) (by rw [List.getElem?_drop] at hg; exact hg))
  refine ⟨fun hle hno => ?_, fun v t e hle hv ht h3 h4 => ?_⟩
  · obtain ⟨ws, h5, h6⟩ := pos hle
    simp only [new, h5, h6, (main hle).1 hno]
  · obtain ⟨ws, h5, h6⟩ := pos hle
    simp only [new, h5, h6, (main hle).2 v t e hv ht h3 h4]

/-- one type: even numbers; odd ones are made even by adding one, and seven cannot be converted -/
def someTypes : Types Unit Nat := { inst := fun _ n => n % 2 == 0, conv := fun _ n => if n = 7 then .error (.other 0) else .ok (n + 1) }
example : new someTypes [("x", some ()), ("y", some ()), ("z", none)] [3] [("z", 5), ("y", 4)] = .ok [4, 4, 5] := rfl
example : new someTypes [("x", some ()), ("y", some ())] [3] [("y", 7)] = .error (.other 0) := rfl
example : (∃ t, new someTypes [("x", some ()), ("y", some ())] [3] [("z", 7)] = .ok t) → False := by rintro ⟨t, h⟩; cases h
example : (([("x", some ()), ("y", some ())] : List (String × Option Unit)).map Prod.fst).Nodup ∧ ([3] : List Nat).length ≤ 2 := by decide

/-! ## Proofs: SetZip -/

theorem iter_eq (z : Zip) : z.iter = List.flatten z := by
  induction z with
  | nil => rfl
  | cons s z ih => simp [Zip.iter, ih]

/-- **C133 (SetZip)**: a SetZip contains exactly what is in some of its sets, also those added later; iteration gives exactly the elements it contains, and its length is the number of elements that iteration gives. -/
theorem C133_setzip (z : Zip) (added : List (List Nat)) (x : Nat) :
    ((added.foldl Zip.iadd z).contains x = true ↔ ∃ s ∈ z ++ added, x ∈ s) ∧
    (x ∈ (added.foldl Zip.iadd z).iter ↔ (added.foldl Zip.iadd z).contains x = true) ∧
    (added.foldl Zip.iadd z).len = (added.foldl Zip.iadd z).iter.length := by
  have : added.foldl Zip.iadd z = (z ++ added : List (List Nat)) := by
    induction added generalizing z with
    | nil => simp
    | cons s added ih => rw [List.foldl_cons, ih]; simp [Zip.iadd]
  rw [this]
  refine ⟨by simp only [Zip.contains, List.any_eq_true, List.contains_iff_mem], ?_, ?_⟩
  · simp only [iter_eq, Zip.contains, List.any_eq_true, List.contains_iff_mem, List.mem_flatten]
  · rw [iter_eq, List.length_flatten]; rfl

/-! ## C134 -/

/-- **C134 (violation), lengths of vectors**: the sum of vectors of different lengths silently loses entries, and so is not undone by subtraction. -/
theorem C134_vector_length_violates : ∃ a b : List Rat, (vadd a b).length < a.length ∧ vsub (vadd a b) b ≠ a :=
  ⟨[1, 2], [3], by simp [vadd], by simp [vadd, vsub]⟩

/-- **C134 (violation), excess arguments**: more positional arguments than fields are silently dropped. -/
theorem C134_excess_violates (fields : List (String × Option T)) (args extra : List V) (h : args.length = fields.length) (kw : List (String × V)) :
    new C fields (args ++ extra) kw = new C fields args kw := by
  have : positional C (args ++ extra) fields = positional C args fields := by
    induction args generalizing fields with
    | nil =>
      cases fields with
      | nil => cases extra <;> rfl
      | cons f fs => simp at h
    | cons v vs ih =>
      cases fields with
      | nil => simp at h
      | cons f fs => simp only [List.cons_append, positional, ih fs (by simpa using h)]
  simp only [new, this]

/-- **C134 (violation), SetZip counts twice**: the length counts an element once for each set it is in, and iteration repeats it. -/
theorem C134_setzip_violates : ∃ z : Zip, (∀ s ∈ z, s.Nodup) ∧ z.len = 2 ∧ z.iter = [1, 1] ∧ ∀ x, z.contains x = true ↔ x = 1 := by
  refine ⟨[[1], [1]], by simp, rfl, rfl, fun x => ?_⟩
  simp [Zip.contains]

/-- **C134 (partial)**: if no two sets have an element in common, iteration gives each element once, and the length is their number. -/
theorem C134_setzip_partial (z : Zip) (h1 : ∀ s ∈ z, s.Nodup) (h2 : z.Pairwise (fun s t => ∀ x ∈ s, x ∉ t)) : z.iter.Nodup ∧ z.len = z.iter.length := by
  refine ⟨?_, (C133_setzip z [] 0).2.2⟩
  induction z with
  | nil => simp [Zip.iter]
  | cons s z ih =>
    rw [List.pairwise_cons] at h2
    simp only [Zip.iter]
    rw [List.nodup_append]
    refine ⟨h1 s (by simp), ih (fun t ht => h1 t (by simp [ht])) h2.2, fun a ha b hb e => ?_⟩
    subst e
    rw [iter_eq, List.mem_flatten] at hb
    obtain ⟨t, ht, hat⟩ := hb
    exact h2.1 t ht a ha hat

example : (∀ s ∈ ([[1, 2], [3]] : Zip), s.Nodup) ∧ List.Pairwise (fun s t : List Nat => ∀ x ∈ s, x ∉ t) [[1, 2], [3]] := by
  constructor <;> simp

end Verif.Tuples
