import Verif.Py.Basic

/-!
# Sizes of objects

Model of `satella/instrumentation/memory/get_object_size.py` (`get_size`).

Objects are numbers (their `id`), a heap gives what each of them is. Sizes of objects themselves (`sys.getsizeof`) are
part of the heap. Not modelled: the limit of recursion, implementations other than CPython (line 15-16), and objects
that are made by iterating and freed at once, whose `id` may be used again.
-/

namespace Verif.ObjectSize

/-- What an object is to /repo/satella/instrumentation/memory/get_object_size.py:17-32: the size of its own, the items if it is
a dictionary (line 26), its `__dict__` if it has one (line 29), values of its slots (never looked at), what iterating
it gives (line 31), whether it is a `str`, `bytes` or `bytearray`, and whether it can be iterated once only, like a
generator. -/
structure Obj where
  own : Nat
  items : Option (List (Nat × Nat))
  dict : Option Nat
  slots : List Nat
  elems : Option (List Nat)
  text : Bool
  oneShot : Bool := false
deriving DecidableEq, Repr

/-- /repo/satella/instrumentation/memory/get_object_size.py:26-32, the objects which `get_size` is called with next, in
order: values, then keys; or the `__dict__`; or the elements. -/
def next (o : Obj) : List Nat :=
  match o.items with
  | some kv => kv.map Prod.snd ++ kv.map Prod.fst
  | none => match o.dict with
    | some d => [d]
    | none => match o.elems with
      | some es => if o.text then [] else es
      | none => []

mutual
/-- /repo/satella/instrumentation/memory/get_object_size.py:7-33, `get_size` with `seen`, which is also given back since it is
shared by all the calls. `none`: the recursion did not end within the depth given. -/
def size (h : Nat → Obj) : Nat → List Nat → Nat → Option (Nat × List Nat)
  | 0, _, _ => none
  | fuel + 1, seen, o =>
    if o ∈ seen then some (0, seen)
    else (sizes h fuel (o :: seen) (next (h o))).map fun r => ((h o).own + r.1, r.2)
/-- /repo/satella/instrumentation/memory/get_object_size.py:27-28 and 32, `sum` over the components. -/
def sizes (h : Nat → Obj) : Nat → List Nat → List Nat → Option (Nat × List Nat)
  | _, seen, [] => some (0, seen)
  | fuel, seen, o :: rest =>
    match size h fuel seen o with
    | none => none
    | some r => (sizes h fuel r.2 rest).map fun r' => (r.1 + r'.1, r'.2)
end

/-- /repo/satella/instrumentation/memory/get_object_size.py:7,18-19, `get_size(obj)`. -/
def getSize (h : Nat → Obj) (fuel : Nat) (o : Nat) : Option Nat := (size h fuel [] o).map Prod.fst

/-- The heap after `get_size` that has seen the objects given: the loop at /repo/satella/instrumentation/memory/get_object_size.py:32
was run over each of them that is iterated, once, so those that can be iterated once only are exhausted. -/
def measured (h : Nat → Obj) (seen : List Nat) : Nat → Obj := fun x =>
  if x ∈ seen ∧ (h x).oneShot = true then { h x with elems := some [] } else h x

/-! ## Specification -/

/-- `b` is a component of `a`: a key or a value, the dictionary of attributes, the value of a slot, an element. -/
inductive Component (h : Nat → Obj) (a b : Nat) : Prop where
  | key (kv : List (Nat × Nat)) (v : Nat) : (h a).items = some kv → (b, v) ∈ kv → Component h a b
  | value (kv : List (Nat × Nat)) (k : Nat) : (h a).items = some kv → (k, b) ∈ kv → Component h a b
  | dict : (h a).dict = some b → Component h a b
  | slot : b ∈ (h a).slots → Component h a b
  | elem (es : List Nat) : (h a).items = none → (h a).text = false → (h a).elems = some es → b ∈ es → Component h a b

/-- `b` is `a` or a component of it, of its components, and so on. -/
inductive Reach (h : Nat → Obj) (a : Nat) : Nat → Prop where
  | refl : Reach h a a
  | step {b c : Nat} : Reach h a b → Component h b c → Reach h a c

/-- An object that has components in one way only and no slots: a plain dictionary, an instance with `__dict__`, a
container, a text or an object without components. -/
def Plain (o : Obj) : Prop :=
  o.slots = [] ∧ (o.items ≠ none → o.dict = none) ∧ (o.items = none → o.dict ≠ none → o.elems = none ∨ o.text = true)

/-! ## Proofs -/

theorem next_component {h : Nat → Obj} {a b : Nat} (hb : b ∈ next (h a)) : Component h a b := by
  simp only [next] at hb
  split at hb
  · rename_i kv hkv
    simp only [List.mem_append, List.mem_map] at hb
    rcases hb with ⟨⟨k, v⟩, h1, rfl⟩ | ⟨⟨k, v⟩, h1, rfl⟩
    · exact .value kv k hkv h1
    · exact .key kv v hkv h1
  · rename_i hi
    split at hb
    · rename_i d hd
      simp only [List.mem_singleton] at hb
      subst hb
      exact .dict hd
    · split at hb
      · rename_i es hes
        split at hb
        · simp at hb
        · rename_i ht
          exact .elem es hi (by simpa using ht) hes hb
      · simp at hb

theorem component_next {h : Nat → Obj} {a b : Nat} (hp : Plain (h a)) (hc : Component h a b) : b ∈ next (h a) := by
  obtain ⟨h1, h2, h3⟩ := hp
  cases hc with
  | key kv v hi hm =>
    simp only [next, hi, List.mem_append, List.mem_map]
    exact Or.inr ⟨_, hm, rfl⟩
  | value kv k hi hm =>
    simp only [next, hi, List.mem_append, List.mem_map]
    exact Or.inl ⟨_, hm, rfl⟩
  | dict hd =>
    cases hi : (h a).items with
    | none => simp [next, hi, hd]
    | some kv =>
      have := h2 (by simp [hi])
      simp [hd] at this
  | slot hs => simp [h1] at hs
  | elem es hi ht he hm =>
    cases hd : (h a).dict with
    | none => simp [next, hi, hd, he, ht, hm]
    | some d =>
      have := h3 hi (by simp [hd])
      simp [he, ht] at this

theorem Reach.trans {h : Nat → Obj} {a b c : Nat} (h1 : Reach h a b) (h2 : Reach h b c) : Reach h a c := by
  induction h2 with
  | refl => exact h1
  | step _ hc ih => exact .step ih hc

/-- What a call does: `l` are the objects newly seen. -/
structure Done (h : Nat → Obj) (seen seen' : List Nat) (t : Nat) (l : List Nat) : Prop where
  mem : ∀ x, x ∈ seen' ↔ x ∈ l ∨ x ∈ seen
  nodup : l.Nodup
  new : ∀ x ∈ l, x ∉ seen
  total : t = (l.map fun x => (h x).own).sum
  closed : ∀ x ∈ l, ∀ y ∈ next (h x), y ∈ seen'

theorem Done.trans {h : Nat → Obj} {s1 s2 s3 : List Nat} {t1 t2 : Nat} {l1 l2 : List Nat} (d1 : Done h s1 s2 t1 l1) (d2 : Done h s2 s3 t2 l2) : Done h s1 s3 (t1 + t2) (l1 ++ l2) := by
  refine ⟨fun x => ?_, ?_, ?_, ?_, ?_⟩
  · rw [d2.mem, d1.mem, List.mem_append]
    constructor
    · rintro (h | h | h)
      · exact .inl (.inr h)
      · exact .inl (.inl h)
      · exact .inr h
    · rintro ((h | h) | h)
      · exact .inr (.inl h)
      · exact .inl h
      · exact .inr (.inr h)
  · refine List.nodup_append.mpr ⟨d1.nodup, d2.nodup, ?_⟩
    intro a ha b hb e
    subst e
    exact d2.new a hb ((d1.mem a).mpr (.inl ha))
  · intro x hx
    rcases List.mem_append.mp hx with hx | hx
    · exact d1.new x hx
    · exact fun hc => d2.new x hx ((d1.mem x).mpr (.inr hc))
  · simp [d1.total, d2.total]
  · intro x hx y hy
    rcases List.mem_append.mp hx with hx | hx
    · exact (d2.mem y).mpr (.inr (d1.closed x hx y hy))
    · exact d2.closed x hx y hy

mutual
theorem size_done (h : Nat → Obj) (fuel : Nat) (seen : List Nat) (o : Nat) (t : Nat) (seen' : List Nat) (he : size h fuel seen o = some (t, seen')) :
    ∃ l, Done h seen seen' t l ∧ o ∈ seen' ∧ ∀ x ∈ l, Reach h o x := by
  cases fuel with
  | zero => simp [size] at he
  | succ fuel =>
    simp only [size] at he
    split at he
    · rename_i hm
      simp only [Option.some.injEq, Prod.mk.injEq] at he
      obtain ⟨rfl, rfl⟩ := he
      exact ⟨[], ⟨by simp, by simp, by simp, by simp, by simp⟩, hm, by simp⟩
    · rename_i hm
      simp only [Option.map_eq_some_iff, Prod.mk.injEq, Prod.exists] at he
      obtain ⟨t', s', h1, rfl, rfl⟩ := he
      obtain ⟨l, d, hall, hr⟩ := sizes_done h fuel (o :: seen) (next (h o)) t' s' h1
      refine ⟨o :: l, ⟨?_, ?_, ?_, ?_, ?_⟩, ?_, ?_⟩
      · intro x
        rw [d.mem]
        simp only [List.mem_cons]
        constructor
        · rintro (h | h | h)
          · exact .inl (.inr h)
          · exact .inl (.inl h)
          · exact .inr h
        · rintro ((h | h) | h)
          · exact .inr (.inl h)
          · exact .inl h
          · exact .inr (.inr h)
      · exact List.nodup_cons.mpr ⟨fun hc => d.new o hc (by simp), d.nodup⟩
      · intro x hx
        rcases List.mem_cons.mp hx with rfl | hx
        · exact hm
        · exact fun hc => d.new x hx (by simp [hc])
      · simp [d.total]
      · intro x hx y hy
        rcases List.mem_cons.mp hx with rfl | hx
        · exact hall y hy
        · exact d.closed x hx y hy
      · exact (d.mem o).mpr (.inr (by simp))
      · intro x hx
        rcases List.mem_cons.mp hx with rfl | hx
        · exact .refl
        · obtain ⟨y, hy, hr'⟩ := hr x hx
          exact (Reach.step .refl (next_component hy)).trans hr'
theorem sizes_done (h : Nat → Obj) (fuel : Nat) (seen : List Nat) (os : List Nat) (t : Nat) (seen' : List Nat) (he : sizes h fuel seen os = some (t, seen')) :
    ∃ l, Done h seen seen' t l ∧ (∀ o ∈ os, o ∈ seen') ∧ ∀ x ∈ l, ∃ o ∈ os, Reach h o x := by
  cases os with
  | nil =>
    simp only [sizes, Option.some.injEq, Prod.mk.injEq] at he
    obtain ⟨rfl, rfl⟩ := he
    exact ⟨[], ⟨by simp, by simp, by simp, by simp, by simp⟩, by simp, by simp⟩
  | cons o rest =>
    simp only [sizes] at he
    split at he
    · simp at he
    · rename_i r hr
      simp only [Option.map_eq_some_iff, Prod.mk.injEq, Prod.exists] at he
      obtain ⟨t', s', h1, rfl, rfl⟩ := he
      obtain ⟨l1, d1, ho, hr1⟩ := size_done h fuel seen o r.1 r.2 hr
      obtain ⟨l2, d2, hos, hr2⟩ := sizes_done h fuel r.2 rest t' s' h1
      refine ⟨l1 ++ l2, d1.trans d2, ?_, ?_⟩
      · intro x hx
        rcases List.mem_cons.mp hx with rfl | hx
        · exact (d2.mem x).mpr (.inr ho)
        · exact hos x hx
      · intro x hx
        rcases List.mem_append.mp hx with hx | hx
        · exact ⟨o, by simp, hr1 x hx⟩
        · obtain ⟨y, hy, hr⟩ := hr2 x hx
          exact ⟨y, by simp [hy], hr⟩
end

/-- How many objects of the universe were not seen. -/
def unseen (u seen : List Nat) : Nat := (u.filter fun x => !decide (x ∈ seen)).length

theorem unseen_mono {u s1 s2 : List Nat} (hs : ∀ x ∈ s1, x ∈ s2) : unseen u s2 ≤ unseen u s1 := by
  unfold unseen
  induction u with
  | nil => simp
  | cons a u ih =>
    simp only [List.filter_cons]
    by_cases h1 : a ∈ s1
    · simp [h1, hs a h1]; exact ih
    · by_cases h2 : a ∈ s2 <;> simp [h1, h2] <;> omega

theorem unseen_lt {u seen : List Nat} {o : Nat} (ho : o ∈ u) (hn : o ∉ seen) : unseen u (o :: seen) < unseen u seen := by
  unfold unseen
  induction u with
  | nil => simp at ho
  | cons a u ih =>
    have hmono : unseen u (o :: seen) ≤ unseen u seen := unseen_mono (by intro x hx; simp [hx])
    unfold unseen at hmono
    simp only [List.filter_cons]
    by_cases hao : a = o
    · subst hao
      simp [hn]
      simp at hmono
      omega
    · have := ih (by simpa [Ne.symm hao] using ho)
      by_cases h2 : a ∈ seen <;> simp [hao, h2] <;> simp at this <;> omega

mutual
theorem size_ends (h : Nat → Obj) (u : List Nat) (hu : ∀ x ∈ u, ∀ y ∈ next (h x), y ∈ u) (fuel : Nat) (seen : List Nat) (o : Nat) (ho : o ∈ u) (hf : unseen u seen < fuel) : ∃ r, size h fuel seen o = some r := by
  cases fuel with
  | zero => omega
  | succ fuel =>
    simp only [size]
    split
    · exact ⟨_, rfl⟩
    · rename_i hm
      obtain ⟨r, hr⟩ := sizes_ends h u hu fuel (o :: seen) (next (h o)) (hu o ho) (by have := unseen_lt ho hm; omega)
      exact ⟨_, by rw [hr]; rfl⟩
theorem sizes_ends (h : Nat → Obj) (u : List Nat) (hu : ∀ x ∈ u, ∀ y ∈ next (h x), y ∈ u) (fuel : Nat) (seen : List Nat) (os : List Nat) (hos : ∀ o ∈ os, o ∈ u) (hf : unseen u seen < fuel) : ∃ r, sizes h fuel seen os = some r := by
  cases os with
  | nil => exact ⟨_, by simp [sizes]; rfl⟩
  | cons o rest =>
    obtain ⟨r, hr⟩ := size_ends h u hu fuel seen o (hos o (by simp)) hf
    obtain ⟨l, d, -, -⟩ := size_done h fuel seen o r.1 r.2 hr
    obtain ⟨r', hr'⟩ := sizes_ends h u hu fuel r.2 rest (fun x hx => hos x (by simp [hx])) (by
      have := unseen_mono (u := u) (fun x hx => (d.mem x).mpr (Or.inr hx))
      omega)
    exact ⟨_, by simp only [sizes, hr, hr']; rfl⟩
end

/-- **C165 the size of everything an object consists of.** For every object whose components, their components and so
on are finitely many and plain, however shared and however cyclic, measuring ends and gives the sum of the sizes of
the objects reached, each counted once. -/
theorem C165_size (h : Nat → Obj) (o : Nat) (u : List Nat) (hu : ∀ x, Reach h o x → x ∈ u) (hp : ∀ x, Reach h o x → Plain (h x)) :
    ∃ l : List Nat, l.Nodup ∧ (∀ x, x ∈ l ↔ Reach h o x) ∧ ∀ fuel, u.length < fuel → getSize h fuel o = some (l.map fun x => (h x).own).sum := by
  have key : ∀ fuel, u.length < fuel → ∃ l : List Nat, l.Nodup ∧ (∀ x, x ∈ l ↔ Reach h o x) ∧ getSize h fuel o = some (l.map fun x => (h x).own).sum := by
    intro fuel hf
    -- what is reached is listed, and components of it are again
    obtain ⟨v, hv, hvl⟩ : ∃ v : List Nat, (∀ x, x ∈ v ↔ Reach h o x) ∧ v.length ≤ u.length := by
      classical
      refine ⟨u.filter fun x => decide (Reach h o x), fun x => ?_, List.length_filter_le _ _⟩
      simp only [List.mem_filter, decide_eq_true_eq]
      exact ⟨fun hx => hx.2, fun hx => ⟨hu x hx, hx⟩⟩
    have hcl : ∀ x ∈ v, ∀ y ∈ next (h x), y ∈ v := fun x hx y hy => (hv y).mpr (.step ((hv x).mp hx) (next_component hy))
    have hun : unseen v [] < fuel := by
      have : unseen v [] ≤ v.length := List.length_filter_le _ _
      omega
    obtain ⟨⟨t, s'⟩, hr⟩ := size_ends h v hcl fuel [] o ((hv o).mpr .refl) hun
    obtain ⟨l, d, ho, hre⟩ := size_done h fuel [] o t s' hr
    refine ⟨l, d.nodup, fun x => ⟨hre x, fun hx => ?_⟩, ?_⟩
    · have : x ∈ s' := by
        induction hx with
        | refl => exact ho
        | step hb hc ih =>
          have hb' := (d.mem _).mp ih
          simp only [List.not_mem_nil, or_false] at hb'
          exact d.closed _ hb' _ (component_next (hp _ hb) hc)
      simpa using (d.mem x).mp this
    · simp [getSize, hr, d.total]
  obtain ⟨l, hn, hm, -⟩ := key (u.length + 1) (by omega)
  refine ⟨l, hn, hm, fun fuel hf => ?_⟩
  obtain ⟨l', hn', hm', he⟩ := key fuel hf
  rw [he]
  have hperm : l'.Perm l := (List.perm_ext_iff_of_nodup hn' hn).mpr fun x => by rw [hm, hm']
  exact congrArg some (hperm.map _).sum_nat

/-- A list that contains a dictionary twice, the dictionary has the list as a value: the plain heap of the example. -/
def cyclic : Nat → Obj
  | 0 => ⟨56, none, none, [], some [1, 1, 2], false, false⟩
  | 1 => ⟨64, some [(2, 0)], none, [], some [2], false, false⟩
  | _ => ⟨50, none, none, [], some [2], true, false⟩

/-- A case of C165: everything in it is plain, and sizes are counted once. -/
example : (∀ x, Plain (cyclic x)) ∧ getSize cyclic 4 0 = some (56 + 64 + 50) := by
  refine ⟨fun x => ?_, by simp [getSize, size, next, sizes, cyclic]⟩
  match x with
  | 0 => exact ⟨rfl, by simp [cyclic], by simp [cyclic]⟩
  | 1 => exact ⟨rfl, by simp [cyclic], by simp [cyclic]⟩
  | n + 2 => exact ⟨rfl, by simp [cyclic], by simp [cyclic]⟩

/-- **C166 (violated) attributes in slots.** Values of slots are components, but they are not counted, whatever their
sizes. -/
theorem C166_slots_violates (n : Nat) (fuel : Nat) : let h : Nat → Obj := fun x => if x = 0 then ⟨48, none, none, [1], none, false, false⟩ else ⟨n, none, none, [], none, false, false⟩
    Reach h 0 1 ∧ getSize h (fuel + 1) 0 = some 48 := by
  refine ⟨.step .refl (.slot (by simp)), by simp [getSize, size, next, sizes]⟩

/-- **C166 (violated) elements of containers with attributes.** Elements of a container that also has `__dict__`, as any
instance of a subclass of list, are not counted; nor are attributes of an instance of a subclass of dict. -/
theorem C166_subclass_violates (n : Nat) (fuel : Nat) :
    (let h : Nat → Obj := fun x => if x = 0 then ⟨48, none, some 1, [], some [2], false, false⟩ else if x = 1 then ⟨64, some [], none, [], some [], false, false⟩ else ⟨n, none, none, [], none, false, false⟩
     Reach h 0 2 ∧ getSize h (fuel + 2) 0 = some (48 + 64)) ∧
    (let h : Nat → Obj := fun x => if x = 0 then ⟨48, some [], some 1, [], some [], false, false⟩ else ⟨n, none, none, [], none, false, false⟩
     Reach h 0 1 ∧ getSize h (fuel + 1) 0 = some 48) := by
  refine ⟨⟨.step .refl (.elem [2] rfl rfl rfl (by simp)), by simp [getSize, size, next, sizes]⟩, .step .refl (.dict rfl), by simp [getSize, size, next, sizes]⟩

/-- **C166 (violated) measuring only looks.** Measuring an iterator exhausts it: measured again it is smaller, and its
elements are lost to the program. -/
theorem C166_iterators_violates (n : Nat) (hn : 0 < n) : let h : Nat → Obj := fun x => if x = 0 then ⟨48, none, none, [], some [1], false, true⟩ else ⟨n, none, none, [], none, false, false⟩
    ∃ seen, size h 3 [] 0 = some (48 + n, seen) ∧ getSize (measured h seen) 3 0 = some 48 ∧ getSize (measured h seen) 3 0 ≠ getSize h 3 0 ∧ ((measured h seen) 0).elems = some [] := by
  refine ⟨[1, 0], by simp [size, next, sizes], by simp [getSize, size, next, sizes, measured], ?_, by simp [measured]⟩
  simp [getSize, size, next, sizes, measured]
  omega

/-- **C166, measuring only looks** (partial: at objects that can be iterated more than once).  What can be iterated again is as it was, whatever was measured. -/
theorem C166_only_looks_partial (h : Nat → Obj) (seen : List Nat) (x : Nat) (hx : x ∉ seen ∨ (h x).oneShot = false) : measured h seen x = h x := by
  unfold measured
  rcases hx with hx | hx <;> simp [hx]

example : measured (fun _ => ⟨48, none, none, [], some [1], false, false⟩) [0] 0 = ⟨48, none, none, [], some [1], false, false⟩ := rfl

/-- `b` is a component of `a` that is looked at: keys and values of a dictionary, `__dict__` of what is no dictionary,
elements of what is none of them. -/
inductive Visible (h : Nat → Obj) (a b : Nat) : Prop where
  | key (kv : List (Nat × Nat)) (v : Nat) : (h a).items = some kv → (b, v) ∈ kv → Visible h a b
  | value (kv : List (Nat × Nat)) (k : Nat) : (h a).items = some kv → (k, b) ∈ kv → Visible h a b
  | dict : (h a).items = none → (h a).dict = some b → Visible h a b
  | elem (es : List Nat) : (h a).items = none → (h a).dict = none → (h a).text = false → (h a).elems = some es → b ∈ es → Visible h a b

/-- Reached by components that are looked at. -/
inductive VReach (h : Nat → Obj) (a : Nat) : Nat → Prop where
  | refl : VReach h a a
  | step {b c : Nat} : VReach h a b → Visible h b c → VReach h a c

/-- The heap without what is not looked at, where all is plain. -/
def strip (o : Obj) : Obj :=
  match o.items, o.dict with
  | some kv, _ => { o with dict := none, slots := [], items := some kv }
  | none, some d => { o with slots := [], elems := none, dict := some d }
  | none, none => { o with slots := [] }

theorem strip_plain (o : Obj) : Plain (strip o) := by
  cases hi : o.items <;> cases hd : o.dict <;> simp [Plain, strip, hi, hd]

theorem strip_next (o : Obj) : next (strip o) = next o := by
  cases hi : o.items <;> cases hd : o.dict <;> simp [next, strip, hi, hd]

theorem strip_own (o : Obj) : (strip o).own = o.own := by
  cases hi : o.items <;> cases hd : o.dict <;> simp [strip, hi, hd]

theorem strip_component (h : Nat → Obj) (a b : Nat) : Component (fun x => strip (h x)) a b ↔ Visible h a b := by
  constructor
  · intro hc
    have hn := component_next (strip_plain (h a)) hc
    have hn' : b ∈ next (h a) := by rw [← strip_next]; exact hn
    simp only [next] at hn'
    split at hn'
    · rename_i kv hkv
      simp only [List.mem_append, List.mem_map] at hn'
      rcases hn' with ⟨⟨k, v⟩, h1, rfl⟩ | ⟨⟨k, v⟩, h1, rfl⟩
      · exact .value kv k hkv h1
      · exact .key kv v hkv h1
    · rename_i hi
      split at hn'
      · rename_i d hd
        simp only [List.mem_singleton] at hn'
        subst hn'
        exact .dict hi hd
      · rename_i hd
        split at hn'
        · rename_i es hes
          split at hn'
          · simp at hn'
          · rename_i ht
            exact .elem es hi hd (by simpa using ht) hes hn'
        · simp at hn'
  · intro hv
    apply next_component
    show b ∈ next (strip (h a))
    rw [strip_next]
    cases hv with
    | key kv v h1 h2 => simp only [next, h1, List.mem_append, List.mem_map]; exact Or.inr ⟨_, h2, rfl⟩
    | value kv k h1 h2 => simp only [next, h1, List.mem_append, List.mem_map]; exact Or.inl ⟨_, h2, rfl⟩
    | dict h1 h2 => simp [next, h1, h2]
    | elem es h1 h2 h3 h4 h5 => simp [next, h1, h2, h3, h4, h5]

theorem strip_reach (h : Nat → Obj) (a b : Nat) : Reach (fun x => strip (h x)) a b ↔ VReach h a b := by
  constructor
  · intro hr
    induction hr with
    | refl => exact .refl
    | step _ hc ih => exact .step ih ((strip_component h _ _).mp hc)
  · intro hr
    induction hr with
    | refl => exact .refl
    | step _ hc ih => exact .step ih ((strip_component h _ _).mpr hc)

mutual
theorem strip_size (h : Nat → Obj) (fuel : Nat) (seen : List Nat) (o : Nat) : size (fun x => strip (h x)) fuel seen o = size h fuel seen o := by
  cases fuel with
  | zero => simp [size]
  | succ fuel => simp only [size, strip_next, strip_own, strip_sizes h fuel]
theorem strip_sizes (h : Nat → Obj) (fuel : Nat) (seen : List Nat) (os : List Nat) : sizes (fun x => strip (h x)) fuel seen os = sizes h fuel seen os := by
  cases os with
  | nil => simp [sizes]
  | cons o rest =>
    simp only [sizes, strip_size h fuel seen o]
    cases size h fuel seen o with
    | none => rfl
    | some r => simp only [strip_sizes h fuel r.2 rest]
end

/-- **C166 (partial) the size of what is looked at.** For every object, plain or not, with finitely many of them:
measuring ends and gives the sum of sizes of the objects that are reached by what is looked at, each once. Missing: slots, elements
of containers with attributes, attributes of dictionaries; and what measuring does to iterators. -/
theorem C166_size_partial (h : Nat → Obj) (o : Nat) (u : List Nat) (hu : ∀ x, VReach h o x → x ∈ u) :
    ∃ l : List Nat, l.Nodup ∧ (∀ x, x ∈ l ↔ VReach h o x) ∧ ∀ fuel, u.length < fuel → getSize h fuel o = some (l.map fun x => (h x).own).sum := by
  obtain ⟨l, h1, h2, h3⟩ := C165_size (fun x => strip (h x)) o u (fun x hx => hu x ((strip_reach h o x).mp hx)) (fun x _ => strip_plain _)
  refine ⟨l, h1, fun x => (h2 x).trans (strip_reach h o x), fun fuel hf => ?_⟩
  have := h3 fuel hf
  simp only [getSize, strip_size, strip_own] at this ⊢
  exact this

end Verif.ObjectSize
