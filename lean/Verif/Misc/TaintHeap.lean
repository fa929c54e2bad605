/-!
# Tainting changes objects in place (satella/debug/tainting/tainteds.py), C247

Objects live in a memory and are shared by reference; tainting a list puts tainted objects into that very list.  (Expressions over values without sharing are the matter of C135.)
-/
namespace Verif.TaintHeap

/-! ## Model -/

/-- A value: a number, or a reference to an object.  (Part of the model of `TaintedObject`, /repo/satella/debug/tainting/tainteds.py:33-172.) -/
inductive Val where
  | atom (n : Int)
  | ref (a : Nat)
  deriving DecidableEq, Repr

/-- An object: a list, a dict or an object with attributes (of those two the values, in order); a tuple (or anything else that has elements and cannot be changed); a TaintedObject and its value.
Keys and names are left out, as they are not tainted.  /repo/satella/debug/tainting/tainteds.py:46-58 -/
inductive Cell where
  | box (items : List Val)
  | tuple (items : List Val)
  | tainted (v : Val)
  deriving DecidableEq, Repr

/-- the memory.  (Part of the model of `TaintedObject`, /repo/satella/debug/tainting/tainteds.py:33-172.) -/
abbrev Mem := List Cell

/-- what is raised.  RecursionError is raised when the calls are too deep.  (Part of the model of `TaintedObject`, /repo/satella/debug/tainting/tainteds.py:33-172.) -/
inductive Err where
  | runtimeError
  | recursionError
  | indexError
  | typeError
  deriving DecidableEq, Repr

/-- `isinstance(v, TaintedObject)`, /repo/satella/debug/tainting/tainteds.py:192 -/
def isTainted (m : Mem) : Val → Bool
  | .atom _ => false
  | .ref a => match m[a]? with
    | some (.tainted _) => true
    | _ => false

/-- `access_tainted`, /repo/satella/debug/tainting/tainteds.py:175-183 -/
def access (m : Mem) : Val → Val
  | .atom n => .atom n
  | .ref a => match m[a]? with
    | some (.tainted v) => v
    | _ => .ref a

/-- `v[i]` of a list or tuple, `dict_to_transform[key]`: /repo/satella/debug/tainting/tainteds.py:50, 58 -/
def item (m : Mem) (a i : Nat) : Option Val :=
  match m[a]? with
  | some (.box l) => l[i]?
  | some (.tuple l) => l[i]?
  | _ => none

/-- `self.__v[i] = w`, `dict_to_transform[key] = w`: /repo/satella/debug/tainting/tainteds.py:50, 58 -/
def store (m : Mem) (a i : Nat) (w : Val) : Mem :=
  match m[a]? with
  | some (.box l) => m.set a (.box (l.set i w))
  | _ => m

/-- the loop over the elements, /repo/satella/debug/tainting/tainteds.py:49-50, 57-58 -/
def loop (f : Mem → Val → Except Err (Mem × Val)) (a : Nat) : List Nat → Mem → Except Err Mem
  | [], m => .ok m
  | i :: is, m =>
    match item m a i with
    | none => .error .indexError
    | some x =>
      match f m x with
      | .error e => .error e
      | .ok (m1, w) => loop f a is (store m1 a i w)

/-- `taint` and `TaintedObject.__init__`, with so many calls to go before RecursionError; `session` tells whether there is a session in progress in this thread.
/repo/satella/debug/tainting/tainteds.py:36-60, 186-192 -/
def taint (session : Bool) : Nat → Mem → Val → Except Err (Mem × Val)
  | 0, _, _ => .error .recursionError
  | n + 1, m, v =>
    if isTainted m v then .ok (m, v)
    else if !session then .error .runtimeError
    else
      match v with
      | .atom k => .ok (m ++ [.tainted (.atom k)], .ref m.length)
      | .ref a =>
        match m[a]? with
        | some (.box l) =>
          match loop (taint session n) a (List.range l.length) (m ++ [.tainted (.ref a)]) with
          | .error e => .error e
          | .ok m' => .ok (m', .ref m.length)
        | _ => .ok (m ++ [.tainted (.ref a)], .ref m.length)

/-- `x[i]` for a tainted `x`, `__getitem__`, /repo/satella/debug/tainting/tainteds.py:165-166 -/
def getItem (session : Bool) (n : Nat) (m : Mem) (x : Val) (i : Nat) : Except Err (Mem × Val) :=
  match access m x with
  | .atom _ => .error .typeError
  | .ref a =>
    match item m a i with
    | none => .error .indexError
    | some v => taint session n m v

/-- `x[i] = y` for a tainted `x` (a list, `i` an index of it), `__setitem__`, /repo/satella/debug/tainting/tainteds.py:168-169 -/
def setItem (session : Bool) (n : Nat) (m : Mem) (x : Val) (i : Nat) (y : Val) : Except Err Mem :=
  match taint session n m y with
  | .error e => .error e
  | .ok (m1, w) =>
    match access m x with
    | .atom _ => .error .typeError
    | .ref a => if (item m1 a i).isSome then .ok (store m1 a i w) else .error .indexError

/-- `x + k` for a number `k`: of a number, or `__add__` of a tainted number, whose result is tainted.  /repo/satella/debug/tainting/tainteds.py:19-26, 128-130 -/
def add (session : Bool) (m : Mem) (x : Val) (k : Int) : Except Err (Mem × Val) :=
  match access m x with
  | .ref _ => .error .typeError
  | .atom j => if isTainted m x then taint session 1 m (.atom (j + k)) else .ok (m, .atom (j + k))

/-! ## Specification -/

/-- The value is a TaintedObject. -/
def Tainted (m : Mem) (v : Val) : Prop := ∃ a u, v = .ref a ∧ m[a]? = some (.tainted u)

/-- what a value is worth, whatever of it is tainted -/
inductive Tree where
  | num (n : Int)
  | seq (mutable : Bool) (l : List Tree)

/-- `v` is worth `t`. -/
inductive Worth (m : Mem) : Val → Tree → Prop where
  | atom (n : Int) : Worth m (.atom n) (.num n)
  | box (a : Nat) (items : List Val) (ts : List Tree) : m[a]? = some (.box items) → items.length = ts.length →
      (∀ (i : Nat) (x : Val) (t : Tree), items[i]? = some x → ts[i]? = some t → Worth m x t) → Worth m (.ref a) (.seq true ts)
  | tuple (a : Nat) (items : List Val) (ts : List Tree) : m[a]? = some (.tuple items) → items.length = ts.length →
      (∀ (i : Nat) (x : Val) (t : Tree), items[i]? = some x → ts[i]? = some t → Worth m x t) → Worth m (.ref a) (.seq false ts)
  | tainted (a : Nat) (v : Val) (t : Tree) : m[a]? = some (.tainted v) → Worth m v t → Worth m (.ref a) t

/-- A list, dict or object that can be got at from the value, by way of lists, dicts and objects, tainted or not. -/
inductive Reach (m : Mem) : Val → Nat → Prop where
  | box (a : Nat) (items : List Val) : m[a]? = some (.box items) → Reach m (.ref a) a
  | item (a : Nat) (items : List Val) (x : Val) (b : Nat) : m[a]? = some (.box items) → x ∈ items → Reach m x b → Reach m (.ref a) b
  | tainted (a : Nat) (v : Val) (b : Nat) : m[a]? = some (.tainted v) → Reach m v b → Reach m (.ref a) b

/-- No object contains itself: objects have ranks, and lists contain (untainted) lists of lower ranks. -/
def Ranked (m : Mem) (r : Nat → Nat) : Prop :=
  ∀ (a : Nat) (items : List Val), m[a]? = some (.box items) → ∀ b, Val.ref b ∈ items → ¬ Tainted m (.ref b) → r b < r a

/-- The set has, with each list, the untainted objects that are its elements. -/
def Closed (m : Mem) (S : Nat → Prop) : Prop :=
  ∀ (a : Nat) (items : List Val), S a → m[a]? = some (.box items) → ∀ b, Val.ref b ∈ items → ¬ Tainted m (.ref b) → S b

/-! ## Proofs -/

theorem isTainted_iff (m : Mem) (v : Val) : isTainted m v = true ↔ Tainted m v := by
  unfold isTainted Tainted
  cases v with
  | atom n => simp
  | ref a =>
    constructor
    · intro h
      dsimp only at h
      split at h
      · rename_i u hu; exact ⟨a, u, rfl, hu⟩
      · simp at h
    · rintro ⟨a', u, h, hu⟩
      cases h
      simp [hu]

/-- what becomes of an element -/
def Rel (m m' : Mem) (x x' : Val) : Prop := x' = x ∨ (¬ Tainted m x ∧ ∃ t, x' = .ref t ∧ m'[t]? = some (.tainted x))

/-- what becomes of the memory: lists have their elements replaced with tainted ones, and TaintedObjects are added -/
def Ext (m m' : Mem) : Prop :=
  m.length ≤ m'.length ∧
  (∀ (a : Nat) (v : Val), m[a]? = some (Cell.tainted v) → m'[a]? = some (Cell.tainted v)) ∧
  (∀ (a : Nat) (l : List Val), m[a]? = some (Cell.tuple l) → m'[a]? = some (Cell.tuple l)) ∧
  (∀ (a : Nat) (l : List Val), m[a]? = some (Cell.box l) →
    ∃ l' : List Val, m'[a]? = some (Cell.box l') ∧ l'.length = l.length ∧ ∀ (i : Nat) (x x' : Val), l[i]? = some x → l'[i]? = some x' → Rel m m' x x') ∧
  (∀ (a : Nat), m.length ≤ a → a < m'.length → ∃ v, m'[a]? = some (Cell.tainted v))

theorem Ext.refl (m : Mem) : Ext m m :=
  ⟨Nat.le_refl _, fun _ _ h => h, fun _ _ h => h, fun a l h => ⟨l, h, rfl, fun i x x' h1 h2 => Or.inl (by rw [h1] at h2; cases h2; rfl)⟩, fun a h1 h2 => by omega⟩

theorem Ext.tainted {m m' : Mem} (h : Ext m m') {x : Val} (ht : Tainted m x) : Tainted m' x := by
  obtain ⟨a, u, rfl, hu⟩ := ht
  exact ⟨a, u, rfl, h.2.1 a u hu⟩

theorem Ext.trans {m m' m'' : Mem} (h : Ext m m') (h' : Ext m' m'') : Ext m m'' := by
  refine ⟨Nat.le_trans h.1 h'.1, fun a v hv => h'.2.1 a v (h.2.1 a v hv), fun a l hl => h'.2.2.1 a l (h.2.2.1 a l hl), fun a l hl => ?_, fun a h1 h2 => ?_⟩
  rotate_left
  · by_cases hc : a < m'.length
    · obtain ⟨v, hv⟩ := h.2.2.2.2 a h1 hc
      exact ⟨v, h'.2.1 a v hv⟩
    · exact h'.2.2.2.2 a (by omega) h2
  obtain ⟨l', hl', e', r'⟩ := h.2.2.2.1 a l hl
  obtain ⟨l'', hl'', e'', r''⟩ := h'.2.2.2.1 a l' hl'
  refine ⟨l'', hl'', by omega, fun i x x'' h1 h2 => ?_⟩
  have hlt : i < l'.length := by have := (List.getElem?_eq_some_iff.1 h1).1; omega
  have h3 : l'[i]? = some l'[i] := List.getElem?_eq_getElem hlt
  rcases r' i x _ h1 h3 with e | ⟨hn, t, e, ht⟩
  · rcases r'' i _ x'' h3 h2 with e2 | ⟨hn, t, e2, ht⟩
    · left; rw [e2, e]
    · rw [e] at hn ht
      exact Or.inr ⟨fun hx => hn (h.tainted hx), t, e2, ht⟩
  · rcases r'' i _ x'' h3 h2 with e2 | ⟨hn', _⟩
    · exact Or.inr ⟨hn, t, by rw [e2, e], h'.2.1 t x ht⟩
    · exact absurd ⟨t, x, e, ht⟩ hn'

theorem Ext.alloc (m : Mem) (u : Val) : Ext m (m ++ [.tainted u]) := by
  have key : ∀ (a : Nat) (d : Cell), m[a]? = some d → (m ++ [.tainted u])[a]? = some d := fun a d h => by
    rw [List.getElem?_append_left (List.getElem?_eq_some_iff.1 h).1]; exact h
  exact ⟨by simp, fun a v h => key a _ h, fun a l h => key a _ h, fun a l h => ⟨l, key a _ h, rfl, fun i x x' h1 h2 => Or.inl (by rw [h1] at h2; cases h2; rfl)⟩,
    fun a h1 h2 => ⟨u, by have : a = m.length := by simp at h2; omega
                          subst this; simp⟩⟩

theorem store_get {m : Mem} {a i : Nat} {w : Val} {l : List Val} (h : m[a]? = some (.box l)) (b : Nat) :
    (store m a i w)[b]? = if b = a then some (.box (l.set i w)) else m[b]? := by
  unfold store
  rw [h]
  dsimp only
  rw [List.getElem?_set]
  split
  · rename_i e
    subst e
    simp [(List.getElem?_eq_some_iff.1 h).1]
  · rename_i e
    rw [if_neg (fun h => e h.symm)]

theorem store_length (m : Mem) (a i : Nat) (w : Val) : (store m a i w).length = m.length := by
  unfold store; split <;> simp

/-- one turn of the loop -/
theorem Ext.store {m m1 : Mem} (h : Ext m m1) {a i : Nat} {l : List Val} {x w : Val} (ha : m[a]? = some (.box l)) (hi : l[i]? = some x)
    (hw : (w = x ∧ Tainted m x) ∨ (¬ Tainted m x ∧ ∃ t, w = .ref t ∧ m1[t]? = some (.tainted x))) : Ext m (store m1 a i w) := by
  obtain ⟨l1, hl1, e1, r1⟩ := h.2.2.2.1 a l ha
  have hne : ∀ (b : Nat) (c : Cell), (∀ k, c ≠ .box k) → m1[b]? = some c → (TaintHeap.store m1 a i w)[b]? = some c := by
    intro b c hc hb
    rw [store_get hl1]
    split
    · rename_i e; subst e; rw [hl1] at hb; cases hb; exact absurd rfl (hc l1)
    · exact hb
  refine ⟨by rw [store_length]; exact h.1, fun b v hb => hne b _ (by simp) (h.2.1 b v hb), fun b k hb => hne b _ (by simp) (h.2.2.1 b k hb), fun b k hb => ?_,
    fun b h1 h2 => by
      rw [store_length] at h2
      obtain ⟨v, hv⟩ := h.2.2.2.2 b h1 h2
      exact ⟨v, hne b _ (by simp) hv⟩⟩
  obtain ⟨k1, hk1, e2, r2⟩ := h.2.2.2.1 b k hb
  have lift : ∀ y y', Rel m m1 y y' → Rel m (TaintHeap.store m1 a i w) y y' := by
    rintro y y' (h | ⟨h1, t, h2, h3⟩)
    · exact Or.inl h
    · exact Or.inr ⟨h1, t, h2, hne t _ (by simp) h3⟩
  by_cases e : b = a
  · subst e
    rw [ha] at hb; cases hb
    rw [hl1] at hk1; cases hk1
    refine ⟨l1.set i w, by rw [store_get hl1]; simp, by simp [e1], fun j y y' hy hy' => ?_⟩
    rw [List.getElem?_set] at hy'
    split at hy'
    · rename_i eij
      subst eij
      split at hy'
      · cases hy'
        rw [hi] at hy; cases hy
        rcases hw with hw | ⟨h1, t, h2, h3⟩
        · exact Or.inl hw.1
        · exact Or.inr ⟨h1, t, h2, hne t _ (by simp) h3⟩
      · simp at hy'
    · exact lift _ _ (r1 j y y' hy hy')
  · refine ⟨k1, by rw [store_get hl1, if_neg e]; exact hk1, e2, fun j y y' hy hy' => lift _ _ (r2 j y y' hy hy')⟩

/-- The result of tainting: memory extended, the value the same if tainted already and else in a new TaintedObject, and all lists that new TaintedObjects hold have tainted elements. -/
def Post (m m' : Mem) (v w : Val) : Prop :=
  Ext m m' ∧ ((w = v ∧ Tainted m v) ∨ (¬ Tainted m v ∧ ∃ t, w = .ref t ∧ m'[t]? = some (.tainted v))) ∧
  (∀ (t a : Nat) (l : List Val), m.length ≤ t → m'[t]? = some (.tainted (.ref a)) → m'[a]? = some (.box l) → ∀ x ∈ l, Tainted m' x)

theorem Post.tainted {m m' : Mem} {v w : Val} (h : Post m m' v w) : Tainted m' w := by
  rcases h.2.1 with ⟨rfl, ht⟩ | ⟨_, t, rfl, ht⟩
  · exact h.1.tainted ht
  · exact ⟨t, v, rfl, ht⟩

/-- elements that are tainted stay so -/
theorem Ext.items {m m' : Mem} (h : Ext m m') {a : Nat} {l l' : List Val} (ha : m[a]? = some (.box l)) (ha' : m'[a]? = some (.box l')) (i : Nat) (x' : Val)
    (hi : l'[i]? = some x') (ht : ∀ x, l[i]? = some x → Tainted m x) : Tainted m' x' := by
  obtain ⟨k, hk, e, r⟩ := h.2.2.2.1 a l ha
  rw [ha'] at hk; cases hk
  have hlt : i < l.length := by have := (List.getElem?_eq_some_iff.1 hi).1; omega
  have h3 : l[i]? = some l[i] := List.getElem?_eq_getElem hlt
  have h4 := ht _ h3
  rcases r i _ x' h3 hi with e | ⟨hn, _⟩
  · rw [e]; exact h.tainted h4
  · exact absurd h4 hn

theorem loop_post {f : Mem → Val → Except Err (Mem × Val)} (hf : ∀ m v m' w, f m v = .ok (m', w) → Post m m' v w) (a : Nat) :
    ∀ (is : List Nat) (m m' : Mem) (l : List Val), m[a]? = some (.box l) → loop f a is m = .ok m' →
      Ext m m' ∧ (∀ l' : List Val, m'[a]? = some (.box l') → ∀ i ∈ is, ∀ x, l'[i]? = some x → Tainted m' x) ∧
      (∀ (t b : Nat) (l' : List Val), m.length ≤ t → m'[t]? = some (.tainted (.ref b)) → m'[b]? = some (.box l') → ∀ x ∈ l', Tainted m' x) := by
  intro is
  induction is with
  | nil =>
    intro m m' l ha h
    simp only [loop, Except.ok.injEq] at h
    subst h
    refine ⟨Ext.refl _, by simp, fun t b l' ht h1 => ?_⟩
    have := (List.getElem?_eq_some_iff.1 h1).1
    omega
  | cons i is ih =>
    intro m m' l ha h
    simp only [loop] at h
    cases hx : item m a i with
    | none => rw [hx] at h; simp at h
    | some x =>
      rw [hx] at h
      dsimp only at h
      cases hfx : f m x with
      | error e => rw [hfx] at h; simp at h
      | ok p =>
        obtain ⟨m1, w⟩ := p
        rw [hfx] at h
        dsimp only at h
        have hi : l[i]? = some x := by simpa [item, ha] using hx
        have hp := hf _ _ _ _ hfx
        have he := hp.1.store ha hi hp.2.1
        obtain ⟨l1, hl1, e1, r1⟩ := hp.1.2.2.2.1 a l ha
        have hs : (store m1 a i w)[a]? = some (.box (l1.set i w)) := by rw [store_get hl1]; simp
        obtain ⟨g1, g2, g3⟩ := ih _ _ _ hs h
        have hst : ∀ y, Tainted m1 y → Tainted (store m1 a i w) y := by
          rintro y ⟨b, u, rfl, hu⟩
          refine ⟨b, u, rfl, ?_⟩
          rw [store_get hl1]
          split
          · rename_i e; subst e; rw [hl1] at hu; simp at hu
          · exact hu
        have hwt : Tainted (store m1 a i w) w := hst w hp.tainted
        refine ⟨he.trans g1, ?_, ?_⟩
        · intro l' hl' j hj y hy
          rcases List.mem_cons.1 hj with rfl | hj
          · refine g1.items hs hl' j y hy (fun z hz => ?_)
            rw [List.getElem?_set] at hz
            simp only [if_true] at hz
            split at hz
            · cases hz; exact hwt
            · simp at hz
          · exact g2 l' hl' j hj y hy
        · intro t b l' ht h1 h2 y hy
          by_cases hlt : (store m1 a i w).length ≤ t
          · exact g3 t b l' hlt h1 h2 y hy
          · -- made by this turn
            have hm1 : m1[t]? = some (.tainted (.ref b)) := by
              rw [store_length] at hlt
              have h5 : m1[t]? = some m1[t] := List.getElem?_eq_getElem (by omega)
              have hta : t ≠ a := by rintro rfl; have := (List.getElem?_eq_some_iff.1 ha).1; omega
              have h6 : (store m1 a i w)[t]? = some m1[t] := by rw [store_get hl1, if_neg hta]; exact h5
              cases hc : m1[t] with
              | tainted v' =>
                rw [hc] at h6
                rw [g1.2.1 t v' h6] at h1
                rw [h5, hc]; exact h1
              | tuple k => rw [hc] at h6; rw [g1.2.2.1 t k h6] at h1; simp at h1
              | box k =>
                rw [hc] at h6
                obtain ⟨k', hk', _⟩ := g1.2.2.2.1 t k h6
                rw [hk'] at h1; simp at h1
            -- its list, then
            obtain ⟨j, hj, hjy⟩ := List.getElem_of_mem hy
            have hjy : l'[j]? = some y := by rw [← hjy]; exact List.getElem?_eq_getElem hj
            cases hb : (store m1 a i w)[b]? with
            | none =>
              -- made later, but only TaintedObjects are made
              obtain ⟨v', hv'⟩ := g1.2.2.2.2 b (List.getElem?_eq_none_iff.1 hb) (List.getElem?_eq_some_iff.1 h2).1
              rw [hv'] at h2; simp at h2
            | some c =>
              cases c with
              | tainted v' => rw [g1.2.1 b v' hb] at h2; simp at h2
              | tuple k => rw [g1.2.2.1 b k hb] at h2; simp at h2
              | box k =>
                refine g1.items hb h2 j y hjy (fun z hz => ?_)
                by_cases eb : b = a
                · subst eb
                  rw [hs] at hb; cases hb
                  rw [List.getElem?_set] at hz
                  split at hz
                  · split at hz
                    · cases hz; exact hwt
                    · simp at hz
                  · exact hst z (hp.2.2 t b l1 ht hm1 hl1 z (List.mem_of_getElem? hz))
                · rw [store_get hl1, if_neg eb] at hb
                  exact hst z (hp.2.2 t b k ht hm1 hb z (List.mem_of_getElem? hz))

theorem taint_post (session : Bool) : ∀ (n : Nat) (m : Mem) (v : Val) (m' : Mem) (w : Val), taint session n m v = .ok (m', w) → Post m m' v w := by
  intro n
  induction n with
  | zero => intro m v m' w h; simp [taint] at h
  | succ n ih =>
    intro m v m' w h
    simp only [taint] at h
    split at h
    · rename_i ht
      cases h
      refine ⟨Ext.refl _, Or.inl ⟨rfl, (isTainted_iff _ _).1 ht⟩, fun t a l h1 h2 => ?_⟩
      have := (List.getElem?_eq_some_iff.1 h2).1
      omega
    · rename_i ht
      have ht : ¬ Tainted m v := fun h => ht ((isTainted_iff _ _).2 h)
      split at h
      · simp at h
      · have last : ∀ (t a : Nat), m.length ≤ t → (m ++ [Cell.tainted v])[t]? = some (.tainted (.ref a)) → v = .ref a := by
          intro t a h1 h2
          have := (List.getElem?_eq_some_iff.1 h2).1
          simp at this
          have : t = m.length := by omega
          subst this
          simpa using h2
        have old : ∀ (a : Nat) (l : List Val), (m ++ [Cell.tainted v])[a]? = some (.box l) → m[a]? = some (.box l) := by
          intro a l h1
          by_cases hlt : a < m.length
          · rw [List.getElem?_append_left hlt] at h1; exact h1
          · have := (List.getElem?_eq_some_iff.1 h1).1
            simp at this
            have : a = m.length := by omega
            subst this
            simp at h1
        split at h
        · rename_i k
          cases h
          refine ⟨Ext.alloc _ _, Or.inr ⟨ht, m.length, rfl, by simp⟩, fun t a l h1 h2 => ?_⟩
          exact absurd (last t a h1 h2) (by simp)
        · rename_i a _
          split at h
          · rename_i l hl
            cases hlp : loop (taint session n) a (List.range l.length) (m ++ [.tainted (.ref a)]) with
            | error e => rw [hlp] at h; simp at h
            | ok m2 =>
              rw [hlp] at h
              cases h
              have hl' : (m ++ [Cell.tainted (.ref a)])[a]? = some (.box l) := by
                rw [List.getElem?_append_left (List.getElem?_eq_some_iff.1 hl).1]; exact hl
              obtain ⟨g1, g2, g3⟩ := loop_post ih a _ _ _ _ hl' hlp
              have hnew : m'[m.length]? = some (.tainted (.ref a)) := g1.2.1 _ _ (by simp)
              refine ⟨(Ext.alloc _ _).trans g1, Or.inr ⟨ht, m.length, rfl, hnew⟩, fun t b k h1 h2 h3 x hx => ?_⟩
              by_cases e : t = m.length
              · subst e
                rw [hnew] at h2
                cases h2
                obtain ⟨k', hk', ek, _⟩ := g1.2.2.2.1 a l hl'
                rw [h3] at hk'; cases hk'
                obtain ⟨j, hj, hjx⟩ := List.getElem_of_mem hx
                exact g2 k h3 j (by rw [List.mem_range]; omega) x (by rw [← hjx]; exact List.getElem?_eq_getElem hj)
              · exact g3 t b k (by simp; omega) h2 h3 x hx
          · rename_i hnb
            cases h
            refine ⟨Ext.alloc _ _, Or.inr ⟨ht, m.length, rfl, by simp⟩, fun t b l h1 h2 h3 => ?_⟩
            have := last t b h1 h2
            cases this
            exact absurd (old a l h3) (hnb l)

theorem worth_ext {m m' : Mem} (h : Ext m m') {v : Val} {t : Tree} (hw : Worth m v t) : Worth m' v t := by
  induction hw with
  | atom n => exact .atom n
  | box a items ts ha hl hi ih =>
    obtain ⟨l', hl', e, r⟩ := h.2.2.2.1 a items ha
    refine .box a l' ts hl' (by omega) (fun i x t hx ht => ?_)
    have hlt : i < items.length := by have := (List.getElem?_eq_some_iff.1 hx).1; omega
    have h3 : items[i]? = some items[i] := List.getElem?_eq_getElem hlt
    have h4 := ih i _ t h3 ht
    rcases r i _ x h3 hx with e | ⟨_, b, e, hb⟩
    · rw [e]; exact h4
    · rw [e]; exact .tainted b _ t hb h4
  | tuple a items ts ha hl hi ih => exact .tuple a items ts (h.2.2.1 a items ha) hl ih
  | tainted a v t ha _ ih => exact .tainted a v t (h.2.1 a v ha) ih

/-! ## Properties -/

/-- **C247 (same contents).** Whatever is tainted, however objects are shared, every value of the program is worth what it was before, only that some of it is tainted; the result is a tainted object, worth what was tainted; nothing that was tainted ceases to be; and an object tainted already is returned as it is, with nothing changed. -/
theorem C247_same_contents (session : Bool) (n : Nat) (m : Mem) (v : Val) (m' : Mem) (w : Val) (h : taint session n m v = .ok (m', w)) :
    (∀ u t, Worth m u t → Worth m' u t) ∧ (∀ u, Tainted m u → Tainted m' u) ∧ Tainted m' w ∧ (∀ t, Worth m v t → Worth m' w t) ∧ (Tainted m v → m' = m ∧ w = v) := by
  have hp := taint_post session n m v m' w h
  refine ⟨fun u t => worth_ext hp.1, fun u => hp.1.tainted, hp.tainted, fun t ht => ?_, fun ht => ?_⟩
  · rcases hp.2.1 with ⟨rfl, _⟩ | ⟨_, a, rfl, ha⟩
    · exact worth_ext hp.1 ht
    · exact .tainted a v t ha (worth_ext hp.1 ht)
  · cases n with
    | zero => simp [taint] at h
    | succ n =>
      simp only [taint, (isTainted_iff _ _).2 ht, if_true, Except.ok.injEq, Prod.mk.injEq] at h
      exact ⟨h.1.symm, h.2.symm⟩

/-- **C247 (all of it).** When nothing was tainted before, all elements of every list, dict and object that can be got at from the one tainted, through lists, dicts and objects, are tainted afterwards. -/
theorem C247_deep (session : Bool) (n : Nat) (m : Mem) (v : Val) (m' : Mem) (w : Val) (h : taint session n m v = .ok (m', w)) (hm : ∀ u, ¬ Tainted m u) :
    ∀ a, Reach m' w a → ∀ items, m'[a]? = some (.box items) → ∀ x ∈ items, Tainted m' x := by
  have hp := taint_post session n m v m' w h
  have good : ∀ (t a : Nat) (l : List Val), m'[t]? = some (.tainted (.ref a)) → m'[a]? = some (.box l) → ∀ x ∈ l, Tainted m' x := by
    intro t a l h1
    by_cases hlt : m.length ≤ t
    · exact hp.2.2 t a l hlt h1
    · have h5 : m[t]? = some m[t] := List.getElem?_eq_getElem (by omega)
      cases hc : m[t] with
      | tainted u => rw [hc] at h5; exact absurd ⟨t, u, rfl, h5⟩ (hm (.ref t))
      | tuple l => rw [hc] at h5; rw [hp.1.2.2.1 t l h5] at h1; simp at h1
      | box l =>
        rw [hc] at h5
        obtain ⟨l', hl', _⟩ := hp.1.2.2.2.1 t l h5
        rw [hl'] at h1; simp at h1
  -- from a tainted value, or from the list of one
  have key : ∀ u a, Reach m' u a → (Tainted m' u ∨ ∃ t : Nat, m'[t]? = some (Cell.tainted u)) → ∀ items : List Val, m'[a]? = some (.box items) → ∀ x ∈ items, Tainted m' x := by
    intro u a hr
    induction hr with
    | box a items ha =>
      rintro (⟨b, u, e, hb⟩ | ⟨t, ht⟩)
      · cases e; rw [ha] at hb; simp at hb
      · intro items' h'; exact good t a items' ht h'
    | item a items x b ha hx hr ih =>
      rintro (⟨c, u, e, hb⟩ | ⟨t, ht⟩)
      · cases e; rw [ha] at hb; simp at hb
      · exact ih (Or.inl (good t a items ht ha x hx))
    | tainted a v b ha hr ih => exact fun _ => ih (Or.inr ⟨a, ha⟩)
  intro a ha
  exact key w a ha (Or.inl hp.tainted)

theorem ranked_ext {m m' : Mem} {r : Nat → Nat} (h : Ext m m') (hr : Ranked m r) : Ranked m' r := by
  intro a items ha b hb hnt
  by_cases hlt : a < m.length
  · have h5 : m[a]? = some m[a] := List.getElem?_eq_getElem hlt
    cases hc : m[a] with
    | tainted u => rw [hc] at h5; rw [h.2.1 a u h5] at ha; simp at ha
    | tuple l => rw [hc] at h5; rw [h.2.2.1 a l h5] at ha; simp at ha
    | box l =>
      rw [hc] at h5
      obtain ⟨l', hl', e, rr⟩ := h.2.2.2.1 a l h5
      rw [ha] at hl'; cases hl'
      obtain ⟨j, hj, hjx⟩ := List.getElem_of_mem hb
      have hj' : items[j]? = some (.ref b) := by rw [← hjx]; exact List.getElem?_eq_getElem hj
      have h3 : l[j]? = some l[j] := List.getElem?_eq_getElem (by omega)
      rcases rr j _ _ h3 hj' with e | ⟨_, t, e, ht⟩
      · refine hr a l h5 b ?_ (fun hx => hnt (h.tainted hx))
        rw [e]; exact List.getElem_mem _
      · cases e
        exact absurd ⟨b, _, rfl, ht⟩ hnt
  · obtain ⟨v, hv⟩ := h.2.2.2.2 a (by omega) (List.getElem?_eq_some_iff.1 ha).1
    rw [ha] at hv; simp at hv

theorem loop_ok {r : Nat → Nat} {f : Mem → Val → Except Err (Mem × Val)} (hp : ∀ m v m' w, f m v = .ok (m', w) → Post m m' v w) (a : Nat)
    (hf : ∀ m, Ranked m r → ∀ x, (∀ b, x = .ref b → Tainted m x ∨ r b < r a) → ∃ p, f m x = .ok p) :
    ∀ (is : List Nat) (m : Mem) (l : List Val), Ranked m r → m[a]? = some (.box l) → (∀ i ∈ is, i < l.length) → ∃ m', loop f a is m = .ok m' := by
  intro is
  induction is with
  | nil => intro m l _ _ _; exact ⟨m, rfl⟩
  | cons i is ih =>
    intro m l hr ha hi
    have hlt : i < l.length := hi i (by simp)
    have hil : l[i]? = some l[i] := List.getElem?_eq_getElem hlt
    have hitem : item m a i = some l[i] := by simp [item, ha, hlt]
    obtain ⟨⟨m1, w⟩, hfx⟩ := hf m hr l[i] (fun b hb => by
      by_cases ht : Tainted m l[i]
      · exact Or.inl ht
      · refine Or.inr (hr a l ha b ?_ (by rw [← hb]; exact ht))
        rw [← hb]; exact List.getElem_mem _)
    have hpost := hp _ _ _ _ hfx
    have he := hpost.1.store ha hil hpost.2.1
    obtain ⟨l1, hl1, e1, _⟩ := hpost.1.2.2.2.1 a l ha
    have hs : (store m1 a i w)[a]? = some (.box (l1.set i w)) := by rw [store_get hl1]; simp
    obtain ⟨m', hm'⟩ := ih _ _ (ranked_ext he hr) hs (fun j hj => by simp [e1]; exact hi j (by simp [hj]))
    exact ⟨m', by simp only [loop, hitem, hfx]; exact hm'⟩

/-- **C247 (it ends).** When no object contains itself, tainting succeeds within a session, in as many nested calls as the objects are deep. -/
theorem C247_succeeds (m : Mem) (r : Nat → Nat) (hr : Ranked m r) (v : Val) (n : Nat) (hn : ∀ a, v = .ref a → r a + 1 < n) (h1 : 1 ≤ n) : ∃ p, taint true n m v = .ok p := by
  induction n generalizing m v with
  | zero => omega
  | succ n ih =>
    simp only [taint]
    split
    · exact ⟨_, rfl⟩
    · simp only [Bool.not_true, Bool.false_eq_true, if_false]
      split
      · exact ⟨_, rfl⟩
      · rename_i a _
        split
        · rename_i l hl
          have hl' : (m ++ [Cell.tainted (.ref a)])[a]? = some (.box l) := by
            rw [List.getElem?_append_left (List.getElem?_eq_some_iff.1 hl).1]; exact hl
          have hna := hn a rfl
          obtain ⟨m', hm'⟩ := loop_ok (r := r) (taint_post true n) a (fun m1 hr1 x hx => by
            by_cases ht : Tainted m1 x
            · cases n with
              | zero => omega
              | succ k => exact ⟨(m1, x), by simp [taint, (isTainted_iff _ _).2 ht]⟩
            · exact ih m1 hr1 x (fun b hb => by rcases hx b hb with h | h; exact absurd h ht; omega) (by omega)) (List.range l.length) _ l
              (ranked_ext (Ext.alloc _ _) hr) hl' (by simp)
          rw [hm']
          exact ⟨_, rfl⟩
        · exact ⟨_, rfl⟩

theorem closed_ext {m m' : Mem} {S : Nat → Prop} (h : Ext m m') (hr : Closed m S) : Closed m' S := by
  intro a items hS ha b hb hnt
  by_cases hlt : a < m.length
  · have h5 : m[a]? = some m[a] := List.getElem?_eq_getElem hlt
    cases hc : m[a] with
    | tainted u => rw [hc] at h5; rw [h.2.1 a u h5] at ha; simp at ha
    | tuple l => rw [hc] at h5; rw [h.2.2.1 a l h5] at ha; simp at ha
    | box l =>
      rw [hc] at h5
      obtain ⟨l', hl', e, rr⟩ := h.2.2.2.1 a l h5
      rw [ha] at hl'; cases hl'
      obtain ⟨j, hj, hjx⟩ := List.getElem_of_mem hb
      have hj' : items[j]? = some (.ref b) := by rw [← hjx]; exact List.getElem?_eq_getElem hj
      have h3 : l[j]? = some l[j] := List.getElem?_eq_getElem (by omega)
      rcases rr j _ _ h3 hj' with e | ⟨_, t, e, ht⟩
      · refine hr a l hS h5 b ?_ (fun hx => hnt (h.tainted hx))
        rw [e]; exact List.getElem_mem _
      · cases e
        exact absurd ⟨b, _, rfl, ht⟩ hnt
  · obtain ⟨v, hv⟩ := h.2.2.2.2 a (by omega) (List.getElem?_eq_some_iff.1 ha).1
    rw [ha] at hv; simp at hv

theorem loop_untouched {S : Nat → Prop} {f : Mem → Val → Except Err (Mem × Val)} (hp : ∀ m v m' w, f m v = .ok (m', w) → Post m m' v w) (a : Nat) (hS : S a)
    (hf : ∀ m v m' w, Closed m S → f m v = .ok (m', w) → (∀ c, v = .ref c → Tainted m v ∨ S c) → ∀ b, b < m.length → ¬ S b → m'[b]? = m[b]?) :
    ∀ (is : List Nat) (m m' : Mem) (l : List Val), Closed m S → m[a]? = some (.box l) → loop f a is m = .ok m' → ∀ b, b < m.length → ¬ S b → m'[b]? = m[b]? := by
  intro is
  induction is with
  | nil => intro m m' l _ _ h b _ _; simp only [loop, Except.ok.injEq] at h; rw [h]
  | cons i is ih =>
    intro m m' l hc ha h b hb hnb
    simp only [loop] at h
    cases hx : item m a i with
    | none => rw [hx] at h; simp at h
    | some x =>
      rw [hx] at h
      dsimp only at h
      cases hfx : f m x with
      | error e => rw [hfx] at h; simp at h
      | ok p =>
        obtain ⟨m1, w⟩ := p
        rw [hfx] at h
        dsimp only at h
        have hi : l[i]? = some x := by simpa [item, ha] using hx
        have hpost := hp _ _ _ _ hfx
        have he := hpost.1.store ha hi hpost.2.1
        obtain ⟨l1, hl1, _, _⟩ := hpost.1.2.2.2.1 a l ha
        have hs : (store m1 a i w)[a]? = some (.box (l1.set i w)) := by rw [store_get hl1]; simp
        have h1 := hf m x m1 w hc hfx (fun c hcx => by
          by_cases ht : Tainted m x
          · exact Or.inl ht
          · exact Or.inr (hc a l hS ha c (by rw [← hcx]; exact List.mem_of_getElem? hi) (by rw [← hcx]; exact ht))) b hb hnb
        have h2 := ih _ _ _ (closed_ext he hc) hs h b (Nat.lt_of_lt_of_le hb he.1) hnb
        rw [h2, store_get hl1, if_neg (by rintro rfl; exact hnb hS), h1]

/-- **C247 (nothing else).** Objects that are not part of what is tainted are left as they are: take any set of objects that has the one tainted and, with each list, its elements that are not tainted yet;
the objects outside of it are the same afterwards. -/
theorem C247_untouched (session : Bool) (S : Nat → Prop) (n : Nat) (m : Mem) (v : Val) (m' : Mem) (w : Val) (hc : Closed m S) (h : taint session n m v = .ok (m', w))
    (hv : ∀ c, v = .ref c → Tainted m v ∨ S c) : ∀ b, b < m.length → ¬ S b → m'[b]? = m[b]? := by
  induction n generalizing m v m' w with
  | zero => simp [taint] at h
  | succ n ih =>
    intro b hb hnb
    have key : ∀ c : Cell, (m ++ [c])[b]? = m[b]? := fun c => List.getElem?_append_left hb
    simp only [taint] at h
    split at h
    · cases h; rfl
    · rename_i ht
      split at h
      · simp at h
      · cases v with
        | atom k => cases h; exact key _
        | ref a =>
          dsimp only at h
          split at h
          · rename_i l hl
            cases hlp : loop (taint session n) a (List.range l.length) (m ++ [.tainted (.ref a)]) with
            | error e => rw [hlp] at h; simp at h
            | ok m2 =>
              rw [hlp] at h
              cases h
              have hl' : (m ++ [Cell.tainted (.ref a)])[a]? = some (.box l) := by
                rw [List.getElem?_append_left (List.getElem?_eq_some_iff.1 hl).1]; exact hl
              have hSa : S a := by
                rcases hv a rfl with h | h
                · exact absurd ((isTainted_iff _ _).2 h) ht
                · exact h
              rw [loop_untouched (S := S) (taint_post session n) a hSa (fun m v m' w h1 h2 h3 => ih m v m' w h1 h2 h3) _ _ _ l (closed_ext (Ext.alloc _ _) hc) hl' hlp b (by simp; omega) hnb]
              exact key _
          · cases h; exact key _

/-- **C247 (session).** Out of a session nothing can be tainted: RuntimeError is raised, unless the object is tainted already. -/
theorem C247_needs_session (n : Nat) (m : Mem) (v : Val) : taint false (n + 1) m v = (if isTainted m v then .ok (m, v) else .error .runtimeError) := by
  simp [taint]

/-- **C247 (calculating).** A number added to a tainted one within a session gives a tainted object that is worth the sum; to one that is not tainted, the sum, in any case. -/
theorem C247_sum (session : Bool) (m : Mem) (b : Nat) (j k : Int) (hb : m[b]? = some (.tainted (.atom j))) :
    (∃ m' w, add true m (.ref b) k = .ok (m', w) ∧ Tainted m' w ∧ Worth m' w (.num (j + k))) ∧ add session m (.atom j) k = .ok (m, .atom (j + k)) := by
  have hacc : access m (.ref b) = .atom j := by simp only [access, hb]
  have ht : isTainted m (.ref b) = true := by simp only [isTainted, hb]
  refine ⟨⟨m ++ [.tainted (.atom (j + k))], .ref m.length, ?_, ?_, ?_⟩, by simp [add, access, isTainted]⟩
  · simp [add, hacc, taint, isTainted, hb]
  · exact ⟨m.length, .atom (j + k), rfl, by simp⟩
  · exact .tainted _ (.atom (j + k)) _ (by simp) (.atom _)

example : add true [.tainted (.atom 3)] (.ref 0) 4 = .ok ([.tainted (.atom 3), .tainted (.atom 7)], .ref 1) := rfl

/-- **C247 (reading and assigning elements).** Reading the element `i` of a tainted list or tuple taints the element that is there, and raises IndexError only if there is none; assigning to the element `i` of a tainted list succeeds if there is
one and what is assigned can be tainted.  Neither needs more than the tainting itself. -/
theorem C247_elements_when (session : Bool) (n : Nat) (m : Mem) (b a i : Nat) (l : List Val) (hb : m[b]? = some (.tainted (.ref a))) (hl : m[a]? = some (.box l) ∨ m[a]? = some (.tuple l)) :
    (l.length ≤ i → getItem session n m (.ref b) i = .error .indexError) ∧
    (∀ u, l[i]? = some u → getItem session n m (.ref b) i = taint session n m u) ∧
    (m[a]? = some (.box l) → ∀ y, (∃ p, taint session n m y = .ok p) → ((∃ m', setItem session n m (.ref b) i y = .ok m') ↔ i < l.length)) := by
  have hacc : access m (.ref b) = .ref a := by simp only [access, hb]
  have hitem : item m a i = l[i]? := by rcases hl with hl | hl <;> simp only [item, hl]
  refine ⟨fun h => ?_, fun u hu => ?_, fun hbox y hy => ?_⟩
  · simp only [getItem, hacc, hitem, List.getElem?_eq_none h]
  · simp only [getItem, hacc, hitem, hu]
  · obtain ⟨⟨m1, w⟩, hp⟩ := hy
    obtain ⟨l1, hl1, e1, _⟩ := (taint_post _ _ _ _ _ _ hp).1.2.2.2.1 a l hbox
    have hi1 : item m1 a i = l1[i]? := by simp only [item, hl1]
    simp only [setItem, hp, hacc, hi1]
    by_cases hc : i < l.length
    · have : (l1[i]?).isSome := by rw [List.getElem?_eq_getElem (by omega)]; rfl
      rw [if_pos this]; exact ⟨fun _ => hc, fun _ => ⟨_, rfl⟩⟩
    · have : (l1[i]?).isSome = false := by rw [List.getElem?_eq_none (by omega)]; rfl
      rw [this]
      simp [hc]

/-- a tainted tuple, and a tainted list -/
example : getItem true 3 [.tuple [.atom 5], .tainted (.ref 0)] (.ref 1) 0 = .ok ([.tuple [.atom 5], .tainted (.ref 0), .tainted (.atom 5)], .ref 2) := rfl
example : (∃ m', setItem true 3 [.box [.atom 5], .tainted (.ref 0)] (.ref 1) 0 (.atom 6) = .ok m') ∧ ¬ ∃ m', setItem true 3 [.box [.atom 5], .tainted (.ref 0)] (.ref 1) 1 (.atom 6) = .ok m' := by
  refine ⟨⟨_, rfl⟩, ?_⟩
  rintro ⟨m', h⟩
  simp [setItem, taint, isTainted, access, item] at h

/-- **C247 (elements).** An element read from a tainted list or tuple is tainted, and is the element that is there; an element assigned to a tainted list is there afterwards, tainted. -/
theorem C247_elements (session : Bool) (n : Nat) (m : Mem) (x : Val) (i : Nat) :
    (∀ m' w, getItem session n m x i = .ok (m', w) → Tainted m' w ∧
      ∃ a u, access m x = .ref a ∧ item m a i = some u ∧ (∀ t, Worth m u t → Worth m' w t) ∧ (∀ u t, Worth m u t → Worth m' u t)) ∧
    (∀ y m', setItem session n m x i y = .ok m' → ∃ a w, access m x = .ref a ∧ (∀ l, m[a]? = some (.box l) → item m' a i = some w ∧ Tainted m' w ∧ access m' w = access m y)) := by
  constructor
  · intro m' w h
    unfold getItem at h
    split at h
    · simp at h
    · rename_i a ha
      split at h
      · simp at h
      · rename_i u hu
        have := C247_same_contents _ _ _ _ _ _ h
        exact ⟨this.2.2.1, a, u, ha, hu, this.2.2.2.1, this.1⟩
  · intro y m' h
    unfold setItem at h
    split at h
    · simp at h
    · rename_i m1 w hw
      split at h
      · simp at h
      · rename_i a ha
        split at h
        · rename_i hs
          cases h
          have hp := taint_post _ _ _ _ _ _ hw
          refine ⟨a, w, ha, fun l hl => ?_⟩
          obtain ⟨l1, hl1, e1, _⟩ := hp.1.2.2.2.1 a l hl
          have hil : i < l1.length := by
            simp only [item, hl1] at hs
            by_cases hc : i < l1.length
            · exact hc
            · rw [List.getElem?_eq_none (by omega)] at hs; simp at hs
          have hget : ∀ (b : Nat) (u : Val), m1[b]? = some (.tainted u) → (store m1 a i w)[b]? = some (.tainted u) := by
            intro b u hb
            rw [store_get hl1]
            split
            · rename_i e; subst e; rw [hl1] at hb; simp at hb
            · exact hb
          refine ⟨?_, ?_, ?_⟩
          · simp only [item, store_get hl1, if_true]
            rw [List.getElem?_set]; simp [hil]
          · obtain ⟨b, u, rfl, hu⟩ := hp.tainted
            exact ⟨b, u, rfl, hget b u hu⟩
          · rcases hp.2.1 with ⟨rfl, b, u, rfl, hu⟩ | ⟨hnt, b, rfl, hb⟩
            · simp only [access, hu, hget b u (hp.1.2.1 b u hu)]
            · simp only [access, hget b _ hb]
              cases y with
              | atom k => rfl
              | ref c =>
                dsimp only
                split
                · rename_i u hu; exact absurd ⟨c, u, rfl, hu⟩ hnt
                · rfl
        · simp at h

/-- a list of a number and of a list, that is there twice, and of a tuple -/
def sample : Mem := [.box [.ref 1, .ref 2, .ref 1], .box [.atom 1, .atom 2], .tuple [.atom 3]]

/-- nothing is tainted in it; it has ranks; all is tainted afterwards but for the element of the tuple, and the list that was there twice is still one list -/
example : (∀ u, ¬ Tainted sample u) ∧ Ranked sample (fun a => if a = 0 then 1 else 0) ∧
    Closed sample (fun a => a < 3) ∧
    taint true 3 sample (.ref 0) = .ok ([.box [.ref 4, .ref 7, .ref 8], .box [.ref 5, .ref 6], .tuple [.atom 3], .tainted (.ref 0), .tainted (.ref 1), .tainted (.atom 1), .tainted (.atom 2),
      .tainted (.ref 2), .tainted (.ref 1)], .ref 3) := by
  refine ⟨?_, ?_, ?_, by rfl⟩
  · rintro u ⟨a, v, -, h⟩
    match a, h with
    | 0, h => simp [sample] at h
    | 1, h => simp [sample] at h
    | 2, h => simp [sample] at h
    | a + 3, h => simp [sample] at h
  · intro a items h b hb _
    match a, h with
    | 0, h =>
      simp [sample] at h; subst h
      simp at hb
      rcases hb with rfl | rfl | rfl <;> decide
    | 1, h => simp [sample] at h; subst h; simp at hb
    | 2, h => simp [sample] at h
    | a + 3, h => simp [sample] at h
  · intro a items _ h b hb _
    match a, h with
    | 0, h =>
      simp [sample] at h; subst h
      simp at hb
      rcases hb with rfl | rfl | rfl <;> decide
    | 1, h => simp [sample] at h; subst h; simp at hb
    | 2, h => simp [sample] at h
    | a + 3, h => simp [sample] at h

/-- **C248 (tainting ends).** Structures that do not contain themselves can be tainted: so many nested calls suffice as they are deep. -/
theorem C248_succeeds_partial (m : Mem) (r : Nat → Nat) (hr : Ranked m r) (a n : Nat) (hn : r a + 1 < n) : ∃ m' w, taint true n m (.ref a) = .ok (m', w) := by
  obtain ⟨⟨m', w⟩, h⟩ := C247_succeeds m r hr (.ref a) n (fun b e => by cases e; exact hn) (by omega)
  exact ⟨m', w, h⟩

/-- **C248 (after the session).** Elements of lists that were not part of anything tainted are as before, and can be calculated with. -/
theorem C248_end_partial (n : Nat) (m : Mem) (v : Val) (m' : Mem) (w : Val) (S : Nat → Prop) (hc : Closed m S) (hv : ∀ c, v = .ref c → Tainted m v ∨ S c) (h : taint true n m v = .ok (m', w))
    (l : Nat) (items : List Val) (hl : m[l]? = some (.box items)) (hS : ¬ S l) (i : Nat) (j k : Int) (hi : items[i]? = some (.atom j)) :
    item m' l i = some (.atom j) ∧ add false m' (.atom j) k = .ok (m', .atom (j + k)) := by
  have := C247_untouched true S n m v m' w hc h hv l (List.getElem?_eq_some_iff.1 hl).1 hS
  refine ⟨by simp [item, this, hl, hi], by simp [add, access, isTainted]⟩

/-- **C248 (cycles).** A list that contains itself cannot be tainted: however deep calls may be, RecursionError is raised. -/
theorem C248_violates_cycle : ∃ (m : Mem) (v : Val), (∀ u, ¬ Tainted m u) ∧ ∀ n, taint true n m v = .error .recursionError := by
  refine ⟨[.box [.ref 0]], .ref 0, ?_, ?_⟩
  · rintro u ⟨a, v, -, h⟩
    cases a <;> simp at h
  · have key : ∀ n (m : Mem), m[0]? = some (.box [.ref 0]) → taint true n m (.ref 0) = .error .recursionError := by
      intro n
      induction n with
      | zero => intro m _; rfl
      | succ n ih =>
        intro m hm
        have h1 : (m ++ [Cell.tainted (.ref 0)])[0]? = some (.box [.ref 0]) := by
          rw [List.getElem?_append_left (List.getElem?_eq_some_iff.1 hm).1]; exact hm
        have h2 : item (m ++ [Cell.tainted (.ref 0)]) 0 0 = some (.ref 0) := by simp only [item, h1]; rfl
        have h3 : isTainted m (.ref 0) = false := by simp only [isTainted, hm]
        have h4 : List.range ([Val.ref 0].length) = [0] := rfl
        simp only [taint, h3, Bool.false_eq_true, if_false, Bool.not_true, hm, h4, loop, h2, ih _ h1]
    exact fun n => key n _ rfl

/-- **C248 (after the session).** The documentation has it that taints are invalidated at the end of the session.  They are not: a list of a program, tainted in a session, has tainted elements after it; and the program, which could
calculate with them before, gets RuntimeError now. -/
theorem C248_violates_end : ∃ (m : Mem) (l : Nat) (x y : Val) (m' : Mem) (w : Val), (∀ u, ¬ Tainted m u) ∧ item m l 0 = some x ∧ (∃ p, add false m x 5 = .ok p) ∧
    taint true 2 m (.ref l) = .ok (m', w) ∧ item m' l 0 = some y ∧ Tainted m' y ∧ add false m' y 5 = .error .runtimeError := by
  refine ⟨[.box [.atom 1]], 0, .atom 1, .ref 2, [.box [.ref 2], .tainted (.ref 0), .tainted (.atom 1)], .ref 1, ?_, rfl, ⟨_, rfl⟩, rfl, rfl, ⟨2, .atom 1, rfl, rfl⟩, rfl⟩
  rintro u ⟨a, v, -, h⟩
  cases a <;> simp at h

end Verif.TaintHeap
