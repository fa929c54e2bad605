/-!
# build_structure (satella/coding/predicates.py), C93
-/
namespace Verif.PredBuild

variable {α ε : Type}

mutual
/-- a structure that may have predicates in it: a predicate, a list or a tuple (or another sequence, numbered), a dictionary, a string, something wrapped in HashableWrapper, or another value, /repo/satella/coding/predicates.py:260-283 -/
inductive S (α ε : Type) where
  | pred (f : α → Except ε α)
  | seq (kind : Nat) (l : Ss α ε)
  | dict (l : Ds α ε)
  | str (s : String)
  | wrapped (s : S α ε)
  | val (a : α)
/-- elements.  (Part of the model of `build_structure`, /repo/satella/coding/predicates.py:237-284.) -/
inductive Ss (α ε : Type) where
  | nil
  | cons (s : S α ε) (rest : Ss α ε)
/-- items.  (Part of the model of `build_structure`, /repo/satella/coding/predicates.py:237-284.) -/
inductive Ds (α ε : Type) where
  | nil
  | cons (k v : S α ε) (rest : Ds α ε)
end

/-- what is built, /repo/satella/coding/predicates.py:256-284; a dictionary as its items in order -/
inductive O (α : Type) where
  | val (a : α)
  | seq (kind : Nat) (l : List (O α))
  | dict (l : List (O α × O α))
  | str (s : String)

/-- exceptions: of a predicate, UnboundLocalError, RecursionError, /repo/satella/coding/predicates.py:263-284 -/
inductive Err (ε : Type) where
  | raised (e : ε)
  | unboundLocal
  | recursion
deriving DecidableEq

mutual
/-- `build_structure(struct, argument, None, True)`, /repo/satella/coding/predicates.py:258-284.  A string is a sequence, whose elements are strings: so it never ends (RecursionError), save for the empty one, for which `str([])` is built.
  The loop over a dictionary ends with `break` after the first item; without items `f` has no value.
  Simplification: the key that is built is taken to be hashable (a wrapped list as a key gives a list, which is not). -/
def build (v : α) : S α ε → Except (Err ε) (O α)
  | .pred f =>
    match f v with
    | .ok a => .ok (.val a)
    | .error e => .error (.raised e)
  | .seq kind l => do let r ← buildAll v l; .ok (.seq kind r)
  | .dict .nil => .error .unboundLocal
  | .dict (.cons k x _) => do let k' ← build v k; let x' ← build v x; .ok (.dict [(k', x')])
  | .str s => if s = "" then .ok (.str "[]") else .error .recursion
  | .wrapped s => build v s
  | .val a => .ok (.val a)
/-- the loop over a sequence, /repo/satella/coding/predicates.py:269-276 -/
def buildAll (v : α) : Ss α ε → Except (Err ε) (List (O α))
  | .nil => .ok []
  | .cons s rest => do let o ← build v s; let r ← buildAll v rest; .ok (o :: r)
end

/-! ## Specification -/

mutual
/-- `o` is the structure, with every predicate replaced by its value for `v` -/
def Corresponds (v : α) : S α ε → O α → Prop
  | .pred f, o => ∃ a, f v = .ok a ∧ o = .val a
  | .seq kind l, o => ∃ r, o = .seq kind r ∧ AllCorrespond v l r
  | .dict l, o => ∃ r, o = .dict r ∧ ItemsCorrespond v l r
  | .str s, o => o = .str s
  | .wrapped s, o => Corresponds v s o
  | .val a, o => o = .val a
/-- element by element -/
def AllCorrespond (v : α) : Ss α ε → List (O α) → Prop
  | .nil, r => r = []
  | .cons s rest, r => ∃ o t, r = o :: t ∧ Corresponds v s o ∧ AllCorrespond v rest t
/-- item by item -/
def ItemsCorrespond (v : α) : Ds α ε → List (O α × O α) → Prop
  | .nil, r => r = []
  | .cons k x rest, r => ∃ o p t, r = (o, p) :: t ∧ Corresponds v k o ∧ Corresponds v x p ∧ ItemsCorrespond v rest t
end

mutual
/-- no strings, and every dictionary has exactly one item -/
def Simple : S α ε → Prop
  | .pred _ => True
  | .seq _ l => AllSimple l
  | .dict .nil => False
  | .dict (.cons k x .nil) => Simple k ∧ Simple x
  | .dict (.cons _ _ (.cons _ _ _)) => False
  | .str _ => False
  | .wrapped s => Simple s
  | .val _ => True
/-- all of them -/
def AllSimple : Ss α ε → Prop
  | .nil => True
  | .cons s rest => Simple s ∧ AllSimple rest
end

/-! ## Proofs -/

mutual
theorem build_corr (v : α) : ∀ s : S α ε, Simple s → (∀ o, build v s = .ok o ↔ Corresponds v s o) ∧ (∀ x, build v s = .error x → ∃ e, x = .raised e)
  | .pred f, _ => by
    simp only [build, Corresponds]
    cases h : f v with
    | ok a => exact ⟨by intro o; constructor <;> intro h <;> simp_all, by intro x h; cases h⟩
    | error e => exact ⟨by intro o; constructor <;> intro h <;> simp_all, by intro x h; injection h with h; exact ⟨e, h.symm⟩⟩
  | .seq kind l, h => by
    simp only [Simple] at h
    obtain ⟨h1, h2⟩ := buildAll_corr v l h
    simp only [build, Corresponds]
    cases hb : buildAll v l with
    | ok r =>
      refine ⟨?_, by intro x h; cases h⟩
      intro o
      simp only [bind, Except.bind, Except.ok.injEq]
      constructor
      · rintro rfl; exact ⟨r, rfl, (h1 r).1 hb⟩
      · rintro ⟨r', rfl, hr⟩
        have := (h1 r').2 hr
        rw [hb] at this; injection this with this; rw [this]
    | error e =>
      refine ⟨?_, by intro x h; injection h with h; subst h; exact h2 e hb⟩
      intro o
      constructor
      · intro h; cases h
      · rintro ⟨r', rfl, hr⟩
        have := (h1 r').2 hr
        rw [hb] at this; cases this
  | .dict .nil, h => by simp only [Simple] at h
  | .dict (.cons k x .nil), h => by
    simp only [Simple] at h
    obtain ⟨k1, k2⟩ := build_corr v k h.1
    obtain ⟨x1, x2⟩ := build_corr v x h.2
    simp only [build, Corresponds, ItemsCorrespond]
    cases hk : build v k with
    | error e =>
      refine ⟨?_, by intro x h; injection h with h; subst h; exact k2 e hk⟩
      intro o
      constructor
      · intro h; cases h
      · rintro ⟨_, rfl, o', p, t, rfl, hc, _⟩
        have := (k1 o').2 hc
        rw [hk] at this; cases this
    | ok ko =>
      cases hx : build v x with
      | error e =>
        refine ⟨?_, by intro y h; injection h with h; subst h; exact x2 e hx⟩
        intro o
        constructor
        · intro h; cases h
        · rintro ⟨_, rfl, o', p, t, rfl, _, hc, _⟩
          have := (x1 p).2 hc
          rw [hx] at this; cases this
      | ok xo =>
        refine ⟨?_, by intro x h; cases h⟩
        intro o
        simp only [bind, Except.bind, Except.ok.injEq]
        constructor
        · rintro rfl
          exact ⟨_, rfl, ko, xo, [], rfl, (k1 ko).1 hk, (x1 xo).1 hx, rfl⟩
        · rintro ⟨_, rfl, o', p, t, rfl, hc, hc', rfl⟩
          have e1 := (k1 o').2 hc
          have e2 := (x1 p).2 hc'
          rw [hk] at e1; injection e1 with e1
          rw [hx] at e2; injection e2 with e2
          rw [e1, e2]
  | .dict (.cons _ _ (.cons _ _ _)), h => by simp only [Simple] at h
  | .str _, h => by simp only [Simple] at h
  | .wrapped s, h => by
    simp only [Simple] at h
    have := build_corr v s h
    simpa only [build, Corresponds] using this
  | .val a, _ => by
    simp only [build, Corresponds]
    exact ⟨by intro o; constructor <;> intro h <;> simp_all, by intro x h; cases h⟩
theorem buildAll_corr (v : α) : ∀ l : Ss α ε, AllSimple l → (∀ r, buildAll v l = .ok r ↔ AllCorrespond v l r) ∧ (∀ x, buildAll v l = .error x → ∃ e, x = .raised e)
  | .nil, _ => by
    simp only [buildAll, AllCorrespond]
    exact ⟨by intro o; constructor <;> intro h <;> simp_all, by intro x h; cases h⟩
  | .cons s rest, h => by
    simp only [AllSimple] at h
    obtain ⟨k1, k2⟩ := build_corr v s h.1
    obtain ⟨x1, x2⟩ := buildAll_corr v rest h.2
    simp only [buildAll, AllCorrespond]
    cases hk : build v s with
    | error e =>
      refine ⟨?_, by intro x h; injection h with h; subst h; exact k2 e hk⟩
      intro o
      constructor
      · intro h; cases h
      · rintro ⟨o', t, rfl, hc, _⟩
        have := (k1 o').2 hc
        rw [hk] at this; cases this
    | ok ko =>
      cases hx : buildAll v rest with
      | error e =>
        refine ⟨?_, by intro y h; injection h with h; subst h; exact x2 e hx⟩
        intro o
        constructor
        · intro h; cases h
        · rintro ⟨o', t, rfl, _, hc⟩
          have := (x1 t).2 hc
          rw [hx] at this; cases this
      | ok xo =>
        refine ⟨?_, by intro x h; cases h⟩
        intro o
        simp only [bind, Except.bind, Except.ok.injEq]
        constructor
        · rintro rfl
          exact ⟨ko, xo, rfl, (k1 ko).1 hk, (x1 xo).1 hx⟩
        · rintro ⟨o', t, rfl, hc, hc'⟩
          have e1 := (k1 o').2 hc
          have e2 := (x1 t).2 hc'
          rw [hk] at e1; injection e1 with e1
          rw [hx] at e2; injection e2 with e2
          rw [e1, e2]
end

/-- **C93** (partial: no strings, and every dictionary has exactly one item). The structure built is the one given, with every predicate replaced by its value; the only exceptions are those of predicates. -/
theorem C93_build_partial (v : α) (s : S α ε) (h : Simple s) : (∀ o, build v s = .ok o ↔ Corresponds v s o) ∧ (∀ x, build v s = .error x → ∃ e, x = .raised e) :=
  build_corr v s h

/-- **C93, violated by dictionaries**: whatever items a dictionary has after the first one, they are not built. -/
theorem C93_dict_violates (v : α) (k x k2 x2 : S α ε) (rest : Ds α ε) (o : O α) (h : build v (.dict (.cons k x (.cons k2 x2 rest))) = .ok o) :
    ¬ Corresponds v (.dict (.cons k x (.cons k2 x2 rest))) o := by
  simp only [build] at h
  cases hk : build v k with
  | error e => rw [hk] at h; cases h
  | ok ko =>
    cases hx : build v x with
    | error e => rw [hk, hx] at h; cases h
    | ok xo =>
      rw [hk, hx] at h
      injection h with h
      subst h
      simp only [Corresponds, ItemsCorrespond]
      rintro ⟨r, h1, o, p, t, rfl, _, _, o', p', t', rfl, _⟩
      injection h1 with h1
      simp at h1

/-- **C93, violated by the empty dictionary and by strings**: UnboundLocalError, RecursionError, and for the empty string something else. -/
theorem C93_other_violates (v : α) :
    build v (.dict .nil : S α ε) = .error .unboundLocal ∧ (∀ s, s ≠ "" → build v (.str s : S α ε) = .error .recursion) ∧ build v (.str "" : S α ε) = .ok (.str "[]") := by
  refine ⟨by simp [build], ?_, by simp [build]⟩
  intro s hs
  simp [build, hs]

/-! A case that meets the hypotheses: `[x + 1, ({x: 5},)]` -/
example : Simple (.seq 0 (.cons (.pred (fun v => .ok (v + 1))) (.cons (.seq 1 (.cons (.dict (.cons (.pred .ok) (.val 5) .nil)) .nil)) .nil)) : S Nat Unit) := by
  simp [Simple, AllSimple]
example : build 2 (.seq 0 (.cons (.pred (fun v => .ok (v + 1))) (.cons (.seq 1 (.cons (.dict (.cons (.pred .ok) (.val 5) .nil)) .nil)) .nil)) : S Nat Unit)
    = .ok (.seq 0 [.val 3, .seq 1 [.dict [(.val 2, .val 5)]]]) := by
  simp [build, buildAll, bind, Except.bind]

end Verif.PredBuild
