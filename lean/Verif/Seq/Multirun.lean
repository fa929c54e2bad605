/-!
# In-place operators of Multirun (satella/coding/sequences/sequences.py), C237

Elements are references to objects, so that one object may occur several times.  What an operation does to an object is a parameter.  (Calls of methods are C143 and C144.)
-/
namespace Verif.Multirun

/-! ## Model -/

/-- the augmented assignments of Python: those of /repo/satella/coding/sequences/sequences.py:313-351, and the others -/
inductive Aug where
  | add | sub | mul | truediv | floordiv | lshift | rshift | pow
  | mod | matmul | and | or | xor
deriving DecidableEq

variable {σ ε : Type}

/-- what the sequence is, /repo/satella/coding/sequences/sequences.py:285-290: a list, or an iterator with what is left of it.  Elements are references. -/
inductive Seq where
  | list (l : List Nat)
  | iter (l : List Nat)
deriving DecidableEq

/-- `for element in self`, what is met; /repo/satella/coding/sequences/sequences.py:289-290 -/
def Seq.elems : Seq → List Nat
  | .list l => l
  | .iter l => l

/-- `__bool__`, /repo/satella/coding/sequences/sequences.py:282-283; iterators are always true -/
def Seq.truth : Seq → Bool
  | .list l => !l.isEmpty
  | .iter _ => true

/-- `element op= other` for each element, until one raises: objects afterwards, the elements not looked at, and what was raised.  `f` tells what becomes of the object and whether it raises; the variable
  `element` being local, a new object, if the operation makes one, is lost.  /repo/satella/coding/sequences/sequences.py:314-315 -/
def each (f : σ → σ × Option ε) : List Nat → (Nat → σ) → (Nat → σ) × List Nat × Option ε
  | [], h => (h, [], none)
  | x :: l, h =>
    let h' := fun y => if y = x then (f (h x)).1 else h y
    match (f (h x)).2 with
    | none => each f l h'
    | some e => (h', l, some e)

/-- what is left of the sequence: a list stays; /repo/satella/coding/sequences/sequences.py:289-290 -/
def Seq.left (s : Seq) (rest : List Nat) : Seq :=
  match s with
  | .list l => .list l
  | .iter _ => .iter rest

/-- what an augmented assignment gives: the object the variable then names is the Multirun itself, or an exception, or TypeError since there is no such operator.  (Part of the model of `Multirun`, /repo/satella/coding/sequences/sequences.py:237-351.) -/
inductive Res (ε : Type) where
  | self
  | raised (e : ε)
  | typeError
deriving DecidableEq

/-- the loop of one operator and `return self`, /repo/satella/coding/sequences/sequences.py:313-316 -/
def loop (f : σ → σ × Option ε) (s : Seq) (h : Nat → σ) : (Nat → σ) × Seq × Res ε :=
  let r := each f s.elems h
  (r.1, s.left r.2.1, match r.2.2 with | none => .self | some e => .raised e)

/-- `m op= other`, the eight operators of /repo/satella/coding/sequences/sequences.py:313-351; `f op` is what `element op= other` does.  `__getattr__` is not asked for operators. -/
def aug (f : Aug → σ → σ × Option ε) (op : Aug) (s : Seq) (h : Nat → σ) : (Nat → σ) × Seq × Res ε :=
  match op with
  | .add => loop (f .add) s h
  | .sub => loop (f .sub) s h
  | .mul => loop (f .mul) s h
  | .truediv => loop (f .truediv) s h
  | .floordiv => loop (f .floordiv) s h
  | .lshift => loop (f .lshift) s h
  | .rshift => loop (f .rshift) s h
  | .pow => loop (f .pow) s h
  | _ => (h, s, .typeError)

/-! ## Specification -/

/-- `b` is what becomes of an object that is `a` when the operation is done `n` times, not raising -/
inductive Times (f : σ → σ × Option ε) : Nat → σ → σ → Prop
  | zero (a) : Times f 0 a a
  | succ (n a b c) : Times f n a b → f b = (c, none) → Times f (n + 1) a c

/-- the operation was done on all elements: on each object as often as it occurs -/
def Done (f : σ → σ × Option ε) (l : List Nat) (h h' : Nat → σ) : Prop := ∀ x, Times f (l.count x) (h x) (h' x)

/-- there is such an operator for Multiruns -/
def Known (op : Aug) : Prop := op = .add ∨ op = .sub ∨ op = .mul ∨ op = .truediv ∨ op = .floordiv ∨ op = .lshift ∨ op = .rshift ∨ op = .pow

/-! ## Proofs -/

theorem Times.first {f : σ → σ × Option ε} {n : Nat} {a b c : σ} (hab : f a = (b, none)) (h : Times f n b c) : Times f (n + 1) a c := by
  induction h with
  | zero a' => exact .succ 0 _ _ _ (.zero _) hab
  | succ n a' b' c' _ h2 ih => exact .succ _ _ _ _ (ih hab) h2

theorem each_spec (f : σ → σ × Option ε) (l : List Nat) (h : Nat → σ) :
    ((each f l h).2.2 = none ∧ (each f l h).2.1 = [] ∧ Done f l h (each f l h).1) ∨
    (∃ pre x post mid e, l = pre ++ x :: post ∧ Done f pre h mid ∧ (f (mid x)).2 = some e ∧ (each f l h).2.2 = some e ∧ (each f l h).2.1 = post ∧
      (each f l h).1 x = (f (mid x)).1 ∧ ∀ y, y ≠ x → (each f l h).1 y = mid y) := by
  induction l generalizing h with
  | nil => exact Or.inl ⟨rfl, rfl, fun x => by simpa [each] using Times.zero (f := f) (h x)⟩
  | cons x l ih =>
    cases hx : (f (h x)).2 with
    | some e =>
      refine Or.inr ⟨[], x, l, h, e, rfl, fun y => by simpa using Times.zero (f := f) (h y), hx, ?_, ?_, ?_, ?_⟩
      · simp [each, hx]
      · simp [each, hx]
      · simp [each, hx]
      · intro y hy; simp [each, hx, hy]
    | none =>
      have e1 : each f (x :: l) h = each f l (fun y => if y = x then (f (h x)).1 else h y) := by simp [each, hx]
      have hfx : f (h x) = ((f (h x)).1, none) := by rw [← hx]
      have glue : ∀ (l' : List Nat) (h' : Nat → σ), Done f l' (fun y => if y = x then (f (h x)).1 else h y) h' → Done f (x :: l') h h' := by
        intro l' h' hd y
        have := hd y
        by_cases hy : y = x
        · subst hy
          simp only [if_true] at this
          rw [List.count_cons_self]
          exact this.first hfx
        · simp only [if_neg hy] at this
          rw [List.count_cons_of_ne (fun h => hy h.symm)]
          exact this
      rw [e1]
      rcases ih (fun y => if y = x then (f (h x)).1 else h y) with ⟨a, b, c⟩ | ⟨pre, z, post, mid, e, h1, h2, h3⟩
      · exact Or.inl ⟨a, b, glue _ _ c⟩
      · exact Or.inr ⟨x :: pre, z, post, mid, e, by rw [h1]; rfl, glue _ _ h2, h3⟩

/-- **C237, operators.** `m op= v` does `element op= v` on each element in order: on each object as many times as it occurs; and `m` is then the same Multirun.  If an element raises, that exception is
raised, the elements before it had the operation done, and the ones after it did not. -/
theorem C237_each (f : Aug → σ → σ × Option ε) (op : Aug) (hop : Known op) (s : Seq) (l : List Nat) (hs : s = .list l ∨ s = .iter l) (h : Nat → σ) :
    ((aug f op s h).2.2 = .self ∧ Done (f op) l h (aug f op s h).1) ∨
    (∃ pre x post mid e, l = pre ++ x :: post ∧ Done (f op) pre h mid ∧ (f op (mid x)).2 = some e ∧ (aug f op s h).2.2 = .raised e ∧
      (aug f op s h).1 x = (f op (mid x)).1 ∧ ∀ y, y ≠ x → (aug f op s h).1 y = mid y) := by
  have e1 : aug f op s h = loop (f op) s h := by rcases hop with h | h | h | h | h | h | h | h <;> subst h <;> rfl
  have e2 : s.elems = l := by rcases hs with rfl | rfl <;> rfl
  rw [e1]
  simp only [loop, e2]
  rcases each_spec (f op) l h with ⟨a, _, c⟩ | ⟨pre, x, post, mid, e, h1, h2, h3, h4, h5, h6, h7⟩
  · exact Or.inl ⟨by rw [a], c⟩
  · exact Or.inr ⟨pre, x, post, mid, e, h1, h2, h3, by rw [h4], h6, h7⟩

/-- **C237, again.** A list can be used any number of times; of an iterator, that which was met is gone, all of it if nothing raises. -/
theorem C237_sequence (f : Aug → σ → σ × Option ε) (op : Aug) (hop : Known op) (l : List Nat) (h : Nat → σ) :
    (aug f op (.list l) h).2.1 = .list l ∧ ((aug f op (.iter l) h).2.2 = .self → (aug f op (.iter l) h).2.1 = .iter []) ∧
    ∀ e, (aug f op (.iter l) h).2.2 = .raised e → ∃ pre x post, l = pre ++ x :: post ∧ (aug f op (.iter l) h).2.1 = .iter post := by
  have e1 : ∀ s, aug f op s h = loop (f op) s h := by intro s; rcases hop with h | h | h | h | h | h | h | h <;> subst h <;> rfl
  simp only [e1, loop, Seq.left, Seq.elems]
  rcases each_spec (f op) l h with ⟨a, b, c⟩ | ⟨pre, x, post, mid, e, h1, h2, h3, h4, h5, h6, h7⟩
  · refine ⟨trivial, fun _ => by rw [b], fun e he => ?_⟩
    rw [a] at he; cases he
  · refine ⟨trivial, fun he => ?_, fun _ _ => ⟨pre, x, post, h1, by rw [h5]⟩⟩
    rw [h4] at he; cases he

/-- **C237, other operators.** There are none for `%`, `@`, `&`, `|` and `^`: TypeError, and nothing is done, although elements may know them. -/
theorem C237_unknown (f : Aug → σ → σ × Option ε) (op : Aug) (hop : ¬ Known op) (s : Seq) (h : Nat → σ) : aug f op s h = (h, s, .typeError) := by
  cases op <;> first | rfl | exact absurd (by simp [Known]) hop

/-- **C237, elements that cannot be changed** (numbers, strings, tuples): nothing is changed, and `m` is the same Multirun. -/
theorem C237_immutable (f : Aug → σ → σ × Option ε) (op : Aug) (hop : Known op) (hf : ∀ a, f op a = (a, none)) (s : Seq) (h : Nat → σ) (x : Nat) : (aug f op s h).2.2 = .self ∧ (aug f op s h).1 x = h x := by
  have same : ∀ n a b, Times (f op) n a b → b = a := by
    intro n a b ht
    induction ht with
    | zero => rfl
    | succ n a b c _ h2 ih => rw [hf b] at h2; cases h2; exact ih
  have hs : ∃ l, s = .list l ∨ s = .iter l := by cases s with | list l => exact ⟨l, Or.inl rfl⟩ | iter l => exact ⟨l, Or.inr rfl⟩
  obtain ⟨l, hl⟩ := hs
  rcases C237_each f op hop s l hl h with ⟨a, b⟩ | ⟨_, _, _, mid, e, _, _, h3, _⟩
  · exact ⟨a, same _ _ _ (b x)⟩
  · rw [hf] at h3; cases h3

/-- **C237, truth.** A Multirun of a list is true exactly if the list has elements, that of an iterator always. -/
theorem C237_truth (l : List Nat) : ((Seq.list l).truth = true ↔ ∃ x, x ∈ l) ∧ (Seq.iter l).truth = true := by
  refine ⟨?_, rfl⟩
  cases l <;> simp [Seq.truth]

/-! Cases that meet the hypotheses: `+=` adds 3, but not to more than 9; an object occurs twice -/

/-- objects are numbers that can be changed in place -/
def sample : Aug → Nat → Nat × Option String := fun op a => if op = .add then (if a > 9 then (a, some "full") else (a + 3, none)) else (a, none)

example : (aug sample .add (.list [0, 1, 0]) (fun x => x)).1 0 = 6 ∧ (aug sample .add (.list [0, 1, 0]) (fun x => x)).1 1 = 4 ∧ (aug sample .add (.list [0, 1, 0]) (fun x => x)).2 = (.list [0, 1, 0], .self) := by decide
example : (aug sample .add (.iter [0, 10, 1]) (fun x => x)).1 0 = 3 ∧ (aug sample .add (.iter [0, 10, 1]) (fun x => x)).1 1 = 1 ∧ (aug sample .add (.iter [0, 10, 1]) (fun x => x)).2 = (.iter [1], .raised "full") := by decide
example : Known .pow ∧ ¬ Known .mod ∧ ∀ a, sample .pow a = (a, none) := ⟨by simp [Known], by simp [Known], fun _ => rfl⟩

end Verif.Multirun
