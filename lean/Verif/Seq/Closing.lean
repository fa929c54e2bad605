/-!
# Generators that are exhausted when closed, chaining (satella/coding/iterators.py), C151, C152

The body of a generator is what it yields, in order, and how it ends; whatever else it does between these happens along.
-/
namespace Verif.Closing

variable {α ε : Type}

/-! ## Model -/

/-- exceptions: TypeError or another, which is not StopIteration; /repo/satella/coding/iterators.py:19, :68, :82 -/
inductive Exc (ε : Type)
  | typeError
  | other (e : ε)
deriving DecidableEq

/-- how a body ends: returns, or raises; /repo/satella/coding/iterators.py:29-33 -/
inductive End (ε : Type)
  | ret
  | raises (e : Exc ε)
deriving DecidableEq

/-- a generator: what it will still yield, how it will end, whether it ended, and what its body did so far; /repo/satella/coding/iterators.py:53 -/
structure Gen (α ε : Type) where
  rest : List α
  ending : End ε
  finished : Bool := false
  did : List α := []

/-- results of calls, /repo/satella/coding/iterators.py:62-88 -/
inductive Res (α ε : Type)
  | value (a : α)
  | none
  | stopIteration
  | exc (e : Exc ε)
deriving DecidableEq

/-- `next(generator)`, also `generator.send(obj)`; /repo/satella/coding/iterators.py:31, :63, :67 -/
def Gen.next (g : Gen α ε) : Gen α ε × Res α ε :=
  if g.finished then (g, .stopIteration)
  else match g.rest with
    | x :: l => ({ g with rest := l, did := g.did ++ [x] }, .value x)
    | [] => ({ g with finished := true }, match g.ending with | .ret => .stopIteration | .raises e => .exc e)

/-- `exhaust`, over what is left; the result is None or what was raised.  /repo/satella/coding/iterators.py:23-33 -/
def exhaustFrom (did : List α) (ending : End ε) : List α → Gen α ε × Res α ε
  | [] => ({ rest := [], ending, finished := true, did }, match ending with | .ret => .none | .raises e => .exc e)
  | x :: l => exhaustFrom (did ++ [x]) ending l

/-- `exhaust`, /repo/satella/coding/iterators.py:23-33 -/
def exhaust (g : Gen α ε) : Gen α ε × Res α ε :=
  if g.finished then (g, .none) else exhaustFrom g.did g.ending g.rest

/-- a SelfClosingGenerator, of a generator or of a generator function; /repo/satella/coding/iterators.py:52-54 -/
structure Closing (α ε : Type) where
  gen : Option (Gen α ε)
  stopped : Bool := false

/-- `__next__`; next() of a function raises TypeError.  /repo/satella/coding/iterators.py:65-70 -/
def Closing.next (c : Closing α ε) : Closing α ε × Res α ε :=
  match c.gen with
  | none => (c, .exc .typeError)
  | some g =>
    let r := g.next
    ({ gen := some r.1, stopped := match r.2 with | .stopIteration => true | _ => c.stopped }, r.2)

/-- `send`, which returns nothing; /repo/satella/coding/iterators.py:62-63.  A generator that has not started only takes None, which is not modelled; a function has no `send`, taken here as a TypeError too. -/
def Closing.send (c : Closing α ε) : Closing α ε × Res α ε :=
  match c.gen with
  | none => (c, .exc .typeError)
  | some g =>
    let r := g.next
    ({ c with gen := some r.1 }, match r.2 with | .value _ => .none | x => x)

/-- `close`, /repo/satella/coding/iterators.py:79-85; also `__exit__` and `__del__`, :75-77, :87-88 -/
def Closing.close (c : Closing α ε) : Closing α ε × Res α ε :=
  if c.stopped then (c, .none)
  else match c.gen with
    | none => ({ c with stopped := true }, .none)
    | some g =>
      let r := exhaust g
      match r.2 with
      | .exc .typeError => ({ gen := some r.1, stopped := true }, .none)
      | .exc (.other e) => ({ c with gen := some r.1 }, .exc (.other e))
      | _ => ({ gen := some r.1, stopped := true }, .none)

/-- calls, /repo/satella/coding/iterators.py:62-88 -/
inductive Op
  | next
  | send
  | close
deriving DecidableEq

/-- one call, /repo/satella/coding/iterators.py:62-88 -/
def Closing.step (c : Closing α ε) : Op → Closing α ε × Res α ε
  | .next => c.next
  | .send => c.send
  | .close => c.close

/-- calls one after another, with their results; /repo/satella/coding/iterators.py:62-88 -/
def Closing.run : Closing α ε → List Op → Closing α ε × List (Res α ε)
  | c, [] => (c, [])
  | c, o :: ops => let r := (c.step o).1.run ops; (r.1, (c.step o).2 :: r.2)

/-- `SelfClosingGenerator(generator)`, /repo/satella/coding/iterators.py:52-54 -/
def Closing.new (yields : List α) (ending : End ε) : Closing α ε := { gen := some { rest := yields, ending } }

/-- an element given to `chain`: not iterable, or what iterating it gives and how that ends; /repo/satella/coding/iterators.py:16-20 -/
inductive Elem (α ε : Type)
  | one (a : α)
  | many (self : α) (l : List α) (ending : End ε)

/-- `chain`: what was yielded, and the exception that ended it, if any; /repo/satella/coding/iterators.py:7-20 -/
def chain : List (Elem α ε) → List α × Option ε
  | [] => ([], none)
  | .one a :: l => let r := chain l; (a :: r.1, r.2)
  | .many _ xs .ret :: l => let r := chain l; (xs ++ r.1, r.2)
  | .many self xs (.raises .typeError) :: l => let r := chain l; (xs ++ self :: r.1, r.2)
  | .many _ xs (.raises (.other e)) :: _ => (xs, some e)

/-- `hint_with_length(generator, length, length_factory)`: `none` is ValueError; /repo/satella/coding/iterators.py:108-117 -/
def hintNew (length : Option Nat) (factory : Option (Unit → Nat)) : Option (Option Nat × Option (Unit → Nat)) :=
  match length, factory with
  | none, none => none
  | some _, some _ => none
  | l, f => some (l, f)

/-- `__length_hint__`; calling None raises TypeError, `none` here.  /repo/satella/coding/iterators.py:134-138 -/
def lengthHint (h : Option Nat × Option (Unit → Nat)) : Option Nat :=
  match h.1 with
  | none => h.2.map (fun f => f ())
  | some n => some n

/-- `__call__`, of a generator function: the new object gets just the length; /repo/satella/coding/iterators.py:119-120 -/
def hintCall (h : Option Nat × Option (Unit → Nat)) : Option (Option Nat × Option (Unit → Nat)) := hintNew h.1 none

/-! ## Proofs -/

theorem exhaustFrom_spec (did : List α) (ending : End ε) (l : List α) : exhaustFrom did ending l = ({ rest := [], ending, finished := true, did := did ++ l }, match ending with | .ret => .none | .raises e => .exc e) := by
  induction l generalizing did with
  | nil => simp [exhaustFrom]
  | cons x l ih => simp [exhaustFrom, ih]

/-- what holds of a SelfClosingGenerator at all times -/
structure Inv (yields : List α) (ending : End ε) (c : Closing α ε) (g : Gen α ε) : Prop where
  gen : c.gen = some g
  all : g.did ++ g.rest = yields
  ending : g.ending = ending
  fin : g.finished = true → g.rest = []
  stopped : c.stopped = true → g.finished = true

theorem next_cases (g : Gen α ε) : (g.finished = true ∧ g.next = (g, .stopIteration)) ∨
    (g.finished = false ∧ ∃ x l, g.rest = x :: l ∧ g.next = ({ g with rest := l, did := g.did ++ [x] }, .value x)) ∨
    (g.finished = false ∧ g.rest = [] ∧ ∃ r, g.next = ({ g with finished := true }, r) ∧ ((g.ending = .ret ∧ r = .stopIteration) ∨ ∃ e, g.ending = .raises e ∧ r = .exc e)) := by
  cases hf : g.finished with
  | true => exact Or.inl ⟨rfl, by simp [Gen.next, hf]⟩
  | false =>
    refine Or.inr ?_
    cases hr : g.rest with
    | cons x l => exact Or.inl ⟨rfl, x, l, rfl, by simp [Gen.next, hf, hr]⟩
    | nil =>
      refine Or.inr ⟨rfl, rfl, ?_⟩
      cases he : g.ending with
      | ret => exact ⟨.stopIteration, by simp [Gen.next, hf, hr, he], Or.inl ⟨rfl, rfl⟩⟩
      | raises e => exact ⟨.exc e, by simp [Gen.next, hf, hr, he], Or.inr ⟨e, rfl, rfl⟩⟩

theorem close_cases (c : Closing α ε) (g : Gen α ε) (hg : c.gen = some g) :
    (c.stopped = true ∧ c.close = (c, .none)) ∨ (c.stopped = false ∧ g.finished = true ∧ c.close = ({ gen := some g, stopped := true }, .none)) ∨
    (c.stopped = false ∧ g.finished = false ∧ ∃ s r, c.close = ({ gen := some { rest := [], ending := g.ending, finished := true, did := g.did ++ g.rest }, stopped := s }, r) ∧
      ((g.ending = .ret ∧ r = .none) ∨ (g.ending = .raises .typeError ∧ r = .none) ∨ ∃ e, g.ending = .raises (.other e) ∧ r = .exc (.other e))) := by
  cases hs : c.stopped with
  | true => exact Or.inl ⟨rfl, by simp [Closing.close, hs]⟩
  | false =>
    refine Or.inr ?_
    cases hf : g.finished with
    | true => exact Or.inl ⟨rfl, rfl, by simp [Closing.close, hs, hg, exhaust, hf]⟩
    | false =>
      refine Or.inr ⟨rfl, rfl, ?_⟩
      cases he : g.ending with
      | ret => exact ⟨true, .none, by simp [Closing.close, hs, hg, exhaust, hf, exhaustFrom_spec, he], Or.inl ⟨rfl, rfl⟩⟩
      | raises e =>
        cases e with
        | typeError => exact ⟨true, .none, by simp [Closing.close, hs, hg, exhaust, hf, exhaustFrom_spec, he], Or.inr (Or.inl ⟨rfl, rfl⟩)⟩
        | other e => exact ⟨false, .exc (.other e), by simp [Closing.close, hs, hg, exhaust, hf, exhaustFrom_spec, he], Or.inr (Or.inr ⟨e, rfl, rfl⟩)⟩

theorem Inv.next {yields : List α} {ending : End ε} {c : Closing α ε} {g : Gen α ε} (h : Inv yields ending c g) (s : Bool) (hs : s = true → c.stopped = true ∨ g.next.2 = .stopIteration) : Inv yields ending { gen := some g.next.1, stopped := s } g.next.1 := by
  obtain ⟨h1, h2, h3, h4, h5⟩ := h
  rcases next_cases g with ⟨a, b⟩ | ⟨a, x, l, b, d⟩ | ⟨a, b, r, d, _⟩
  · rw [b]; exact ⟨rfl, h2, h3, h4, fun _ => a⟩
  · rw [d] at hs ⊢
    refine ⟨rfl, by simp [← h2, b], h3, by simp [a], fun hh => ?_⟩
    rcases hs hh with h | h
    · rw [h5 h] at a; simp at a
    · simp at h
  · rw [d]; exact ⟨rfl, h2, h3, fun _ => b, fun _ => rfl⟩

theorem Inv.step {yields : List α} {ending : End ε} {c : Closing α ε} {g : Gen α ε} (h : Inv yields ending c g) (o : Op) : ∃ g', Inv yields ending (c.step o).1 g' := by
  cases o with
  | next =>
    refine ⟨g.next.1, ?_⟩
    have : (c.step .next).1 = { gen := some g.next.1, stopped := match g.next.2 with | .stopIteration => true | _ => c.stopped } := by
      simp only [Closing.step, Closing.next, h.gen]
    rw [this]
    refine h.next _ (fun hh => ?_)
    split at hh
    · next he => exact Or.inr he
    · exact Or.inl hh
  | send =>
    refine ⟨g.next.1, ?_⟩
    have : (c.step .send).1 = { gen := some g.next.1, stopped := c.stopped } := by
      simp only [Closing.step, Closing.send, h.gen]
    rw [this]
    exact h.next _ Or.inl
  | close =>
    rcases close_cases c g h.gen with ⟨a, b⟩ | ⟨a, f, b⟩ | ⟨a, f, s, r, b, _⟩
    · exact ⟨g, by simp only [Closing.step, b]; exact h⟩
    · exact ⟨g, by simp only [Closing.step, b]; exact ⟨rfl, h.all, h.ending, h.fin, fun _ => f⟩⟩
    · exact ⟨_, by simp only [Closing.step, b]; exact ⟨rfl, by simp [h.all], h.ending, fun _ => rfl, fun _ => rfl⟩⟩

theorem inv_run {yields : List α} {ending : End ε} (ops : List Op) (c : Closing α ε) (g : Gen α ε) (h : Inv yields ending c g) : ∃ g', Inv yields ending (c.run ops).1 g' := by
  induction ops generalizing c g with
  | nil => exact ⟨g, h⟩
  | cons o ops ih =>
    obtain ⟨g', h'⟩ := h.step o
    exact ih _ g' h'

theorem inv_new (yields : List α) (ending : End ε) : Inv yields ending (Closing.new yields ending) { rest := yields, ending } := ⟨rfl, rfl, rfl, by simp, by simp [Closing.new]⟩

theorem run_append (c : Closing α ε) (a b : List Op) : c.run (a ++ b) = (((c.run a).1.run b).1, (c.run a).2 ++ ((c.run a).1.run b).2) := by
  induction a generalizing c with
  | nil => rfl
  | cons o a ih => simp [Closing.run, ih]

/-- **C151 (closing)**: after any calls, closing lets the body run to its end: all that it does has been done, each once and in order.  What it raises meanwhile is raised, unless it is a TypeError; and next then raises StopIteration. -/
theorem C151_close (yields : List α) (ending : End ε) (ops : List Op) :
    (∃ g, ((Closing.new yields ending).run (ops ++ [.close])).1.gen = some g ∧ g.finished = true ∧ g.did = yields) ∧
    (∀ e, ((Closing.new yields ending).run ops).1.close.2 = .exc e → ending = .raises e) ∧
    ((Closing.new yields ending).run (ops ++ [.close])).1.next.2 = .stopIteration := by
  obtain ⟨g, h⟩ := inv_run ops _ _ (inv_new yields ending)
  have hrun : ((Closing.new yields ending).run (ops ++ [.close])).1 = ((Closing.new yields ending).run ops).1.close.1 := by
    rw [run_append]; rfl
  rw [hrun]
  have hnext : ∀ (c : Closing α ε) (g : Gen α ε), c.gen = some g → g.finished = true → c.next.2 = .stopIteration := by
    intro c g h1 h2
    simp [Closing.next, h1, Gen.next, h2]
  have hdid : ∀ g : Gen α ε, g.did ++ g.rest = yields → g.rest = [] → g.did = yields := by
    intro g h1 h2; rw [h2] at h1; simpa using h1
  rcases close_cases _ g h.gen with ⟨a, b⟩ | ⟨a, f, b⟩ | ⟨a, f, s, r, b, d⟩
  · rw [b]
    exact ⟨⟨g, h.gen, h.stopped a, hdid g h.all (h.fin (h.stopped a))⟩, by simp, hnext _ g h.gen (h.stopped a)⟩
  · rw [b]
    exact ⟨⟨g, rfl, f, hdid g h.all (h.fin f)⟩, by simp, hnext _ g rfl f⟩
  · rw [b]
    refine ⟨⟨_, rfl, rfl, h.all⟩, fun e he => ?_, hnext _ _ rfl rfl⟩
    rcases d with ⟨d1, rfl⟩ | ⟨d1, rfl⟩ | ⟨e', d1, rfl⟩
    · simp at he
    · simp at he
    · simp at he; subst he; rw [← h.ending, d1]

/-- **C151 (exceptions while closing)**: an exception of the body that is not a TypeError is raised by closing, if the body has not ended yet. -/
theorem C151_close_raises (yields : List α) (e : ε) (n : Nat) (hn : n ≤ yields.length) : ((Closing.new yields (.raises (.other e))).run (List.replicate n .next)).1.close.2 = .exc (.other e) := by
  suffices ∀ (did rest : List α) (n : Nat), n ≤ rest.length → ((({ gen := some { rest, ending := .raises (.other e), did } } : Closing α ε).run (List.replicate n .next)).1.close.2 = .exc (.other e)) from this [] yields n hn
  intro did rest n
  induction n generalizing did rest with
  | zero => intro _; simp [Closing.run, Closing.close, exhaust, exhaustFrom_spec]
  | succ n ih =>
    intro hn
    cases rest with
    | nil => simp at hn
    | cons x l => simpa [List.replicate_succ, Closing.run, Closing.step, Closing.next, Gen.next] using ih (did ++ [x]) l (by simpa using hn)

/-- **C151 (iterating)**: next gives what the generator would: what the body yields in order, then what it ends with, then StopIteration. -/
theorem C151_next (yields : List α) (ending : End ε) (n : Nat) :
    ((Closing.new yields ending).run (List.replicate n .next)).2.length = n ∧ ∀ i, i < n →
      (∀ x, yields[i]? = some x → ((Closing.new yields ending).run (List.replicate n .next)).2[i]? = some (.value x)) ∧
      (i = yields.length → ∀ e, ending = .raises e → ((Closing.new yields ending).run (List.replicate n .next)).2[i]? = some (.exc e)) ∧
      ((i = yields.length ∧ ending = .ret ∨ yields.length < i) → ((Closing.new yields ending).run (List.replicate n .next)).2[i]? = some .stopIteration) := by
  have fin : ∀ (n : Nat) (c : Closing α ε) (g : Gen α ε), c.gen = some g → g.finished = true → (c.run (List.replicate n .next)).2 = List.replicate n .stopIteration := by
    intro n
    induction n with
    | zero => intros; rfl
    | succ n ih =>
      intro c g h1 h2
      have hstep : c.step .next = ({ gen := some g, stopped := true }, .stopIteration) := by simp [Closing.step, Closing.next, h1, Gen.next, h2]
      simp only [List.replicate_succ, Closing.run, hstep]
      rw [ih _ g rfl h2]
  suffices ∀ (n : Nat) (did rest : List α), (({ gen := some { rest, ending, did } } : Closing α ε).run (List.replicate n .next)).2.length = n ∧ ∀ i, i < n →
      (∀ x, rest[i]? = some x → (({ gen := some { rest, ending, did } } : Closing α ε).run (List.replicate n .next)).2[i]? = some (.value x)) ∧
      (i = rest.length → ∀ e, ending = .raises e → (({ gen := some { rest, ending, did } } : Closing α ε).run (List.replicate n .next)).2[i]? = some (.exc e)) ∧
      ((i = rest.length ∧ ending = .ret ∨ rest.length < i) → (({ gen := some { rest, ending, did } } : Closing α ε).run (List.replicate n .next)).2[i]? = some .stopIteration) from this n [] yields
  intro n
  induction n with
  | zero => intro did rest; exact ⟨rfl, fun i hi => absurd hi (by omega)⟩
  | succ n ih =>
    intro did rest
    cases rest with
    | cons y l =>
      have hstep : (({ gen := some { rest := y :: l, ending, did } } : Closing α ε).step .next) = ({ gen := some { rest := l, ending, did := did ++ [y] } }, .value y) := by simp [Closing.step, Closing.next, Gen.next]
      obtain ⟨a, b⟩ := ih (did ++ [y]) l
      simp only [List.replicate_succ, Closing.run, hstep]
      refine ⟨by simp [a], fun i hi => ?_⟩
      cases i with
      | zero => exact ⟨by simp, by simp, by simp⟩
      | succ i =>
        obtain ⟨c1, c2, c3⟩ := b i (by omega)
        exact ⟨fun x hx => by simpa using c1 x (by simpa using hx), fun hi' e he => by simpa using c2 (by simpa using hi') e he, fun hh => by simpa using c3 (by simpa using hh)⟩
    | nil =>
      simp only [List.replicate_succ, Closing.run]
      have hf := fin n (({ gen := some { rest := [], ending, did } } : Closing α ε).step .next).1 { rest := [], ending, finished := true, did } (by simp [Closing.step, Closing.next, Gen.next]) rfl
      rw [hf]
      refine ⟨by simp, fun i hi => ?_⟩
      cases i with
      | zero =>
        refine ⟨by simp, fun _ e he => ?_, fun hh => ?_⟩
        · subst he; simp [Closing.step, Closing.next, Gen.next]
        · rcases hh with ⟨_, rfl⟩ | hh
          · simp [Closing.step, Closing.next, Gen.next]
          · simp at hh
      | succ i =>
        refine ⟨by simp, fun hh => by simp at hh, fun _ => ?_⟩
        simp only [List.getElem?_cons_succ]
        rw [List.getElem?_replicate, if_pos (by omega)]

/-- **C151 (chain)**: elements that are iterable are replaced by what iterating them gives, others are given as they are, all in order, if iterating raises nothing. -/
theorem C151_chain (l : List (Elem α ε)) (h : ∀ s xs en, .many s xs en ∈ l → en = .ret) : chain l = (l.flatMap (fun e => match e with | .one a => [a] | .many _ xs _ => xs), none) := by
  induction l with
  | nil => rfl
  | cons e l ih =>
    have ih' := ih (fun s xs en hm => h s xs en (by simp [hm]))
    cases e with
    | one a => simp [chain, ih']
    | many s xs en =>
      obtain rfl := h s xs en (by simp)
      simp [chain, ih']

/-- **C151 (hint_with_length)**: exactly one of length and length_factory is to be given, and gives the hint. -/
theorem C151_hint (length : Option Nat) (factory : Option (Unit → Nat)) : (hintNew length factory = none ↔ (length.isSome ↔ factory.isSome)) ∧ ∀ h, hintNew length factory = some h → (∀ n, length = some n → lengthHint h = some n) ∧ ∀ f, factory = some f → lengthHint h = some (f ()) := by
  cases length <;> cases factory <;> simp [hintNew, lengthHint]

example : ((Closing.new [1, 2, 3] (.ret : End Nat)).run [.next, .close, .next]).2 = [.value 1, .none, .stopIteration] := by decide
example : chain [.one 1, .many 0 [2, 3] (.ret : End Nat), .one 4] = ([1, 2, 3, 4], none) := by decide

/-! ## C152 -/

/-- **C152 (violation), send**: it returns nothing, so what the generator yields then is lost. -/
theorem C152_send_violates (x : α) (l : List α) (ending : End ε) : ((Closing.new (x :: l) ending).run [.send]).2 = [.none] ∧ ((Closing.new (x :: l) ending).run [.next]).2 = [.value x] := ⟨rfl, rfl⟩

/-- **C152 (violation), TypeError while closing**: a TypeError of the body is silenced. -/
theorem C152_type_error_violates (yields : List α) : ((Closing.new yields (.raises .typeError : End ε)).run [.close]).2 = [.none] := by
  simp [Closing.run, Closing.step, Closing.close, Closing.new, exhaust, exhaustFrom_spec]

/-- **C152 (violation), chain**: if iterating an element raises TypeError, after what it gave so far the element itself is given, and the error is lost. -/
theorem C152_chain_violates (self x : α) (xs : List α) : chain [.many self (x :: xs) (.raises .typeError : End ε)] = (x :: xs ++ [self], none) := rfl

/-- **C152 (violation), hint_with_length of a generator function**: with length_factory, calling it raises ValueError. -/
theorem C152_hint_violates (f : Unit → Nat) : ∃ h, hintNew none (some f) = some h ∧ hintCall h = none := ⟨_, rfl, rfl⟩

/-- **C152 (partial), hint_with_length of a generator function**: with length, calling it gives a generator with that length. -/
theorem C152_hint_partial (n : Nat) : ∃ h h', hintNew (some n) none = some h ∧ hintCall h = some h' ∧ lengthHint h' = some n := ⟨_, _, rfl, rfl, rfl⟩

/-- **C152 (partial), chain**: with elements whose iteration raises no TypeError, chain gives what comes before the first exception, and raises it. -/
theorem C152_chain_partial (pre : List (Elem α ε)) (h : ∀ s xs en, .many s xs en ∈ pre → en = .ret) (self : α) (xs : List α) (e : ε) (post : List (Elem α ε)) :
    chain (pre ++ .many self xs (.raises (.other e)) :: post) = (pre.flatMap (fun e => match e with | .one a => [a] | .many _ xs _ => xs) ++ xs, some e) := by
  induction pre with
  | nil => simp [chain]
  | cons p pre ih =>
    have ih' := ih (fun s xs en hm => h s xs en (by simp [hm]))
    cases p with
    | one a => simp [chain, ih']
    | many s xs en =>
      obtain rfl := h s xs en (by simp)
      simp [chain, ih']

end Verif.Closing
