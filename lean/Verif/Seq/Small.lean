/-!
# Model of infinite_iterator, infinite_counter, to_iterator, map_list, one_tuple, filter_out_false and make_list, C240

A generator is what happens at each `next`: it yields a value, stops, or raises.  A generator that has stopped or raised stops at every later `next`.
The calls of the user's functions are counted: what the `k`-th call does is a parameter, so these functions may keep a state of their own.
-/
namespace Verif.Seq.Small

/-- What a `next` does.  (Part of the model of `to_iterator`, /repo/satella/coding/sequences/iterators.py:737-760.) -/
inductive Nxt (α : Type) where
  | yields (a : α)
  | stops
  | raises (e : Nat)
  deriving DecidableEq, Repr

/-! ## Generators that apply a function -/

/-- The generator of `to_iterator` (`fun(item)`), and of `one_tuple` with the function `(·,)`: the items left, the calls made so far, and whether it has ended.
(Part of the model of `to_iterator`, /repo/satella/coding/sequences/iterators.py:737-760.) -/
structure Gen (α : Type) where
  left : List α
  calls : List α
  ended : Bool

/-- one `next` of `to_iterator(fun)(iterable)`; `f k x` is what the `k`-th call of the function does with `x`.  /repo/satella/coding/sequences/iterators.py:755-758 -/
def Gen.next {α β : Type} (f : Nat → α → Except Nat β) (g : Gen α) : Gen α × Nxt β :=
  if g.ended then (g, .stops)
  else
    match g.left with
    | [] => ({ g with ended := true }, .stops)
    | x :: xs =>
      match f g.calls.length x with
      | .ok b => ({ g with left := xs, calls := g.calls ++ [x] }, .yields b)
      | .error e => ({ left := xs, calls := g.calls ++ [x], ended := true }, .raises e)

/-- the results of the first `n` `next`s.  (Part of the model of `to_iterator`, /repo/satella/coding/sequences/iterators.py:737-760.) -/
def Gen.pull {α β : Type} (f : Nat → α → Except Nat β) : Nat → Gen α → Gen α × List (Nxt β)
  | 0, g => (g, [])
  | n + 1, g =>
    let r := g.next f
    let q := Gen.pull f n r.1
    (q.1, r.2 :: q.2)

/-- `to_iterator(fun)(iterable)`, /repo/satella/coding/sequences/iterators.py:755-758; nothing is called before the first `next` -/
def toIterator {α : Type} (l : List α) : Gen α := ⟨l, [], false⟩

/-- `one_tuple(x)`: the function makes a tuple of one element, /repo/satella/coding/transforms/__init__.py:117-129 -/
def oneTuple {α : Type} (_ : Nat) (x : α) : Except Nat (List α) := .ok [x]

/-- `map_list(fun, iterable)`: `list(map(fun, iterable))`, /repo/satella/coding/sequences/iterators.py:725-734; the calls made and the list or the exception.
`out` is the list made so far. -/
def mapList {α β : Type} (f : Nat → α → Except Nat β) : List α → List α → List β → List α × Except Nat (List β)
  | [], calls, out => (calls, .ok out)
  | x :: xs, calls, out =>
    match f calls.length x with
    | .ok b => mapList f xs (calls ++ [x]) (out ++ [b])
    | .error e => (calls ++ [x], .error e)

/-- `filter_out_false(y)`, /repo/satella/coding/sequences/sequences.py:188-199; what `bool(item)` is is a parameter, and it may raise.  `out` is `output` so far. -/
def filterOutFalse {α : Type} (truth : α → Except Nat Bool) : List α → List α → Except Nat (List α)
  | [], out => .ok out
  | x :: xs, out =>
    match truth x with
    | .error e => .error e
    | .ok b => filterOutFalse truth xs (if b then out ++ [x] else out)

/-! ## Generators without end -/

/-- `infinite_counter(start_at, step)`: one `next` is given the `i` that it yields, and leaves the next `i`.  /repo/satella/coding/sequences/iterators.py:340-355 -/
def counterNext (step : Int) (i : Int) : Int × Int := (i + step, i)

/-- the results of the first `n` `next`s of `infinite_counter`, /repo/satella/coding/sequences/iterators.py:352-355 -/
def counterPull (step : Int) : Nat → Int → List Int
  | 0, _ => []
  | n + 1, i => (counterNext step i).2 :: counterPull step n (counterNext step i).1

/-- `infinite_iterator(returns, return_factory)`: the calls made of the factory, and whether the generator has ended.  A value is `none` if it is None.
/repo/satella/coding/sequences/sequences.py:10-24 -/
structure Inf where
  made : Nat
  ended : Bool
  deriving DecidableEq, Repr

/-- one `next`; `factory k` is what the `k`-th call of the factory does.  /repo/satella/coding/sequences/sequences.py:20-24 -/
def Inf.next {α : Type} (returns : Option α) (factory : Option (Nat → Except Nat (Option α))) (g : Inf) : Inf × Nxt (Option α) :=
  if g.ended then (g, .stops)
  else
    match returns with
    | some v => (g, .yields (some v))
    | none =>
      match factory with
      | none => (g, .yields none)
      | some f =>
        match f g.made with
        | .ok v => ({ g with made := g.made + 1 }, .yields v)
        | .error e => (⟨g.made + 1, true⟩, .raises e)

/-- the results of the first `n` `next`s.  (Part of the model of `infinite_iterator`, /repo/satella/coding/sequences/sequences.py:10-24.) -/
def Inf.pull {α : Type} (returns : Option α) (factory : Option (Nat → Except Nat (Option α))) : Nat → Inf → List (Nxt (Option α))
  | 0, _ => []
  | n + 1, g => (g.next returns factory).2 :: Inf.pull returns factory n (g.next returns factory).1

/-! ## make_list -/

/-- The objects by number, each with the numbers of those it refers to.  (Part of the model of `make_list`, /repo/satella/coding/sequences/sequences.py:27-46.) -/
abbrev Mem := List (List Nat)

/-- `copy.copy` of a list-like object: a new object referring to the same ones; of an atom (None, a number, a string) that atom, since nothing can change it.
Called by /repo/satella/coding/sequences/sequences.py:42 -/
def copy (atom : Nat → Bool) (m : Mem) (o : Nat) : Mem × Nat :=
  if atom o then (m, o) else (m ++ [m.getD o []], m.length)

/-- `make_list(element, n)`, /repo/satella/coding/sequences/sequences.py:44-46; `range(n)` is empty if `n` is negative.  What copies an object is a parameter:
`copy.copy` or `copy.deepcopy`, /repo/satella/coding/sequences/sequences.py:39-42 -/
def makeListLoop (copyOp : Mem → Nat → Mem × Nat) (o : Nat) : Nat → Mem → List Nat → Mem × List Nat
  | 0, m, out => (m, out)
  | n + 1, m, out => makeListLoop copyOp o n (copyOp m o).1 (out ++ [(copyOp m o).2])

/-- `make_list`, /repo/satella/coding/sequences/sequences.py:27-46 -/
def makeList (copyOp : Mem → Nat → Mem × Nat) (m : Mem) (o : Nat) (n : Int) : Mem × List Nat := makeListLoop copyOp o n.toNat m []

/-! ## Properties -/

section
variable {α β : Type} {f : Nat → α → Except Nat β}

theorem pull_ended (n : Nat) (g : Gen α) (h : g.ended = true) : Gen.pull f n g = (g, List.replicate n .stops) := by
  induction n with
  | zero => rfl
  | succ n ih => simp [Gen.pull, Gen.next, h, ih, List.replicate_succ]

/-- **C240, laziness**: after any number of `next`s, the function was called with that many of the items, in their order, and with no more — nothing is called before a value is asked for. -/
theorem C240_lazy (l : List α) (n : Nat) : ∃ k, k ≤ n ∧ (Gen.pull f n (toIterator l)).1.calls = l.take k := by
  have key : ∀ (n : Nat) (a b : List α) (e : Bool), ∃ k, k ≤ n ∧ (Gen.pull f n ⟨b, a, e⟩).1.calls = a ++ b.take k := by
    intro n
    induction n with
    | zero => intro a b e; exact ⟨0, Nat.le_refl _, by simp [Gen.pull]⟩
    | succ n ih =>
      intro a b e
      cases e with
      | true => exact ⟨0, by omega, by simp [pull_ended]⟩
      | false =>
        cases b with
        | nil => exact ⟨0, by omega, by simp [Gen.pull, Gen.next, pull_ended]⟩
        | cons x xs =>
          simp only [Gen.pull, Gen.next]
          cases hf : f a.length x with
          | ok v =>
            obtain ⟨k, hk, h⟩ := ih (a ++ [x]) xs false
            exact ⟨k + 1, by omega, by simp [h]⟩
          | error v => exact ⟨1, by omega, by simp [pull_ended]⟩
  simpa [toIterator] using key n [] l false

/-- **C240, to_iterator**: if the calls of the function with the first items `xs` return `ys`, the first values yielded are `ys`, and exactly these calls were made;
then, if there are no more items, every `next` stops; and if the next call raises, that `next` raises, and the later ones stop. -/
theorem C240_to_iterator (xs : List α) (ys : List β) (rest : List α) (hl : xs.length = ys.length)
    (hok : ∀ (k : Nat) (x : α) (y : β), xs[k]? = some x → ys[k]? = some y → f k x = .ok y) :
    (Gen.pull f xs.length (toIterator (xs ++ rest))).2 = ys.map .yields ∧ (Gen.pull f xs.length (toIterator (xs ++ rest))).1.calls = xs ∧
    (∀ n, rest = [] → (Gen.pull f (xs.length + n) (toIterator (xs ++ rest))).2 = ys.map .yields ++ List.replicate n .stops) ∧
    (∀ n z zs e, rest = z :: zs → f xs.length z = .error e →
      (Gen.pull f (xs.length + (n + 1)) (toIterator (xs ++ rest))).2 = ys.map .yields ++ .raises e :: List.replicate n .stops) := by
  have key : ∀ (m : Nat) (a b : List α) (c : List β) (_ : b.length = c.length)
      (_ : ∀ (k : Nat) (x : α) (y : β), b[k]? = some x → c[k]? = some y → f (a.length + k) x = .ok y),
      Gen.pull f (b.length + m) ⟨b ++ rest, a, false⟩ =
        ((Gen.pull f m ⟨rest, a ++ b, false⟩).1, c.map .yields ++ (Gen.pull f m ⟨rest, a ++ b, false⟩).2) := by
    intro m a b
    induction b generalizing a with
    | nil =>
      intro c hc _
      cases c with
      | nil => simp
      | cons _ _ => simp at hc
    | cons x xs ih =>
      intro c hc hk
      cases c with
      | nil => simp at hc
      | cons y c =>
        have h0 := hk 0 x y rfl rfl
        have := ih (a ++ [x]) c (by simpa using hc) (by
          intro k x' y' h1 h2
          have := hk (k + 1) x' y' (by simpa using h1) (by simpa using h2)
          simpa [Nat.add_assoc, Nat.add_comm 1 k] using this)
        have e1 : (x :: xs).length + m = (xs.length + m) + 1 := by simp; omega
        rw [e1]
        simp only [Nat.add_zero] at h0
        simp only [Gen.pull, Gen.next, List.cons_append, h0, Bool.false_eq_true, if_false, this]
        simp
  have hok' : ∀ (k : Nat) (x : α) (y : β), xs[k]? = some x → ys[k]? = some y → f (([] : List α).length + k) x = .ok y := by
    simpa using hok
  refine ⟨?_, ?_, ?_, ?_⟩
  · have := key 0 [] xs ys hl hok'
    simp only [Nat.add_zero] at this
    simp [toIterator, this, Gen.pull]
  · have := key 0 [] xs ys hl hok'
    simp only [Nat.add_zero] at this
    simp [toIterator, this, Gen.pull]
  · intro n hr
    have := key n [] xs ys hl hok'
    simp only [toIterator, this]
    subst hr
    congr 1
    cases n with
    | zero => rfl
    | succ n => simp [Gen.pull, Gen.next, pull_ended, List.replicate_succ]
  · intro n z zs e hr he
    have := key (n + 1) [] xs ys hl hok'
    simp only [toIterator, this]
    subst hr
    simp [Gen.pull, Gen.next, he, pull_ended]

/-- **C240, one_tuple**: the first `n` values are the first items, each in a tuple of its own, and then it stops. -/
theorem C240_one_tuple (l : List α) (n : Nat) :
    (Gen.pull oneTuple (l.length + n) (toIterator l)).2 = l.map (fun x => .yields [x]) ++ List.replicate n .stops := by
  have := (C240_to_iterator (f := oneTuple) l (l.map (fun x => [x])) [] (by simp) (by
    intro k x y h1 h2
    simp only [List.getElem?_map, h1, Option.map_some, Option.some.injEq] at h2
    subst h2; rfl)).2.2.1 n rfl
  simpa [Function.comp_def] using this

/-- **C240, map_list**: the result is the list of what the calls returned, one for each item in their order, and if a call raises, that exception is raised and no more calls are made. -/
theorem C240_map_list (l : List α) :
    (∀ ys : List β, (mapList f l [] []).2 = .ok ys ↔
      ys.length = l.length ∧ ∀ (k : Nat) (x : α), l[k]? = some x → ∃ y, ys[k]? = some y ∧ f k x = .ok y) ∧
    (∀ e, (mapList f l [] []).2 = .error e ↔ ∃ (k : Nat) (x : α), l[k]? = some x ∧ f k x = .error e ∧
      (∀ (j : Nat) (z : α), j < k → l[j]? = some z → ∃ y, f j z = .ok y)) ∧
    (∀ (k : Nat) (x : α) (e : Nat), l[k]? = some x → f k x = .error e → (∀ (j : Nat) (z : α), j < k → l[j]? = some z → ∃ y, f j z = .ok y) →
      (mapList f l [] []).1 = l.take (k + 1)) := by
  -- either all calls return, or there is a first one that raises
  have key : ∀ (b a : List α) (c : List β),
      (∃ ys : List β, mapList f b a c = (a ++ b, .ok (c ++ ys)) ∧ ys.length = b.length ∧
        ∀ (k : Nat) (x : α), b[k]? = some x → ∃ y, ys[k]? = some y ∧ f (a.length + k) x = .ok y) ∨
      (∃ (k : Nat) (x : α) (e : Nat), b[k]? = some x ∧ f (a.length + k) x = .error e ∧
        (∀ (j : Nat) (z : α), j < k → b[j]? = some z → ∃ y, f (a.length + j) z = .ok y) ∧ mapList f b a c = (a ++ b.take (k + 1), .error e)) := by
    intro b
    induction b with
    | nil => intro a c; exact Or.inl ⟨[], by simp [mapList], rfl, by simp⟩
    | cons x xs ih =>
      intro a c
      cases hf : f a.length x with
      | error e => exact Or.inr ⟨0, x, e, rfl, hf, by omega, by simp [mapList, hf]⟩
      | ok y =>
        have e1 : mapList f (x :: xs) a c = mapList f xs (a ++ [x]) (c ++ [y]) := by simp [mapList, hf]
        rw [e1]
        rcases ih (a ++ [x]) (c ++ [y]) with ⟨ys, h1, h2, h3⟩ | ⟨k, z, e, h1, h2, h3, h4⟩
        · refine Or.inl ⟨y :: ys, by simp [h1], by simp [h2], ?_⟩
          intro k z hz
          cases k with
          | zero => simp at hz; subst hz; exact ⟨y, rfl, hf⟩
          | succ k =>
            obtain ⟨w, hw, hw'⟩ := h3 k z (by simpa using hz)
            exact ⟨w, by simpa using hw, by simpa [Nat.add_assoc, Nat.add_comm 1 k] using hw'⟩
        · refine Or.inr ⟨k + 1, z, e, by simpa using h1, by simpa [Nat.add_assoc, Nat.add_comm 1 k] using h2, ?_, by simp [h4]⟩
          intro j w hj hw
          cases j with
          | zero => simp at hw; subst hw; exact ⟨y, hf⟩
          | succ j =>
            obtain ⟨v, hv⟩ := h3 j w (by omega) (by simpa using hw)
            exact ⟨v, by simpa [Nat.add_assoc, Nat.add_comm 1 j] using hv⟩
  rcases key l [] [] with ⟨ys, h1, h2, h3⟩ | ⟨k, x, e, h1, h2, h3, h4⟩
  · simp only [List.nil_append, List.length_nil, Nat.zero_add] at h1 h3
    refine ⟨fun zs => ?_, fun e => ?_, fun k x e hk he _ => ?_⟩
    · rw [h1]
      constructor
      · intro h; cases h; exact ⟨h2, h3⟩
      · intro ⟨ha, hb⟩
        have : ys = zs := by
          apply List.ext_getElem?
          intro k
          by_cases hk : k < l.length
          · obtain ⟨y, hy, hy'⟩ := h3 k l[k] (by simp [hk])
            obtain ⟨z, hz, hz'⟩ := hb k l[k] (by simp [hk])
            rw [hy'] at hz'; cases hz'
            rw [hy, hz]
          · simp [List.getElem?_eq_none_iff.2 (by omega : ys.length ≤ k), List.getElem?_eq_none_iff.2 (by omega : zs.length ≤ k)]
        rw [this]
    · rw [h1]
      constructor
      · intro h; cases h
      · intro ⟨k, x, hk, he, _⟩
        obtain ⟨y, _, hy⟩ := h3 k x hk
        rw [he] at hy; cases hy
    · obtain ⟨y, _, hy⟩ := h3 k x hk
      rw [he] at hy; cases hy
  · simp only [List.nil_append, List.length_nil, Nat.zero_add] at h2 h3 h4
    have uniq : ∀ (k' : Nat) (x' : α) (e' : Nat), l[k']? = some x' → f k' x' = .error e' →
        (∀ (j : Nat) (z : α), j < k' → l[j]? = some z → ∃ y, f j z = .ok y) → k' = k ∧ e' = e := by
      intro k' x' e' a1 a2 a3
      rcases Nat.lt_trichotomy k k' with h | h | h
      · obtain ⟨y, hy⟩ := a3 k x h h1
        rw [h2] at hy; cases hy
      · subst h
        rw [h1] at a1; cases a1
        rw [h2] at a2; cases a2
        exact ⟨rfl, rfl⟩
      · obtain ⟨y, hy⟩ := h3 k' x' h a1
        rw [a2] at hy; cases hy
    refine ⟨fun zs => ?_, fun e' => ?_, fun k' x' e' a1 a2 a3 => ?_⟩
    · rw [h4]
      constructor
      · intro h; cases h
      · intro ⟨_, hb⟩
        obtain ⟨y, _, hy⟩ := hb k x h1
        rw [h2] at hy; cases hy
    · rw [h4]
      constructor
      · intro h; cases h; exact ⟨k, x, h1, h2, h3⟩
      · intro ⟨k', x', a1, a2, a3⟩
        rw [(uniq k' x' e' a1 a2 a3).2]
    · rw [h4, (uniq k' x' e' a1 a2 a3).1]

end

/-- **C240, filter_out_false**: if the truth of each item can be told, the result is the items that are true, in their order. -/
theorem C240_filter_out {α : Type} (truth : α → Except Nat Bool) (t : α → Bool) (l : List α) (h : ∀ x ∈ l, truth x = .ok (t x)) :
    filterOutFalse truth l [] = .ok (l.filter t) := by
  have key : ∀ (l out : List α), (∀ x ∈ l, truth x = .ok (t x)) → filterOutFalse truth l out = .ok (out ++ l.filter t) := by
    intro l
    induction l with
    | nil => intro out _; simp [filterOutFalse]
    | cons x xs ih =>
      intro out h
      simp only [filterOutFalse, h x (by simp)]
      rw [ih _ (fun y hy => h y (by simp [hy]))]
      cases ht : t x <;> simp [ht]
  simpa using key l [] h

/-- **C240, filter_out_false of an item that is neither**: if the truth of an item cannot be told, that exception is raised. -/
theorem C240_filter_out_raises {α : Type} (truth : α → Except Nat Bool) (xs : List α) (x : α) (ys : List α) (e : Nat)
    (h : ∀ z ∈ xs, ∃ b, truth z = .ok b) (hx : truth x = .error e) (out : List α) : filterOutFalse truth (xs ++ x :: ys) out = .error e := by
  induction xs generalizing out with
  | nil => simp [filterOutFalse, hx]
  | cons z zs ih =>
    obtain ⟨b, hb⟩ := h z (by simp)
    simp only [List.cons_append, filterOutFalse, hb]
    exact ih (fun w hw => h w (by simp [hw])) _

/-- **C240, infinite_counter**: the `k`-th value is `start_at + k * step`, for every `k`. -/
theorem C240_counter (start step : Int) (n k : Nat) (h : k < n) : (counterPull step n start)[k]? = some (start + k * step) := by
  induction n generalizing start k with
  | zero => omega
  | succ n ih =>
    cases k with
    | zero => simp [counterPull, counterNext]
    | succ k =>
      simp only [counterPull, counterNext, List.getElem?_cons_succ, ih (start + step) k (by omega)]
      congr 1
      push_cast
      grind

/-- **C240, infinite_iterator**: it never stops.  An object given is yielded every time, and the factory is not called; without both, None is yielded every time;
otherwise the factory is called once for each value, and what it returns is yielded. -/
theorem C240_infinite {α : Type} (n k : Nat) (h : k < n) :
    (∀ (v : α) factory, (Inf.pull (some v) factory n ⟨0, false⟩)[k]? = some (.yields (some v))) ∧
    ((Inf.pull (none : Option α) none n ⟨0, false⟩)[k]? = some (.yields none)) ∧
    (∀ (f : Nat → Except Nat (Option α)) (g : Nat → Option α), (∀ j, f j = .ok (g j)) →
      (Inf.pull none (some f) n ⟨0, false⟩)[k]? = some (.yields (g k))) := by
  refine ⟨?_, ?_, ?_⟩
  · intro v factory
    induction n generalizing k with
    | zero => omega
    | succ n ih => cases k with
      | zero => simp [Inf.pull, Inf.next]
      | succ k => simpa [Inf.pull, Inf.next] using ih k (by omega)
  · induction n generalizing k with
    | zero => omega
    | succ n ih => cases k with
      | zero => simp [Inf.pull, Inf.next]
      | succ k => simpa [Inf.pull, Inf.next] using ih k (by omega)
  · intro f g hf
    have key : ∀ (n m k : Nat), k < n → (Inf.pull none (some f) n ⟨m, false⟩)[k]? = some (.yields (g (m + k))) := by
      intro n
      induction n with
      | zero => intro m k h; omega
      | succ n ih =>
        intro m k h
        cases k with
        | zero => simp [Inf.pull, Inf.next, hf]
        | succ k =>
          have := ih (m + 1) k (by omega)
          simp only [Inf.pull, Inf.next, hf, Bool.false_eq_true, if_false, List.getElem?_cons_succ]
          rw [this, Nat.add_assoc, Nat.add_comm 1 k]
    simpa using key n 0 k h

/-- **C240, a factory that raises**: its exception is raised by that `next`, and it is not called again. -/
theorem C240_factory_raises {α : Type} (f : Nat → Except Nat (Option α)) (m : Nat) (e : Nat) (hf : f m = .error e) (n : Nat) :
    Inf.pull none (some f) (n + 1) ⟨m, false⟩ = .raises e :: List.replicate n .stops := by
  have : ∀ (n k : Nat), Inf.pull none (some f) n ⟨k, true⟩ = List.replicate n .stops := by
    intro n
    induction n with
    | zero => intro k; rfl
    | succ n ih => intro k; simp [Inf.pull, Inf.next, ih, List.replicate_succ]
  simp [Inf.pull, Inf.next, hf, this]

/-- What is asked of whatever copies an object: the objects there are keep what they refer to, the copy is an object that was not there before. -/
def Copies (copyOp : Mem → Nat → Mem × Nat) (o : Nat) : Prop :=
  ∀ m, o < m.length → (∃ more, (copyOp m o).1 = m ++ more) ∧ m.length ≤ (copyOp m o).2 ∧ (copyOp m o).2 < (copyOp m o).1.length

theorem makeListLoop_spec {copyOp : Mem → Nat → Mem × Nat} {o : Nat} (hc : Copies copyOp o) (n : Nat) (m : Mem) (ho : o < m.length) (out : List Nat) :
    ∃ new more, makeListLoop copyOp o n m out = (m ++ more, out ++ new) ∧ new.length = n ∧ new.Nodup ∧
      ∀ c ∈ new, m.length ≤ c ∧ c < (m ++ more).length := by
  induction n generalizing m out with
  | zero => exact ⟨[], [], by simp [makeListLoop]⟩
  | succ n ih =>
    obtain ⟨⟨more, h1⟩, h2, h3⟩ := hc m ho
    obtain ⟨new, more', e, hlen, hnd, hr⟩ := ih (copyOp m o).1 (by rw [h1]; simp; omega) (out ++ [(copyOp m o).2])
    refine ⟨(copyOp m o).2 :: new, more ++ more', ?_, by simp [hlen], ?_, ?_⟩
    · simp only [makeListLoop, e]
      simp [h1]
    · refine List.nodup_cons.2 ⟨fun hmem => ?_, hnd⟩
      have := (hr _ hmem).1
      omega
    · intro c hcm
      rcases List.mem_cons.1 hcm with rfl | hcm
      · refine ⟨h2, ?_⟩
        rw [h1] at h3
        simp only [List.length_append] at h3 ⊢
        omega
      · have := hr c hcm
        rw [h1] at this
        simp only [List.length_append] at this ⊢
        omega

/-- **C240, make_list**: `n` objects are made (none if `n` is negative), none of which existed before nor is any other of them; no object that existed is changed. -/
theorem C240_make_list {copyOp : Mem → Nat → Mem × Nat} {o : Nat} (hc : Copies copyOp o) (m : Mem) (ho : o < m.length) (n : Int) :
    (makeList copyOp m o n).2.length = n.toNat ∧ (makeList copyOp m o n).2.Nodup ∧
    (∀ c ∈ (makeList copyOp m o n).2, m.length ≤ c ∧ c ≠ o) ∧
    ∀ j, j < m.length → (makeList copyOp m o n).1[j]? = m[j]? := by
  obtain ⟨new, more, e, hlen, hnd, hr⟩ := makeListLoop_spec hc n.toNat m ho []
  simp only [makeList, e, List.nil_append]
  refine ⟨hlen, hnd, fun c h => ⟨(hr c h).1, ?_⟩, fun j hj => by simp [List.getElem?_append_left hj]⟩
  have := (hr c h).1
  omega

/-- **C240, make_list copies shallowly**: without deep_copy each of the objects refers to exactly what the element refers to. -/
theorem C240_make_list_shallow (atom : Nat → Bool) (m : Mem) (o : Nat) (ho : o < m.length) (ha : atom o = false) (n : Int) :
    ∀ c ∈ (makeList (copy atom) m o n).2, (makeList (copy atom) m o n).1[c]? = m[o]? := by
  have key : ∀ (n : Nat) (m : Mem) (out : List Nat), o < m.length → (∀ c ∈ out, m[c]? = m[o]?) →
      ∀ c ∈ (makeListLoop (copy atom) o n m out).2, (makeListLoop (copy atom) o n m out).1[c]? = m[o]? := by
    intro n
    induction n with
    | zero => intro m out _ h c hc; simpa [makeListLoop] using h c hc
    | succ n ih =>
      intro m out ho h
      have e : (m ++ [m.getD o []])[o]? = m[o]? := by rw [List.getElem?_append_left ho]
      have := ih (m ++ [m.getD o []]) (out ++ [m.length]) (by simp; omega) (by
        intro c hc
        rw [e]
        rcases List.mem_append.1 hc with hc | hc
        · have h' := h c hc
          have hlt : c < m.length := by
            rw [List.getElem?_eq_getElem ho] at h'
            exact (List.getElem?_eq_some_iff.1 h').1
          rw [List.getElem?_append_left hlt, h']
        · simp only [List.mem_singleton] at hc
          subst hc
          rw [List.getElem?_append_right (Nat.le_refl _), List.getElem?_eq_getElem ho]
          simp [List.getElem?_eq_getElem ho])
      simp only [makeListLoop, copy, ha, Bool.false_eq_true, if_false]
      rw [e] at this
      exact this
  exact key n.toNat m [] ho (by simp)

/-- **C240, make_list of atoms**: of a number, a string or None, the list has that very object `n` times. -/
theorem C240_make_list_atom (atom : Nat → Bool) (m : Mem) (o : Nat) (ha : atom o = true) (n : Int) :
    makeList (copy atom) m o n = (m, List.replicate n.toNat o) := by
  have key : ∀ (n : Nat) (out : List Nat), makeListLoop (copy atom) o n m out = (m, out ++ List.replicate n o) := by
    intro n
    induction n with
    | zero => intro out; simp [makeListLoop]
    | succ n ih => intro out; simp [makeListLoop, copy, ha, ih, List.replicate_succ]
  simpa [makeList] using key n.toNat []

/-! Concrete cases. -/

/-- doubles, but raises at 3 -/
private def dbl (_ : Nat) (x : Nat) : Except Nat Nat := if x = 3 then .error 7 else .ok (2 * x)

example : (Gen.pull dbl 5 (toIterator [1, 2, 3, 4])).2 = [.yields 2, .yields 4, .raises 7, .stops, .stops] := rfl
example : (Gen.pull dbl 5 (toIterator [1, 2, 3, 4])).1.calls = [1, 2, 3] := rfl
example : (Gen.pull dbl 0 (toIterator [1, 2, 3, 4])).1.calls = [] := rfl
example : ∀ (k : Nat) (x y : Nat), [1, 2][k]? = some x → [2, 4][k]? = some y → dbl k x = .ok y := by
  intro k x y h1 h2
  match k, h1, h2 with
  | 0, h1, h2 => simp at h1 h2; subst h1 h2; rfl
  | 1, h1, h2 => simp at h1 h2; subst h1 h2; rfl
  | k + 2, h1, _ => simp at h1
example : mapList dbl [1, 2, 3, 4] [] [] = ([1, 2, 3], .error 7) := rfl
example : mapList dbl [1, 2] [] [] = ([1, 2], .ok [2, 4]) := rfl
example : filterOutFalse (fun x : Nat => .ok (x != 0)) [0, 5, 0, 6] [] = .ok [5, 6] := rfl
example : filterOutFalse (fun x : Nat => if x = 3 then .error 1 else .ok true) [2, 3, 4] [] = .error 1 := rfl
example : counterPull (-2) 3 5 = [5, 3, 1] := by decide
example : Inf.pull none (some fun k => if k = 2 then .error 9 else .ok (some k)) 4 ⟨0, false⟩ = [.yields (some 0), .yields (some 1), .raises 9, .stops] := rfl
example : Copies (copy (fun _ => false)) 0 := by
  intro m h
  simp [copy]
example : makeList (copy (fun _ => false)) [[1], [], []] 0 3 = ([[1], [], [], [1], [1], [1]], [3, 4, 5]) := rfl
example : makeList (copy (fun _ => false)) [[1], []] 0 (-3) = ([[1], []], []) := rfl

end Verif.Seq.Small
