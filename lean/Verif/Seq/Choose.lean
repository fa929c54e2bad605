import Verif.Py.Run

/-!
# Choosing elements, and actions run when a generator completes

Model of `satella/coding/sequences/choose.py` (`choose`, `choose_one`, `choose_with_index`) and
`satella/coding/generators.py` (`RunActionAfterGeneratorCompletes`, `run_when_generator_completes`).
-/

namespace Verif.Choose

/-! ## Choosing: model -/

variable {α ε : Type}

/-- How choosing ends: an element, ValueError since there are none or there are many, or what the filter raised;
/repo/satella/coding/sequences/choose.py:54-70. -/
inductive Out (ε α : Type) where
  | value (a : α)
  | notFound
  | multiple
  | raised (e : ε)
deriving DecidableEq

/-- /repo/satella/coding/sequences/choose.py:56-72, the loop, with `cand` the candidate found. The iterable is the list of
what it still gives; what was not taken from it is given back. -/
def loop (f : α → Except ε Bool) (check : Bool) (cand : Option α) : List α → Out ε α × List α
  | [] => (match cand with | none => .notFound | some c => .value c, [])
  | x :: rest => match f x with
    | .error e => (.raised e, rest)
    | .ok false => loop f check cand rest
    | .ok true =>
      if check then match cand with
        | some _ => (.multiple, rest)
        | none => loop f check (some x) rest
      else (.value x, rest)

/-- /repo/satella/coding/sequences/choose.py:35-72, `choose`. -/
def choose (f : α → Except ε Bool) (it : List α) (check : Bool := false) : Out ε α × List α := loop f check none it

/-- /repo/satella/coding/sequences/choose.py:5-18, `choose_one`. -/
def chooseOne (f : α → Except ε Bool) (it : List α) : Out ε α × List α := choose f it true

/-- /repo/satella/coding/sequences/choose.py:30-33, the loop of `choose_with_index` from the index given. -/
def indexLoop (f : α → Except ε Bool) (i : Nat) : List α → Out ε (α × Nat) × List α
  | [] => (.notFound, [])
  | x :: rest => match f x with
    | .error e => (.raised e, rest)
    | .ok true => (.value (x, i), rest)
    | .ok false => indexLoop f (i + 1) rest

/-- /repo/satella/coding/sequences/choose.py:21-33, `choose_with_index`. -/
def chooseWithIndex (f : α → Except ε Bool) (it : List α) : Out ε (α × Nat) × List α := indexLoop f 0 it

/-! ## Choosing: specification and proofs -/

theorem loop_skip (f : α → Except ε Bool) (check : Bool) (cand : Option α) (pre rest : List α) (h : ∀ x ∈ pre, f x = .ok false) : loop f check cand (pre ++ rest) = loop f check cand rest := by
  induction pre with
  | nil => rfl
  | cons x pre ih => simp [loop, h x (by simp), ih (fun y hy => h y (by simp [hy]))]

/-- Every list is: elements that do not match, and then nothing or one on which the filter gives something else. -/
theorem split_first (f : α → Except ε Bool) (it : List α) :
    (∀ x ∈ it, f x = .ok false) ∨ ∃ pre x post, it = pre ++ x :: post ∧ (∀ y ∈ pre, f y = .ok false) ∧ f x ≠ .ok false := by
  induction it with
  | nil => exact .inl (by simp)
  | cons x rest ih =>
    by_cases hx : f x = .ok false
    · rcases ih with h | ⟨pre, y, post, rfl, h1, h2⟩
      · exact .inl (by simpa [hx] using h)
      · exact .inr ⟨x :: pre, y, post, rfl, by simpa [hx] using h1, h2⟩
    · exact .inr ⟨[], x, rest, rfl, by simp, hx⟩

/-- **C170 the first element that matches.** `choose` returns an element exactly if it is the first one that matches,
and what remains in the iterator is what is after it. -/
theorem C170_first (f : α → Except ε Bool) (it : List α) (a : α) (rest : List α) :
    choose f it = (.value a, rest) ↔ ∃ pre, it = pre ++ a :: rest ∧ f a = .ok true ∧ ∀ x ∈ pre, f x = .ok false := by
  constructor
  · intro h
    rcases split_first f it with hn | ⟨pre, x, post, rfl, h1, h2⟩
    · have := loop_skip f false none it [] hn
      rw [List.append_nil] at this
      simp [choose, this, loop] at h
    · simp only [choose, loop_skip f false none pre _ h1, loop] at h
      match hf : f x with
      | .error e => simp [hf] at h
      | .ok false => exact absurd hf h2
      | .ok true =>
        simp only [hf, Bool.false_eq_true, if_false, Prod.mk.injEq, Out.value.injEq] at h
        obtain ⟨rfl, rfl⟩ := h
        exact ⟨pre, rfl, hf, h1⟩
  · rintro ⟨pre, rfl, h1, h2⟩
    simp [choose, loop_skip f false none pre _ h2, loop, h1]

/-- **C170 none that matches.** ValueError exactly if no element matches; the iterator is then exhausted. -/
theorem C170_none (f : α → Except ε Bool) (it : List α) (check : Bool) :
    (choose f it check).1 = .notFound ↔ ∀ x ∈ it, f x = .ok false := by
  have key : ∀ (it : List α) (c : Option α), (loop f check c it).1 = .notFound ↔ c = none ∧ ∀ x ∈ it, f x = .ok false := by
    intro it
    induction it with
    | nil => intro c; cases c <;> simp [loop]
    | cons x rest ih =>
      intro c
      match hf : f x with
      | .error e => simp [loop, hf]
      | .ok false => simp [loop, hf, ih]
      | .ok true =>
        cases check with
        | false => simp [loop, hf]
        | true => cases c <;> simp [loop, hf, ih]
  simpa [choose] using key it none

/-- **C170 the only element that matches.** With checking, an element is returned exactly if it is the only one that
matches; the iterator is then exhausted. -/
theorem C170_only (f : α → Except ε Bool) (it : List α) (a : α) (rest : List α) :
    chooseOne f it = (.value a, rest) ↔ rest = [] ∧ ∃ pre post, it = pre ++ a :: post ∧ f a = .ok true ∧ ∀ x ∈ pre ++ post, f x = .ok false := by
  constructor
  · intro h
    rcases split_first f it with hn | ⟨pre, x, post, rfl, h1, h2⟩
    · have := loop_skip f true none it [] hn
      rw [List.append_nil] at this
      simp [chooseOne, choose, this, loop] at h
    · simp only [chooseOne, choose, loop_skip f true none pre _ h1, loop] at h
      match hf : f x with
      | .error e => simp [hf] at h
      | .ok false => exact absurd hf h2
      | .ok true =>
        simp only [hf, if_true] at h
        rcases split_first f post with hn | ⟨pre', y, post', rfl, h3, h4⟩
        · have := loop_skip f true (some x) post [] hn
          rw [List.append_nil] at this
          simp only [this, loop, Prod.mk.injEq, Out.value.injEq] at h
          obtain ⟨rfl, rfl⟩ := h
          refine ⟨rfl, pre, post, rfl, hf, ?_⟩
          intro z hz
          rcases List.mem_append.mp hz with hz | hz
          · exact h1 z hz
          · exact hn z hz
        · simp only [loop_skip f true (some x) pre' _ h3, loop] at h
          match hy : f y with
          | .error e => simp [hy] at h
          | .ok false => exact absurd hy h4
          | .ok true => simp [hy] at h
  · rintro ⟨rfl, pre, post, rfl, h1, h2⟩
    have hpost := loop_skip f true (some a) post [] (fun x hx => h2 x (by simp [hx]))
    rw [List.append_nil] at hpost
    simp [chooseOne, choose, loop_skip f true none pre _ (fun x hx => h2 x (by simp [hx])), loop, h1, hpost]

/-- **C170 more that match.** With checking, ValueError because of many exactly if at least two match, and nothing was
raised before the second. -/
theorem C170_multiple (f : α → Except ε Bool) (it : List α) (rest : List α) :
    chooseOne f it = (.multiple, rest) ↔ ∃ pre a mid b, it = pre ++ a :: (mid ++ b :: rest) ∧ f a = .ok true ∧ f b = .ok true ∧ ∀ x ∈ pre ++ mid, f x = .ok false := by
  constructor
  · intro h
    rcases split_first f it with hn | ⟨pre, x, post, rfl, h1, h2⟩
    · have := loop_skip f true none it [] hn
      rw [List.append_nil] at this
      simp [chooseOne, choose, this, loop] at h
    · simp only [chooseOne, choose, loop_skip f true none pre _ h1, loop] at h
      match hf : f x with
      | .error e => simp [hf] at h
      | .ok false => exact absurd hf h2
      | .ok true =>
        simp only [hf, if_true] at h
        rcases split_first f post with hn | ⟨pre', y, post', rfl, h3, h4⟩
        · have := loop_skip f true (some x) post [] hn
          rw [List.append_nil] at this
          simp [this, loop] at h
        · simp only [loop_skip f true (some x) pre' _ h3, loop] at h
          match hy : f y with
          | .error e => simp [hy] at h
          | .ok false => exact absurd hy h4
          | .ok true =>
            simp only [hy, if_true, Prod.mk.injEq, true_and] at h
            subst h
            refine ⟨pre, x, pre', y, rfl, hf, hy, ?_⟩
            intro z hz
            rcases List.mem_append.mp hz with hz | hz
            · exact h1 z hz
            · exact h3 z hz
  · rintro ⟨pre, a, mid, b, rfl, h1, h2, h3⟩
    simp [chooseOne, choose, loop_skip f true none pre _ (fun x hx => h3 x (by simp [hx])), loop, h1, loop_skip f true (some a) mid _ (fun x hx => h3 x (by simp [hx])), h2]

theorem indexLoop_skip (f : α → Except ε Bool) (pre rest : List α) (h : ∀ x ∈ pre, f x = .ok false) : ∀ i, indexLoop f i (pre ++ rest) = indexLoop f (i + pre.length) rest := by
  induction pre with
  | nil => intro i; rfl
  | cons x pre ih =>
    intro i
    simp only [List.cons_append, indexLoop, h x (by simp), ih (fun y hy => h y (by simp [hy])), List.length_cons]
    congr 1; omega

/-- **C170 the index.** `choose_with_index` returns exactly the first element that matches and the number of those
before it. -/
theorem C170_index (f : α → Except ε Bool) (it : List α) (a : α) (i : Nat) (rest : List α) :
    chooseWithIndex f it = (.value (a, i), rest) ↔ ∃ pre, it = pre ++ a :: rest ∧ i = pre.length ∧ f a = .ok true ∧ ∀ x ∈ pre, f x = .ok false := by
  constructor
  · intro h
    rcases split_first f it with hn | ⟨pre, x, post, rfl, h1, h2⟩
    · have := indexLoop_skip f it [] hn 0
      rw [List.append_nil] at this
      simp [chooseWithIndex, this, indexLoop] at h
    · simp only [chooseWithIndex, indexLoop_skip f pre _ h1, indexLoop] at h
      match hf : f x with
      | .error e => simp [hf] at h
      | .ok false => exact absurd hf h2
      | .ok true =>
        simp only [hf, Prod.mk.injEq, Out.value.injEq, Nat.zero_add] at h
        obtain ⟨⟨rfl, rfl⟩, rfl⟩ := h
        exact ⟨pre, rfl, rfl, hf, h1⟩
  · rintro ⟨pre, rfl, rfl, h1, h2⟩
    simp [chooseWithIndex, indexLoop_skip f pre _ h2, indexLoop, h1]

/-- **C170 no index.** ValueError exactly if no element matches. -/
theorem C170_no_index (f : α → Except ε Bool) (it : List α) : (chooseWithIndex f it).1 = .notFound ↔ ∀ x ∈ it, f x = .ok false := by
  have key : ∀ (it : List α) i, (indexLoop f i it).1 = .notFound ↔ ∀ x ∈ it, f x = .ok false := by
    intro it
    induction it with
    | nil => simp [indexLoop]
    | cons x rest ih =>
      intro i
      match hf : f x with
      | .error e => simp [indexLoop, hf]
      | .ok false => simp [indexLoop, hf, ih]
      | .ok true => simp [indexLoop, hf]
  exact key it 0

/-- A case of C170: elements greater than 2 in a list; the first, with index, and the two that are too many. -/
example : choose (ε := String) (fun x : Nat => .ok (decide (2 < x))) [1, 3, 2, 4, 5] = (.value 3, [2, 4, 5]) ∧
    chooseOne (ε := String) (fun x : Nat => .ok (decide (2 < x))) [1, 3, 2, 4, 5] = (.multiple, [5]) ∧
    chooseWithIndex (ε := String) (fun x : Nat => .ok (decide (2 < x))) [1, 3, 2, 4, 5] = (.value (3, 1), [2, 4, 5]) := by decide

/-- **C171 (violated) checking exhausts the iterator.** It is documented that with `check_multiple` the generator is
exhausted; if two elements match, whatever is after the second stays in it. -/
theorem C171_exhausts_violates (rest : List Nat) : chooseOne (ε := String) (fun x => .ok (decide (2 < x))) (3 :: 4 :: rest) = (.multiple, rest) := by
  simp [chooseOne, choose, loop]

/-- **C171 (partial) checking exhausts the iterator** if it returns, or if nothing matches. Missing: when there
are many, or when the filter raises. -/
theorem C171_exhausts_partial (f : α → Except ε Bool) (it : List α) (h : (chooseOne f it).1 ≠ .multiple) (hr : ∀ x ∈ it, ∀ e, f x ≠ .error e) : (chooseOne f it).2 = [] := by
  have key : ∀ (it : List α) (c : Option α), (∀ x ∈ it, ∀ e, f x ≠ .error e) → (loop f true c it).1 ≠ .multiple → (loop f true c it).2 = [] := by
    intro it
    induction it with
    | nil => intro c _ _; simp [loop]
    | cons x rest ih =>
      intro c hr h
      have hr' : ∀ y ∈ rest, ∀ e, f y ≠ .error e := fun y hy => hr y (by simp [hy])
      match hf : f x with
      | .error e => exact absurd hf (hr x (by simp) e)
      | .ok false => simp only [loop, hf] at h ⊢; exact ih c hr' h
      | .ok true =>
        cases c with
        | none => simp only [loop, hf, if_true] at h ⊢; exact ih _ hr' h
        | some c => simp [loop, hf] at h
  exact key it none hr h

/-! ## Generators: model -/

/-- What a generator does when it is resumed: yields or raises. After the last of them it returns (StopIteration). It is
a generator of the user, watched by /repo/satella/coding/generators.py:17-26. -/
inductive Item (β ε : Type) where
  | yields (v : β)
  | raises (e : ε)
deriving DecidableEq

/-- `RunActionAfterGeneratorCompletes`, /repo/satella/coding/generators.py:15-26: what the generator has to do yet, whether it was
closed by `close`, and the number of times the action was run (with the arguments given, line 50). -/
structure Gen (β ε : Type) where
  script : List (Item β ε)
  closed : Bool
  actions : Nat
deriving DecidableEq

/-- What a call gives: a value, StopIteration, or another exception; /repo/satella/coding/generators.py:28-51. -/
inductive GRes (β ε : Type) where
  | value (v : β)
  | stop
  | raised (e : ε)
  | none
deriving DecidableEq

/-- Calls, /repo/satella/coding/generators.py:28-51: `next(gen)`, the method `next`, `send`, `throw`, `close`. -/
inductive GOp (ε : Type) where
  | dnext
  | next
  | send
  | throw (e : ε)
  | close
deriving DecidableEq

variable {β : Type}

/-- Resuming the generator, as at /repo/satella/coding/generators.py:34,37,47. A generator that raised is finished. The value sent is
not used. -/
def resume : List (Item β ε) → GRes β ε × List (Item β ε)
  | [] => (.stop, [])
  | .yields v :: rest => (.value v, rest)
  | .raises e :: _ => (.raised e, [])

/-- /repo/satella/coding/generators.py:28-51, one call. The exception thrown is not caught by the generator. -/
def gstep (s : Gen β ε) : GOp ε → Gen β ε × GRes β ε
  | .dnext =>
    let r := resume s.script
    match r.1 with
    | .stop => ({ s with script := r.2, actions := if s.closed then s.actions else s.actions + 1 }, .stop)
    | x => ({ s with script := r.2 }, x)
  | .next => ({ s with script := (resume s.script).2 }, (resume s.script).1)
  | .send => ({ s with script := (resume s.script).2 }, (resume s.script).1)
  | .throw e => ({ s with script := [] }, .raised e)
  | .close => ({ s with script := [], closed := true }, .none)

/-- /repo/satella/coding/generators.py:17-26 and 58-73, a generator to be watched. -/
def watch (l : List (Item β ε)) : Gen β ε := ⟨l, false, 0⟩

/-! ## Generators: proofs -/

theorem dnexts_value (vs : List β) (rest : List (Item β ε)) : ∀ s : Gen β ε, s.script = vs.map .yields ++ rest →
    (runOps gstep s (List.replicate vs.length .dnext)).2 = vs.map .value ∧ (runOps gstep s (List.replicate vs.length .dnext)).1 = { s with script := rest } := by
  induction vs with
  | nil => intro s h; simp only [List.map_nil, List.nil_append] at h; simp [runOps, ← h]
  | cons v vs ih =>
    intro s h
    have h1 : gstep s .dnext = ({ s with script := vs.map .yields ++ rest }, .value v) := by
      simp [gstep, h, resume]
    obtain ⟨h2, h3⟩ := ih { s with script := vs.map .yields ++ rest } rfl
    simp [List.replicate_succ, runOps, h1, h2, h3]

/-- **C172 iterating a generator that completes.** Iterating gives all its values in order, then StopIteration; the
action is run exactly once, when StopIteration is raised and not before. -/
theorem C172_completes (vs : List β) : let s : Gen β ε := watch (vs.map .yields)
    (∀ k, k ≤ vs.length → (runOps gstep s (List.replicate k .dnext)).2 = (vs.take k).map .value ∧ (runOps gstep s (List.replicate k .dnext)).1.actions = 0) ∧
    (runOps gstep s (List.replicate (vs.length + 1) .dnext)).2 = vs.map .value ++ [.stop] ∧
    (runOps gstep s (List.replicate (vs.length + 1) .dnext)).1.actions = 1 := by
  refine ⟨fun k hk => ?_, ?_⟩
  · have h := dnexts_value (ε := ε) (vs.take k) ((vs.drop k).map .yields) (watch (vs.map .yields)) (by
      rw [← List.map_append, List.take_append_drop]; rfl)
    rw [List.length_take, Nat.min_eq_left hk] at h
    rw [h.1, h.2]
    exact ⟨rfl, rfl⟩
  · have h := dnexts_value (ε := ε) vs [] (watch (vs.map .yields)) (by simp [watch])
    rw [List.replicate_succ', runOps_append, h.1, h.2]
    simp [runOps, gstep, resume, watch]

/-- **C172, values.** However it is asked — by `next(gen)`, `next` or `send`, in any order — a watched generator gives its values in order, and StopIteration afterwards. -/
theorem C172_values (vs : List β) (ops : List (GOp ε)) (h : ∀ o ∈ ops, o = .dnext ∨ o = .next ∨ o = .send) :
    (runOps gstep (watch (vs.map .yields) : Gen β ε) ops).2 = (vs.take ops.length).map .value ++ List.replicate (ops.length - vs.length) .stop := by
  suffices key : ∀ (ops : List (GOp ε)) (vs : List β) (s : Gen β ε), (∀ o ∈ ops, o = .dnext ∨ o = .next ∨ o = .send) → s.script = vs.map .yields →
      (runOps gstep s ops).2 = (vs.take ops.length).map .value ++ List.replicate (ops.length - vs.length) .stop from key ops vs _ h rfl
  intro ops
  induction ops with
  | nil => intro vs s _ _; simp [runOps]
  | cons o ops ih =>
    intro vs s h hs
    have ho := h o (by simp)
    have hr := fun p hp => h p (List.mem_cons_of_mem o hp)
    cases vs with
    | nil =>
      have h1 : (gstep s o).2 = .stop ∧ (gstep s o).1.script = [] := by rcases ho with rfl | rfl | rfl <;> simp [gstep, hs, resume]
      have := ih [] (gstep s o).1 hr (by rw [h1.2]; rfl)
      simp only [runOps, h1.1, this]
      simp [List.replicate_succ]
    | cons v vs =>
      have h1 : (gstep s o).2 = .value v ∧ (gstep s o).1.script = vs.map .yields := by rcases ho with rfl | rfl | rfl <;> simp [gstep, hs, resume]
      have := ih vs (gstep s o).1 hr h1.2
      simp only [runOps, h1.1, this]
      simp

example : (runOps gstep (watch [.yields 1, .yields 2] : Gen Nat Nat) [.next, .send, .dnext]).2 = [.value 1, .value 2, .stop] := rfl

/-- **C172 closed generators.** After `close`, no call runs the action. -/
theorem C172_closed (s : Gen β ε) (ops : List (GOp ε)) : (runOps gstep (gstep s .close).1 ops).1.actions = s.actions := by
  suffices h : ∀ t : Gen β ε, t.closed = true → (runOps gstep t ops).1.actions = t.actions from h _ rfl
  induction ops with
  | nil => intro t _; rfl
  | cons o ops ih =>
    intro t ht
    have h1 : (gstep t o).1.closed = true ∧ (gstep t o).1.actions = t.actions := by
      cases o with
      | dnext =>
        simp only [gstep]
        split <;> simp [ht]
      | next => exact ⟨ht, rfl⟩
      | send => exact ⟨ht, rfl⟩
      | throw e => exact ⟨ht, rfl⟩
      | close => exact ⟨rfl, rfl⟩
    simp only [runOps]
    rw [ih _ h1.1, h1.2]

/-- **C172 generators that raise.** If the generator raises, the exception is raised after the values, and iterating up
to it does not run the action. -/
theorem C172_raises (vs : List β) (e : ε) (rest : List (Item β ε)) : let s : Gen β ε := watch (vs.map .yields ++ .raises e :: rest)
    (runOps gstep s (List.replicate (vs.length + 1) .dnext)).2 = vs.map .value ++ [.raised e] ∧
    (runOps gstep s (List.replicate (vs.length + 1) .dnext)).1.actions = 0 := by
  have h := dnexts_value (ε := ε) vs (.raises e :: rest) (watch (vs.map .yields ++ .raises e :: rest)) rfl
  intro s
  simp only [s]
  rw [List.replicate_succ', runOps_append, h.1, h.2]
  simp [runOps, gstep, resume, watch]

/-- A case of C172. -/
example : (runOps gstep (watch [.yields 1, .yields 2] : Gen Nat String) [.dnext, .dnext, .dnext]) = (⟨[], false, 1⟩, [.value 1, .value 2, .stop]) := by decide

/-- **C173 (violated) once.** Every further `next` of a generator that has completed runs the action again. -/
theorem C173_once_violates (vs : List β) (n : Nat) : (runOps gstep (watch (vs.map .yields) : Gen β ε) (List.replicate (vs.length + n) .dnext)).1.actions = n := by
  have h := dnexts_value (ε := ε) vs [] (watch (vs.map .yields)) (by simp [watch])
  rw [← List.replicate_append_replicate, runOps_append, h.2]
  suffices h : ∀ t : Gen β ε, t.script = [] → t.closed = false → (runOps gstep t (List.replicate n .dnext)).1.actions = t.actions + n by
    have := h { (watch (vs.map .yields) : Gen β ε) with script := [] } rfl rfl
    simpa [watch] using this
  clear h
  induction n with
  | zero => intro t _ _; rfl
  | succ n ih =>
    intro t h1 h2
    simp only [List.replicate_succ, runOps]
    rw [ih]
    · simp only [gstep, h1, resume, h2, Bool.false_eq_true, if_false]; omega
    · simp [gstep, h1, resume]
    · simp [gstep, h1, resume, h2]

/-- **C173 (violated) however it completes.** If the generator completes in `send` or in the method `next`, the action is
not run. -/
theorem C173_send_violates (vs : List β) : let s : Gen β ε := watch (vs.map .yields)
    (runOps gstep s (List.replicate vs.length .dnext ++ [.send])).2 = vs.map .value ++ [.stop] ∧ (runOps gstep s (List.replicate vs.length .dnext ++ [.send])).1.actions = 0 ∧
    (runOps gstep s (List.replicate vs.length .dnext ++ [.next])).2 = vs.map .value ++ [.stop] ∧ (runOps gstep s (List.replicate vs.length .dnext ++ [.next])).1.actions = 0 := by
  have h := dnexts_value (ε := ε) vs [] (watch (vs.map .yields)) (by simp [watch])
  simp only [runOps_append, h.1, h.2]
  simp [runOps, gstep, resume, watch]

/-- **C173 (violated) only when it completes.** A generator that raised, or was thrown an exception, did not complete;
but the next `next` runs the action. -/
theorem C173_raised_violates (e : ε) (rest : List (Item β ε)) : (runOps gstep (watch (.raises e :: rest) : Gen β ε) [.dnext, .dnext]).1.actions = 1 ∧ (runOps gstep (watch rest : Gen β ε) [.throw e, .dnext]).1.actions = 1 := by
  simp [runOps, gstep, resume, watch]

/-- How many of the calls are `next(gen)` that raised StopIteration. -/
def stops : List (GOp ε) → List (GRes β ε) → Nat
  | .dnext :: os, .stop :: rs => stops os rs + 1
  | _ :: os, _ :: rs => stops os rs
  | _, _ => 0

/-- **C173 (partial) the exact number.** Without `close`, the action is run as many times as `next(gen)` raises
StopIteration. Missing: once, however it completes, only when it completes. -/
theorem C173_count_partial (ops : List (GOp ε)) (hc : .close ∉ ops) (l : List (Item β ε)) :
    (runOps gstep (watch l : Gen β ε) ops).1.actions = stops ops (runOps gstep (watch l : Gen β ε) ops).2 := by
  suffices h : ∀ t : Gen β ε, t.closed = false → (runOps gstep t ops).1.actions = t.actions + stops ops (runOps gstep t ops).2 by
    have := h (watch l) rfl
    simpa [watch] using this
  induction ops with
  | nil => intro t _; rfl
  | cons o ops ih =>
    intro t ht
    have ih := ih (fun h => hc (by simp [h]))
    simp only [runOps]
    cases o with
    | dnext =>
      match hs : t.script with
      | [] =>
        simp only [gstep, hs, resume, ht, Bool.false_eq_true, if_false, stops]
        rw [ih _ rfl]
        simp only []
        omega
      | .yields v :: rest =>
        simp only [gstep, hs, resume, stops]
        exact ih _ ht
      | .raises e :: rest =>
        simp only [gstep, hs, resume, stops]
        exact ih _ ht
    | next => simp only [stops]; exact ih _ ht
    | send => simp only [stops]; exact ih _ ht
    | throw e => simp only [stops]; exact ih _ ht
    | close => simp at hc

end Verif.Choose
