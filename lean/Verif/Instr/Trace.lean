import Verif.Py.Dict
/-!
# Tracing of functions, futures and exceptions

`/repo/satella/opentracing/trace.py` and `/repo/satella/opentracing/exceptions.py`.  The tracer, and
the spans, are those of opentracing: they are modelled by the calls made to them.
-/
namespace Verif.Trace

/-- part of the model of `trace_function`, /repo/satella/opentracing/trace.py:20-68 -/
inductive Exc where
  | typeError (n : Nat)
  | other (n : Nat)
  deriving Repr, DecidableEq

section
variable {κ ν A R : Type} [DecidableEq κ]

/-- One tag to be computed: its name; what the callable gives when called with the arguments of the
function, and what it gives when called with the tuple of positional ones.  (Part of the model of `trace_function`, /repo/satella/opentracing/trace.py:20-68.) -/
structure Factory (κ ν A : Type) where
  key : κ
  star : A → Except Exc ν
  single : A → Except Exc ν

/-- What can be seen: a span is opened with tags, the function is called, the span is closed (knowing
what was raised); or the call failed before.  (Part of the model of `trace_function`, /repo/satella/opentracing/trace.py:20-68.) -/
inductive Ev (κ ν A R : Type) where
  | opened (tags : Option (Dict κ ν))
  | called (a : A) (r : Except Exc R)
  | closed (raised : Option Exc)

/-- The computation of one tag, `/repo/satella/opentracing/trace.py:55-61`. -/
def compute (f : Factory κ ν A) (a : A) : Except Exc ν :=
  match f.star a with
  | .ok v => .ok v
  | .error (.typeError _) => f.single a
  | .error e => .error e

/-- The loop at `/repo/satella/opentracing/trace.py:54-62`. -/
def addTags (a : A) : Dict κ ν → List (Factory κ ν A) → Except Exc (Dict κ ν)
  | d, [] => .ok d
  | d, f :: rest =>
    match compute f a with
    | .error e => .error e
    | .ok v => addTags a (d.set f.key v) rest

/-- One call of the decorated function, `/repo/satella/opentracing/trace.py:47-64`.  `tags` is the variable
shared by all calls; the result is its new value, what happened, and what was returned or raised. -/
def call (fun_ : A → Except Exc R) (factories : Option (List (Factory κ ν A))) (tags : Option (Dict κ ν)) (a : A) :
    Option (Dict κ ν) × List (Ev κ ν A R) × Except Exc R :=
  let go (tags' my : Option (Dict κ ν)) : Option (Dict κ ν) × List (Ev κ ν A R) × Except Exc R :=
    let r := fun_ a
    (tags', [.opened my, .called a r, .closed (match r with | .ok _ => none | .error e => some e)], r)
  match factories with
  | none => go tags tags
  | some fs =>
    let base := tags.getD []
    match addTags a base fs with
    | .error e => (some base, [], .error e)
    | .ok d => go (some base) (some d)

/-- Calls one after another (`/repo/satella/opentracing/trace.py:47-64`). -/
def calls (fun_ : A → Except Exc R) (factories : Option (List (Factory κ ν A))) : Option (Dict κ ν) → List A → List (List (Ev κ ν A R) × Except Exc R)
  | _, [] => []
  | tags, a :: rest => let r := call fun_ factories tags a; r.2 :: calls fun_ factories r.1 rest

/-! ### Specification -/

/-- The tags of a call: those given, changed by those computed, in order. -/
inductive Computed (a : A) : Dict κ ν → List (Factory κ ν A) → Dict κ ν → Prop
  | nil {d} : Computed a d [] d
  | cons {d f v fs d'} : f.star a = .ok v → Computed a (d.set f.key v) fs d' → Computed a d (f :: fs) d'

/-- No callable for tags raises a TypeError. -/
def NoTypeError (fs : List (Factory κ ν A)) : Prop := ∀ f ∈ fs, ∀ a n, f.star a ≠ .error (.typeError n)

/-! ### Properties -/

theorem addTags_ok {fs : List (Factory κ ν A)} (h : NoTypeError fs) (a : A) : ∀ (d d' : Dict κ ν), addTags a d fs = .ok d' ↔ Computed a d fs d' := by
  induction fs with
  | nil =>
    intro d d'
    simp only [addTags, Except.ok.injEq]
    exact ⟨fun h => h ▸ .nil, fun h => by cases h; rfl⟩
  | cons f fs ih =>
    intro d d'
    have ih := ih (fun g hg => h g (List.mem_cons_of_mem _ hg))
    simp only [addTags, compute]
    cases hs : f.star a with
    | ok v =>
      simp only
      rw [ih]
      refine ⟨fun h => .cons hs h, fun h => ?_⟩
      cases h with
      | cons h1 h2 => rw [hs] at h1; cases h1; exact h2
    | error e =>
      cases e with
      | typeError n => exact absurd hs (h f (List.mem_cons_self ..) a n)
      | other n =>
        simp only [reduceCtorEq, false_iff]
        intro h
        cases h with
        | cons h1 h2 => rw [hs] at h1; cases h1

theorem addTags_error {fs : List (Factory κ ν A)} (h : NoTypeError fs) (a : A) : ∀ (d : Dict κ ν) e, addTags a d fs = .error e → ∃ f ∈ fs, f.star a = .error e := by
  induction fs with
  | nil => intro d e h; simp [addTags] at h
  | cons f fs ih =>
    intro d e he
    simp only [addTags, compute] at he
    cases hs : f.star a with
    | ok v =>
      simp only [hs] at he
      obtain ⟨g, hg, h2⟩ := ih (fun g hg => h g (List.mem_cons_of_mem _ hg)) _ e he
      exact ⟨g, List.mem_cons_of_mem _ hg, h2⟩
    | error e' =>
      cases e' with
      | typeError n => exact absurd hs (h f (List.mem_cons_self ..) a n)
      | other n =>
        simp only [hs] at he
        cases he
        exact ⟨f, List.mem_cons_self .., hs⟩

/-- What a call should be, given the tags of the decorator. -/
inductive Traced (fun_ : A → Except Exc R) (tags : Option (Dict κ ν)) : Option (List (Factory κ ν A)) → A → List (Ev κ ν A R) × Except Exc R → Prop
  | plain {a} : Traced fun_ tags none a ([.opened tags, .called a (fun_ a), .closed (match fun_ a with | .ok _ => none | .error e => some e)], fun_ a)
  | computed {fs a d} : Computed a (tags.getD []) fs d →
      Traced fun_ tags (some fs) a ([.opened (some d), .called a (fun_ a), .closed (match fun_ a with | .ok _ => none | .error e => some e)], fun_ a)
  | failed {fs a f e} : f ∈ fs → f.star a = .error e → Traced fun_ tags (some fs) a ([], .error e)

/-- Pointwise. -/
inductive Each {X Y : Type} (P : X → Y → Prop) : List X → List Y → Prop
  | nil : Each P [] []
  | cons {x y xs ys} : P x y → Each P xs ys → Each P (x :: xs) (y :: ys)

/-- **C207 (traced functions)** In every sequence of calls, each call opens one span, calls the function
once with its arguments, and closes the span, knowing what was raised; the outcome is that of the
function. The tags are those given, changed by those computed from the arguments of this very call,
and not by those of earlier ones. If computing a tag fails, the function is not called. -/
theorem C207_traced (fun_ : A → Except Exc R) (tags : Option (Dict κ ν)) (factories : Option (List (Factory κ ν A)))
    (h : ∀ fs, factories = some fs → NoTypeError fs) (as : List A) : Each (Traced fun_ tags factories) as (calls fun_ factories tags as) := by
  have key : ∀ as tags', (tags' = tags ∨ (factories.isSome ∧ tags' = some (tags.getD []))) → Each (Traced fun_ tags factories) as (calls fun_ factories tags' as) := by
    intro as
    induction as with
    | nil => intro _ _; exact .nil
    | cons a as ih =>
      intro tags' ht
      simp only [calls]
      cases factories with
      | none =>
        have : tags' = tags := by simpa using ht
        subst this
        exact .cons (by simp only [call]; exact .plain) (ih _ (Or.inl rfl))
      | some fs =>
        have hb : tags'.getD [] = tags.getD [] := by
          rcases ht with rfl | ⟨_, rfl⟩ <;> rfl
        have hn := h fs rfl
        cases ha : addTags a (tags.getD []) fs with
        | error e =>
          obtain ⟨f, hf, he⟩ := addTags_error hn a _ e ha
          refine .cons ?_ (ih _ ?_)
          · simp only [call, hb, ha]; exact .failed hf he
          · right; simp [call, hb, ha]
        | ok d =>
          refine .cons ?_ (ih _ ?_)
          · simp only [call, hb, ha]; exact .computed ((addTags_ok hn a _ _).1 ha)
          · right; simp [call, hb, ha]
  exact key as tags (Or.inl rfl)

/-- **C208 (tags are computed from the arguments), the violation** A callable for a tag that takes the
arguments, but raises a TypeError on them, is called again with the tuple of the arguments, and what
it then gives is the tag. -/
theorem C208_type_error_violates (fun_ : A → Except Exc R) (k : κ) (star single : A → Except Exc ν) (a : A) (n : Nat) (v : ν)
    (h1 : star a = .error (.typeError n)) (h2 : single a = .ok v) : (call fun_ (some [⟨k, star, single⟩]) none a).2.1.head? = some (.opened (some [(k, v)])) := by
  simp [call, addTags, compute, h1, h2, Dict.set]

end

/-! ## Futures -/

/-- How a future ends.  (Part of the model of `trace_future`, /repo/satella/opentracing/trace.py:71-93.) -/
inductive End where
  | result
  | exception (n : Nat)
  | cancelled
  deriving Repr, DecidableEq

/-- What happens to the span.  (Part of the model of `trace_future`, /repo/satella/opentracing/trace.py:71-93.) -/
inductive SpanEv where
  /-- `Span._on_error` with an exception, or with none, which does nothing -/
  | onError (n : Option Nat)
  | finish
  deriving Repr, DecidableEq

/-- `close_future`, `/repo/satella/opentracing/trace.py:85-91`: no exception is being handled when callbacks of
futures run, so `sys.exc_info()` has none, unless the caller of the future is handling one; of a cancelled
future `exception` raises. -/
def closeFuture (handling : Option Nat) : End → List SpanEv
  | .result => [.finish]
  | .exception _ => [.onError handling, .finish]
  | .cancelled => []

/-- A future: how it ended, and the callbacks to be called.  `trace_future(future, span)` adds one,
`/repo/satella/opentracing/trace.py:93`; it is called at once if the future has ended. -/
def traceFuture (ended : Option End) (handling : Option Nat) (later : List End) : List SpanEv :=
  match ended with
  | some e => closeFuture handling e
  | none =>
    match later with
    | [] => []
    | e :: _ => closeFuture none e

/-- What is attached to the span. -/
def attached (l : List SpanEv) : List Nat := l.filterMap (fun e => match e with | .onError n => n | .finish => none)

/-- **C208 (exceptions of futures are attached), the violation** The exception of a future that ends with
one is not attached to its span. -/
theorem C208_exception_violates (n : Nat) (later : List End) : attached (traceFuture none none (.exception n :: later)) = [] := rfl

/-- **C208 (spans of futures are closed), the violation** The span of a future that is cancelled is never
closed. -/
theorem C208_cancelled_violates (later : List End) : SpanEv.finish ∉ traceFuture none none (.cancelled :: later) := by
  simp [traceFuture, closeFuture]

/-- **C208 (spans of futures are closed), the part that holds** A span is closed exactly once, and last,
when its future has ended with a result or an exception, and not before it ends. -/
theorem C208_closed_partial (ended : Option End) (handling : Option Nat) (later : List End) :
    (ended = none → later = [] → traceFuture ended handling later = []) ∧
    (∀ e, (ended = some e ∨ (ended = none ∧ ∃ l, later = e :: l)) → e ≠ .cancelled →
      (traceFuture ended handling later).count .finish = 1 ∧ (traceFuture ended handling later).getLast? = some .finish) := by
  constructor
  · rintro rfl rfl; rfl
  · rintro e (rfl | ⟨rfl, l, rfl⟩) he <;> cases e <;> simp_all [traceFuture, closeFuture]

/-- **C208 (what is attached), the part that holds** Nothing is ever attached to the span of a future, unless it had ended with an exception before `trace_future` was called: then, what
the caller is handling. -/
theorem C208_attached_partial (ended : Option End) (handling : Option Nat) (later : List End) (n : Nat) :
    n ∈ attached (traceFuture ended handling later) ↔ handling = some n ∧ ∃ m, ended = some (.exception m) := by
  cases ended with
  | none =>
    cases later with
    | nil => simp [traceFuture, attached]
    | cons e l => cases e <;> simp [traceFuture, closeFuture, attached]
  | some e => cases e <;> cases handling <;> simp [traceFuture, closeFuture, attached, eq_comm]

example : attached (traceFuture (some (.exception 4)) (some 9) []) = [9] := rfl

/-! ## Exceptions -/

/-- What is logged to the span.  (Part of the model of `trace_exception`, /repo/satella/opentracing/exceptions.py:22-57.) -/
structure Logged where
  value : Option Nat
  kind : Nat
  stack : List Char
  deriving Repr, DecidableEq

/-- `max_tb_length or max_traceback_length`, /repo/satella/opentracing/exceptions.py:40 -/
def lengthOr (maxLen : Option Nat) (globalMax : Nat) : Nat :=
  match maxLen with
  | none => globalMax
  | some 0 => globalMax
  | some n => n

/-- `trace_exception(span, exc_type, exc_val, exc_tb, max_tb_length)`, `/repo/satella/opentracing/exceptions.py:37-57`.
`current` is `sys.exc_info()`; a traceback is the text it is formatted to.  `none` is AttributeError (of
`None.tb_frame`); `some none` is that nothing is done. -/
def traceException (span : Bool) (current : Option (Nat × Nat × List Char)) (kind value : Option Nat) (tb : Option (List Char)) (maxLen : Option Nat) (globalMax : Nat) :
    Option (Option Logged) :=
  if !span then some none
  else
    let m := lengthOr maxLen globalMax
    match kind with
    | none =>
      match current with
      | none => some none
      | some (k, v, t) => some (some ⟨some v, k, if t.length > m then t.take m else t⟩)
    | some k =>
      match tb with
      | none => none
      | some t => some (some ⟨value, k, if t.length > m then t.take m else t⟩)

/-- **C209 (exceptions traced)** Without a span nothing is logged. The exception given, or else the one
being handled if there is one, is logged once, with the beginning of its traceback, of the maximum
length at most, and all of it if it is not longer. -/
theorem C209_exception (current : Option (Nat × Nat × List Char)) (kind value : Option Nat) (tb : Option (List Char)) (maxLen : Option Nat) (g : Nat) :
    traceException false current kind value tb maxLen g = some none ∧
    (traceException true none none value tb maxLen g = some none) ∧
    (∀ m k v t, (maxLen = some m ∧ m ≠ 0 ∨ maxLen = none ∧ m = g) →
      (kind = some k ∧ value = v ∧ tb = some t) ∨ (kind = none ∧ ∃ v', v = some v' ∧ current = some (k, v', t)) →
      ∃ stack, traceException true current kind value tb maxLen g = some (some ⟨v, k, stack⟩) ∧ stack <+: t ∧ stack.length = min m t.length) := by
  refine ⟨rfl, rfl, ?_⟩
  intro m k v t hm hk
  refine ⟨t.take m, ?_, List.take_prefix _ _, by simp⟩
  have hcut : (if t.length > m then t.take m else t) = t.take m := by
    split
    · rfl
    · rw [List.take_of_length_le (by omega)]
  have hM : lengthOr maxLen g = m := by
    rcases hm with ⟨rfl, h0⟩ | ⟨rfl, rfl⟩
    · cases m with
      | zero => exact absurd rfl h0
      | succ m => rfl
    · rfl
  rcases hk with ⟨rfl, rfl, rfl⟩ | ⟨rfl, v', rfl, rfl⟩
  · simp only [traceException, Bool.not_true, Bool.false_eq_true, ↓reduceIte, hM, hcut]
  · simp only [traceException, Bool.not_true, Bool.false_eq_true, ↓reduceIte, hM, hcut]

/-- **C210 (the traceback is taken from the exception handled), the violation** If the type is given but
not the traceback, the call fails with AttributeError, also while an exception is being handled. -/
theorem C210_traceback_violates (current : Option (Nat × Nat × List Char)) (k : Nat) (value : Option Nat) (maxLen : Option Nat) (g : Nat) :
    traceException true current (some k) value none maxLen g = none := rfl

/-- **C210 (the maximum length), the violation** A maximum length of 0 is taken for none. -/
theorem C210_zero_violates (k : Nat) (t : List Char) (g : Nat) (h : t.length ≤ g) : traceException true none (some k) none (some t) (some 0) g = some (some ⟨none, k, t⟩) := by
  simp only [traceException, lengthOr, Bool.not_true, Bool.false_eq_true, ↓reduceIte]
  rw [if_neg (by omega)]

/-- **C210 (the traceback is taken from the exception handled), the part that holds** If nothing is given,
all is taken from the exception handled. -/
theorem C210_nothing_partial (k v : Nat) (t : List Char) (value : Option Nat) (tb : Option (List Char)) (g : Nat) (h : t.length ≤ g) :
    traceException true (some (k, v, t)) none value tb none g = some (some ⟨some v, k, t⟩) := by
  have : ¬ t.length > lengthOr none g := by simp only [lengthOr]; omega
  simp only [traceException, Bool.not_true, Bool.false_eq_true, ↓reduceIte]
  rw [if_neg this]

/-! ## Examples -/

/-- A tag with the argument itself. -/
def device : Factory String Nat Nat := ⟨"device", fun a => .ok a, fun _ => .error (.other 1)⟩
example : NoTypeError [device] := by intro f hf a n; simp at hf; subst hf; simp [device]
example : ((calls (fun a => Except.ok (a + 1)) (some [device]) (some [("x", 9)]) [5, 6]).map (fun r => r.1.head?)) =
    [some (.opened (some [("x", 9), ("device", 5)])), some (.opened (some [("x", 9), ("device", 6)]))] := by
  simp [calls, call, addTags, compute, device, Dict.set]
example : traceException true (some (1, 2, "abcdef".toList)) none none none (some 3) 100 = some (some ⟨some 2, 1, "abc".toList⟩) := by decide

end Verif.Trace
