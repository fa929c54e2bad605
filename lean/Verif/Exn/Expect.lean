/-!
# Context managers: expecting an exception, doing nothing, wrapping callables

`/repo/satella/coding/expect_exception.py` and `/repo/satella/coding/ctxt_managers.py`.
-/
namespace Verif.Expect

/-- An exception: the classes it is an instance of, and what it was made of.  (Part of the model of `expect_exception`, /repo/satella/coding/expect_exception.py:6-40.) -/
structure Exc where
  classes : List Nat
  what : Nat
  deriving Repr, DecidableEq

/-- A context manager, in a program with the state `S`: `enter` may raise; `exit` gets the exception
that left the block, if any, and says whether to swallow it, or raises another.  (Part of the model of
`wrap_callable_in_context_manager`, /repo/satella/coding/ctxt_managers.py:29-48.) -/
structure Manager (S : Type) where
  enter : S → Except Exc Unit × S
  exit : Option Exc → S → Except Exc Bool × S

/-- What a block does: ends with a value or raises.  (Part of the model of `wrap_callable_in_context_manager`, /repo/satella/coding/ctxt_managers.py:29-48.) -/
abbrev Block (S V : Type) := S → Except Exc V × S

/-- The statement `with manager: block`, as Python executes it at `/repo/satella/coding/ctxt_managers.py:46-47`; a
swallowed exception makes the function fall through, which gives `fell`, its None. -/
def withStmt {S V : Type} (m : Manager S) (fell : V) (b : Block S V) : Block S V := fun s =>
  match m.enter s with
  | (.error e, s1) => (.error e, s1)
  | (.ok _, s1) =>
    match b s1 with
    | (.ok v, s2) =>
      match m.exit none s2 with
      | (.error e, s3) => (.error e, s3)
      | (.ok _, s3) => (.ok v, s3)
    | (.error e, s2) =>
      match m.exit (some e) s2 with
      | (.error e', s3) => (.error e', s3)
      | (.ok true, s3) => (.ok fell, s3)
      | (.ok false, s3) => (.error e, s3)

/-- How the exceptions expected are given: a class or a tuple of classes, or a list of classes.  (Part of the model of `expect_exception`, /repo/satella/coding/expect_exception.py:6-40.) -/
inductive Classes where
  | tuple (l : List Nat)
  | list (l : List Nat)
  deriving Repr, DecidableEq

/-- part of the model of `expect_exception`, /repo/satella/coding/expect_exception.py:6-40 -/
def typeError : Exc := ⟨[1], 0⟩

/-- `isinstance(exc_val, classes)`, `/repo/satella/coding/expect_exception.py:38`: a list is a TypeError. -/
def isinstance (e : Exc) : Classes → Except Exc Bool
  | .tuple l => .ok (l.any (fun c => c ∈ e.classes))
  | .list _ => .error typeError

/-- `expect_exception(exc_to_except, else_raise, *args)`, `/repo/satella/coding/expect_exception.py:32-40`;
`make` calls `else_raise`, which gives an exception, or raises one. -/
def expecting {S : Type} (classes : Classes) (make : S → Exc × S) : Manager S where
  enter s := (.ok (), s)
  exit
    | none, s => let r := make s; (.error r.1, r.2)
    | some e, s =>
      match isinstance e classes with
      | .error t => (.error t, s)
      | .ok b => (.ok b, s)

/-- `EmptyContextManager`, `/repo/satella/coding/ctxt_managers.py:4-26`. -/
def empty {S : Type} : Manager S where
  enter s := (.ok (), s)
  exit _ s := (.ok false, s)

/-- `wrap_callable_in_context_manager(clbl, ctxt_mgr)`, `/repo/satella/coding/ctxt_managers.py:44-48`: `mgr` makes a
manager for each call. -/
def wrapCallable {S A V : Type} (f : A → Block S (Option V)) (mgr : S → Except Exc (Manager S) × S) : A → Block S (Option V) := fun a s =>
  match mgr s with
  | (.error e, s1) => (.error e, s1)
  | (.ok m, s1) => withStmt m none (f a) s1

/-! ## Properties -/

/-- **C200 (an exception is expected)** With a class or a tuple of classes: the statement ends normally
exactly if the block raised an exception of one of them; an exception of none of them leaves as it is;
and if the block does not raise, what `else_raise` makes is raised. -/
theorem C200_expected {S V : Type} (l : List Nat) (make : S → Exc × S) (fell : V) (b : Block S V) (s : S) :
    (∀ e s1, b s = (.error e, s1) → (∃ c ∈ l, c ∈ e.classes) → withStmt (expecting (.tuple l) make) fell b s = (.ok fell, s1)) ∧
    (∀ e s1, b s = (.error e, s1) → (∀ c ∈ l, c ∉ e.classes) → withStmt (expecting (.tuple l) make) fell b s = (.error e, s1)) ∧
    (∀ v s1, b s = (.ok v, s1) → withStmt (expecting (.tuple l) make) fell b s = (.error (make s1).1, (make s1).2)) := by
  refine ⟨fun e s1 hb ⟨c, hc, he⟩ => ?_, fun e s1 hb hno => ?_, fun v s1 hb => ?_⟩
  · have : l.any (fun c => c ∈ e.classes) = true := by simp only [List.any_eq_true, decide_eq_true_eq]; exact ⟨c, hc, he⟩
    simp only [withStmt, expecting, hb, isinstance, this]
  · have : l.any (fun c => c ∈ e.classes) = false := by
      rw [List.any_eq_false]; intro c hc; simp [hno c hc]
    simp only [withStmt, expecting, hb, isinstance, this]
  · simp only [withStmt, expecting, hb]

/-- **C200 (doing nothing)** A block in an `EmptyContextManager` does what it does without it. -/
theorem C200_empty {S V : Type} (fell : V) (b : Block S V) : withStmt empty fell b = b := by
  funext s
  simp only [withStmt, empty]
  rcases b s with ⟨(e | v), s1⟩ <;> rfl

/-- What `wrapped(a)` should be, in all cases. -/
inductive Wrapped {S A V : Type} (f : A → Block S (Option V)) (mgr : S → Except Exc (Manager S) × S) (a : A) : S → Except Exc (Option V) → S → Prop
  /-- the manager could not be made: nothing is called -/
  | noManager {s e s1} : mgr s = (.error e, s1) → Wrapped f mgr a s (.error e) s1
  /-- it could not be entered: the callable is not called, and it is not left -/
  | noEntry {s m s1 e s2} : mgr s = (.ok m, s1) → m.enter s1 = (.error e, s2) → Wrapped f mgr a s (.error e) s2
  /-- the callable returned -/
  | returned {s m s1 s2 v s3 q s4} : mgr s = (.ok m, s1) → m.enter s1 = (.ok (), s2) → f a s2 = (.ok v, s3) → m.exit none s3 = (.ok q, s4) → Wrapped f mgr a s (.ok v) s4
  | returnedExit {s m s1 s2 v s3 e s4} : mgr s = (.ok m, s1) → m.enter s1 = (.ok (), s2) → f a s2 = (.ok v, s3) → m.exit none s3 = (.error e, s4) → Wrapped f mgr a s (.error e) s4
  /-- the callable raised -/
  | raised {s m s1 s2 e s3 s4} : mgr s = (.ok m, s1) → m.enter s1 = (.ok (), s2) → f a s2 = (.error e, s3) → m.exit (some e) s3 = (.ok false, s4) → Wrapped f mgr a s (.error e) s4
  | swallowed {s m s1 s2 e s3 s4} : mgr s = (.ok m, s1) → m.enter s1 = (.ok (), s2) → f a s2 = (.error e, s3) → m.exit (some e) s3 = (.ok true, s4) → Wrapped f mgr a s (.ok none) s4
  | raisedExit {s m s1 s2 e s3 e' s4} : mgr s = (.ok m, s1) → m.enter s1 = (.ok (), s2) → f a s2 = (.error e, s3) → m.exit (some e) s3 = (.error e', s4) → Wrapped f mgr a s (.error e') s4

/-- **C200 (wrapped callables)** A callable wrapped in a context manager makes a manager, enters it,
calls, and leaves it, each once, in every case; what is returned or raised is what the statement says. -/
theorem C200_wrapped {S A V : Type} (f : A → Block S (Option V)) (mgr : S → Except Exc (Manager S) × S) (a : A) (s : S) (r : Except Exc (Option V)) (s' : S) :
    wrapCallable f mgr a s = (r, s') ↔ Wrapped f mgr a s r s' := by
  constructor
  · intro h
    unfold wrapCallable withStmt at h
    rcases hm : mgr s with ⟨(e | m), s1⟩
    · simp only [hm, Prod.mk.injEq] at h; obtain ⟨rfl, rfl⟩ := h; exact .noManager hm
    · simp only [hm] at h
      rcases he : m.enter s1 with ⟨(e | ⟨⟩), s2⟩
      · simp only [he, Prod.mk.injEq] at h; obtain ⟨rfl, rfl⟩ := h; exact .noEntry hm he
      · simp only [he] at h
        rcases hf : f a s2 with ⟨(e | v), s3⟩
        · simp only [hf] at h
          rcases hx : m.exit (some e) s3 with ⟨(e' | (_ | _)), s4⟩
          · simp only [hx, Prod.mk.injEq] at h; obtain ⟨rfl, rfl⟩ := h; exact .raisedExit hm he hf hx
          · simp only [hx, Prod.mk.injEq] at h; obtain ⟨rfl, rfl⟩ := h; exact .raised hm he hf hx
          · simp only [hx, Prod.mk.injEq] at h; obtain ⟨rfl, rfl⟩ := h; exact .swallowed hm he hf hx
        · simp only [hf] at h
          rcases hx : m.exit none s3 with ⟨(e' | q), s4⟩
          · simp only [hx, Prod.mk.injEq] at h; obtain ⟨rfl, rfl⟩ := h; exact .returnedExit hm he hf hx
          · simp only [hx, Prod.mk.injEq] at h; obtain ⟨rfl, rfl⟩ := h; exact .returned hm he hf hx
  · intro h
    cases h with
    | noManager h1 => simp [wrapCallable, h1]
    | noEntry h1 h2 => simp [wrapCallable, withStmt, h1, h2]
    | returned h1 h2 h3 h4 => simp [wrapCallable, withStmt, h1, h2, h3, h4]
    | returnedExit h1 h2 h3 h4 => simp [wrapCallable, withStmt, h1, h2, h3, h4]
    | raised h1 h2 h3 h4 => simp [wrapCallable, withStmt, h1, h2, h3, h4]
    | swallowed h1 h2 h3 h4 => simp [wrapCallable, withStmt, h1, h2, h3, h4]
    | raisedExit h1 h2 h3 h4 => simp [wrapCallable, withStmt, h1, h2, h3, h4]

/-- **C201 (a list of exceptions), the violation** The documentation allows a list of exceptions; with
one, whatever the block raises, also what is in the list, comes out as a TypeError. -/
theorem C201_list_violates {S V : Type} (l : List Nat) (make : S → Exc × S) (fell : V) (b : Block S V) (s s1 : S) (e : Exc) (hb : b s = (.error e, s1)) :
    withStmt (expecting (.list l) make) fell b s = (.error typeError, s1) := by
  simp [withStmt, expecting, hb, isinstance]

/-- **C201 (a list of exceptions), the part that holds** If the block does not raise, what `else_raise`
makes is raised. -/
theorem C201_list_partial {S V : Type} (l : List Nat) (make : S → Exc × S) (fell : V) (b : Block S V) (s s1 : S) (v : V) (hb : b s = (.ok v, s1)) :
    withStmt (expecting (.list l) make) fell b s = (.error (make s1).1, (make s1).2) := by
  simp [withStmt, expecting, hb]

/-! ## Examples -/

example : withStmt (expecting (.tuple [5, 6]) (fun s => (⟨[9], 0⟩, s))) 0 (fun s => (.error ⟨[3, 6], 1⟩, s + 1)) 10 = (.ok 0, 11) := rfl
example : withStmt (expecting (.tuple [5, 6]) (fun s => (⟨[9], 0⟩, s))) 0 (fun s => (.ok 3, s + 1)) 10 = (.error ⟨[9], 0⟩, 11) := rfl
example : wrapCallable (fun (n : Nat) s => (.ok (some n), s + 1)) (fun s => (.ok empty, s)) 3 0 = (.ok (some 3), 1) := rfl

end Verif.Expect
