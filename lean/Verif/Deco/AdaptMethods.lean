/-!
# Methods and decorators (satella/coding/decorators/arguments.py, satella/coding/overloading.py), C231, C232, C233

What is called may do anything: it gets the world and the arguments, and gives the world after and its outcome (a result or an exception).  `V` are the values,
among them the instances and the classes.
-/
namespace Verif.AdaptMethods

variable {W V R : Type}

/-! ## Model -/

/-- What can be called.  (Part of the model of `_MethodDecoratorAdaptor`, /repo/satella/coding/decorators/arguments.py:200-211.) -/
abbrev Callable (W V R : Type) := W → List V → W × R

/-- A decorator: it is given what it decorates, may do something at that time (as `memoize`, that makes its cache), and gives what replaces it.
(Part of the model of `auto_adapt_to_methods`, /repo/satella/coding/decorators/arguments.py:171-197.) -/
abbrev Decorator (W V R : Type) := W → Callable W V R → W × Callable W V R

/-- What the body of a class can hold under a name: a function, a classmethod, a staticmethod, a `class_or_instancemethod`
(/repo/satella/coding/overloading.py:11-29), or a `_MethodDecoratorAdaptor` of one of these (/repo/satella/coding/decorators/arguments.py:200-205). -/
inductive Member (W V R : Type) where
  | fn (f : Callable W V R)
  | classm (f : Callable W V R)
  | static (f : Callable W V R)
  | both (f : Callable W V R)
  | adapted (d : Decorator W V R) (m : Member W V R)

/-- A function with its first argument given; bound methods of Python, as made by `__get__` at /repo/satella/coding/overloading.py:28. -/
def bound (f : Callable W V R) (first : V) : Callable W V R := fun w args => f w (first :: args)

/-- `__get__(instance, owner)`: of functions, classmethods and staticmethods as Python has them, of `class_or_instancemethod`
(/repo/satella/coding/overloading.py:27-29), of the adaptor (/repo/satella/coding/decorators/arguments.py:210-211). -/
def Member.get (w : W) (inst : Option V) (owner : V) : Member W V R → W × Callable W V R
  | .fn f =>
    match inst with
    | none => (w, f)
    | some i => (w, bound f i)
  | .classm f => (w, bound f owner)
  | .static f => (w, f)
  | .both f =>
    match inst with
    | none => (w, bound f owner)
    | some i => (w, bound f i)
  | .adapted d m =>
    match m.get w inst owner with
    | (w, g) => d w g

/-- What is called when a function, decorated or not, is called outside of a class, `__call__` of the adaptor, /repo/satella/coding/decorators/arguments.py:207-208: the function, or what the decorator makes of it at this call.
Functions only: the others are not for use outside of classes. -/
def Member.callable : Member W V R → Option (Callable W V R)
  | .fn f => some f
  | .adapted d m =>
    match m.callable with
    | some g => some (fun w args => match d w g with | (w, h) => h w args)
    | none => none
  | _ => none

/-- Calling what was put under a name outside of a class, `__call__` of the adaptor, /repo/satella/coding/decorators/arguments.py:207-208. -/
def Member.call (m : Member W V R) (w : W) (args : List V) : Option (W × R) :=
  match m.callable with
  | some f => some (f w args)
  | none => none

/-- A class: itself, and what its body and those of its bases hold, in the order of resolution, where attributes are looked for as usual.
(Part of the model of `class_or_instancemethod`, /repo/satella/coding/overloading.py:11-29.) -/
structure Cls (W V R : Type) where
  self : V
  mro : List (String → Option (Member W V R))

/-- the first in the order of resolution; the lookup of Python, which `__get__` of /repo/satella/coding/overloading.py:27 is called after -/
def find (mro : List (String → Option (Member W V R))) (name : String) : Option (Member W V R) := mro.findSome? (fun c => c name)

/-- `instance.name(*args)`, if instance has no attribute of its own called so; /repo/satella/coding/overloading.py:27-29, /repo/satella/coding/decorators/arguments.py:210-211 -/
def callOn (c : Cls W V R) (i : V) (name : String) (w : W) (args : List V) : Option (W × R) :=
  (find c.mro name).map (fun m => match m.get w (some i) c.self with | (w, g) => g w args)

/-- `cls.name(*args)`; /repo/satella/coding/overloading.py:27-29, /repo/satella/coding/decorators/arguments.py:210-211 -/
def callOnClass (c : Cls W V R) (name : String) (w : W) (args : List V) : Option (W × R) :=
  (find c.mro name).map (fun m => match m.get w none c.self with | (w, g) => g w args)

/-! ## Specification -/

/-- The member is the one found under the name: some class of the order holds it, and none before has the name. -/
def FoundIn (mro : List (String → Option (Member W V R))) (name : String) (m : Member W V R) : Prop :=
  ∃ pre c post, mro = pre ++ c :: post ∧ c name = some m ∧ ∀ c' ∈ pre, c' name = none

theorem find_found (mro : List (String → Option (Member W V R))) (name : String) (m : Member W V R) (h : FoundIn mro name m) : find mro name = some m := by
  obtain ⟨pre, c, post, rfl, hc, hp⟩ := h
  unfold find
  induction pre with
  | nil => simp [hc]
  | cons a pre ih => simpa [hp a (by simp)] using ih (fun c' h => hp c' (by simp [h]))

/-- **C231.** A method made with class_or_instancemethod gets the instance when called on an instance, and the class when called on a class: the class on
which it was called, which may be a subclass of the one that has it, with the other arguments after it, and gives what the function gives. -/
theorem C231_class_or_instance (c : Cls W V R) (name : String) (f : Callable W V R) (h : FoundIn c.mro name (.both f)) (i : V) (w : W) (args : List V) :
    callOn c i name w args = some (f w (i :: args)) ∧ callOnClass c name w args = some (f w (c.self :: args)) := by
  simp [callOn, callOnClass, find_found _ _ _ h, Member.get, bound]

example : ∃ (c : Cls Unit Nat (List Nat)) (f : Callable Unit Nat (List Nat)), FoundIn c.mro "m" (.both f) ∧ callOn c 7 "m" () [1] = some ((), [7, 1]) ∧ callOnClass c "m" () [1] = some ((), [100, 1]) :=
  ⟨⟨100, [fun _ => none, fun n => if n = "m" then some (.both (fun w a => (w, a))) else none]⟩, fun w a => (w, a), ⟨[fun _ => none], _, [], rfl, by simp, by simp⟩, by simp [callOn, find, Member.get, bound], by simp [callOnClass, find, Member.get, bound]⟩

/-! ## auto_adapt_to_methods -/

/-- Decorators one on another, the first in the list outermost. -/
def stacked (ds : List (Decorator W V R)) (m : Member W V R) : Member W V R := ds.foldr .adapted m

/-- What it is to decorate a callable with them, innermost first. -/
def decorate : List (Decorator W V R) → W → Callable W V R → W × Callable W V R
  | [], w, f => (w, f)
  | d :: ds, w, f =>
    match decorate ds w f with
    | (w, g) => d w g

theorem get_stacked (ds : List (Decorator W V R)) (m : Member W V R) (w : W) (inst : Option V) (owner : V) :
    (stacked ds m).get w inst owner = decorate ds (m.get w inst owner).1 (m.get w inst owner).2 := by
  induction ds with
  | nil => rfl
  | cons d ds ih =>
    show (Member.adapted d (stacked ds m)).get w inst owner = _
    simp only [Member.get, ih, decorate]

/-- **C232.** Decorators made with auto_adapt_to_methods, any number of them one on another: on a method called on an instance, what is decorated is the method that
does not take the instance, so a decorator sees the arguments without it, and the function gets it first; on a function, the function is what is decorated;
classmethods get the class and staticmethods nothing.  Nothing else is done. -/
theorem C232_hidden (c : Cls W V R) (name : String) (ds : List (Decorator W V R)) (f : Callable W V R) (i : V) (w : W) (args : List V) :
    (FoundIn c.mro name (stacked ds (.fn f)) → callOn c i name w args = some ((decorate ds w (fun w a => f w (i :: a))).2 (decorate ds w (fun w a => f w (i :: a))).1 args)) ∧
    (FoundIn c.mro name (stacked ds (.classm f)) → callOn c i name w args = some ((decorate ds w (fun w a => f w (c.self :: a))).2 (decorate ds w (fun w a => f w (c.self :: a))).1 args) ∧
      callOnClass c name w args = callOn c i name w args) ∧
    (FoundIn c.mro name (stacked ds (.static f)) → callOn c i name w args = some ((decorate ds w f).2 (decorate ds w f).1 args) ∧ callOnClass c name w args = callOn c i name w args) ∧
    (Member.fn f).call w args = some (f w args) ∧ (∀ d, (Member.adapted d (.fn f)).call w args = some ((d w f).2 (d w f).1 args)) := by
  refine ⟨fun h => ?_, fun h => ?_, fun h => ?_, rfl, fun d => rfl⟩
  · simp only [callOn, find_found _ _ _ h, get_stacked, Member.get, Option.map_some]; rfl
  · simp only [callOn, callOnClass, find_found _ _ _ h, get_stacked, Member.get, Option.map_some, and_true]; rfl
  · simp only [callOn, callOnClass, find_found _ _ _ h, get_stacked, Member.get, Option.map_some, and_true]

/-- **C232.** Likewise for functions, with any number of decorators one on another, that keep nothing: a call of the function is a call of the function decorated by all of them, the first one outermost. -/
theorem C232_functions (gs : List (Callable W V R → Callable W V R)) (f : Callable W V R) (w : W) (args : List V) :
    (stacked (gs.map (fun g => fun w f => (w, g f))) (.fn f)).call w args = some ((gs.foldr (fun g h => g h) f) w args) := by
  have key : (stacked (gs.map (fun g => fun w f => (w, g f))) (.fn f)).callable = some (gs.foldr (fun g h => g h) f) := by
    induction gs with
    | nil => rfl
    | cons g gs ih =>
      simp only [stacked, List.map_cons, List.foldr_cons] at ih ⊢
      simp only [Member.callable, ih]
  simp only [Member.call, key]

/-- the first decorator is the outermost: it doubles, the second adds one -/
example : (stacked [fun w (f : Callable Unit Nat (List Nat)) => (w, fun w a => f w (a.map (· * 2))), fun w f => (w, fun w a => f w (a.map (· + 1)))] (.fn fun w a => (w, a))).call () [3] = some ((), [7]) := rfl

/-- The example of the documentation: arguments are doubled. -/
def timesTwo : Decorator Unit Nat (List Nat) := fun w f => (w, fun w a => f w (a.map (· * 2)))

example : ∃ c : Cls Unit Nat (List Nat), FoundIn c.mro "twice" (stacked [timesTwo, timesTwo] (.fn (fun w a => (w, a)))) ∧ callOn c 7 "twice" () [1, 3] = some ((), [7, 4, 12]) := by
  refine ⟨⟨100, [fun n => if n = "twice" then some (stacked [timesTwo, timesTwo] (.fn (fun w a => (w, a)))) else none]⟩, ⟨[], _, [], rfl, by simp, by simp⟩, ?_⟩
  simp [callOn, find, stacked, Member.get, bound, timesTwo]

/-! ## C233 -/

/-- One call after another, each with the world that the last one left. -/
def calls (f : Callable W V R) : W → List (List V) → W × List R
  | w, [] => (w, [])
  | w, a :: rest =>
    match f w a with
    | (w, r) => ((calls f w rest).1, r :: (calls f w rest).2)

/-- What follows the name of an adapted function in a program. -/
def adaptedCalls (d : Decorator W V R) (f : Callable W V R) : W → List (List V) → W × List R := calls (fun w a => ((Member.adapted d (.fn f)).call w a).getD (f w a))

/-- A decorator that keeps nothing of its own: decorating does nothing but give a callable, which depends only on what is decorated. -/
def Stateless (d : Decorator W V R) : Prop := ∃ g : Callable W V R → Callable W V R, ∀ w f, d w f = (w, g f)

/-- **C233 (partial) as if decorated once.** With a decorator that keeps nothing, any calls one after another of the adapted function have the same outcomes and effects as
calls of the function decorated once; likewise a method called on an instance, and the method decorated without adapting for that instance.
Missing: decorators that keep something (see `C233_memory_violates`); methods called on the class (see `C233_class_violates`). -/
theorem C233_once_partial (d : Decorator W V R) (hd : Stateless d) (f : Callable W V R) (w : W) (as : List (List V)) :
    adaptedCalls d f w as = calls (d w f).2 (d w f).1 as ∧
    ∀ (c : Cls W V R) (name : String) (i : V), FoundIn c.mro name (.adapted d (.fn f)) →
      ∀ args, callOn c i name w args = some ((d w (fun w a => f w (i :: a))).2 w args) := by
  obtain ⟨g, hg⟩ := hd
  constructor
  · unfold adaptedCalls
    simp only [Member.call, Member.callable, hg, Option.getD_some]
  · intro c name i h args
    simp only [callOn, find_found _ _ _ h, Member.get, Option.map_some, hg]
    rfl

example : Stateless timesTwo := ⟨fun f w a => f w (a.map (· * 2)), fun _ _ => rfl⟩

/-- As `memoize` for functions of no arguments: makes a new cell when it decorates, and calls what it decorates if the cell is empty. The world is the number of cells,
the cells, and how often the function was called. -/
def remember : Decorator (Nat × (Nat → Option Nat) × Nat) Nat Nat := fun w f =>
  ((w.1 + 1, w.2), fun w' a =>
    match w'.2.1 w.1 with
    | some r => (w', r)
    | none =>
      match f w' a with
      | (w'', r) => ((w''.1, (fun j => if j = w.1 then some r else w''.2.1 j), w''.2.2), r))

/-- **C233 (violated) by decorators that keep something.** The decorator is applied at each call anew, so what it keeps is lost: a function that is remembered when decorated
as usual is called each time when the same decorator is adapted. -/
theorem C233_memory_violates : ∃ (f : Callable (Nat × (Nat → Option Nat) × Nat) Nat Nat) (w : Nat × (Nat → Option Nat) × Nat),
    (calls (remember w f).2 (remember w f).1 [[], [], []]).1.2.2 = 1 ∧ (adaptedCalls remember f w [[], [], []]).1.2.2 = 3 :=
  ⟨fun w _ => ((w.1, w.2.1, w.2.2 + 1), w.2.2), (0, fun _ => none, 0), by decide⟩

/-- **C233 (violated) by methods called on the class.** `Class.method(instance, ...)`, which calls the same method as `instance.method(...)`, lets the decorator see the instance,
as with an adapted decorator that changes its first argument, for all functions and instances. -/
theorem C233_class_violates (c : Cls W V R) (name : String) (f : Callable W V R) (change : V → V) (h : FoundIn c.mro name (.adapted (fun w f => (w, fun w a => f w (a.map change))) (.fn f))) (i x : V) (w : W) :
    callOn c i name w [x] = some (f w [i, change x]) ∧ callOnClass c name w [i, x] = some (f w [change i, change x]) := by
  simp [callOn, callOnClass, find_found _ _ _ h, Member.get, bound]

end Verif.AdaptMethods
