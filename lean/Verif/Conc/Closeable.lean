import Verif.Conc.Monitor
/-!
# Model of Closeable (satella/coding/misc.py), C70

Threads interleave between the two statements of `close`.  `__exit__` and `__del__` only call `close`, so they are further calls of it.  A class that extends Closeable cleans up where `super().close()` gives True, as the documentation has it.
-/
namespace Verif.Closeable
open Verif Verif.Conc

/-- what a call of `close` gives: True, False, or None together with a warning, if `__init__` was not called before.  (Part of the model of `Closeable`, /repo/satella/coding/misc.py:63-128.) -/
inductive Ans where
  | true_
  | false_
  | none_
  deriving DecidableEq, Repr

/-- what can be seen: `__init__` was called, a call of `close` gave its answer (the subclass cleans up if this is True), `closed` gave its answer.  (Part of the model of `Closeable`, /repo/satella/coding/misc.py:63-128.) -/
inductive Ev where
  | inited
  | closed (t : Nat) (a : Ans)
  | looked (b : Bool)
  deriving DecidableEq, Repr

/-- `__finalized`, absent before `__init__`, /repo/satella/coding/misc.py:83-86; the threads that have an answer but have not executed the `finally` clause; what was seen -/
structure St where
  fin : Option Bool
  pending : Nat → Option Ans
  log : List Ev

/-- an object that was made but not initialised.  (Part of the model of `Closeable`, /repo/satella/coding/misc.py:63-128.) -/
def St.init : St := ⟨none, fun _ => none, []⟩

/-- `__init__` is called; a thread calls `close`, `with` ends, or the object is collected; a thread goes on; somebody looks at `closed`.  (Part of the model of `Closeable`, /repo/satella/coding/misc.py:63-128.) -/
inductive Act where
  | init
  | close (t : Nat)
  | go (t : Nat)
  | look
  deriving DecidableEq, Repr

/-- `return not self.__finalized`, /repo/satella/coding/misc.py:114-117 -/
def answer : Option Bool → Ans
  | none => .none_
  | some true => .false_
  | some false => .true_

/-- one step: `__init__`, /repo/satella/coding/misc.py:85-86; `close`, /repo/satella/coding/misc.py:100-119, also from `__del__` and `__exit__`, :121-128; `closed`, /repo/satella/coding/misc.py:88-98 -/
def St.step (s : St) : Act → St
  | .init => { s with fin := some false, log := s.log ++ [.inited] }
  | .close t =>
    match s.pending t with
    | none => { s with pending := upd s.pending t (some (answer s.fin)) }
    | some _ => s
  | .go t =>
    match s.pending t with
    | none => s
    | some a => { s with fin := some true, pending := upd s.pending t none, log := s.log ++ [.closed t a] }
  | .look => { s with log := s.log ++ [.looked (s.fin.getD true)] }

/-- a schedule.  (Part of the model of `Closeable`, /repo/satella/coding/misc.py:63-128.) -/
def St.run (s : St) (as : List Act) : St := as.foldl St.step s

/-! ## Specification -/

/-- whether the object is open according to what was seen: `__init__` was called, and no call of `close` has ended since -/
def isOpen : List Ev → Bool
  | log => log.foldl (fun o e => match e with | .inited => true | .closed _ _ => false | .looked _ => o) false

/-- whether `__init__` was called or a call of `close` has ended -/
def known (log : List Ev) : Bool := log.any (fun e => match e with | .looked _ => false | _ => true)

/-- the log is right: a call of `close` gives True exactly if the object is open, False if it is closed, None if nothing was called before; `closed` says whether it is not open -/
def LogOk (log : List Ev) : Prop :=
  ∀ l e r, log = l ++ e :: r →
    match e with
    | .inited => True
    | .closed _ a => (a = .true_ ↔ isOpen l = true) ∧ (a = .none_ ↔ known l = false)
    | .looked b => b = !isOpen l

/-- nothing else happens while a call of `close` is between its two statements -/
def Alone (s : St) : Act → Prop
  | .go _ => True
  | _ => ∀ t, s.pending t = none

/-- the guard holds all along the schedule -/
def AloneAll : St → List Act → Prop
  | _, [] => True
  | s, a :: as => Alone s a ∧ AloneAll (s.step a) as

/-! ## Proofs -/

theorem isOpen_append (l : List Ev) (e : Ev) : isOpen (l ++ [e]) = match e with | .inited => true | .closed _ _ => false | .looked _ => isOpen l := by
  unfold isOpen
  rw [List.foldl_append]
  cases e <;> rfl

theorem known_append (l : List Ev) (e : Ev) : known (l ++ [e]) = (known l || match e with | .looked _ => false | _ => true) := by
  unfold known
  rw [List.any_append]
  simp

theorem logOk_append (log : List Ev) (e : Ev) (h : LogOk log)
    (he : match e with
      | .inited => True
      | .closed _ a => (a = .true_ ↔ isOpen log = true) ∧ (a = .none_ ↔ known log = false)
      | .looked b => b = !isOpen log) : LogOk (log ++ [e]) := by
  intro l x r hx
  rcases List.eq_nil_or_concat r with rfl | ⟨r', y, rfl⟩
  · obtain ⟨h1, h2⟩ := List.append_inj' hx rfl
    injection h2 with h2
    subst h1 h2
    exact he
  · have hx' : log ++ [e] = (l ++ x :: r') ++ [y] := by rw [hx]; simp
    obtain ⟨h1, _⟩ := List.append_inj' hx' rfl
    exact h l x r' h1

/-- the flag says what the log says -/
structure Inv (s : St) : Prop where
  open_ : s.fin = some false ↔ isOpen s.log = true
  known_ : s.fin = none ↔ known s.log = false
  pend : ∀ t a, s.pending t = some a → a = answer s.fin ∧ ∀ u, u ≠ t → s.pending u = none
  ok : LogOk s.log

theorem inv_step (s : St) (a : Act) (h : Inv s) (ha : Alone s a) : Inv (s.step a) := by
  cases a with
  | init =>
    refine ⟨?_, ?_, ?_, logOk_append _ _ h.ok trivial⟩
    · simp [St.step, isOpen_append]
    · simp [St.step, known_append]
    · intro t x hx
      have : s.pending t = none := ha t
      rw [show (s.step .init).pending = s.pending from rfl, this] at hx
      cases hx
  | close t =>
    have hn : s.pending t = none := ha t
    simp only [St.step, hn]
    refine ⟨h.open_, h.known_, ?_, h.ok⟩
    intro u x hx
    dsimp only [upd] at hx ⊢
    split at hx
    · rename_i e
      subst e
      injection hx with hx
      refine ⟨hx.symm, ?_⟩
      intro v hv
      rw [if_neg hv]
      exact ha v
    · rw [ha u] at hx; cases hx
  | go t =>
    simp only [St.step]
    split
    · exact h
    · rename_i a hp
      obtain ⟨h1, h2⟩ := h.pend t a hp
      refine ⟨?_, ?_, ?_, logOk_append _ _ h.ok ⟨?_, ?_⟩⟩
      · simp [isOpen_append]
      · simp [known_append]
      · intro u x hx
        dsimp only [upd] at hx
        split at hx
        · cases hx
        · rename_i hne
          rw [h2 u hne] at hx; cases hx
      · rw [← h.open_, h1]
        cases hf : s.fin with
        | none => simp [answer]
        | some b => cases b <;> simp [answer]
      · rw [← h.known_, h1]
        cases hf : s.fin with
        | none => simp [answer]
        | some b => cases b <;> simp [answer]
  | look =>
    refine ⟨?_, ?_, h.pend, logOk_append _ _ h.ok ?_⟩
    · simp [St.step, isOpen_append, h.open_]
    · simp [St.step, known_append, h.known_]
    · have h1 := h.open_
      dsimp only
      cases hf : s.fin with
      | none =>
        rw [hf] at h1
        cases hb : isOpen s.log with
        | false => rfl
        | true => rw [hb] at h1; simp at h1
      | some b =>
        rw [hf] at h1
        cases b with
        | true =>
          cases hb : isOpen s.log with
          | false => rfl
          | true => rw [hb] at h1; simp at h1
        | false => rw [h1.1 rfl]; rfl

theorem inv_run (as : List Act) (s : St) (h : Inv s) (ha : AloneAll s as) : Inv (s.run as) := by
  induction as generalizing s with
  | nil => exact h
  | cons a as ih => exact ih _ (inv_step s a h ha.1) ha.2

theorem inv_init : Inv St.init := by
  refine ⟨by simp [St.init, isOpen], by simp [St.init, known], by simp [St.init], ?_⟩
  intro l e r h
  cases l <;> cases h

/-- **C70** (partial: calls of `close` do not overlap). A call of `close` gives True, so that the object is cleaned up, exactly if the object was initialised and not closed since, however it was closed; `closed` says so; an object that was not
  initialised is closed and is not cleaned up. -/
theorem C70_closeable_partial (as : List Act) (h : AloneAll St.init as) : LogOk (St.init.run as).log :=
  (inv_run as _ inv_init h).ok

/-- **C70, once** (partial, as above). Between two calls of `__init__` at most one call of `close` gives True. -/
theorem C70_once_partial (as : List Act) (h : AloneAll St.init as) (l m r : List Ev) (t u : Nat)
    (hl : (St.init.run as).log = l ++ .closed t .true_ :: (m ++ .closed u .true_ :: r)) : .inited ∈ m := by
  have hk := C70_closeable_partial as h
  have h2 := (hk (l ++ .closed t .true_ :: m) (.closed u .true_) r (by rw [hl]; simp)).1.1 rfl
  refine Classical.byContradiction fun hno => ?_
  have key : ∀ m : List Ev, .inited ∉ m → isOpen (l ++ .closed t .true_ :: m) = false := by
    intro m
    have gen : ∀ (m : List Ev), .inited ∉ m → m.foldl (fun o e => match e with | .inited => true | .closed _ _ => false | .looked _ => o) false = false := by
      intro m
      induction m with
      | nil => intro _; rfl
      | cons e m ih =>
        intro hm
        have := ih (fun h => hm (List.mem_cons_of_mem _ h))
        cases e with
        | inited => exact absurd (List.mem_cons_self ..) hm
        | closed _ _ => exact this
        | looked _ => exact this
    intro hm
    unfold isOpen
    rw [List.foldl_append, List.foldl_cons]
    exact gen m hm
  rw [key m hno] at h2
  cases h2

/-- **C70, violated by two threads**: both calls of `close` give True, so the object is cleaned up twice. -/
theorem C70_two_threads_violates : ∃ as, (St.init.run as).log = [.inited, .closed 1 .true_, .closed 2 .true_] :=
  ⟨[.init, .close 1, .close 2, .go 1, .go 2], by decide⟩

/-! Cases that meet the hypotheses -/

/-- made, looked at, closed too early, initialised, closed twice -/
def exampleSchedule : List Act := [.look, .close 1, .go 1, .init, .look, .close 1, .go 1, .close 2, .go 2, .look]

example : AloneAll St.init exampleSchedule := by
  simp [exampleSchedule, AloneAll, Alone, St.step, St.init, upd]
  constructor <;> intro t h <;> repeat (split <;> simp_all)
example : (St.init.run exampleSchedule).log = [.looked true, .closed 1 .none_, .inited, .looked false, .closed 1 .true_, .closed 2 .false_, .looked true] := by decide

end Verif.Closeable
