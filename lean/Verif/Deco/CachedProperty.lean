import Verif.Conc.Monitor
/-!
# Model of cached_property and chain_functions (satella/coding/decorators/arguments.py, decorators.py), C86, C87

The cached attribute is a number; 0 is the value that means that it is not loaded.  Threads interleave between reading of the attribute and its assignment.
-/
namespace Verif.CachedProperty
open Verif.Conc

/-- what happens in /repo/satella/coding/decorators/arguments.py:449-456: the function is executed and gives a value; a thread gets a value; the attribute is set to the value that means not loaded -/
inductive Ev where
  | computed (t v : Nat)
  | got (t v : Nat)
  | reset
  deriving DecidableEq, Repr

/-- the attribute `prop_name` of the object, the threads that are in line 452 of /repo/satella/coding/decorators/arguments.py, what happened.  Simplified: the attribute is read and written by nobody else but by `Act.reset` -/
structure St where
  attr : Nat
  busy : Nat → Bool
  log : List Ev

/-- not loaded, as in the example of /repo/satella/coding/decorators/arguments.py:431-433 -/
def St.init : St := ⟨0, fun _ => false, []⟩

/-- a thread reads the property, /repo/satella/coding/decorators/arguments.py:449; the function gives a value to a thread that executes it; somebody resets the attribute -/
inductive Act where
  | read (t : Nat)
  | finish (t v : Nat)
  | reset
  deriving DecidableEq, Repr

/-- one step.  `getattr` and the comparison, /repo/satella/coding/decorators/arguments.py:450-451, :455-456; the value and `setattr`, :452-454 -/
def St.step (s : St) : Act → St
  | .read t =>
    if s.busy t then s
    else if s.attr = 0 then { s with busy := upd s.busy t true }
    else { s with log := s.log ++ [.got t s.attr] }
  | .finish t v =>
    if s.busy t then { s with attr := v, busy := upd s.busy t false, log := s.log ++ [.computed t v, .got t v] } else s
  | .reset => { s with attr := 0, log := s.log ++ [.reset] }

/-- a schedule of the steps of /repo/satella/coding/decorators/arguments.py:449-456 -/
def St.run (s : St) (as : List Act) : St := as.foldl St.step s

/-! ## Specification -/

/-- the value that was computed since the last reset, according to what happened -/
def loaded : List Ev → Option Nat
  | log => log.foldl (fun o e => match e with | .computed _ v => some v | .got _ _ => o | .reset => none) none

/-- what happened is right: the function is executed only if nothing is loaded, and everybody gets the value that is loaded -/
def LogOk (log : List Ev) : Prop :=
  ∀ l e r, log = l ++ e :: r →
    match e with
    | .computed _ _ => loaded l = none
    | .got _ v => loaded l = some v
    | .reset => True

/-- the guard: while the function is executed nothing else happens, and it does not give the value that means not loaded -/
def Guard (s : St) : Act → Prop
  | .finish _ v => v ≠ 0
  | _ => ∀ t, s.busy t = false

/-- the guard holds all along the schedule -/
def GuardAll : St → List Act → Prop
  | _, [] => True
  | s, a :: as => Guard s a ∧ GuardAll (s.step a) as

/-! ## Proofs -/

theorem loaded_append (l : List Ev) (e : Ev) : loaded (l ++ [e]) = match e with | .computed _ v => some v | .got _ _ => loaded l | .reset => none := by
  unfold loaded
  rw [List.foldl_append]
  cases e <;> rfl

theorem logOk_append (log : List Ev) (e : Ev) (h : LogOk log)
    (he : match e with
      | .computed _ _ => loaded log = none
      | .got _ v => loaded log = some v
      | .reset => True) : LogOk (log ++ [e]) := by
  intro l x r hx
  rcases List.eq_nil_or_concat r with rfl | ⟨r', y, rfl⟩
  · obtain ⟨h1, h2⟩ := List.append_inj' hx rfl
    injection h2 with h2
    subst h1 h2
    exact he
  · have hx' : log ++ [e] = (l ++ x :: r') ++ [y] := by rw [hx]; simp
    obtain ⟨h1, _⟩ := List.append_inj' hx' rfl
    exact h l x r' h1

/-- the attribute is what is loaded; at most one thread executes the function -/
structure Inv (s : St) : Prop where
  attr : s.attr = (loaded s.log).getD 0
  pos : ∀ v, loaded s.log = some v → v ≠ 0
  busy : ∀ t, s.busy t = true → s.attr = 0 ∧ ∀ u, s.busy u = true → u = t
  ok : LogOk s.log

theorem inv_step (s : St) (a : Act) (h : Inv s) (hg : Guard s a) : Inv (s.step a) := by
  cases a with
  | read t =>
    have hb : ∀ t, s.busy t = false := hg
    by_cases ha : s.attr = 0
    · have es : s.step (.read t) = { s with busy := upd s.busy t true } := by simp [St.step, hb t, ha]
      rw [es]
      refine ⟨h.attr, h.pos, ?_, h.ok⟩
      intro u hu
      dsimp only [upd] at hu ⊢
      split at hu
      · rename_i e
        subst e
        refine ⟨ha, fun w hw => ?_⟩
        split at hw
        · assumption
        · rw [hb w] at hw; cases hw
      · rw [hb u] at hu; cases hu
    · have es : s.step (.read t) = { s with log := s.log ++ [.got t s.attr] } := by simp [St.step, hb t, ha]
      rw [es]
      have hl : loaded s.log = some s.attr := by
        have h1 := h.attr
        cases hc : loaded s.log with
        | none => rw [hc] at h1; exact absurd h1 ha
        | some v => rw [hc] at h1; rw [h1]; rfl
      refine ⟨?_, ?_, ?_, logOk_append _ _ h.ok hl⟩
      · simp only [loaded_append]; exact h.attr
      · simp only [loaded_append]; exact h.pos
      · intro u hu
        have : s.busy u = true := hu
        rw [hb u] at this; cases this
  | finish t v =>
    simp only [St.step]
    split
    · rename_i hb
      obtain ⟨h1, h2⟩ := h.busy t hb
      have hn : loaded s.log = none := by
        cases hc : loaded s.log with
        | none => rfl
        | some w =>
          have := h.attr
          rw [hc, h1] at this
          exact absurd this.symm (h.pos w hc)
      have hl : loaded (s.log ++ [.computed t v]) = some v := by rw [loaded_append]
      have e : s.log ++ [Ev.computed t v, Ev.got t v] = (s.log ++ [.computed t v]) ++ [.got t v] := by simp
      refine ⟨?_, ?_, ?_, ?_⟩
      · dsimp only; rw [e, loaded_append, hl]; rfl
      · dsimp only; rw [e, loaded_append, hl]; intro w hw; injection hw with hw; subst hw; exact hg
      · intro u hu
        dsimp only [upd] at hu
        split at hu
        · cases hu
        · rename_i hne; exact absurd (h2 u hu) hne
      · dsimp only; rw [e]; exact logOk_append _ _ (logOk_append _ _ h.ok hn) hl
    · exact h
  | reset =>
    have hb : ∀ t, s.busy t = false := hg
    refine ⟨?_, ?_, ?_, logOk_append _ _ h.ok trivial⟩
    · simp [St.step, loaded_append]
    · simp [St.step, loaded_append]
    · intro u hu
      have : s.busy u = true := hu
      rw [hb u] at this; cases this

theorem inv_run (as : List Act) : ∀ s, Inv s → GuardAll s as → Inv (s.run as) := by
  induction as with
  | nil => intro s h _; exact h
  | cons a as ih => intro s h hg; exact ih _ (inv_step s a h hg.1) hg.2

theorem inv_init : Inv St.init := by
  refine ⟨rfl, (by intro v h; cases h), (by intro t h; cases h), ?_⟩
  intro l e r h
  cases l <;> cases h

/-- **C86** (partial: while the function is executed nobody else reads or resets; the function does not give the value that means not loaded). The function is executed only if the value is not loaded, so at most once between resets,
  and every reader gets the value that it gave. -/
theorem C86_cached_property_partial (as : List Act) (h : GuardAll St.init as) : LogOk (St.init.run as).log :=
  (inv_run as _ inv_init h).ok

/-- **C86, once** (partial, as above). Between two executions of the function there is a reset. -/
theorem C86_once_partial (as : List Act) (h : GuardAll St.init as) (l m r : List Ev) (t u v w : Nat)
    (hl : (St.init.run as).log = l ++ .computed t v :: (m ++ .computed u w :: r)) : .reset ∈ m := by
  have hk := C86_cached_property_partial as h
  have h2 := hk (l ++ .computed t v :: m) (.computed u w) r (by rw [hl]; simp)
  refine Classical.byContradiction fun hno => ?_
  have gen : ∀ (m : List Ev) (o : Option Nat), o ≠ none → .reset ∉ m →
      m.foldl (fun o e => match e with | .computed _ v => some v | .got _ _ => o | .reset => none) o ≠ none := by
    intro m
    induction m with
    | nil => intro o ho _; exact ho
    | cons e m ih =>
      intro o ho hm
      have hm' : .reset ∉ m := fun h => hm (List.mem_cons_of_mem _ h)
      cases e with
      | computed _ x => exact ih _ (by simp) hm'
      | got _ _ => exact ih _ ho hm'
      | reset => exact absurd (List.mem_cons_self ..) hm
  have h2' : loaded (l ++ .computed t v :: m) = none := h2
  unfold loaded at h2'
  rw [List.foldl_append, List.foldl_cons] at h2'
  exact gen m (some v) (by simp) hno h2'

/-- **C86, violated by two threads**: the function is executed twice, and the readers get different values. -/
theorem C86_two_threads_violates (v w : Nat) :
    (St.init.run [.read 1, .read 2, .finish 1 v, .finish 2 w]).log = [.computed 1 v, .got 1 v, .computed 2 w, .got 2 w] := by
  simp [St.run, St.step, St.init, upd]

/-- **C86, violated by a value that means not loaded**: a function that gives it (None, if nothing else is said) is executed again at every reading. -/
theorem C86_not_loaded_violates :
    (St.init.run [.read 1, .finish 1 0, .read 1, .finish 1 0]).log = [.computed 1 0, .got 1 0, .computed 1 0, .got 1 0] := by
  simp [St.run, St.step, St.init, upd]

/-! Cases that meet the hypotheses -/

/-- loaded, read by another, reset, loaded by the other, read -/
def exampleActs : List Act := [.read 1, .finish 1 5, .read 2, .reset, .read 2, .finish 2 6, .read 1]

example : GuardAll St.init exampleActs := by
  simp [exampleActs, GuardAll, Guard, St.step, St.init, upd]
example : (St.init.run exampleActs).log = [.computed 1 5, .got 1 5, .got 2 5, .reset, .computed 2 6, .got 2 6, .got 1 6] := by decide

/-! ## chain_functions -/

/-- what is in a tuple, /repo/satella/coding/decorators/decorators.py:25-28: a value that is neither a tuple nor a dictionary, a tuple, or a dictionary -/
inductive Item where
  | val (n : Nat)
  | tup (l : List Nat)
  | dic (d : List (Nat × Nat))
  deriving DecidableEq, Repr

/-- what the first function returns, /repo/satella/coding/decorators/decorators.py:25-28 -/
inductive Ret where
  | dict (d : List (Nat × Nat))
  | tuple (l : List Item)
  | other (n : Nat)
  deriving DecidableEq, Repr

/-- the call of the next function, /repo/satella/coding/decorators/decorators.py:66: positional and keyword arguments; `none` for TypeError -/
abbrev NextCall := Option (List Item × List (Nat × Nat))

/-- `chain_functions`, /repo/satella/coding/decorators/decorators.py:54-66.  `fun_next(*args, **kwargs)` is a TypeError if `args` is not iterable or `kwargs` is not a mapping; a dictionary as `args` would be iterated, which is not modelled. -/
def chain : Ret → NextCall
  | .dict d => some ([], d)
  | .tuple [a, b] =>
    match a, b with
    | .tup l, .dic d => some (l.map .val, d)
    | _, _ => none
  | .tuple l => some (l, [])
  | .other n => some ([.val n], [])

/-- what the documentation says: a 2-tuple of a tuple and a dictionary is arguments and keyword arguments, a dictionary is keyword arguments, any other tuple is arguments, anything else is the only argument -/
inductive Documented : Ret → List Item × List (Nat × Nat) → Prop where
  | both (l d) : Documented (.tuple [.tup l, .dic d]) (l.map .val, d)
  | dict (d) : Documented (.dict d) ([], d)
  | tuple (l) : (∀ a d, l ≠ [.tup a, .dic d]) → Documented (.tuple l) (l, [])
  | other (n) : Documented (.other n) ([.val n], [])

/-- **C87** (partial: the first function does not return a 2-tuple other than of a tuple and a dictionary). The next function is called with the arguments that the documentation says. -/
theorem C87_chain_partial (r : Ret) (c : List Item × List (Nat × Nat)) (h : Documented r c)
    (hg : ∀ a b, r = .tuple [a, b] → ∃ l d, a = .tup l ∧ b = .dic d) : chain r = some c := by
  cases h with
  | both l d => rfl
  | dict d => rfl
  | tuple l hl =>
    match l, hl, hg with
    | [], _, _ => rfl
    | [a], _, _ => rfl
    | [a, b], hl, hg =>
      obtain ⟨x, d, rfl, rfl⟩ := hg a b rfl
      exact absurd rfl (hl x d)
    | a :: b :: c :: l, _, _ => rfl
  | other n => rfl

/-- every return value has a documented meaning -/
theorem C87_documented (r : Ret) : ∃ c, Documented r c := by
  cases r with
  | dict d => exact ⟨_, .dict d⟩
  | other n => exact ⟨_, .other n⟩
  | tuple l =>
    by_cases h : ∃ a d, l = [.tup a, .dic d]
    · obtain ⟨a, d, rfl⟩ := h; exact ⟨_, .both a d⟩
    · exact ⟨_, .tuple l (fun a d e => h ⟨a, d, e⟩)⟩

/-- **C87, violated by a pair**: if the first function returns two values, then the next is not called with them, but a TypeError is raised. -/
theorem C87_pair_violates (x y : Nat) : chain (.tuple [.val x, .val y]) = none ∧ Documented (.tuple [.val x, .val y]) ([.val x, .val y], []) :=
  ⟨rfl, .tuple _ (by intro a d h; cases h)⟩

example : ∀ a b, Ret.tuple [.tup [1, 2], .dic [(3, 4)]] = .tuple [a, b] → ∃ l d, a = .tup l ∧ b = .dic d := by
  intro a b h
  injection h with h
  injection h with h1 h2
  injection h2 with h2
  exact ⟨_, _, h1.symm, h2.symm⟩
example : chain (.tuple [.val 1, .val 2, .val 3]) = some ([.val 1, .val 2, .val 3], []) := rfl

end Verif.CachedProperty
