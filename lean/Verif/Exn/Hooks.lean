import Verif.Py.Run
import Verif.Py.Basic
/-!
# Model of GlobalExcepthook (satella/exception_handling/), C63

What a hook answers is up to the environment, which may let it depend on the hooks that ran before.  Handlers are compared by identity; the priority of a handler does not change after it was
added.  Writing the traceback of a failed hook to stderr is left out.
-/
namespace Verif.Exn
open Verif

/-- what a hook is: a handler object of the user, the wrapper made when the `n`-th function was added, or the hook that was there before the import.  (Part of the model of `BaseExceptionHandler`, /repo/satella/exception_handling/exception_handlers.py:24-58.) -/
inductive Kind where
  | object (id : Nat)
  | wrapper (n function : Nat)
  | old
  deriving DecidableEq, Repr

/-- a handler with its priority, /repo/satella/exception_handling/exception_handlers.py:24-34 and :61-69 -/
structure Hook where
  kind : Kind
  prio : Int
  deriving DecidableEq, Repr

/-- what the user's code may do: give a truth value (None is false), give a sequence of truth values, raise an Exception, raise another BaseException.  (Part of the model of `GlobalExcepthook`, /repo/satella/exception_handling/global_eh.py:16-108.) -/
inductive Ans where
  | val (b : Bool)
  | seq (bs : List Bool)
  | fails
  | aborts
  deriving DecidableEq, Repr

/-- the surroundings of one exception: what each hook answers, given those that ran before it; whether the exception is SystemExit.  (Part of the model of `GlobalExcepthook`, /repo/satella/exception_handling/global_eh.py:16-108.) -/
structure Env where
  ask : List Hook → Hook → Ans
  sysExit : Bool

/-- `installed_hooks` and `ignore_failed_hooks`, /repo/satella/exception_handling/global_eh.py:25-28; how many functions were wrapped -/
structure St where
  hooks : List Hook
  ignore : Bool
  wrapped : Nat

/-- after the import, /repo/satella/exception_handling/global_eh.py:25-28 -/
def St.init : St := ⟨[], true, 0⟩

/-- `old_excepthook`, /repo/satella/exception_handling/global_eh.py:58 -/
def oldHook : Hook := ⟨.old, 10000⟩

/-- how the handling of an exception may end: normally (some hook intercepted, or all were asked), NotImplementedError, a BaseException of a hook.  (Part of the model of `GlobalExcepthook`, /repo/satella/exception_handling/global_eh.py:16-108.) -/
inductive End where
  | intercepted
  | allAsked
  | notImplemented
  | aborted
  deriving DecidableEq, Repr

/-- `sorted(..., key=...)` of Python, used in /repo/satella/exception_handling/global_eh.py:95: a stable sort, here by insertion -/
def ins (x : Hook) : List Hook → List Hook
  | [] => [x]
  | y :: l => if x.prio ≤ y.prio then x :: y :: l else y :: ins x l

/-- `sorted(..., key=lambda h: h.priority)`, /repo/satella/exception_handling/global_eh.py:95 -/
def sortHooks : List Hook → List Hook
  | [] => []
  | x :: l => ins x (sortHooks l)

/-- whether `handle_exception` is the one of `FunctionExceptionHandler`, /repo/satella/exception_handling/exception_handlers.py:74-80 -/
def Hook.isFun (h : Hook) : Bool :=
  match h.kind with
  | .object _ => false
  | _ => true

/-- the loop of `__except_handle`, /repo/satella/exception_handling/global_eh.py:95-108, with `handle_exception` of functions, /repo/satella/exception_handling/exception_handlers.py:74-80;
  `ran` are the hooks whose user code has run.  A handler object that answers with a sequence has it taken for its truth value, that is whether it is not empty. -/
def handleLoop (E : Env) (ignore : Bool) : List Hook → List Hook → List Hook × End
  | ran, [] => (ran, .allAsked)
  | ran, h :: hs =>
    if h.isFun && E.sysExit then handleLoop E ignore ran hs
    else
      match E.ask ran h with
      | .val true => (ran ++ [h], .intercepted)
      | .val false => handleLoop E ignore (ran ++ [h]) hs
      | .seq bs =>
        if (if h.isFun then bs.any id else !bs.isEmpty) then (ran ++ [h], .intercepted)
        else handleLoop E ignore (ran ++ [h]) hs
      | .fails => if ignore then handleLoop E ignore (ran ++ [h]) hs else (ran ++ [h], .notImplemented)
      | .aborts => (ran ++ [h], .aborted)

/-- `__except_handle`, /repo/satella/exception_handling/global_eh.py:92-108 -/
def St.handle (s : St) (E : Env) : List Hook × End :=
  handleLoop E s.ignore [] (sortHooks (s.hooks ++ [oldHook]))

/-- calls of the user: add a handler object with its priority, add a function, remove a hook, set `ignore_failed_hooks`, let an exception reach the top.  (Part of the model of `GlobalExcepthook`, /repo/satella/exception_handling/global_eh.py:16-108.) -/
inductive Op where
  | addObject (id : Nat) (prio : Int)
  | addFun (function : Nat) (prio : Int)
  | remove (kind : Kind)
  | setIgnore (b : Bool)
  | exception (E : Env)

/-- what a call gives.  (Part of the model of `GlobalExcepthook`, /repo/satella/exception_handling/global_eh.py:16-108.) -/
inductive Res where
  | done
  | hook (kind : Kind)
  | error
  | handled (ran : List Hook) (e : End)
  deriving DecidableEq, Repr

/-- `list.remove` by identity.  (Part of the model of `GlobalExcepthook`, /repo/satella/exception_handling/global_eh.py:16-108.) -/
def eraseKind (k : Kind) : List Hook → List Hook
  | [] => []
  | h :: hs => if h.kind = k then hs else h :: eraseKind k hs

/-- `add_hook`, `remove_hook`, /repo/satella/exception_handling/global_eh.py:30-53.  `addFun` with a priority stands for `add_hook(exception_handler(priority)(f))`, and for `add_hook(f)` with priority 0:
  both make a new wrapper, /repo/satella/exception_handling/exception_handlers.py:83-110 -/
def St.step (s : St) : Op → St × Res
  | .addObject id p =>
    if s.hooks.any (fun h => h.kind = .object id) then (s, .hook (.object id))
    else ({ s with hooks := s.hooks ++ [⟨.object id, p⟩] }, .hook (.object id))
  | .addFun f p => ({ s with hooks := s.hooks ++ [⟨.wrapper s.wrapped f, p⟩], wrapped := s.wrapped + 1 }, .hook (.wrapper s.wrapped f))
  | .remove k => if s.hooks.any (fun h => h.kind = k) then ({ s with hooks := eraseKind k s.hooks }, .done) else (s, .error)
  | .setIgnore b => ({ s with ignore := b }, .done)
  | .exception E => (s, .handled (s.handle E).1 (s.handle E).2)

/-! ## Specification -/

/-- whether the hook is a function that was added, or the hook that was there before: not a handler object of the user -/
def Hook.fromFunction : Hook → Bool
  | ⟨.object _, _⟩ => false
  | ⟨.wrapper _ _, _⟩ => true
  | ⟨.old, _⟩ => true

/-- whether the answer of the hook ends the handling -/
def Stops (E : Env) (ignore : Bool) (before : List Hook) (h : Hook) : Prop :=
  match E.ask before h with
  | .val b => b = true
  | .seq bs => if h.fromFunction then true ∈ bs else bs ≠ []
  | .fails => ignore = false
  | .aborts => True

/-- how an answer that ends the handling ends it -/
def endOf (E : Env) (before : List Hook) (h : Hook) : End :=
  match E.ask before h with
  | .val _ => .intercepted
  | .seq _ => .intercepted
  | .fails => .notImplemented
  | .aborts => .aborted

/-- `order` is the list by priority, and where priorities are equal, in the order of the list -/
structure Ordered (l order : List Hook) : Prop where
  perm : order.Perm l
  sorted : order.Pairwise (fun a b => a.prio ≤ b.prio)
  stable : ∀ a b, [a, b].Sublist l → a.prio ≤ b.prio → [a, b].Sublist order

/-- the hooks that `ran` are the first ones of those that `could`, each one ran if those before it did not stop, and the end is what the last one said -/
inductive Chain (E : Env) (ignore : Bool) : List Hook → List Hook → List Hook → End → Prop where
  | done (before) : Chain E ignore before [] [] .allAsked
  | stop (before h rest) : Stops E ignore before h → Chain E ignore before (h :: rest) [h] (endOf E before h)
  | go (before h rest ran e) : ¬ Stops E ignore before h → Chain E ignore (before ++ [h]) rest ran e → Chain E ignore before (h :: rest) (h :: ran) e

/-- what the user knows: the hooks registered, first to last, whether failures are ignored, and how many functions were added -/
structure Abs where
  reg : List Hook
  ignore : Bool
  functions : Nat

/-- what each call has to do -/
def Spec (b : Abs) : Op → Res → Abs → Prop
  | .addObject id p, r, b' => r = .hook (.object id) ∧
      ((∃ h ∈ b.reg, h.kind = .object id) ∧ b' = b ∨ (¬ ∃ h ∈ b.reg, h.kind = .object id) ∧ b' = { b with reg := b.reg ++ [⟨.object id, p⟩] })
  | .addFun f p, r, b' => r = .hook (.wrapper b.functions f) ∧ b' = ⟨b.reg ++ [⟨.wrapper b.functions f, p⟩], b.ignore, b.functions + 1⟩
  | .remove k, r, b' => (∃ h ∈ b.reg, h.kind = k) ∧ r = .done ∧ b' = { b with reg := b.reg.filter (fun h => h.kind ≠ k) } ∨
      (¬ ∃ h ∈ b.reg, h.kind = k) ∧ r = .error ∧ b' = b
  | .setIgnore i, r, b' => r = .done ∧ b' = { b with ignore := i }
  | .exception E, r, b' => b' = b ∧ ∃ ran e order, r = .handled ran e ∧ Ordered (b.reg ++ [oldHook]) order ∧
      Chain E b.ignore [] (order.filter (fun h => !(E.sysExit && h.fromFunction))) ran e

/-! ## Proofs -/

theorem isFun_eq (h : Hook) : h.isFun = h.fromFunction := by
  obtain ⟨k, p⟩ := h; cases k <;> rfl

theorem ins_perm (x : Hook) (l : List Hook) : (ins x l).Perm (x :: l) := by
  induction l with
  | nil => exact List.Perm.refl _
  | cons y l ih =>
    unfold ins
    split
    · exact List.Perm.refl _
    · exact (List.Perm.cons y ih).trans (List.Perm.swap x y l)

theorem sort_perm (l : List Hook) : (sortHooks l).Perm l := by
  induction l with
  | nil => exact List.Perm.refl _
  | cons x l ih => exact (ins_perm x _).trans (List.Perm.cons x ih)

theorem ins_sorted (x : Hook) (l : List Hook) (h : l.Pairwise (fun a b => a.prio ≤ b.prio)) :
    (ins x l).Pairwise (fun a b => a.prio ≤ b.prio) := by
  induction l with
  | nil => simp [ins]
  | cons y l ih =>
    rw [List.pairwise_cons] at h
    unfold ins
    split
    · rename_i hxy
      rw [List.pairwise_cons, List.pairwise_cons]
      refine ⟨?_, h⟩
      intro b hb
      rcases List.mem_cons.1 hb with rfl | hb
      · exact hxy
      · exact Int.le_trans hxy (h.1 b hb)
    · rename_i hxy
      rw [List.pairwise_cons]
      refine ⟨?_, ih h.2⟩
      intro b hb
      rcases List.mem_cons.1 ((ins_perm x l).mem_iff.1 hb) with rfl | hb
      · omega
      · exact h.1 b hb

theorem sort_sorted (l : List Hook) : (sortHooks l).Pairwise (fun a b => a.prio ≤ b.prio) := by
  induction l with
  | nil => exact List.Pairwise.nil
  | cons x l ih => exact ins_sorted x _ ih

theorem ins_sublist (x : Hook) (l : List Hook) : l.Sublist (ins x l) := by
  induction l with
  | nil => exact List.nil_sublist _
  | cons y l ih =>
    unfold ins
    split
    · exact List.sublist_cons_self x _
    · exact ih.cons_cons y

theorem ins_before (x b : Hook) (l : List Hook) (hb : b ∈ l) (hle : x.prio ≤ b.prio) : [x, b].Sublist (ins x l) := by
  induction l with
  | nil => cases hb
  | cons y l ih =>
    unfold ins
    split
    · exact (List.singleton_sublist.2 hb).cons_cons x
    · rename_i hxy
      rcases List.mem_cons.1 hb with rfl | hb
      · exact absurd hle hxy
      · exact (ih hb).cons y

theorem sort_stable (l : List Hook) (a b : Hook) (h : [a, b].Sublist l) (hle : a.prio ≤ b.prio) : [a, b].Sublist (sortHooks l) := by
  induction l with
  | nil => exact absurd h (by simp)
  | cons x l ih =>
    cases h with
    | cons _ h => exact (ih h).trans (ins_sublist x _)
    | cons_cons _ h => exact ins_before _ b _ ((sort_perm l).mem_iff.2 (List.singleton_sublist.1 h)) hle

theorem sort_ordered (l : List Hook) : Ordered l (sortHooks l) := ⟨sort_perm l, sort_sorted l, sort_stable l⟩

theorem handleLoop_chain (E : Env) (ig : Bool) (ran hs : List Hook) :
    ∃ more, (handleLoop E ig ran hs).1 = ran ++ more ∧
      Chain E ig ran (hs.filter (fun h => !(E.sysExit && h.fromFunction))) more (handleLoop E ig ran hs).2 := by
  induction hs generalizing ran with
  | nil => exact ⟨[], by simp [handleLoop], Chain.done _⟩
  | cons h hs ih =>
    have skip : ¬ Stops E ig ran h → ∀ l : List Hook, l = hs.filter (fun h => !(E.sysExit && h.fromFunction)) →
        ∃ more, (handleLoop E ig (ran ++ [h]) hs).1 = ran ++ more ∧ Chain E ig ran (h :: l) more (handleLoop E ig (ran ++ [h]) hs).2 := by
      intro hn l hl
      obtain ⟨more, h1, h2⟩ := ih (ran ++ [h])
      refine ⟨h :: more, by rw [h1]; simp, ?_⟩
      subst hl
      exact Chain.go _ _ _ _ _ hn h2
    by_cases hx : (h.fromFunction && E.sysExit) = true
    · have hx' : (!(E.sysExit && h.fromFunction)) = false := by rw [Bool.and_comm]; simp [hx]
      unfold handleLoop
      simp only [isFun_eq]
      rw [if_pos hx, List.filter_cons_of_neg (by simpa using hx')]
      exact ih ran
    · have hx' : (!(E.sysExit && h.fromFunction)) = true := by
        rw [Bool.and_comm]
        cases hb : (h.fromFunction && E.sysExit)
        · rfl
        · exact absurd hb hx
      unfold handleLoop
      simp only [isFun_eq]
      rw [if_neg hx, List.filter_cons_of_pos (by simpa using hx')]
      have stop : ∀ e, Stops E ig ran h → endOf E ran h = e →
          ∃ more, (ran ++ [h], e).1 = ran ++ more ∧
            Chain E ig ran (h :: hs.filter (fun h => !(E.sysExit && h.fromFunction))) more (ran ++ [h], e).2 := by
        intro e hs he
        subst he
        exact ⟨[h], rfl, Chain.stop _ _ _ hs⟩
      cases ha : E.ask ran h with
      | val b =>
        cases b with
        | true => exact stop _ (by simp [Stops, ha]) (by simp [endOf, ha])
        | false => exact skip (by simp [Stops, ha]) _ rfl
      | seq bs =>
        dsimp only
        by_cases hf : h.fromFunction = true
        · rw [if_pos hf]
          by_cases hb : bs.any id = true
          · rw [if_pos hb]
            exact stop _ (by simpa [Stops, ha, hf] using hb) (by simp [endOf, ha])
          · rw [if_neg hb]
            exact skip (by simpa [Stops, ha, hf] using hb) _ rfl
        · rw [if_neg hf]
          by_cases hb : (!bs.isEmpty) = true
          · rw [if_pos hb]
            exact stop _ (by simpa [Stops, ha, hf] using hb) (by simp [endOf, ha])
          · rw [if_neg hb]
            exact skip (by simpa [Stops, ha, hf] using hb) _ rfl
      | fails =>
        dsimp only
        by_cases hi : ig = true
        · rw [if_pos hi]
          exact skip (by simp [Stops, ha, hi]) _ rfl
        · rw [if_neg hi]
          exact stop _ (by simpa [Stops, ha] using hi) (by simp [endOf, ha])
      | aborts => exact stop _ (by simp [Stops, ha]) (by simp [endOf, ha])

/-- the hooks registered have different identities, and wrappers are numbered below the counter -/
structure Inv (s : St) : Prop where
  nodup : (s.hooks.map (·.kind)).Nodup
  fresh : ∀ h ∈ s.hooks, ∀ n f, h.kind = .wrapper n f → n < s.wrapped

theorem eraseKind_eq (k : Kind) (l : List Hook) (h : (l.map (·.kind)).Nodup) : eraseKind k l = l.filter (fun h => h.kind ≠ k) := by
  induction l with
  | nil => rfl
  | cons x l ih =>
    rw [List.map_cons, List.nodup_cons] at h
    unfold eraseKind
    by_cases hx : x.kind = k
    · rw [if_pos hx, List.filter_cons_of_neg (by simp [hx])]
      symm
      rw [List.filter_eq_self]
      intro y hy
      have : y.kind ≠ k := fun e => h.1 (by rw [hx, ← e]; exact List.mem_map_of_mem hy)
      simpa using this
    · rw [if_neg hx, List.filter_cons_of_pos (by simp [hx]), ih h.2]

/-- what the model's state means to the user -/
def abs (s : St) : Abs := ⟨s.hooks, s.ignore, s.wrapped⟩

theorem step_sim (s : St) (o : Op) (h : Inv s) : Spec (abs s) o (s.step o).2 (abs (s.step o).1) ∧ Inv (s.step o).1 := by
  cases o with
  | addObject id p =>
    unfold St.step
    by_cases hc : s.hooks.any (fun h => h.kind = .object id) = true
    · simp only [if_pos hc]
      refine ⟨⟨rfl, Or.inl ⟨by simpa [abs] using hc, rfl⟩⟩, h⟩
    · simp only [if_neg hc]
      have hn : ¬ ∃ h ∈ s.hooks, h.kind = .object id := by simpa using hc
      refine ⟨⟨rfl, Or.inr ⟨hn, rfl⟩⟩, ?_, ?_⟩
      · rw [List.map_append, List.nodup_append]
        refine ⟨h.nodup, by simp, ?_⟩
        intro a ha b hb
        simp only [List.map_cons, List.map_nil, List.mem_singleton] at hb
        obtain ⟨y, hy, rfl⟩ := List.mem_map.1 ha
        rw [hb]
        exact fun e => hn ⟨y, hy, e⟩
      · intro y hy n f hk
        rcases List.mem_append.1 hy with hy | hy
        · exact h.fresh y hy n f hk
        · rw [List.mem_singleton.1 hy] at hk
          cases hk
  | addFun f p =>
    unfold St.step
    refine ⟨⟨rfl, rfl⟩, ?_, ?_⟩
    · dsimp only
      rw [List.map_append, List.nodup_append]
      refine ⟨h.nodup, by simp, ?_⟩
      intro a ha b hb
      simp only [List.map_cons, List.map_nil, List.mem_singleton] at hb
      obtain ⟨y, hy, rfl⟩ := List.mem_map.1 ha
      rw [hb]
      intro e
      have := h.fresh y hy _ _ e
      omega
    · intro y hy n g hk
      dsimp only at hy ⊢
      rcases List.mem_append.1 hy with hy | hy
      · have := h.fresh y hy n g hk
        omega
      · rw [List.mem_singleton.1 hy] at hk
        cases hk
        omega
  | remove k =>
    unfold St.step
    by_cases hc : s.hooks.any (fun h => h.kind = k) = true
    · simp only [if_pos hc]
      refine ⟨Or.inl ⟨by simpa [abs] using hc, rfl, by simp [abs, eraseKind_eq k _ h.nodup]⟩, ?_, ?_⟩
      · dsimp only
        rw [eraseKind_eq k _ h.nodup]
        exact h.nodup.sublist (List.filter_sublist.map _)
      · intro y hy
        dsimp only at hy
        rw [eraseKind_eq k _ h.nodup] at hy
        exact h.fresh y ((List.mem_filter.1 hy).1)
    · simp only [if_neg hc]
      exact ⟨Or.inr ⟨by simpa [abs] using hc, rfl, rfl⟩, h⟩
  | setIgnore b => exact ⟨⟨rfl, rfl⟩, h.nodup, h.fresh⟩
  | exception E =>
    refine ⟨⟨rfl, ?_⟩, h⟩
    obtain ⟨more, h1, h2⟩ := handleLoop_chain E s.ignore [] (sortHooks (s.hooks ++ [oldHook]))
    refine ⟨more, (s.handle E).2, sortHooks (s.hooks ++ [oldHook]), ?_, sort_ordered _, h2⟩
    show Res.handled (s.handle E).1 _ = _
    unfold St.handle
    rw [h1, List.nil_append]

/-- **C63.** Whatever is added and removed, an exception goes to the hooks registered at that time and to the hook there was before, by priority and, where priorities are equal, in the order they were added;
  each is asked once, until one intercepts the exception; a hook that fails does not keep the others from being asked unless the user wants so; a hook added twice is registered once, each addition of a
  function is a registration of its own, and functions are not asked about SystemExit. -/
theorem C63_hooks (ops : List Op) : ∃ b, History Spec ⟨[], true, 0⟩ ops (runOps St.step St.init ops).2 b := by
  have sim := history_of_sim (step := St.step) (spec := Spec) (fun s b => b = abs s ∧ Inv s) (fun _ => True)
    (fun s b o _ hR => by
      obtain ⟨rfl, hi⟩ := hR
      obtain ⟨h1, h2⟩ := step_sim s o hi
      exact ⟨_, h1, rfl, h2⟩)
    St.init ⟨[], true, 0⟩ ops (fun _ _ => trivial) ⟨rfl, by simp [St.init], by simp [St.init]⟩
  obtain ⟨b, h, _⟩ := sim
  exact ⟨b, h⟩

/-- what becomes of a thread: its function returned, it raised this exception, it raised NotImplementedError or the BaseException of a hook in its stead -/
inductive ThreadEnd where
  | returned
  | raised
  | hookFailed
  | hookAborted
  deriving DecidableEq, Repr

/-- the function of a thread ended with an `Exception`, with another BaseException, or normally -/
inductive RunEnd where
  | normal
  | exception
  | base
  deriving DecidableEq, Repr

/-- `run_with_except_hook`, /repo/satella/exception_handling/global_eh.py:72-84: the hooks that ran and what becomes of the thread.  No hook raises AttributeError out of `__except_handle`, since it
  catches each Exception of a hook. -/
def St.threadRun (s : St) (E : Env) : RunEnd → List Hook × ThreadEnd
  | .normal => ([], .returned)
  | .base => ([], .raised)
  | .exception =>
    match s.handle E with
    | (ran, .notImplemented) => (ran, .hookFailed)
    | (ran, .aborted) => (ran, .hookAborted)
    | (ran, _) => (ran, .raised)

theorem handleLoop_ignore (E : Env) (ran hs : List Hook) : (handleLoop E true ran hs).2 ≠ .notImplemented := by
  induction hs generalizing ran with
  | nil => simp [handleLoop]
  | cons h hs ih =>
    unfold handleLoop
    split
    · exact ih ran
    · split
      · simp
      · exact ih _
      · split
        · split <;> first | exact ih _ | simp
        · split <;> first | exact ih _ | simp
      · exact ih _
      · simp

/-- **C63, threads.** A thread that ends with an exception has it handled by the same hooks, once, and still ends with that exception: by default only a BaseException from a hook takes its place. -/
theorem C63_threads (s : St) (E : Env) :
    (s.threadRun E .exception).1 = (s.handle E).1 ∧
    (s.ignore = true → (s.handle E).2 ≠ .aborted → (s.threadRun E .exception).2 = .raised) ∧
    s.threadRun E .normal = ([], .returned) ∧ s.threadRun E .base = ([], .raised) := by
  refine ⟨?_, ?_, rfl, rfl⟩
  · show (match s.handle E with
      | (ran, .notImplemented) => (ran, ThreadEnd.hookFailed)
      | (ran, .aborted) => (ran, .hookAborted)
      | (ran, _) => (ran, .raised)).1 = _
    split <;> rename_i h <;> rw [h]
  · intro hi ha
    have hn : (s.handle E).2 ≠ .notImplemented := by
      unfold St.handle
      rw [hi]
      exact handleLoop_ignore E [] _
    show (match s.handle E with
      | (ran, .notImplemented) => (ran, ThreadEnd.hookFailed)
      | (ran, .aborted) => (ran, .hookAborted)
      | (ran, _) => (ran, .raised)).2 = _
    split <;> rename_i h
    · rw [h] at hn; exact absurd rfl hn
    · rw [h] at ha; exact absurd rfl ha
    · rfl

/-! Cases that meet the hypotheses -/

/-- hooks of object 1 (priority 5), functions 7 and 8 (priority 0), object 2 added twice (priority -1): 2 passes, 7 fails, 8 intercepts -/
example : (runOps St.step St.init [.addObject 1 5, .addFun 7 0, .addFun 8 0, .addObject 2 (-1), .addObject 2 3,
      .exception ⟨fun _ h => if h.kind = .wrapper 0 7 then .fails else if h.kind = .wrapper 1 8 then .seq [false, true] else .val false, false⟩]).2.getLast? =
    some (.handled [⟨.object 2, -1⟩, ⟨.wrapper 0 7, 0⟩, ⟨.wrapper 1 8, 0⟩] .intercepted) := by decide

example : let s : St := ⟨[⟨.object 1, 0⟩], true, 0⟩
    s.ignore = true ∧ (s.handle ⟨fun _ _ => .fails, false⟩).2 ≠ .aborted ∧ (s.handle ⟨fun _ _ => .fails, false⟩).1 = [⟨.object 1, 0⟩, oldHook] := by decide

end Verif.Exn
