/-!
# Inserting into a set and checking at once, C215

`/repo/satella/coding/concurrent/monitor.py:235-255` (`MonitorSet`).  Threads call `insert_and_check` at any times; other threads
use the same set directly, without the monitor, by the operations of `set`: those that add, and those that do not.
-/
namespace Verif.MonitorSet

section
variable {α O ρ : Type} [DecidableEq α]

/-! ## Model -/

/-- Where a thread is in `insert_and_check`: outside; waiting for the monitor; about to look; about to add; about to leave with an answer.
The statements are those of /repo/satella/coding/concurrent/monitor.py:251-255. -/
inductive Phase (α : Type) where
  | outside
  | waiting (x : α)
  | looking (x : α)
  | adding (x : α)
  | leaving (x : α) (answer : Bool)

/-- What can be seen from outside: an addition by `set.add`, another operation and what it gave, a call of `insert_and_check` and its return.
The last constructor occurs only in explanations, see the specification.  (Part of the model of `MonitorSet`, /repo/satella/coding/concurrent/monitor.py:235-255.) -/
inductive Ev (α O ρ : Type) where
  | added (x : α)
  | other (o : O) (gave : ρ)
  | called (t : Nat) (x : α)
  | returned (t : Nat) (x : α) (answer : Bool)
  | effect (t : Nat) (x : α) (answer : Bool)

/-- The set, its monitor, the threads, and what was seen so far.  (Part of the model of `MonitorSet`, /repo/satella/coding/concurrent/monitor.py:235-255.) -/
structure State (α O ρ : Type) where
  set : List α
  lock : Option Nat
  at_ : Nat → Phase α
  seen : List (Ev α O ρ)

/-- What can happen next: somebody adds to the set, or does something else with it; a thread calls `insert_and_check`; a thread
in a call takes its next step.  (Part of the model of `MonitorSet`, /repo/satella/coding/concurrent/monitor.py:235-255.) -/
inductive Act (α O : Type) where
  | add (x : α)
  | other (o : O)
  | call (t : Nat) (x : α)
  | step (t : Nat)

/-- `set.add`.  (Part of the model of `MonitorSet`, /repo/satella/coding/concurrent/monitor.py:235-255.) -/
def insert (s : List α) (x : α) : List α := if x ∈ s then s else x :: s

/-- A thread gets to another phase, /repo/satella/coding/concurrent/monitor.py:251-255 -/
def setPhase (f : Nat → Phase α) (t : Nat) (p : Phase α) : Nat → Phase α := fun u => if u = t then p else f u

/-- One step. A call is `with Monitor.acquire(self): if item in self: return False; self.add(item); return True`,
/repo/satella/coding/concurrent/monitor.py:244-255, `run` are the operations of `set` that do not add. -/
def step (run : O → List α → List α × ρ) (s : State α O ρ) : Act α O → State α O ρ
  | .add x => { s with set := insert s.set x, seen := s.seen ++ [.added x] }
  | .other o => { s with set := (run o s.set).1, seen := s.seen ++ [.other o (run o s.set).2] }
  | .call t x =>
    match s.at_ t with
    | .outside => { s with at_ := setPhase s.at_ t (.waiting x), seen := s.seen ++ [.called t x] }
    | _ => s
  | .step t =>
    match s.at_ t with
    | .outside => s
    | .waiting x => if s.lock = none then { s with lock := some t, at_ := setPhase s.at_ t (.looking x) } else s
    | .looking x => if x ∈ s.set then { s with at_ := setPhase s.at_ t (.leaving x false) } else { s with at_ := setPhase s.at_ t (.adding x) }
    | .adding x => { s with set := insert s.set x, at_ := setPhase s.at_ t (.leaving x true) }
    | .leaving x b => { s with lock := none, at_ := setPhase s.at_ t .outside, seen := s.seen ++ [.returned t x b] }

/-- The set as it was made, /repo/satella/coding/concurrent/monitor.py:240-242 -/
def init (set : List α) : State α O ρ := ⟨set, none, fun _ => .outside, []⟩

/-- Steps one after another (of `MonitorSet`, /repo/satella/coding/concurrent/monitor.py:235-255). -/
def steps (run : O → List α → List α × ρ) (s : State α O ρ) (l : List (Act α O)) : State α O ρ := l.foldl (step run) s

/-! ## Specification -/

/-- The set after an event, if `insert_and_check` were a single operation of the set. -/
def after (run : O → List α → List α × ρ) (s : List α) : Ev α O ρ → List α
  | .added x => if x ∈ s then s else x :: s
  | .other o _ => (run o s).1
  | .effect _ x _ => if x ∈ s then s else x :: s
  | _ => s

/-- What it gives is right for the set as it is. -/
def Right (run : O → List α → List α × ρ) (s : List α) : Ev α O ρ → Prop
  | .other o r => r = (run o s).2
  | .effect _ x b => (b = true ↔ x ∉ s)
  | _ => True

/-- Each event of the list is right when its time comes. -/
def Legal (run : O → List α → List α × ρ) : List α → List (Ev α O ρ) → Prop
  | _, [] => True
  | s, e :: l => Right run s e ∧ Legal run (after run s e) l

/-- The set after all events. -/
def afterAll (run : O → List α → List α × ρ) (s : List α) (l : List (Ev α O ρ)) : List α := l.foldl (after run) s

/-- Events of the thread `t`. -/
def Ev.of (t : Nat) : Ev α O ρ → Bool
  | .called u _ => u = t
  | .returned u _ _ => u = t
  | .effect u _ _ => u = t
  | _ => false

/-- Whether an event can be seen. -/
def Ev.visible : Ev α O ρ → Bool
  | .effect _ _ _ => false
  | _ => true

/-- Calls of `t`, one after another: each takes effect once between being called and returning, and returns what its effect gave. -/
inductive Calls (t : Nat) : List (Ev α O ρ) → Prop
  | none : Calls t []
  | one {l x b} : Calls t l → Calls t (l ++ [.called t x, .effect t x b, .returned t x b])

/-- The same, with perhaps one more that has not returned. -/
def CallsSoFar (t : Nat) (l : List (Ev α O ρ)) : Prop :=
  ∃ d, Calls t d ∧ (l = d ∨ (∃ x, l = d ++ [.called t x]) ∨ (∃ x b, l = d ++ [.called t x, .effect t x b]))

/-! ## Properties -/

theorem Legal.append (run : O → List α → List α × ρ) (l l' : List (Ev α O ρ)) : ∀ s, Legal run s (l ++ l') ↔ Legal run s l ∧ Legal run (afterAll run s l) l' := by
  induction l with
  | nil => intro s; simp [Legal, afterAll]
  | cons e l ih => intro s; simp only [List.cons_append, Legal, ih, afterAll, List.foldl_cons, and_assoc]

theorem afterAll_append (run : O → List α → List α × ρ) (l l' : List (Ev α O ρ)) (s) : afterAll run s (l ++ l') = afterAll run (afterAll run s l) l' := by
  simp [afterAll]

/-- If it was not in the set and is now, it was added in between, by an `add` or in effect of a call. -/
theorem added_between (run : O → List α → List α × ρ) (hr : ∀ o s x, x ∈ (run o s).1 → x ∈ s) (x : α) (l : List (Ev α O ρ)) : ∀ s,
    x ∉ s → x ∈ afterAll run s l → (∀ e ∈ l, e.visible = true) →
    ∃ p q, l = p ++ .added x :: q ∧ x ∉ afterAll run s p := by
  induction l with
  | nil => intro s h h'; exact absurd h' h
  | cons e l ih =>
    intro s h h' hv
    by_cases hx : x ∈ after run s e
    · refine ⟨[], l, ?_, h⟩
      have hve := hv e (List.mem_cons_self ..)
      cases e with
      | added y =>
        simp only [after] at hx
        split at hx
        · exact absurd hx h
        · rcases List.mem_cons.1 hx with rfl | hx
          · rfl
          · exact absurd hx h
      | other o r => exact absurd (hr _ _ _ hx) h
      | called u y => exact absurd hx h
      | returned u y b => exact absurd hx h
      | effect u y b => simp [Ev.visible] at hve
    · obtain ⟨p, q, rfl, hp⟩ := ih (after run s e) hx h' (fun e' he' => hv e' (List.mem_cons_of_mem _ he'))
      exact ⟨e :: p, q, rfl, hp⟩

/-- What is true of the thread `t`. -/
def Good (run : O → List α → List α × ρ) (s0 : List α) (log : List (Ev α O ρ)) (lock : Option Nat) (t : Nat) (p : Phase α) : Prop :=
  ∃ d, Calls t d ∧
  match p with
  | .outside => log.filter (Ev.of t) = d ∧ lock ≠ some t
  | .waiting x => log.filter (Ev.of t) = d ++ [.called t x] ∧ lock ≠ some t
  | .looking x => log.filter (Ev.of t) = d ++ [.called t x] ∧ lock = some t
  | .adding x => log.filter (Ev.of t) = d ++ [.called t x] ∧ lock = some t ∧
      ∃ pre post, log = pre ++ post ∧ x ∉ afterAll run s0 pre ∧ (∀ e ∈ post, Ev.of t e = false ∧ e.visible = true)
  | .leaving x b => log.filter (Ev.of t) = d ++ [.called t x, .effect t x b] ∧ lock = some t

theorem Good.soFar {run : O → List α → List α × ρ} {s0 log lock t} {p : Phase α} (h : Good run s0 log lock t p) : CallsSoFar t (log.filter (Ev.of t)) := by
  obtain ⟨d, hd, h⟩ := h
  refine ⟨d, hd, ?_⟩
  cases p with
  | outside => exact Or.inl h.1
  | waiting x => exact Or.inr (Or.inl ⟨x, h.1⟩)
  | looking x => exact Or.inr (Or.inl ⟨x, h.1⟩)
  | adding x => exact Or.inr (Or.inl ⟨x, h.1⟩)
  | leaving x b => exact Or.inr (Or.inr ⟨x, b, h.1⟩)

/-- A visible event of somebody else changes nothing for a thread. -/
theorem Good.visible {run : O → List α → List α × ρ} {s0 log lock t} {p : Phase α} (h : Good run s0 log lock t p) (e : Ev α O ρ)
    (he : Ev.of t e = false) (hv : e.visible = true) : Good run s0 (log ++ [e]) lock t p := by
  obtain ⟨d, hd, h⟩ := h
  refine ⟨d, hd, ?_⟩
  have hf : (log ++ [e]).filter (Ev.of t) = log.filter (Ev.of t) := by simp [he]
  cases p with
  | adding x =>
    simp only [hf]
    obtain ⟨h1, h2, pre, post, rfl, h3, h4⟩ := h
    refine ⟨h1, h2, pre, post ++ [e], by simp, h3, ?_⟩
    intro e' he'
    rcases List.mem_append.1 he' with h | h
    · exact h4 e' h
    · rw [List.mem_singleton.1 h]; exact ⟨he, hv⟩
  | outside => simp only [hf]; exact h
  | waiting x => simp only [hf]; exact h
  | looking x => simp only [hf]; exact h
  | leaving x b => simp only [hf]; exact h

/-- A thread that does not hold the monitor only cares for its own events. -/
theorem Good.other {run : O → List α → List α × ρ} {s0 log log' lock lock' t} {p : Phase α} (h : Good run s0 log lock t p)
    (hl : lock ≠ some t) (hl' : lock' ≠ some t) (hf : log'.filter (Ev.of t) = log.filter (Ev.of t)) : Good run s0 log' lock' t p := by
  obtain ⟨d, hd, h⟩ := h
  refine ⟨d, hd, ?_⟩
  cases p with
  | outside => exact ⟨by rw [hf]; exact h.1, hl'⟩
  | waiting x => exact ⟨by rw [hf]; exact h.1, hl'⟩
  | looking x => exact absurd h.2 hl
  | adding x => exact absurd h.2.1 hl
  | leaving x b => exact absurd h.2 hl

/-- The invariant: the history has an explanation. -/
def Explained (run : O → List α → List α × ρ) (s0 : List α) (s : State α O ρ) : Prop :=
  ∃ log, log.filter Ev.visible = s.seen ∧ Legal run s0 log ∧ afterAll run s0 log = s.set ∧ ∀ t, Good run s0 log s.lock t (s.at_ t)

theorem explained_step (run : O → List α → List α × ρ) (hr : ∀ o s x, x ∈ (run o s).1 → x ∈ s) (s0 : List α) (s : State α O ρ) (a : Act α O)
    (h : Explained run s0 s) : Explained run s0 (step run s a) := by
  obtain ⟨log, hseen, hlegal, hset, hgood⟩ := h
  cases a with
  | add x =>
    refine ⟨log ++ [.added x], by simp [step, hseen, Ev.visible], ?_, ?_, fun t => ?_⟩
    · rw [Legal.append]; exact ⟨hlegal, trivial, trivial⟩
    · rw [afterAll_append, hset]; rfl
    · exact (hgood t).visible _ rfl rfl
  | other o =>
    refine ⟨log ++ [.other o (run o s.set).2], by simp [step, hseen, Ev.visible], ?_, ?_, fun t => ?_⟩
    · rw [Legal.append, hset]; exact ⟨hlegal, rfl, trivial⟩
    · rw [afterAll_append, hset]; rfl
    · exact (hgood t).visible _ rfl rfl
  | call t x =>
    simp only [step]
    split
    · rename_i hp
      refine ⟨log ++ [.called t x], by simp [hseen, Ev.visible], ?_, ?_, fun u => ?_⟩
      · rw [Legal.append]; exact ⟨hlegal, trivial, trivial⟩
      · rw [afterAll_append, hset]; rfl
      · by_cases hu : u = t
        · subst hu
          have := hgood u
          rw [hp] at this
          obtain ⟨d, hd, h1, h2⟩ := this
          exact ⟨d, hd, by simp [setPhase, h1, Ev.of, h2]⟩
        · simp only [setPhase, if_neg hu]
          exact (hgood u).visible _ (by simp [Ev.of, Ne.symm hu]) rfl
    · exact ⟨log, hseen, hlegal, hset, hgood⟩
  | step t =>
    simp only [step]
    split
    · exact ⟨log, hseen, hlegal, hset, hgood⟩
    · -- waiting
      rename_i x hp
      split
      · rename_i hl
        refine ⟨log, hseen, hlegal, hset, fun u => ?_⟩
        by_cases hu : u = t
        · subst hu
          have := hgood u
          rw [hp] at this
          obtain ⟨d, hd, h1, h2⟩ := this
          exact ⟨d, hd, by simp [setPhase, h1]⟩
        · simp only [setPhase, if_neg hu]
          exact (hgood u).other (by simp [hl]) (by simpa using Ne.symm hu) rfl
      · exact ⟨log, hseen, hlegal, hset, hgood⟩
    · -- looking
      rename_i x hp
      have ht := hgood t
      rw [hp] at ht
      obtain ⟨d, hd, h1, h2⟩ := ht
      split
      · rename_i hx
        refine ⟨log ++ [.effect t x false], by simp [hseen, Ev.visible], ?_, ?_, fun u => ?_⟩
        · rw [Legal.append, hset]; exact ⟨hlegal, by simp [Right, hx], trivial⟩
        · rw [afterAll_append, hset]; simp [afterAll, after, hx]
        · by_cases hu : u = t
          · subst hu; exact ⟨d, hd, by simp [setPhase, h1, h2, Ev.of]⟩
          · simp only [setPhase, if_neg hu]
            exact (hgood u).other (by rw [h2]; simpa using Ne.symm hu) (by rw [h2]; simpa using Ne.symm hu) (by simp [Ev.of, Ne.symm hu])
      · rename_i hx
        refine ⟨log, hseen, hlegal, hset, fun u => ?_⟩
        by_cases hu : u = t
        · subst hu
          refine ⟨d, hd, ?_⟩
          simp only [setPhase, if_pos]
          exact ⟨h1, h2, log, [], by simp, by rw [hset]; exact hx, by simp⟩
        · simp only [setPhase, if_neg hu]; exact hgood u
    · -- adding
      rename_i x hp
      have ht := hgood t
      rw [hp] at ht
      obtain ⟨d, hd, h1, h2, pre, post, rfl, h3, h4⟩ := ht
      have hpf : post.filter (Ev.of t) = [] := List.filter_eq_nil_iff.2 (fun e he => by simp [(h4 e he).1])
      have hpre : pre.filter (Ev.of t) = d ++ [.called t x] := by simpa [hpf] using h1
      by_cases hx : x ∈ s.set
      · rw [afterAll_append] at hset
        obtain ⟨p, q, rfl, hxp⟩ := added_between run hr x post _ h3 (by rw [hset]; exact hx) (fun e he => (h4 e he).2)
        rw [← afterAll_append] at hxp
        rw [← List.append_assoc] at hseen hlegal hgood
        have hset' : afterAll run (afterAll run s0 (pre ++ p)) (.added x :: q) = s.set := by rw [← hset, afterAll_append]; simp [afterAll]
        have hst : insert s.set x = s.set := by simp [insert, hx]
        refine ⟨(pre ++ p) ++ .effect t x true :: .added x :: q, ?_, ?_, ?_, fun u => ?_⟩
        · rw [← hseen]; simp [Ev.visible]
        · rw [Legal.append] at hlegal ⊢
          refine ⟨hlegal.1, by simp [Right, hxp], trivial, ?_⟩
          have := hlegal.2.2
          simp only [after, if_neg hxp, List.mem_cons_self, if_true] at this ⊢
          exact this
        · rw [afterAll_append, hst, ← hset']
          simp only [afterAll, List.foldl_cons]
          simp only [afterAll] at hxp
          simp only [after, if_neg hxp, List.mem_cons_self, if_true]
        · by_cases hu : u = t
          · subst hu
            refine ⟨d, hd, ?_⟩
            have hq : q.filter (Ev.of u) = [] := List.filter_eq_nil_iff.2 (fun e he => by simp [(h4 e (by simp [he])).1])
            have hp' : p.filter (Ev.of u) = [] := List.filter_eq_nil_iff.2 (fun e he => by simp [(h4 e (by simp [he])).1])
            simp [setPhase, h2, hpre, hq, hp', Ev.of]
          · simp only [setPhase, if_neg hu]
            exact (hgood u).other (by rw [h2]; simpa using Ne.symm hu) (by rw [h2]; simpa using Ne.symm hu) (by simp [Ev.of, Ne.symm hu])
      · refine ⟨(pre ++ post) ++ [.effect t x true], by simp [← hseen, Ev.visible], ?_, ?_, fun u => ?_⟩
        · rw [Legal.append, hset]; exact ⟨hlegal, by simp [Right, hx], trivial⟩
        · rw [afterAll_append, hset]; simp [afterAll, after, hx, insert]
        · by_cases hu : u = t
          · subst hu
            refine ⟨d, hd, ?_⟩
            simp [setPhase, h2, hpre, hpf, Ev.of]
          · simp only [setPhase, if_neg hu]
            exact (hgood u).other (by rw [h2]; simpa using Ne.symm hu) (by rw [h2]; simpa using Ne.symm hu) (by simp [Ev.of, Ne.symm hu])
    · -- leaving
      rename_i x b hp
      have ht := hgood t
      rw [hp] at ht
      obtain ⟨d, hd, h1, h2⟩ := ht
      refine ⟨log ++ [.returned t x b], by simp [hseen, Ev.visible], ?_, ?_, fun u => ?_⟩
      · rw [Legal.append]; exact ⟨hlegal, trivial, trivial⟩
      · rw [afterAll_append, hset]; rfl
      · by_cases hu : u = t
        · subst hu
          refine ⟨d ++ [.called u x, .effect u x b, .returned u x b], .one hd, ?_⟩
          simp [setPhase, h1, Ev.of]
        · simp only [setPhase, if_neg hu]
          exact (hgood u).other (by rw [h2]; simpa using Ne.symm hu) (by simp) (by simp [Ev.of, Ne.symm hu])

theorem explained_steps (run : O → List α → List α × ρ) (hr : ∀ o s x, x ∈ (run o s).1 → x ∈ s) (s0 : List α) (l : List (Act α O)) : ∀ s,
    Explained run s0 s → Explained run s0 (steps run s l) := by
  induction l with
  | nil => intro s h; exact h
  | cons a l ih => intro s h; exact ih _ (explained_step run hr s0 s a h)

theorem explained_init (run : O → List α → List α × ρ) (s0 : List α) : Explained run s0 (init s0) :=
  ⟨[], rfl, trivial, rfl, fun _ => ⟨[], .none, rfl, by simp [init]⟩⟩

/-- **C215 (insert_and_check is atomic)** Whatever threads call `insert_and_check`, and whatever others meanwhile do with the set
directly, under any schedule: all that is seen is as if each call were a single operation of the set, that takes effect once between the call and its return: adds
the item, and answers whether it was absent. The set is as if so, too. -/
theorem C215_atomic (run : O → List α → List α × ρ) (hr : ∀ o s x, x ∈ (run o s).1 → x ∈ s) (s0 : List α) (l : List (Act α O)) :
    ∃ log, log.filter Ev.visible = (steps run (init s0) l).seen ∧ Legal run s0 log ∧ afterAll run s0 log = (steps run (init s0) l).set ∧
      ∀ t, CallsSoFar t (log.filter (Ev.of t)) := by
  obtain ⟨log, h1, h2, h3, h4⟩ := explained_steps run hr s0 l _ (explained_init run s0)
  exact ⟨log, h1, h2, h3, fun t => (h4 t).soFar⟩

/-- It is a return with the answer `True` of a call for `x`. -/
def Ev.wins (x : α) : Ev α O ρ → Bool
  | .returned _ y b => b && decide (y = x)
  | _ => false

/-- The same, of the thread `t`. -/
def Ev.winsBy (t : Nat) (x : α) : Ev α O ρ → Bool
  | .returned u y b => b && decide (y = x) && decide (u = t)
  | _ => false

/-- It is the effect of a call for `x` that inserted it. -/
def Ev.inserts (x : α) : Ev α O ρ → Bool
  | .effect _ y b => b && decide (y = x)
  | _ => false

/-- The same, of the thread `t`. -/
def Ev.insertsBy (t : Nat) (x : α) : Ev α O ρ → Bool
  | .effect u y b => b && decide (y = x) && decide (u = t)
  | _ => false

theorem Calls.count {t : Nat} {l : List (Ev α O ρ)} (x : α) (h : Calls t l) : l.countP (Ev.winsBy t x) = l.countP (Ev.insertsBy t x) := by
  induction h with
  | none => rfl
  | one h ih => rw [List.countP_append, List.countP_append, ih]; simp [List.countP_cons, Ev.winsBy, Ev.insertsBy]

theorem CallsSoFar.count {t : Nat} {l : List (Ev α O ρ)} (x : α) (h : CallsSoFar t l) : l.countP (Ev.winsBy t x) ≤ l.countP (Ev.insertsBy t x) := by
  obtain ⟨d, hd, rfl | ⟨y, rfl⟩ | ⟨y, b, rfl⟩⟩ := h
  · rw [hd.count x]; exact Nat.le_refl _
  · rw [List.countP_append, List.countP_append, hd.count x]; simp [List.countP_cons, Ev.winsBy, Ev.insertsBy]
  · rw [List.countP_append, List.countP_append, hd.count x]; simp [List.countP_cons, Ev.winsBy, Ev.insertsBy]

theorem countP_of (t : Nat) (x : α) (l : List (Ev α O ρ)) :
    (l.filter (Ev.of t)).countP (Ev.winsBy t x) = l.countP (Ev.winsBy t x) ∧ (l.filter (Ev.of t)).countP (Ev.insertsBy t x) = l.countP (Ev.insertsBy t x) := by
  rw [List.countP_filter, List.countP_filter]
  constructor <;>
  · apply List.countP_congr
    intro e _
    cases e <;> simp [Ev.winsBy, Ev.insertsBy, Ev.of]
    try (intro _ _ h; exact h)

/-- If nothing is removed, what is in the set stays, and each item is inserted at most once. -/
theorem effects_once (run : O → List α → List α × ρ) (hk : ∀ o s, (run o s).1 = s) (x : α) (l : List (Ev α O ρ)) : ∀ s, Legal run s l →
    (∀ y ∈ s, y ∈ afterAll run s l) ∧ l.countP (Ev.inserts x) ≤ 1 ∧ (x ∈ s → l.countP (Ev.inserts x) = 0) ∧
    (∀ t b, .effect t x b ∈ l → x ∈ afterAll run s l) ∧
    ((∀ e ∈ l, e ≠ .added x) → x ∉ s → x ∈ afterAll run s l → ∃ t, .effect t x true ∈ l) := by
  induction l with
  | nil => intro s _; exact ⟨fun y hy => hy, by simp, by simp, by simp, fun _ h h' => absurd h' h⟩
  | cons e l ih =>
    intro s ⟨hr, hl⟩
    obtain ⟨h1, h2, h3, h4, h5⟩ := ih _ hl
    have hmono : ∀ y ∈ s, y ∈ after run s e := by
      intro y hy
      cases e <;> simp only [after, hk] <;> (try split) <;> simp [hy]
    refine ⟨fun y hy => h1 y (hmono y hy), ?_, ?_, ?_, ?_⟩
    · rw [List.countP_cons]
      split
      · rename_i hi
        cases e with
        | effect u y b =>
          simp only [Ev.inserts, Bool.and_eq_true, decide_eq_true_eq] at hi
          obtain ⟨rfl, rfl⟩ := hi
          rw [h3 (by simp only [after]; split <;> simp_all)]
          exact Nat.le_refl _
        | _ => simp [Ev.inserts] at hi
      · exact h2
    · intro hx
      rw [List.countP_cons, h3 (hmono x hx)]
      cases e with
      | effect u y b =>
        by_cases hyx : y = x
        · subst hyx
          have : b = false := by
            cases b with
            | false => rfl
            | true => exact absurd hx (hr.1 rfl)
          simp [Ev.inserts, this]
        · simp [Ev.inserts, hyx]
      | _ => simp [Ev.inserts]
    · intro t b ht
      rcases List.mem_cons.1 ht with rfl | ht
      · refine h1 x ?_
        simp only [after]; split
        · assumption
        · exact List.mem_cons_self ..
      · exact h4 t b ht
    · intro ha hx hx'
      by_cases hxe : x ∈ after run s e
      · cases e with
        | added y =>
          simp only [after] at hxe
          split at hxe
          · exact absurd hxe hx
          · rcases List.mem_cons.1 hxe with rfl | h
            · exact absurd rfl (ha _ (List.mem_cons_self ..))
            · exact absurd h hx
        | other o r => simp only [after, hk] at hxe; exact absurd hxe hx
        | called u y => exact absurd hxe hx
        | returned u y b => exact absurd hxe hx
        | effect u y b =>
          simp only [after] at hxe
          split at hxe
          · exact absurd hxe hx
          · rcases List.mem_cons.1 hxe with rfl | h
            · have : b = true := hr.2 hx
              subst this
              exact ⟨u, List.mem_cons_self ..⟩
            · exact absurd h hx
      · obtain ⟨t, ht⟩ := h5 (fun e' he' => ha e' (List.mem_cons_of_mem _ he')) hxe hx'
        exact ⟨t, List.mem_cons_of_mem _ ht⟩

omit [DecidableEq α] in
theorem Calls.has_effect {t : Nat} {l : List (Ev α O ρ)} (h : Calls t l) (x : α) (b : Bool) : .returned t x b ∈ l ↔ .effect t x b ∈ l := by
  induction h with
  | none => simp
  | one h ih => simp [ih]

omit [DecidableEq α] in
theorem CallsSoFar.has_effect {t : Nat} {l : List (Ev α O ρ)} (h : CallsSoFar t l) (x : α) (b : Bool) (hm : .returned t x b ∈ l) : .effect t x b ∈ l := by
  obtain ⟨d, hd, rfl | ⟨y, rfl⟩ | ⟨y, b', rfl⟩⟩ := h
  · exact (hd.has_effect x b).1 hm
  · simp only [List.mem_append, List.mem_singleton, reduceCtorEq, or_false] at hm
    simp [(hd.has_effect x b).1 hm]
  · simp only [List.mem_append, List.mem_cons, reduceCtorEq, List.not_mem_nil, or_false] at hm
    simp [(hd.has_effect x b).1 hm]

omit [DecidableEq α] in
theorem countP_zero_or (p : Ev α O ρ → Bool) (l : List (Ev α O ρ)) : l.countP p = 0 ∨ ∃ e ∈ l, p e = true := by
  by_cases h : l.countP p = 0
  · exact Or.inl h
  · exact Or.inr (List.countP_pos_iff.1 (Nat.pos_of_ne_zero h))

/-- **C215 (one inserts)** If nothing is removed from the set meanwhile: of all calls for the same item, by any threads under
any schedule, at most one answers `True`; once any has returned, the item is in the set; and if the item was not in the set at first and is not added otherwise, exactly one
of them has answered `True` whenever some have returned and none is under way. -/
theorem C215_once (run : O → List α → List α × ρ) (hk : ∀ o s, (run o s).1 = s) (s0 : List α) (l : List (Act α O)) (x : α) :
    let s := steps run (init s0) l
    s.seen.countP (Ev.wins x) ≤ 1 ∧
    (∀ t b, .returned t x b ∈ s.seen → x ∈ s.set) ∧
    (x ∉ s0 → (∀ e ∈ s.seen, e ≠ .added x) → (∀ t, s.at_ t = .outside) → (∃ t b, .returned t x b ∈ s.seen) → s.seen.countP (Ev.wins x) = 1) := by
  intro s
  obtain ⟨log, hseen, hlegal, hset, hgood⟩ := explained_steps run (fun o s x h => by rw [hk] at h; exact h) s0 l _ (explained_init run s0)
  obtain ⟨h1, h2, h3, h4, h5⟩ := effects_once run hk x log s0 hlegal
  have hmem : ∀ t b, .returned t x b ∈ s.seen → .effect t x b ∈ log := by
    intro t b ht
    have : .returned t x b ∈ log.filter (Ev.of t) := by
      rw [show s.seen = log.filter Ev.visible from hseen.symm] at ht
      exact List.mem_filter.2 ⟨(List.mem_filter.1 ht).1, by simp [Ev.of]⟩
    exact (List.mem_filter.1 ((hgood t).soFar.has_effect x b this)).1
  have hcv : s.seen.countP (Ev.wins x) = log.countP (Ev.wins x) := by
    rw [show s.seen = log.filter Ev.visible from hseen.symm, List.countP_filter]
    apply List.countP_congr
    intro e _
    cases e <;> simp [Ev.wins, Ev.visible]
  have hone : s.seen.countP (Ev.wins x) ≤ 1 := by
    rw [hcv]
    rcases countP_zero_or (Ev.inserts x) log with h0 | ⟨e, he, hi⟩
    · rcases countP_zero_or (Ev.wins x) log with h | ⟨e, he, hw⟩
      · omega
      · exfalso
        cases e with
        | returned t y b =>
          simp only [Ev.wins, Bool.and_eq_true, decide_eq_true_eq] at hw
          obtain ⟨rfl, rfl⟩ := hw
          have : .effect t y true ∈ log := by
            refine (List.mem_filter.1 ((hgood t).soFar.has_effect y true ?_)).1
            exact List.mem_filter.2 ⟨he, by simp [Ev.of]⟩
          have := List.countP_pos_iff.2 ⟨_, this, show Ev.inserts y (.effect t y true : Ev α O ρ) = true by simp [Ev.inserts]⟩
          omega
        | _ => simp [Ev.wins] at hw
    · cases e with
      | effect t0 y b =>
        simp only [Ev.inserts, Bool.and_eq_true, decide_eq_true_eq] at hi
        obtain ⟨rfl, rfl⟩ := hi
        -- all effects, hence all wins, are of t0
        have hby : log.countP (Ev.insertsBy t0 y) ≤ log.countP (Ev.inserts y) := by
          apply List.countP_mono_left
          intro e _ h
          cases e <;> simp_all [Ev.insertsBy, Ev.inserts]
        have honly : ∀ u, .effect u y true ∈ log → u = t0 := by
          intro u hu
          apply Classical.byContradiction
          intro hne
          obtain ⟨p, q, rfl⟩ := List.append_of_mem he
          rw [List.countP_append, List.countP_cons] at h2
          simp only [Ev.inserts, Bool.true_and, decide_true, if_true] at h2
          have hu' : .effect u y true ∈ p ∨ .effect u y true ∈ q := by
            simp only [List.mem_append, List.mem_cons, Ev.effect.injEq, and_true] at hu
            rcases hu with h | h | h
            · exact Or.inl h
            · exact absurd h hne
            · exact Or.inr h
          rcases hu' with h | h
          · have := List.countP_pos_iff.2 ⟨_, h, show Ev.inserts y (.effect u y true : Ev α O ρ) = true by simp [Ev.inserts]⟩
            omega
          · have := List.countP_pos_iff.2 ⟨_, h, show Ev.inserts y (.effect u y true : Ev α O ρ) = true by simp [Ev.inserts]⟩
            omega
        have hwins : log.countP (Ev.wins y) = log.countP (Ev.winsBy t0 y) := by
          apply List.countP_congr
          intro e he'
          cases e with
          | returned u z b =>
            simp only [Ev.wins, Ev.winsBy, Bool.and_eq_true, decide_eq_true_eq]
            constructor
            · rintro ⟨rfl, rfl⟩
              refine ⟨⟨rfl, rfl⟩, honly u ?_⟩
              refine (List.mem_filter.1 ((hgood u).soFar.has_effect z true ?_)).1
              exact List.mem_filter.2 ⟨he', by simp [Ev.of]⟩
            · rintro ⟨h, _⟩; exact h
          | _ => simp [Ev.wins, Ev.winsBy]
        have hc := (hgood t0).soFar.count y
        rw [(countP_of t0 y log).1, (countP_of t0 y log).2] at hc
        omega
      | _ => simp [Ev.inserts] at hi
  refine ⟨hone, ?_, ?_⟩
  · intro t b ht
    have := h4 t b (hmem t b ht)
    rw [hset] at this; exact this
  · rintro hx hadd hout ⟨t, b, ht⟩
    have hin : x ∈ afterAll run s0 log := h4 t b (hmem t b ht)
    obtain ⟨u, hu⟩ := h5 (fun e he heq => hadd e (by
      rw [show s.seen = log.filter Ev.visible from hseen.symm]
      exact List.mem_filter.2 ⟨he, by rw [heq]; rfl⟩) heq) hx hin
    have hg := hgood u
    rw [hout u] at hg
    obtain ⟨d, hd, h, _⟩ := hg
    have : .returned u x true ∈ s.seen := by
      have h' : .effect u x true ∈ log.filter (Ev.of u) := List.mem_filter.2 ⟨hu, by simp [Ev.of]⟩
      rw [h] at h'
      have h' := (hd.has_effect x true).2 h'
      rw [← h] at h'
      rw [show s.seen = log.filter Ev.visible from hseen.symm]
      exact List.mem_filter.2 ⟨(List.mem_filter.1 h').1, rfl⟩
    have := List.countP_pos_iff.2 ⟨_, this, show Ev.wins x (.returned u x true : Ev α O ρ) = true by simp [Ev.wins]⟩
    omega

/-- The hypotheses are met: looking into a set and taking things away do not add; looking leaves it as it is. -/
example : (∀ (o : Nat ⊕ Nat) (s : List Nat) (x : Nat), x ∈ ((match o with | .inl y => (s, decide (y ∈ s)) | .inr y => (s.filter (· ≠ y), decide (y ∈ s)) : List Nat × Bool)).1 → x ∈ s) ∧
    (∀ (o : Nat) (s : List Nat), ((fun y s => (s, decide (y ∈ s)) : Nat → List Nat → List Nat × Bool) o s).1 = s) := by
  refine ⟨?_, fun _ _ => rfl⟩
  rintro (y | y) s x h
  · exact h
  · exact (List.mem_filter.1 h).1

/-- Two threads and the same item: one of them inserts it, though each called before the other returned. -/
example : let s := steps (fun (y : Nat) s => (s, decide (y ∈ s))) (init []) [.call 0 5, .call 1 5, .step 1, .step 0, .step 1, .other 5, .step 1, .step 0, .other 5, .step 1, .step 0, .step 0, .step 0, .step 0]
    s.set = [5] ∧ (∀ t b, (.returned t 5 b : Ev Nat Nat Bool) ∈ s.seen ↔ (t = 1 ∧ b = true) ∨ (t = 0 ∧ b = false)) ∧ s.seen.countP (Ev.wins 5) = 1 := by
  refine ⟨by decide, ?_, by decide⟩
  intro t b
  simp [steps, step, init, setPhase, insert]

end
end Verif.MonitorSet
