/-!
# Waiting and notifying, C223 and C224

`/repo/satella/coding/concurrent/thread.py:74-143` (`Condition`) on top of `threading.Condition` of the standard library, whose code is modelled as CPython has it: a list of waiters, one for each
thread that waits, each with a lock of its own that `notify` releases; and the lock of the condition, by default one that its holder may take again.  Each step of a thread may be followed by steps of others.
A timeout may come at any time.
-/
namespace Verif.Condition

/-! ## Model -/

/-- Where a thread is in `wait` or `notify`, /repo/satella/coding/concurrent/thread.py:92-143: not there; taking the lock to wait; with the lock; waiting, the lock having been held `saved` times; taking it back, having been notified or not;
with the lock again; taking the lock to notify `k` (all, if none); with the lock, taking it once more (notify_all calls notify); notifying, with `k` left and the lock to be given back `depth` times. -/
inductive Pc where
  | idle
  | wantWait (timed : Bool)
  | inWait (timed : Bool)
  | waiting (timed : Bool) (saved : Nat)
  | back (saved : Nat) (got : Bool)
  | leaving (got : Bool)
  | wantNotify (k : Option Nat)
  | nested (k : Nat)
  | notifying (k depth : Nat)
  deriving DecidableEq, Repr

/-- What can be seen: `t` calls wait; it waits from now on; `n` holds the lock and is about to notify `k` (all, if none); it notifies `w`; it is done; wait returns, or raises WouldWaitMore (returns, with dont_raise);
or it raises ResourceLocked.  (Part of the model of `Condition`, /repo/satella/coding/concurrent/thread.py:74-143.) -/
inductive Ev where
  | calls (t : Nat) (timed : Bool)
  | registered (t : Nat)
  | begins (n : Nat) (k : Option Nat)
  | woke (n w : Nat)
  | done (n : Nat)
  | returned (t : Nat) (notified : Bool)
  | locked (t : Nat)
  deriving DecidableEq, Repr

/-- The condition: who has its lock and how many times, the waiters in order, whether the lock of the waiter was released, and the threads.  (Part of the model of `Condition`, /repo/satella/coding/concurrent/thread.py:74-143.) -/
structure St where
  owner : Option Nat
  count : Nat
  waiters : List Nat
  signaled : Nat → Bool
  pc : Nat → Pc
  log : List Ev

/-- A new condition (`Condition`, /repo/satella/coding/concurrent/thread.py:74-81). -/
def St.init : St := ⟨none, 0, [], fun _ => false, fun _ => .idle, []⟩

/-- What may happen: `t` takes the lock, or gives it back, by itself (`with condition`); calls wait, with a timeout or not; calls notify or notify_all; makes a step; or its timeout is over.
(Part of the model of `Condition`, /repo/satella/coding/concurrent/thread.py:74-143.) -/
inductive Act where
  | enter (t : Nat)
  | exit (t : Nat)
  | wait (t : Nat) (timed : Bool)
  | notify (t : Nat) (k : Option Nat)
  | go (t : Nat)
  | timeout (t : Nat)
  deriving DecidableEq, Repr

/-- Assignment (of `Condition`, /repo/satella/coding/concurrent/thread.py:74-143). -/
def upd {α : Type} (f : Nat → α) (t : Nat) (x : α) : Nat → α := fun u => if u = t then x else f u

/-- Whether `t` can take the lock now: /repo/satella/coding/concurrent/thread.py:114-116 and 133; `re` is whether the holder may take it again. -/
def St.canTake (re : Bool) (s : St) (t : Nat) : Bool := s.owner = none || (re && s.owner = some t)

/-- `t` takes the lock, /repo/satella/coding/concurrent/thread.py:114-116. -/
def St.take (s : St) (t : Nat) : St := { s with owner := some t, count := s.count + 1 }

/-- The lock is given back `d` times, /repo/satella/coding/concurrent/thread.py:127. -/
def St.give (s : St) (d : Nat) : St := { s with owner := if s.count ≤ d then none else s.owner, count := s.count - d }

/-- The thread is there now (`Condition`, /repo/satella/coding/concurrent/thread.py:74-143). -/
def St.at_ (s : St) (t : Nat) (p : Pc) : St := { s with pc := upd s.pc t p }

/-- An event (`Condition`, /repo/satella/coding/concurrent/thread.py:74-143). -/
def St.logs (s : St) (e : Ev) : St := { s with log := s.log ++ [e] }

/-- A step of a thread: `wait`, /repo/satella/coding/concurrent/thread.py:112-127, with `wait` of the standard library, :121-123; `notify` and `notify_all`, :129-143, with those of the standard library. -/
def St.go (re : Bool) (s : St) (t : Nat) : St :=
  match s.pc t with
  | .idle => s
  | .wantWait b => if s.canTake re t then (s.take t).at_ t (.inWait b) else s
  | .inWait b => ({ s with waiters := s.waiters ++ [t], signaled := upd s.signaled t false, owner := none, count := 0 }.at_ t (.waiting b s.count)).logs (.registered t)
  | .waiting _ c => if s.signaled t then s.at_ t (.back c true) else s
  | .back c got => if s.owner = none then { s with owner := some t, count := c }.at_ t (.leaving got) else s
  | .leaving got => (({ s with waiters := if got then s.waiters else s.waiters.erase t }.give 1).at_ t .idle).logs (.returned t got)
  | .wantNotify (some k) => if s.canTake re t then ((s.take t).at_ t (.notifying k 1)).logs (.begins t (some k)) else s
  | .wantNotify none => if s.canTake re t then (s.take t).at_ t (.nested s.waiters.length) else s
  | .nested k => if s.canTake re t then ((s.take t).at_ t (.notifying k 2)).logs (.begins t none) else s
  | .notifying 0 d => ((s.give d).at_ t .idle).logs (.done t)
  | .notifying (k + 1) d =>
    match s.waiters with
    | [] => ((s.give d).at_ t .idle).logs (.done t)
    | w :: ws => ({ s with waiters := ws, signaled := upd s.signaled w true }.at_ t (.notifying k d)).logs (.woke t w)

/-- An action: /repo/satella/coding/concurrent/thread.py:92-143; the lock by itself is taken and given back by threads that are not in a call; a timeout is that of taking the lock, :116, or of waiting, :123. -/
def St.step (re : Bool) (s : St) : Act → St
  | .enter t => if s.pc t = .idle ∧ s.canTake re t then s.take t else s
  | .exit t => if s.pc t = .idle ∧ s.owner = some t then s.give 1 else s
  | .wait t b => if s.pc t = .idle then (s.at_ t (.wantWait b)).logs (.calls t b) else s
  | .notify t k => if s.pc t = .idle then s.at_ t (.wantNotify k) else s
  | .go t => s.go re t
  | .timeout t =>
    match s.pc t with
    | .wantWait true => if s.canTake re t then s else (s.at_ t .idle).logs (.locked t)
    | .waiting true c => if s.signaled t then s else s.at_ t (.back c false)
    | _ => s

/-- A schedule (of `Condition`, /repo/satella/coding/concurrent/thread.py:74-143). -/
def St.run (re : Bool) (s : St) (as : List Act) : St := as.foldl (St.step re) s

/-! ## Specification -/

/-- What a thread does, as far as can be seen. -/
inductive Phase where
  | outside
  | called (timed : Bool)
  | registered (timed : Bool)
  deriving DecidableEq

/-- What the condition is, as far as can be seen: the threads that wait, in the order in which they began to; who was notified since; and who notifies now, and how many are left. -/
structure Abs where
  queue : List Nat
  told : Nat → Bool
  phase : Nat → Phase
  now : Option (Nat × Nat)

/-- Nobody waits. -/
def Abs.init : Abs := ⟨[], fun _ => false, fun _ => .outside, none⟩

/-- What may be seen.  Notifying takes those who have waited longest, as many as asked or all, one after the other, and while it goes on nobody begins or ends to wait.  A wait that returns was notified after it began; and only one with a timeout ends otherwise. -/
inductive Legal : Abs → Ev → Abs → Prop where
  | calls (m : Abs) (t : Nat) (b : Bool) : m.phase t = .outside → Legal m (.calls t b) { m with phase := upd m.phase t (.called b) }
  | locked (m : Abs) (t : Nat) : m.phase t = .called true → Legal m (.locked t) { m with phase := upd m.phase t .outside }
  | registered (m : Abs) (t : Nat) (b : Bool) : m.phase t = .called b → m.now = none → t ∉ m.queue →
      Legal m (.registered t) { m with queue := m.queue ++ [t], told := upd m.told t false, phase := upd m.phase t (.registered b) }
  | begins (m : Abs) (n : Nat) (k : Nat) : m.now = none → Legal m (.begins n (some k)) { m with now := some (n, min k m.queue.length) }
  | beginsAll (m : Abs) (n : Nat) : m.now = none → Legal m (.begins n none) { m with now := some (n, m.queue.length) }
  | woke (m : Abs) (n w r : Nat) (q : List Nat) : m.now = some (n, r + 1) → m.queue = w :: q →
      Legal m (.woke n w) { m with queue := q, told := upd m.told w true, now := some (n, r) }
  | done (m : Abs) (n : Nat) : m.now = some (n, 0) → Legal m (.done n) { m with now := none }
  | notified (m : Abs) (t : Nat) (b : Bool) : m.phase t = .registered b → m.now = none → m.told t = true → t ∉ m.queue →
      Legal m (.returned t true) { m with phase := upd m.phase t .outside }
  | timedOut (m : Abs) (t : Nat) : m.phase t = .registered true → m.now = none →
      Legal m (.returned t false) { m with queue := m.queue.erase t, phase := upd m.phase t .outside }

/-- What may be seen one after another. -/
inductive Legals : Abs → List Ev → Abs → Prop where
  | nil (m : Abs) : Legals m [] m
  | snoc {m m' m'' : Abs} {l : List Ev} {e : Ev} : Legals m l m' → Legal m' e m'' → Legals m (l ++ [e]) m''

/-! ## Proofs -/

theorem upd_self {α : Type} (f : Nat → α) (t : Nat) (x : α) : upd f t x t = x := by simp [upd]
theorem upd_ne {α : Type} (f : Nat → α) {t u : Nat} (x : α) (h : u ≠ t) : upd f t x u = f u := by simp [upd, h]

/-- what is seen of a thread -/
def PhaseOf : Pc → Phase → Prop
  | .wantWait b, p => p = .called b
  | .inWait b, p => p = .called b
  | .waiting b _, p => p = .registered b
  | .back _ got, p => (∃ b, p = .registered b) ∧ (got = false → p = .registered true)
  | .leaving got, p => (∃ b, p = .registered b) ∧ (got = false → p = .registered true)
  | _, p => p = .outside

/-- the thread has the lock, for its call -/
def Holds : Pc → Prop
  | .inWait _ | .leaving _ | .nested _ | .notifying _ _ => True
  | _ => False

/-- its waiter may be in the list -/
def Listed : Pc → Prop
  | .waiting _ _ | .back _ false | .leaving false => True
  | _ => False

/-- it was notified, and knows it -/
def Knows : Pc → Prop
  | .back _ true | .leaving true => True
  | _ => False

/-- how many times it will have the lock, or has it, at least -/
def Need : Pc → Nat → Prop
  | .inWait _, c | .leaving _, c | .nested _, c => 1 ≤ c
  | .notifying _ d, c => 0 < d ∧ d ≤ c
  | _, _ => True

/-- the state and what can be seen of it -/
structure R (s : St) (m : Abs) : Prop where
  queue : m.queue = s.waiters
  told : m.told = s.signaled
  phase : ∀ t, PhaseOf (s.pc t) (m.phase t)
  holds : ∀ t, Holds (s.pc t) → s.owner = some t
  now : ∀ n r, m.now = some (n, r) → ∃ k d, s.pc n = .notifying k d ∧ r = min k s.waiters.length
  now' : ∀ n k d, s.pc n = .notifying k d → m.now = some (n, min k s.waiters.length)
  nested : ∀ t k, s.pc t = .nested k → k = s.waiters.length
  nodup : s.waiters.Nodup
  listed : ∀ t, t ∈ s.waiters → Listed (s.pc t) ∧ s.signaled t = false
  knows : ∀ t, Knows (s.pc t) → s.signaled t = true
  free : s.owner = none ↔ s.count = 0
  need : ∀ t, Need (s.pc t) s.count
  saved : ∀ t, (∀ b c, s.pc t = .waiting b c → 0 < c) ∧ ∀ c got, s.pc t = .back c got → 0 < c

theorem R.noNow {s : St} {m : Abs} (h : R s m) (t : Nat) (ho : s.owner = none ∨ s.owner = some t) (hp : ∀ k d, s.pc t ≠ .notifying k d) : m.now = none := by
  cases hn : m.now with
  | none => rfl
  | some x =>
    obtain ⟨n, r⟩ := x
    obtain ⟨k, d, hk, _⟩ := h.now n r hn
    have := h.holds n (by rw [hk]; trivial)
    rcases ho with ho | ho <;> rw [ho] at this
    · cases this
    · injection this with this; subst this; exact absurd hk (hp k d)

theorem R.noOther {s : St} {m : Abs} (h : R s m) (t u : Nat) (ho : s.owner = none ∨ s.owner = some t) (hu : u ≠ t) : ¬ Holds (s.pc u) := by
  intro hh
  have := h.holds u hh
  rcases ho with ho | ho <;> rw [ho] at this
  · cases this
  · injection this with this; exact hu this.symm

/-- what a step of the condition comes to: nothing is seen, or one thing that may be -/
def Sim (s s' : St) (m : Abs) : Prop := (s'.log = s.log ∧ R s' m) ∨ ∃ e m', s'.log = s.log ++ [e] ∧ Legal m e m' ∧ R s' m'

theorem need_mono (p : Pc) (c c' : Nat) (h : c ≤ c') (hn : Need p c) : Need p c' := by
  cases p <;> simp only [Need] at hn ⊢ <;> omega

theorem need_other (p : Pc) (c : Nat) (h : ¬ Holds p) : Need p c := by
  cases p <;> simp [Need, Holds] at h ⊢

theorem canTake_iff (re : Bool) (s : St) (t : Nat) : s.canTake re t = true → s.owner = none ∨ s.owner = some t := by
  simp only [St.canTake, Bool.or_eq_true, Bool.and_eq_true, decide_eq_true_eq]
  rintro (h | ⟨_, h⟩)
  · exact Or.inl h
  · exact Or.inr h

theorem init_R : R St.init Abs.init := by
  constructor <;> simp [St.init, Abs.init, PhaseOf, Holds, Knows, Need]

theorem R.move {s : St} {m : Abs} (h : R s m) (t : Nat) (p : Pc) (ph : Phase) (o : Option Nat) (c : Nat) (l : List Ev)
    (h1 : PhaseOf p ph) (h2 : Holds p → o = some t) (h3 : ∀ u, u ≠ t → Holds (s.pc u) → o = some u)
    (h4 : ∀ k d, p ≠ .notifying k d) (h5 : ∀ k d, s.pc t ≠ .notifying k d) (h6 : ∀ k, p = .nested k → k = s.waiters.length)
    (h7 : t ∈ s.waiters → Listed p) (h8 : Knows p → s.signaled t = true) (h9 : o = none ↔ c = 0) (h10 : Need p c) (h11 : ∀ u, u ≠ t → Need (s.pc u) c)
    (h12 : (∀ b c, p = .waiting b c → 0 < c) ∧ ∀ c got, p = .back c got → 0 < c) :
    R { s with owner := o, count := c, pc := upd s.pc t p, log := l } { m with phase := upd m.phase t ph } := by
  have key : ∀ u, (upd s.pc t p u = p ∧ u = t) ∨ (upd s.pc t p u = s.pc u ∧ u ≠ t) := by
    intro u
    by_cases e : u = t
    · subst e; exact Or.inl ⟨upd_self .., rfl⟩
    · exact Or.inr ⟨upd_ne _ _ e, e⟩
  refine ⟨h.queue, h.told, ?_, ?_, ?_, ?_, ?_, h.nodup, ?_, ?_, h9, ?_, ?_⟩
  · intro u
    rcases key u with ⟨e, rfl⟩ | ⟨e, ne⟩
    · simp only [e]; rw [upd_self]; exact h1
    · simp only [e]; rw [upd_ne _ _ ne]; exact h.phase u
  · intro u hu
    rcases key u with ⟨e, rfl⟩ | ⟨e, ne⟩ <;> simp only [e] at hu
    · exact h2 hu
    · exact h3 u ne hu
  · intro n r hn
    obtain ⟨k, d, hk, hr⟩ := h.now n r hn
    refine ⟨k, d, ?_, hr⟩
    rcases key n with ⟨e, rfl⟩ | ⟨e, ne⟩
    · exact absurd hk (h5 k d)
    · simp only [e]; exact hk
  · intro n k d hn
    rcases key n with ⟨e, rfl⟩ | ⟨e, ne⟩ <;> simp only [e] at hn
    · exact absurd hn (h4 k d)
    · exact h.now' n k d hn
  · intro u k hu
    rcases key u with ⟨e, rfl⟩ | ⟨e, ne⟩ <;> simp only [e] at hu
    · exact h6 k hu
    · exact h.nested u k hu
  · intro u hu
    rcases key u with ⟨e, rfl⟩ | ⟨e, ne⟩ <;> simp only [e]
    · exact ⟨h7 hu, (h.listed _ hu).2⟩
    · exact h.listed u hu
  · intro u hu
    rcases key u with ⟨e, rfl⟩ | ⟨e, ne⟩ <;> simp only [e] at hu
    · exact h8 hu
    · exact h.knows u hu
  · intro u
    rcases key u with ⟨e, rfl⟩ | ⟨e, ne⟩ <;> simp only [e]
    · exact h10
    · exact h11 u ne
  · intro u
    rcases key u with ⟨e, rfl⟩ | ⟨e, ne⟩ <;> simp only [e]
    · exact h12
    · exact h.saved u

/-- the same, when what is seen of the thread does not change -/
theorem R.stay {s : St} {m : Abs} (h : R s m) (t : Nat) (p : Pc) (o : Option Nat) (c : Nat) (l : List Ev)
    (h1 : PhaseOf p (m.phase t)) (h2 : Holds p → o = some t) (h3 : ∀ u, u ≠ t → Holds (s.pc u) → o = some u)
    (h4 : ∀ k d, p ≠ .notifying k d) (h5 : ∀ k d, s.pc t ≠ .notifying k d) (h6 : ∀ k, p = .nested k → k = s.waiters.length)
    (h7 : t ∈ s.waiters → Listed p) (h8 : Knows p → s.signaled t = true) (h9 : o = none ↔ c = 0) (h10 : Need p c) (h11 : ∀ u, u ≠ t → Need (s.pc u) c)
    (h12 : (∀ b c, p = .waiting b c → 0 < c) ∧ ∀ c got, p = .back c got → 0 < c) :
    R { s with owner := o, count := c, pc := upd s.pc t p, log := l } m := by
  have := h.move t p (m.phase t) o c l h1 h2 h3 h4 h5 h6 h7 h8 h9 h10 h11 h12
  have e : upd m.phase t (m.phase t) = m.phase := by funext u; simp only [upd]; split <;> simp_all
  rw [e] at this
  exact this

theorem not_listed {s : St} {m : Abs} (h : R s m) (t : Nat) (hl : ¬ Listed (s.pc t)) : t ∉ s.waiters := fun ht => hl (h.listed t ht).1

/-- giving the lock back -/
theorem give_free {s : St} {m : Abs} (h : R s m) (d : Nat) (hd : 0 < d) (hc : d ≤ s.count) : ((s.give d).owner = none ↔ (s.give d).count = 0) := by
  have hf := h.free
  simp only [St.give]
  constructor
  · intro ho
    split at ho
    · omega
    · have := hf.1 ho; omega
  · intro h0
    rw [if_pos (by omega)]

theorem upd_cases (f : Nat → Pc) (t : Nat) (p : Pc) (u : Nat) : (upd f t p u = p ∧ u = t) ∨ (upd f t p u = f u ∧ u ≠ t) := by
  by_cases e : u = t
  · subst e; exact Or.inl ⟨upd_self .., rfl⟩
  · exact Or.inr ⟨upd_ne _ _ e, e⟩

/-- notifying begins -/
theorem R.begin {s : St} {m : Abs} (h : R s m) (t k d : Nat) (l : List Ev) (hp : m.phase t = .outside) (hn : m.now = none) (ho : ∀ u, u ≠ t → ¬ Holds (s.pc u)) (hd : 0 < d ∧ d ≤ s.count + 1) (hw : t ∉ s.waiters) :
    R { s with owner := some t, count := s.count + 1, pc := upd s.pc t (.notifying k d), log := l } { m with now := some (t, min k s.waiters.length) } := by
  have none_ : ∀ u k d, s.pc u ≠ .notifying k d := fun u k d e => by have := h.now' u k d e; rw [hn] at this; cases this
  refine ⟨h.queue, h.told, ?_, ?_, ?_, ?_, ?_, h.nodup, ?_, ?_, by simp, ?_, ?_⟩
  · intro u
    rcases upd_cases s.pc t (.notifying k d) u with ⟨e, rfl⟩ | ⟨e, ne⟩ <;> simp only [e]
    · exact hp
    · exact h.phase u
  · intro u hu
    rcases upd_cases s.pc t (.notifying k d) u with ⟨e, rfl⟩ | ⟨e, ne⟩ <;> simp only [e] at hu
    · rfl
    · exact absurd hu (ho u ne)
  · intro n r e
    simp only [Option.some.injEq, Prod.mk.injEq] at e
    obtain ⟨rfl, rfl⟩ := e
    exact ⟨k, d, upd_self .., rfl⟩
  · intro n k' d' hn'
    rcases upd_cases s.pc t (.notifying k d) n with ⟨e, rfl⟩ | ⟨e, ne⟩ <;> simp only [e] at hn'
    · injection hn' with e1 e2; subst e1; rfl
    · exact absurd hn' (none_ n k' d')
  · intro u k' hu
    rcases upd_cases s.pc t (.notifying k d) u with ⟨e, rfl⟩ | ⟨e, ne⟩ <;> simp only [e] at hu
    · cases hu
    · exact h.nested u k' hu
  · intro u hu
    rcases upd_cases s.pc t (.notifying k d) u with ⟨e, rfl⟩ | ⟨e, ne⟩ <;> simp only [e]
    · exact absurd hu hw
    · exact h.listed u hu
  · intro u hu
    rcases upd_cases s.pc t (.notifying k d) u with ⟨e, rfl⟩ | ⟨e, ne⟩ <;> simp only [e] at hu
    · cases hu
    · exact h.knows u hu
  · intro u
    rcases upd_cases s.pc t (.notifying k d) u with ⟨e, rfl⟩ | ⟨e, ne⟩ <;> simp only [e]
    · exact hd
    · exact need_other _ _ (ho u ne)
  · intro u
    rcases upd_cases s.pc t (.notifying k d) u with ⟨e, rfl⟩ | ⟨e, ne⟩ <;> simp only [e]
    · simp
    · exact h.saved u

/-- notifying ends -/
theorem R.finish {s : St} {m : Abs} (h : R s m) (t k d : Nat) (l : List Ev) (hp : s.pc t = .notifying k d) :
    R { s.give d with pc := upd s.pc t .idle, log := l } { m with now := none } := by
  have hown : s.owner = some t := h.holds t (by rw [hp]; trivial)
  have ho : ∀ u, u ≠ t → ¬ Holds (s.pc u) := fun u hu => h.noOther t u (Or.inr hown) hu
  have ⟨hd0, hd⟩ : 0 < d ∧ d ≤ s.count := by have := h.need t; rw [hp] at this; exact this
  refine ⟨h.queue, h.told, ?_, ?_, by simp, ?_, ?_, h.nodup, ?_, ?_, give_free h d hd0 hd, ?_, ?_⟩
  · intro u
    rcases upd_cases s.pc t .idle u with ⟨e, rfl⟩ | ⟨e, ne⟩ <;> simp only [e]
    · have := h.phase u; rw [hp] at this; exact this
    · exact h.phase u
  · intro u hu
    rcases upd_cases s.pc t .idle u with ⟨e, rfl⟩ | ⟨e, ne⟩ <;> simp only [e] at hu
    · exact hu.elim
    · exact absurd hu (ho u ne)
  · intro n k' d' hn'
    rcases upd_cases s.pc t .idle n with ⟨e, rfl⟩ | ⟨e, ne⟩ <;> simp only [e] at hn'
    · cases hn'
    · exact absurd (by rw [hn']; trivial) (ho n ne)
  · intro u k' hu
    rcases upd_cases s.pc t .idle u with ⟨e, rfl⟩ | ⟨e, ne⟩ <;> simp only [e] at hu
    · cases hu
    · exact h.nested u k' hu
  · intro u hu
    rcases upd_cases s.pc t .idle u with ⟨e, rfl⟩ | ⟨e, ne⟩ <;> simp only [e]
    · exact absurd hu (not_listed h _ (by rw [hp]; exact id))
    · exact h.listed u hu
  · intro u hu
    rcases upd_cases s.pc t .idle u with ⟨e, rfl⟩ | ⟨e, ne⟩ <;> simp only [e] at hu
    · cases hu
    · exact h.knows u hu
  · intro u
    rcases upd_cases s.pc t .idle u with ⟨e, rfl⟩ | ⟨e, ne⟩ <;> simp only [e]
    · trivial
    · exact need_other _ _ (ho u ne)
  · intro u
    rcases upd_cases s.pc t .idle u with ⟨e, rfl⟩ | ⟨e, ne⟩ <;> simp only [e]
    · simp
    · exact h.saved u

/-- somebody is notified -/
theorem R.wake {s : St} {m : Abs} (h : R s m) (t k d w : Nat) (ws : List Nat) (l : List Ev) (hp : s.pc t = .notifying (k + 1) d) (hw : s.waiters = w :: ws) :
    R { s with waiters := ws, signaled := upd s.signaled w true, pc := upd s.pc t (.notifying k d), log := l }
      { m with queue := ws, told := upd m.told w true, now := some (t, min k ws.length) } := by
  have hown : s.owner = some t := h.holds t (by rw [hp]; trivial)
  have ho : ∀ u, u ≠ t → ¬ Holds (s.pc u) := fun u hu => h.noOther t u (Or.inr hown) hu
  have hnd := h.nodup
  rw [hw, List.nodup_cons] at hnd
  refine ⟨rfl, by rw [h.told], ?_, ?_, ?_, ?_, ?_, hnd.2, ?_, ?_, h.free, ?_, ?_⟩
  · intro u
    rcases upd_cases s.pc t (.notifying k d) u with ⟨e, rfl⟩ | ⟨e, ne⟩ <;> simp only [e]
    · have := h.phase u; rw [hp] at this; exact this
    · exact h.phase u
  · intro u hu
    rcases upd_cases s.pc t (.notifying k d) u with ⟨e, rfl⟩ | ⟨e, ne⟩ <;> simp only [e] at hu
    · exact hown
    · exact absurd hu (ho u ne)
  · intro n r e
    simp only [Option.some.injEq, Prod.mk.injEq] at e
    obtain ⟨rfl, rfl⟩ := e
    exact ⟨k, d, upd_self .., rfl⟩
  · intro n k' d' hn'
    rcases upd_cases s.pc t (.notifying k d) n with ⟨e, rfl⟩ | ⟨e, ne⟩ <;> simp only [e] at hn'
    · injection hn' with e1 e2; subst e1; rfl
    · exact absurd (by rw [hn']; trivial) (ho n ne)
  · intro u k' hu
    rcases upd_cases s.pc t (.notifying k d) u with ⟨e, rfl⟩ | ⟨e, ne⟩ <;> simp only [e] at hu
    · cases hu
    · exact absurd (by rw [hu]; trivial) (ho u ne)
  · intro u hu
    have hu' : u ∈ s.waiters := by rw [hw]; exact List.mem_cons_of_mem _ hu
    have hne : u ≠ w := fun e => hnd.1 (e ▸ hu)
    rcases upd_cases s.pc t (.notifying k d) u with ⟨e, rfl⟩ | ⟨e, ne⟩ <;> simp only [e]
    · exact absurd hu' (not_listed h _ (by rw [hp]; exact id))
    · rw [upd_ne _ _ hne]; exact h.listed u hu'
  · intro u hu
    rcases upd_cases s.pc t (.notifying k d) u with ⟨e, rfl⟩ | ⟨e, ne⟩ <;> simp only [e] at hu
    · cases hu
    · simp only [upd]
      split
      · rfl
      · exact h.knows u hu
  · intro u
    rcases upd_cases s.pc t (.notifying k d) u with ⟨e, rfl⟩ | ⟨e, ne⟩ <;> simp only [e]
    · have := h.need u; rw [hp] at this; exact this
    · exact h.need u
  · intro u
    rcases upd_cases s.pc t (.notifying k d) u with ⟨e, rfl⟩ | ⟨e, ne⟩ <;> simp only [e]
    · simp
    · exact h.saved u

/-- a thread begins to wait -/
theorem R.register {s : St} {m : Abs} (h : R s m) (t : Nat) (b : Bool) (l : List Ev) (hp : s.pc t = .inWait b) :
    R { s with waiters := s.waiters ++ [t], signaled := upd s.signaled t false, owner := none, count := 0, pc := upd s.pc t (.waiting b s.count), log := l }
      { m with queue := m.queue ++ [t], told := upd m.told t false, phase := upd m.phase t (.registered b) } := by
  have hown : s.owner = some t := h.holds t (by rw [hp]; trivial)
  have ho : ∀ u, u ≠ t → ¬ Holds (s.pc u) := fun u hu => h.noOther t u (Or.inr hown) hu
  have hnow : m.now = none := h.noNow t (Or.inr hown) (by rw [hp]; simp)
  have hw : t ∉ s.waiters := not_listed h t (by rw [hp]; exact id)
  refine ⟨by rw [h.queue], by rw [h.told], ?_, ?_, by simp [hnow], ?_, ?_, ?_, ?_, ?_, by simp, ?_, ?_⟩
  · intro u
    rcases upd_cases s.pc t (.waiting b s.count) u with ⟨e, rfl⟩ | ⟨e, ne⟩ <;> simp only [e]
    · rw [upd_self]; rfl
    · rw [upd_ne _ _ ne]; exact h.phase u
  · intro u hu
    rcases upd_cases s.pc t (.waiting b s.count) u with ⟨e, rfl⟩ | ⟨e, ne⟩ <;> simp only [e] at hu
    · exact hu.elim
    · exact absurd hu (ho u ne)
  · intro n k' d' hn'
    rcases upd_cases s.pc t (.waiting b s.count) n with ⟨e, rfl⟩ | ⟨e, ne⟩ <;> simp only [e] at hn'
    · cases hn'
    · exact absurd (by rw [hn']; trivial) (ho n ne)
  · intro u k' hu
    rcases upd_cases s.pc t (.waiting b s.count) u with ⟨e, rfl⟩ | ⟨e, ne⟩ <;> simp only [e] at hu
    · cases hu
    · exact absurd (by rw [hu]; trivial) (ho u ne)
  · exact List.nodup_append.2 ⟨h.nodup, by simp, by intro a ha c hc; simp only [List.mem_singleton] at hc; subst hc; exact fun e => hw (e ▸ ha)⟩
  · intro u hu
    rcases upd_cases s.pc t (.waiting b s.count) u with ⟨e, rfl⟩ | ⟨e, ne⟩ <;> simp only [e]
    · exact ⟨trivial, upd_self ..⟩
    · rw [upd_ne _ _ ne]
      have : u ∈ s.waiters := by
        rcases List.mem_append.1 hu with hu | hu
        · exact hu
        · simp only [List.mem_singleton] at hu; exact absurd hu ne
      exact h.listed u this
  · intro u hu
    rcases upd_cases s.pc t (.waiting b s.count) u with ⟨e, rfl⟩ | ⟨e, ne⟩ <;> simp only [e] at hu
    · exact hu.elim
    · simp only [upd_ne _ _ ne]; exact h.knows u hu
  · intro u
    rcases upd_cases s.pc t (.waiting b s.count) u with ⟨e, rfl⟩ | ⟨e, ne⟩ <;> simp only [e]
    · trivial
    · exact need_other _ _ (ho u ne)
  · intro u
    rcases upd_cases s.pc t (.waiting b s.count) u with ⟨e, rfl⟩ | ⟨e, ne⟩ <;> simp only [e]
    · refine ⟨fun b' c' e' => ?_, by simp⟩
      injection e' with e1 e2
      have := h.need u
      rw [hp] at this
      rw [← e2]; exact this
    · exact h.saved u

/-- the waiter of a thread that was not notified is removed -/
theorem R.remove {s : St} {m : Abs} (h : R s m) (t : Nat) (ho : s.owner = some t) (hp : s.pc t = .leaving false) :
    R { s with waiters := s.waiters.erase t, pc := upd s.pc t (.leaving false) } { m with queue := m.queue.erase t } := by
  have hno : ∀ u, u ≠ t → ¬ Holds (s.pc u) := fun u hu => h.noOther t u (Or.inr ho) hu
  have e : upd s.pc t (.leaving false) = s.pc := by funext u; simp only [upd]; split <;> simp_all
  rw [e]
  have hnow : m.now = none := h.noNow t (Or.inr ho) (by rw [hp]; simp)
  have nn : ∀ n k d, s.pc n ≠ .notifying k d := fun n k d e => by have := h.now' n k d e; rw [hnow] at this; cases this
  refine ⟨by rw [h.queue], h.told, h.phase, h.holds, by simp [hnow], fun n k d e => absurd e (nn n k d), ?_, h.nodup.erase t, ?_, h.knows, h.free, h.need, h.saved⟩
  · intro u k hu
    by_cases hut : u = t
    · subst hut; rw [hp] at hu; cases hu
    · exact absurd (by rw [hu]; trivial) (hno u hut)
  · intro u hu
    exact h.listed u (List.mem_of_mem_erase hu)

theorem step_sim (re : Bool) (s : St) (m : Abs) (h : R s m) (a : Act) : Sim s (s.step re a) m := by
  have same : Sim s s m := Or.inl ⟨rfl, h⟩
  cases a with
  | enter t =>
    simp only [St.step]
    split
    · rename_i hc
      obtain ⟨hp, ht⟩ := hc
      have ho := canTake_iff re s t ht
      refine Or.inl ⟨rfl, ?_⟩
      have := h.stay t .idle (some t) (s.count + 1) s.log (by have := h.phase t; rw [hp] at this; exact this) (fun _ => rfl) (fun u hu hh => absurd hh (h.noOther t u ho hu))
        (by simp) (by rw [hp]; simp) (by simp) (fun hw => absurd hw (not_listed h t (by rw [hp]; exact id))) (by simp [Knows]) (by simp) trivial
        (fun u hu => need_other _ _ (h.noOther t u ho hu)) (by simp)
      have e : upd s.pc t .idle = s.pc := by funext u; simp only [upd]; split <;> simp_all
      rw [e] at this
      exact this
    · exact same
  | exit t =>
    simp only [St.step]
    split
    · rename_i hc
      obtain ⟨hp, ho⟩ := hc
      refine Or.inl ⟨rfl, ?_⟩
      have hcount : 1 ≤ s.count := by
        rcases Nat.eq_zero_or_pos s.count with h0 | h0
        · have := h.free.2 h0; rw [ho] at this; cases this
        · exact h0
      have := h.stay t .idle (s.give 1).owner (s.give 1).count s.log (by have := h.phase t; rw [hp] at this; exact this) (by simp [Holds]) (fun u hu hh => absurd hh (h.noOther t u (Or.inr ho) hu))
        (by simp) (by rw [hp]; simp) (by simp) (fun hw => absurd hw (not_listed h t (by rw [hp]; exact id))) (by simp [Knows]) (give_free h 1 (by omega) hcount) trivial
        (fun u hu => need_other _ _ (h.noOther t u (Or.inr ho) hu)) (by simp)
      have e : upd s.pc t .idle = s.pc := by funext u; simp only [upd]; split <;> simp_all
      rw [e] at this
      exact this
    · exact same
  | wait t b =>
    simp only [St.step]
    split
    · rename_i hp
      have hph : m.phase t = .outside := by have := h.phase t; rw [hp] at this; exact this
      exact Or.inr ⟨_, _, rfl, .calls m t b hph, h.move t (.wantWait b) (.called b) s.owner s.count _ rfl (by simp [Holds]) (fun u _ hh => h.holds u hh) (by simp) (by rw [hp]; simp) (by simp)
        (fun hw => absurd hw (not_listed h t (by rw [hp]; exact id))) (by simp [Knows]) h.free trivial (fun u _ => h.need u) (by simp)⟩
    · exact same
  | notify t k =>
    simp only [St.step]
    split
    · rename_i hp
      have hph : m.phase t = .outside := by have := h.phase t; rw [hp] at this; exact this
      exact Or.inl ⟨rfl, h.stay t (.wantNotify k) s.owner s.count _ hph (by simp [Holds]) (fun u _ hh => h.holds u hh) (by simp) (by rw [hp]; simp) (by simp)
        (fun hw => absurd hw (not_listed h t (by rw [hp]; exact id))) (by simp [Knows]) h.free trivial (fun u _ => h.need u) (by simp)⟩
    · exact same
  | timeout t =>
    simp only [St.step]
    split
    · rename_i hp
      split
      · exact same
      have hph : m.phase t = .called true := by have := h.phase t; rw [hp] at this; exact this
      exact Or.inr ⟨_, _, rfl, .locked m t hph, h.move t .idle .outside s.owner s.count _ rfl (by simp [Holds]) (fun u _ hh => h.holds u hh) (by simp) (by rw [hp]; simp) (by simp)
        (fun hw => absurd hw (not_listed h t (by rw [hp]; exact id))) (by simp [Knows]) h.free trivial (fun u _ => h.need u) (by simp)⟩
    · rename_i c hp
      split
      · exact same
      · have hph : m.phase t = .registered true := by have := h.phase t; rw [hp] at this; exact this
        exact Or.inl ⟨rfl, h.stay t (.back c false) s.owner s.count _ ⟨⟨_, hph⟩, fun _ => hph⟩ (by simp [Holds]) (fun u _ hh => h.holds u hh) (by simp) (by rw [hp]; simp) (by simp)
          (fun _ => trivial) (by simp [Knows]) h.free trivial (fun u _ => h.need u)
          ⟨by simp, by intro c' got e; injection e with e1 e2; subst e1; exact (h.saved t).1 _ _ hp⟩⟩
    · exact same
  | go t =>
    simp only [St.step, St.go]
    split
    · exact same
    · rename_i b hp
      split
      · rename_i ht
        have ho := canTake_iff re s t ht
        have hph : m.phase t = .called b := by have := h.phase t; rw [hp] at this; exact this
        exact Or.inl ⟨rfl, h.stay t (.inWait b) (some t) (s.count + 1) s.log hph (fun _ => rfl) (fun u hu hh => absurd hh (h.noOther t u ho hu)) (by simp) (by rw [hp]; simp) (by simp)
          (fun hw => absurd hw (not_listed h t (by rw [hp]; exact id))) (by simp [Knows]) (by simp) (by simp [Need]) (fun u hu => need_other _ _ (h.noOther t u ho hu)) (by simp)⟩
      · exact same
    · rename_i b hp
      have hown : s.owner = some t := h.holds t (by rw [hp]; trivial)
      exact Or.inr ⟨_, _, rfl, .registered m t b (by have := h.phase t; rw [hp] at this; exact this) (h.noNow t (Or.inr hown) (by rw [hp]; simp)) (by rw [h.queue]; exact not_listed h t (by rw [hp]; exact id)),
        h.register t b _ hp⟩
    · rename_i b c hp
      split
      · rename_i hs
        have hph : m.phase t = .registered b := by have := h.phase t; rw [hp] at this; exact this
        have hw : t ∉ s.waiters := fun hw => by have := (h.listed t hw).2; rw [hs] at this; cases this
        exact Or.inl ⟨rfl, h.stay t (.back c true) s.owner s.count _ ⟨⟨_, hph⟩, by simp⟩ (by simp [Holds]) (fun u _ hh => h.holds u hh) (by simp) (by rw [hp]; simp) (by simp)
          (fun hw' => absurd hw' hw) (fun _ => hs) h.free trivial (fun u _ => h.need u)
          ⟨by simp, by intro c' got e; injection e with e1 e2; subst e1; exact (h.saved t).1 _ _ hp⟩⟩
      · exact same
    · rename_i c got hp
      split
      · rename_i ho
        have hph := h.phase t
        rw [hp] at hph
        have hc : 0 < c := (h.saved t).2 _ _ hp
        exact Or.inl ⟨rfl, h.stay t (.leaving got) (some t) c s.log hph (fun _ => rfl) (fun u hu hh => absurd hh (h.noOther t u (Or.inl ho) hu)) (by simp) (by rw [hp]; simp) (by simp)
          (fun hw => by have := (h.listed t hw).1; rw [hp] at this; cases got <;> exact this) (fun hk => h.knows t (by rw [hp]; cases got <;> exact hk)) (by simp; omega) hc
          (fun u hu => need_other _ _ (h.noOther t u (Or.inl ho) hu)) (by simp)⟩
      · exact same
    · rename_i got hp
      have hown : s.owner = some t := h.holds t (by rw [hp]; trivial)
      have hno : ∀ u, u ≠ t → ¬ Holds (s.pc u) := fun u hu => h.noOther t u (Or.inr hown) hu
      have hnow : m.now = none := h.noNow t (Or.inr hown) (by rw [hp]; simp)
      have hcount : 1 ≤ s.count := by have := h.need t; rw [hp] at this; exact this
      have hph := h.phase t
      rw [hp] at hph
      obtain ⟨⟨b, hb⟩, hf⟩ := hph
      cases got with
      | true =>
        have hk : s.signaled t = true := h.knows t (by rw [hp]; trivial)
        have hw : t ∉ s.waiters := not_listed h t (by rw [hp]; exact id)
        exact Or.inr ⟨_, _, rfl, .notified m t b hb hnow (by rw [h.told]; exact hk) (by rw [h.queue]; exact hw),
          h.move t .idle .outside (s.give 1).owner (s.give 1).count _ rfl (by simp [Holds]) (fun u hu hh => absurd hh (hno u hu)) (by simp) (by rw [hp]; simp) (by simp)
            (fun hw' => absurd hw' hw) (by simp [Knows]) (give_free h 1 (by omega) hcount) trivial (fun u hu => need_other _ _ (hno u hu)) (by simp)⟩
      | false =>
        have h' := h.remove t hown hp
        have e : upd s.pc t (.leaving false) = s.pc := by funext u; simp only [upd]; split <;> simp_all
        rw [e] at h'
        have hw : t ∉ s.waiters.erase t := fun hw => (List.Nodup.mem_erase_iff h.nodup).1 hw |>.1 rfl
        exact Or.inr ⟨_, _, rfl, .timedOut m t (hf rfl) hnow,
          h'.move t .idle .outside (s.give 1).owner (s.give 1).count _ rfl (by simp [Holds]) (fun u hu hh => absurd hh (hno u hu)) (by simp) (by rw [hp]; simp) (by simp)
            (fun hw' => absurd hw' hw) (by simp [Knows]) (give_free h 1 (by omega) hcount) trivial (fun u hu => need_other _ _ (hno u hu)) (by simp)⟩
    · rename_i k hp
      split
      · rename_i ht
        have ho := canTake_iff re s t ht
        have hph : m.phase t = .outside := by have := h.phase t; rw [hp] at this; exact this
        have hnow : m.now = none := h.noNow t ho (by rw [hp]; simp)
        have hb := Legal.begins m t k hnow
        have hr := h.begin t k 1 (s.log ++ [.begins t (some k)]) hph hnow (fun u hu => h.noOther t u ho hu) (by omega) (not_listed h t (by rw [hp]; exact id))
        rw [show s.waiters.length = m.queue.length by rw [h.queue]] at hr
        exact Or.inr ⟨_, _, rfl, hb, hr⟩
      · exact same
    · rename_i hp
      split
      · rename_i ht
        have ho := canTake_iff re s t ht
        have hph : m.phase t = .outside := by have := h.phase t; rw [hp] at this; exact this
        exact Or.inl ⟨rfl, h.stay t (.nested s.waiters.length) (some t) (s.count + 1) s.log hph (fun _ => rfl) (fun u hu hh => absurd hh (h.noOther t u ho hu)) (by simp) (by rw [hp]; simp)
          (by intro k hk; injection hk with hk; exact hk.symm)
          (fun hw => absurd hw (not_listed h t (by rw [hp]; exact id))) (by simp [Knows]) (by simp) (by simp [Need]) (fun u hu => need_other _ _ (h.noOther t u ho hu)) (by simp)⟩
      · exact same
    · rename_i k hp
      split
      · rename_i ht
        have ho := canTake_iff re s t ht
        have hph : m.phase t = .outside := by have := h.phase t; rw [hp] at this; exact this
        have hnow : m.now = none := h.noNow t ho (by rw [hp]; simp)
        have hk := h.nested t k hp
        have hcount : 1 ≤ s.count := by have := h.need t; rw [hp] at this; exact this
        have hb := Legal.beginsAll m t hnow
        have hr := h.begin t k 2 (s.log ++ [.begins t none]) hph hnow (fun u hu => h.noOther t u ho hu) (by omega) (not_listed h t (by rw [hp]; exact id))
        rw [show min k s.waiters.length = m.queue.length by rw [h.queue]; omega] at hr
        exact Or.inr ⟨_, _, rfl, hb, hr⟩
      · exact same
    · rename_i d hp
      exact Or.inr ⟨_, _, rfl, .done m t (by rw [h.now' t 0 d hp]; simp), h.finish t 0 d _ hp⟩
    · rename_i k d hp
      split
      · rename_i hw
        exact Or.inr ⟨_, _, rfl, .done m t (by rw [h.now' t _ d hp, hw]; simp), h.finish t (k + 1) d _ hp⟩
      · rename_i w ws hw
        exact Or.inr ⟨_, _, rfl, .woke m t w (min k ws.length) ws (by rw [h.now' t _ d hp, hw]; simp only [List.length_cons]; congr 2; omega) (by rw [h.queue, hw]), h.wake t k d w ws _ hp hw⟩

theorem run_snoc (re : Bool) (s : St) (as : List Act) (a : Act) : s.run re (as ++ [a]) = (s.run re as).step re a := by simp [St.run]
theorem run_append (re : Bool) (s : St) (as bs : List Act) : s.run re (as ++ bs) = (s.run re as).run re bs := by simp [St.run]

/-- induction over a schedule, from its end -/
theorem snoc_ind {α : Type} {P : List α → Prop} (h0 : P []) (h1 : ∀ l a, P l → P (l ++ [a])) (l : List α) : P l := by
  have : ∀ r : List α, P r.reverse := by
    intro r
    induction r with
    | nil => exact h0
    | cons a r ih => rw [List.reverse_cons]; exact h1 _ _ ih
  have := this l.reverse
  rwa [List.reverse_reverse] at this

theorem run_sim (re : Bool) (as : List Act) : ∃ m, Legals Abs.init (St.init.run re as).log m ∧ R (St.init.run re as) m := by
  induction as using snoc_ind with
  | h0 => exact ⟨_, .nil _, init_R⟩
  | h1 as a ih =>
    obtain ⟨m, hl, hr⟩ := ih
    rw [run_snoc]
    rcases step_sim re _ m hr a with ⟨e, h⟩ | ⟨e, m', el, le, h⟩
    · exact ⟨m, by rw [e]; exact hl, h⟩
    · exact ⟨m', by rw [el]; exact .snoc hl le, h⟩

/-- what is seen determines what the condition is -/
theorem Legal.unique {m m1 m2 : Abs} {e : Ev} (h1 : Legal m e m1) (h2 : Legal m e m2) : m1 = m2 := by
  cases h1 <;> cases h2 <;> simp_all

theorem Legals.unique {m m1 m2 : Abs} {l : List Ev} (h1 : Legals m l m1) (h2 : Legals m l m2) : m1 = m2 := by
  induction h1 generalizing m2 with
  | nil =>
    generalize hl : ([] : List Ev) = l at h2
    cases h2 with
    | nil => rfl
    | snoc => simp at hl
  | snoc _ he ih =>
    rename_i l e hh
    generalize hl : l ++ [e] = l' at h2
    cases h2 with
    | nil => simp at hl
    | snoc h2 he2 =>
      obtain ⟨rfl, hx⟩ := List.append_inj' hl rfl
      injection hx with hx
      subst hx
      cases ih h2
      exact he.unique he2

/-- a thread that waits does not have the lock -/
def Away (s : St) : Prop := ∀ t, (∀ b c, s.pc t = .waiting b c → s.owner ≠ some t) ∧ ∀ c got, s.pc t = .back c got → s.owner ≠ some t

theorem Away.set {s : St} (h : Away s) (t : Nat) (p : Pc) (o : Option Nat) (ho : ∀ u, u ≠ t → o = some u → s.owner = some u) (hp : o = some t → (∀ b c, p ≠ .waiting b c) ∧ ∀ c got, p ≠ .back c got)
    (c : Nat) (w : List Nat) (sg : Nat → Bool) (l : List Ev) : Away { s with owner := o, count := c, waiters := w, signaled := sg, pc := upd s.pc t p, log := l } := by
  intro u
  rcases upd_cases s.pc t p u with ⟨e, rfl⟩ | ⟨e, ne⟩ <;> simp only [e]
  · exact ⟨fun b c e ho => (hp ho).1 b c e, fun c g e ho => (hp ho).2 c g e⟩
  · exact ⟨fun b c e h' => (h u).1 b c e (ho u ne h'), fun c g e h' => (h u).2 c g e (ho u ne h')⟩

theorem Away.keep {s : St} (h : Away s) (t : Nat) (o : Option Nat) (ho : ∀ u, u ≠ t → o = some u → s.owner = some u) (hp : (∀ b c, s.pc t ≠ .waiting b c) ∧ ∀ c got, s.pc t ≠ .back c got) (c : Nat) :
    Away { s with owner := o, count := c } := by
  have e : upd s.pc t (s.pc t) = s.pc := by funext u; simp only [upd]; split <;> simp_all
  have := h.set t (s.pc t) o ho (fun _ => hp) c s.waiters s.signaled s.log
  rw [e] at this
  exact this

theorem give_owner (s : St) (d : Nat) : (s.give d).owner = none ∨ (s.give d).owner = s.owner := by
  simp only [St.give]; split <;> simp

theorem away_step (re : Bool) (s : St) (h : Away s) (a : Act) : Away (s.step re a) := by
  have give : ∀ d u, (s.give d).owner = some u → s.owner = some u := by
    intro d u hu
    rcases give_owner s d with e | e <;> rw [e] at hu
    · cases hu
    · exact hu
  cases a with
  | enter t =>
    simp only [St.step]; split
    · rename_i hp; exact h.keep t _ (fun u hu e => by injection e with e; exact absurd e.symm hu) (by rw [hp.1]; simp) _
    · exact h
  | exit t =>
    simp only [St.step]; split
    · rename_i hp; exact h.keep t _ (fun u _ e => give 1 u e) (by rw [hp.1]; simp) _
    · exact h
  | wait t b =>
    simp only [St.step]; split
    · exact h.set t _ _ (fun _ _ e => e) (by simp) _ _ _ _
    · exact h
  | notify t k =>
    simp only [St.step]; split
    · exact h.set t _ _ (fun _ _ e => e) (by simp) _ _ _ _
    · exact h
  | timeout t =>
    simp only [St.step]
    split
    · split
      · exact h
      · exact h.set t _ _ (fun _ _ e => e) (by simp) _ _ _ _
    · rename_i c hp
      split
      · exact h
      · exact h.set t _ _ (fun _ _ e => e) (fun e => absurd e ((h t).1 _ _ hp)) _ _ _ _
    · exact h
  | go t =>
    have mine : ∀ u, u ≠ t → some t = some u → s.owner = some u := fun u hu e => by injection e with e; exact absurd e.symm hu
    simp only [St.step, St.go]
    split
    · exact h
    · split
      · exact h.set t _ _ mine (by simp) _ _ _ _
      · exact h
    · exact h.set t _ none (by simp) (by simp) _ _ _ _
    · rename_i hp
      split
      · exact h.set t _ _ (fun _ _ e => e) (fun e => absurd e ((h t).1 _ _ hp)) _ _ _ _
      · exact h
    · split
      · exact h.set t _ _ mine (by simp) _ _ _ _
      · exact h
    · exact h.set t _ _ (fun u _ e => give 1 u e) (by simp) _ _ _ _
    · split
      · exact h.set t _ _ mine (by simp) _ _ _ _
      · exact h
    · split
      · exact h.set t _ _ mine (by simp) _ _ _ _
      · exact h
    · split
      · exact h.set t _ _ mine (by simp) _ _ _ _
      · exact h
    · rename_i d _
      exact h.set t _ _ (fun u _ e => give d u e) (by simp) _ _ _ _
    · rename_i d _
      split
      · exact h.set t _ _ (fun u _ e => give d u e) (by simp) _ _ _ _
      · exact h.set t _ _ (fun _ _ e => e) (by simp) _ _ _ _

theorem away_run (re : Bool) (as : List Act) : Away (St.init.run re as) := by
  induction as using snoc_ind with
  | h0 => intro t; simp [St.run, St.init]
  | h1 as a ih => rw [run_snoc]; exact away_step re _ ih a

/-- the thread can give the lock back, by itself -/
def Frees (u : Nat) (s : St) : Prop := ∃ as, (∀ a ∈ as, a = Act.go u ∨ a = Act.exit u) ∧ (s.run true as).owner = none

theorem Frees.go {u : Nat} {s : St} (h : Frees u (s.go true u)) : Frees u s := by
  obtain ⟨as, ha, ho⟩ := h
  exact ⟨.go u :: as, by simpa using ha, ho⟩

theorem frees_idle (u : Nat) : ∀ (n : Nat) (s : St), s.count ≤ n → s.pc u = .idle → (s.owner = none ∨ s.owner = some u) → Frees u s := by
  intro n
  induction n with
  | zero =>
    intro s hc hp ho
    rcases ho with ho | ho
    · exact ⟨[], by simp, ho⟩
    · exact ⟨[.exit u], by simp, by simp [St.run, St.step, hp, ho, St.give, show s.count ≤ 1 by omega]⟩
  | succ n ih =>
    intro s hc hp ho
    rcases ho with ho | ho
    · exact ⟨[], by simp, ho⟩
    · have : Frees u (s.give 1) := ih _ (by simp only [St.give]; omega) hp (by rcases give_owner s 1 with e | e <;> rw [e] <;> simp [ho])
      obtain ⟨as, ha, hn⟩ := this
      refine ⟨.exit u :: as, by simpa using ha, ?_⟩
      have : s.step true (.exit u) = s.give 1 := by simp [St.step, hp, ho]
      simp only [St.run, List.foldl_cons, this]
      exact hn

theorem frees_notifying (u d : Nat) : ∀ (k : Nat) (s : St), s.pc u = .notifying k d → s.owner = some u → Frees u s := by
  have fin : ∀ (s : St) (l : List Ev), s.owner = some u → Frees u { (s.give d) with pc := upd s.pc u .idle, log := l } := fun s l ho =>
    frees_idle u _ _ (Nat.le_refl _) (upd_self ..) (by rcases give_owner s d with e | e <;> simp only [e] <;> simp [ho])
  intro k
  induction k with
  | zero =>
    intro s hp ho
    apply Frees.go
    simp only [St.go, hp]
    exact fin s _ ho
  | succ k ih =>
    intro s hp ho
    apply Frees.go
    simp only [St.go, hp]
    split
    · exact fin s _ ho
    · exact ih _ (upd_self ..) ho

theorem frees_owner (u : Nat) (s : St) (h : Away s) (ho : s.owner = some u) : Frees u s := by
  have ct : s.canTake true u = true := by simp [St.canTake, ho]
  have inw : ∀ (s : St) (b : Bool), s.pc u = .inWait b → Frees u s := by
    intro s b hp
    apply Frees.go
    exact ⟨[], by simp, by simp [St.run, St.go, hp, St.at_, St.logs]⟩
  have nst : ∀ (s : St) (k : Nat), s.pc u = .nested k → s.owner = some u → Frees u s := by
    intro s k hp ho
    apply Frees.go
    simp only [St.go, hp, show s.canTake true u = true by simp [St.canTake, ho], if_true]
    exact frees_notifying u 2 k _ (upd_self ..) rfl
  cases hp : s.pc u with
  | idle => exact frees_idle u _ s (Nat.le_refl _) hp (Or.inr ho)
  | wantWait b =>
    apply Frees.go
    simp only [St.go, hp, ct, if_true]
    exact inw _ b (upd_self ..)
  | inWait b => exact inw s b hp
  | waiting b c => exact absurd ho ((h u).1 b c hp)
  | back c g => exact absurd ho ((h u).2 c g hp)
  | leaving g =>
    apply Frees.go
    simp only [St.go, hp]
    exact frees_idle u _ _ (Nat.le_refl _) (upd_self ..) (by
      rcases give_owner { s with waiters := if g then s.waiters else s.waiters.erase u } 1 with e | e <;> simp only [St.logs, St.at_, e] <;> simp [ho])
  | wantNotify k =>
    apply Frees.go
    cases k with
    | none =>
      simp only [St.go, hp, ct, if_true]
      exact nst _ _ (upd_self ..) rfl
    | some k =>
      simp only [St.go, hp, ct, if_true]
      exact frees_notifying u 1 k _ (upd_self ..) rfl
  | nested k => exact nst s k hp ho
  | notifying k d => exact frees_notifying u d k s hp ho

/-- another thread leaves `t` where it is, notified if it was -/
theorem other_go (re : Bool) (s : St) (t u : Nat) (hu : t ≠ u) (hs : s.signaled t = true) : (s.go re u).pc t = s.pc t ∧ (s.go re u).signaled t = true := by
  simp only [St.go]
  split <;> (try split) <;> simp [St.take, St.at_, St.logs, St.give, upd, hu, hs]

theorem other_run (t u : Nat) (hu : t ≠ u) (as : List Act) (ha : ∀ a ∈ as, a = Act.go u ∨ a = Act.exit u) :
    ∀ s : St, s.signaled t = true → (s.run true as).pc t = s.pc t ∧ (s.run true as).signaled t = true := by
  induction as with
  | nil => intro s hs; exact ⟨rfl, hs⟩
  | cons a as ih =>
    intro s hs
    have : (s.step true a).pc t = s.pc t ∧ (s.step true a).signaled t = true := by
      rcases ha a (by simp) with rfl | rfl
      · exact other_go true s t u hu hs
      · simp only [St.step]; split
        · exact ⟨rfl, hs⟩
        · exact ⟨rfl, hs⟩
    obtain ⟨h1, h2⟩ := ih (fun b hb => ha b (by simp [hb])) _ this.2
    exact ⟨h1.trans this.1, h2⟩

theorem log_step (re : Bool) (s : St) (m : Abs) (h : R s m) (a : Act) : ∃ l, (s.step re a).log = s.log ++ l := by
  rcases step_sim re s m h a with ⟨e, _⟩ | ⟨e, _, he, _⟩
  · exact ⟨[], by simp [e]⟩
  · exact ⟨[e], he⟩

theorem log_run (re : Bool) (as0 as : List Act) : ∃ l, (St.init.run re (as0 ++ as)).log = (St.init.run re as0).log ++ l := by
  induction as using snoc_ind with
  | h0 => exact ⟨[], by simp⟩
  | h1 as a ih =>
    obtain ⟨l, hl⟩ := ih
    obtain ⟨m, _, hr⟩ := run_sim re (as0 ++ as)
    obtain ⟨l', hl'⟩ := log_step re _ m hr a
    exact ⟨l ++ l', by rw [← List.append_assoc, run_snoc, hl', hl, List.append_assoc]⟩

/-! ## The theorems -/

/-- **C223 (conditions: what can be seen)** Whatever the threads do, with a lock that can be taken again or not: those who are notified are those who have waited longest, as many as asked for or as there are, and all of them with notify_all; nobody begins or ends to wait meanwhile;
a wait returns only after it was notified since it began, and only one with a timeout raises. -/
theorem C223_legal (re : Bool) (as : List Act) : ∃ m, Legals Abs.init (St.init.run re as).log m := by
  obtain ⟨m, h, _⟩ := run_sim re as
  exact ⟨m, h⟩

/-- **C223 (conditions: the notified return)** With the usual lock: whatever happened, a thread that waits without a timeout and was notified can always return, by steps of the calls that are under way and by those who have the lock giving it back. -/
theorem C223_told (as : List Act) (m : Abs) (t : Nat) (hl : Legals Abs.init (St.init.run true as).log m) (hp : m.phase t = .registered false) (ht : m.told t = true) :
    ∃ bs l, (∀ a ∈ bs, ∃ u, a = .go u ∨ a = .exit u) ∧ (St.init.run true (as ++ bs)).log = (St.init.run true as).log ++ l ++ [.returned t true] := by
  obtain ⟨m', hl', hr⟩ := run_sim true as
  cases hl.unique hl'
  have hs : (St.init.run true as).signaled t = true := by rw [← hr.told]; exact ht
  have haw := away_run true as
  -- once the thread is leaving
  have last : ∀ bs, (∀ a ∈ bs, ∃ u, a = Act.go u ∨ a = Act.exit u) → (St.init.run true (as ++ bs)).pc t = .leaving true →
      ∃ bs l, (∀ a ∈ bs, ∃ u, a = Act.go u ∨ a = Act.exit u) ∧ (St.init.run true (as ++ bs)).log = (St.init.run true as).log ++ l ++ [.returned t true] := by
    intro bs hbs hpc
    obtain ⟨l, hlog⟩ := log_run true as bs
    refine ⟨bs ++ [.go t], l, ?_, ?_⟩
    · intro a ha
      rcases List.mem_append.1 ha with ha | ha
      · exact hbs a ha
      · simp only [List.mem_singleton] at ha; exact ⟨t, Or.inl ha⟩
    · rw [← List.append_assoc, run_snoc, ← hlog]
      simp [St.step, St.go, hpc, St.logs, St.at_, St.give]
  -- once the lock is free
  have back : ∀ bs c, (∀ a ∈ bs, ∃ u, a = Act.go u ∨ a = Act.exit u) → (St.init.run true (as ++ bs)).pc t = .back c true → (St.init.run true (as ++ bs)).owner = none →
      ∃ bs l, (∀ a ∈ bs, ∃ u, a = Act.go u ∨ a = Act.exit u) ∧ (St.init.run true (as ++ bs)).log = (St.init.run true as).log ++ l ++ [.returned t true] := by
    intro bs c hbs hpc ho
    refine last (bs ++ [.go t]) ?_ ?_
    · intro a ha
      rcases List.mem_append.1 ha with ha | ha
      · exact hbs a ha
      · simp only [List.mem_singleton] at ha; exact ⟨t, Or.inl ha⟩
    · rw [← List.append_assoc, run_snoc]
      simp [St.step, St.go, hpc, ho, St.at_, upd_self]
  have wait : ∀ bs, (∀ a ∈ bs, ∃ u, a = Act.go u ∨ a = Act.exit u) → ((∃ b c, (St.init.run true (as ++ bs)).pc t = .waiting b c) ∨ ∃ c, (St.init.run true (as ++ bs)).pc t = .back c true) →
      (St.init.run true (as ++ bs)).signaled t = true → (St.init.run true (as ++ bs)).owner = none →
      ∃ bs l, (∀ a ∈ bs, ∃ u, a = Act.go u ∨ a = Act.exit u) ∧ (St.init.run true (as ++ bs)).log = (St.init.run true as).log ++ l ++ [.returned t true] := by
    intro bs hbs hpc hsig ho
    rcases hpc with ⟨b, c, hpc⟩ | ⟨c, hpc⟩
    · refine back (bs ++ [.go t]) c ?_ ?_ ?_
      · intro a ha
        rcases List.mem_append.1 ha with ha | ha
        · exact hbs a ha
        · simp only [List.mem_singleton] at ha; exact ⟨t, Or.inl ha⟩
      · rw [← List.append_assoc, run_snoc]
        simp [St.step, St.go, hpc, hsig, St.at_, upd_self]
      · rw [← List.append_assoc, run_snoc]
        simp [St.step, St.go, hpc, hsig, St.at_, ho]
    · exact back bs c hbs hpc ho
  have hph := hr.phase t
  rw [hp] at hph
  have where_ : (St.init.run true as).pc t = .leaving true ∨ ((∃ b c, (St.init.run true as).pc t = .waiting b c) ∨ ∃ c, (St.init.run true as).pc t = .back c true) := by
    cases hpc : (St.init.run true as).pc t <;> rw [hpc] at hph <;> simp only [PhaseOf] at hph <;> simp_all
  rcases where_ with hpc | hpc
  · exact last [] (by simp) (by simpa using hpc)
  · cases ho : (St.init.run true as).owner with
    | none => exact wait [] (by simp) (by simpa using hpc) (by simpa using hs) (by simpa using ho)
    | some u =>
      have hu : t ≠ u := by
        rintro rfl
        rcases hpc with ⟨b, c, hpc⟩ | ⟨c, hpc⟩
        · exact (haw t).1 b c hpc ho
        · exact (haw t).2 c _ hpc ho
      obtain ⟨bs, hbs, hfree⟩ := frees_owner u _ haw ho
      obtain ⟨h1, h2⟩ := other_run t u hu bs hbs _ hs
      refine wait bs (fun a ha => ⟨u, hbs a ha⟩) ?_ ?_ ?_
      · rw [run_append, h1]; exact hpc
      · rw [run_append]; exact h2
      · rw [run_append]; exact hfree

/-- **C223 (conditions: a locked lock)** ResourceLocked is raised only by a wait with a timeout, and only while somebody has the lock. -/
theorem C223_locked (re : Bool) (as : List Act) (a : Act) (t : Nat) (h : (St.init.run re (as ++ [a])).log = (St.init.run re as).log ++ [.locked t]) :
    a = .timeout t ∧ (St.init.run re as).owner ≠ none := by
  rw [run_snoc] at h
  revert h
  generalize St.init.run re as = s
  cases a with
  | timeout u =>
    simp only [St.step]
    split
    · split
      · intro h; simp at h
      · rename_i hc
        intro h
        simp only [St.logs, St.at_, List.append_cancel_left_eq, List.cons.injEq, Ev.locked.injEq, and_true] at h
        subst h
        refine ⟨rfl, fun e => hc ?_⟩
        simp [St.canTake, e]
    · split <;> intro h <;> simp [St.at_] at h
    · intro h; simp at h
  | go u =>
    simp only [St.step, St.go]
    split <;> (try split) <;> intro h <;> simp [St.take, St.at_, St.logs, St.give] at h
  | _ => simp only [St.step]; split <;> intro h <;> simp [St.take, St.at_, St.logs, St.give] at h

/-- two threads wait; a third notifies one, which returns -/
def sched : List Act := [.wait 1 false, .go 1, .go 1, .wait 2 false, .go 2, .go 2, .notify 3 (some 1), .go 3, .go 3]

example : (St.init.run true sched).log = [.calls 1 false, .registered 1, .calls 2 false, .registered 2, .begins 3 (some 1), .woke 3 1] := by decide
example : (St.init.run true (sched ++ [.go 3, .go 1, .go 1, .go 1])).log = (St.init.run true sched).log ++ [.done 3, .returned 1 true] := by decide
-- the hypotheses of C223_told are met: the first thread waits, and was notified
example : ∃ m, Legals Abs.init (St.init.run true sched).log m ∧ m.phase 1 = .registered false ∧ m.told 1 = true :=
  ⟨_, .snoc (.snoc (.snoc (.snoc (.snoc (.snoc (.nil _) (.calls _ 1 false rfl)) (.registered _ 1 false rfl rfl (by simp [Abs.init]))) (.calls _ 2 false rfl))
      (.registered _ 2 false rfl rfl (by simp [Abs.init]))) (.begins _ 3 1 rfl)) (.woke _ 3 1 0 [2] rfl rfl), rfl, rfl⟩
-- what must not be seen: the second is notified before the first
example : ¬ ∃ m, Legals Abs.init [.calls 1 false, .registered 1, .calls 2 false, .registered 2, .begins 3 (some 1), .woke 3 2] m := by
  rintro ⟨m, h⟩
  have h5 : Legals Abs.init [.calls 1 false, .registered 1, .calls 2 false, .registered 2, .begins 3 (some 1)] _ :=
    .snoc (.snoc (.snoc (.snoc (.snoc (.nil _) (.calls _ 1 false rfl)) (.registered _ 1 false rfl rfl (by simp [Abs.init]))) (.calls _ 2 false rfl))
      (.registered _ 2 false rfl rfl (by simp [Abs.init]))) (.begins _ 3 1 rfl)
  generalize hl : [Ev.calls 1 false, .registered 1, .calls 2 false, .registered 2, .begins 3 (some 1), .woke 3 2] = l at h
  cases h with
  | nil => simp at hl
  | snoc h he =>
    obtain ⟨rfl, hx⟩ := List.append_inj' (s₁ := [Ev.calls 1 false, .registered 1, .calls 2 false, .registered 2, .begins 3 (some 1)]) (t₁ := [Ev.woke 3 2]) hl rfl
    injection hx with hx
    subst hx
    cases h.unique h5
    cases he with
    | woke _ _ r q h1 h2 => injection h2 with h2; exact absurd h2 (by decide)
-- with a timeout, and the lock taken by somebody: ResourceLocked
example : (St.init.run true [.enter 1, .wait 2 true, .go 2, .timeout 2]).log = [.calls 2 true, .locked 2] := by decide

/-! ## Notifications that come to nothing -/

/-- how many times `w` was notified -/
def wokes (w : Nat) (l : List Ev) : Nat := l.countP fun | .woke _ u => u = w | _ => false
/-- how many times a wait of `w` returned, notified -/
def returns (w : Nat) (l : List Ev) : Nat := l.countP fun | .returned u true => u = w | _ => false

/-- **C224 (a notification wakes somebody: a violation)** Two threads wait, one of them with a timeout; one notification is made.  The timeout being over just then, the one that is notified raises WouldWaitMore nevertheless; and the other one still waits: the notification is lost.
(The waiter of a thread whose timeout is over stays in the list until the thread has the lock again.) -/
theorem C224_lost_violates : (St.init.run true [.wait 1 true, .go 1, .go 1, .wait 2 false, .go 2, .go 2, .timeout 1, .notify 3 (some 1), .go 3, .go 3, .go 3, .go 1, .go 1, .go 2]).log =
    [.calls 1 true, .registered 1, .calls 2 false, .registered 2, .begins 3 (some 1), .woke 3 1, .done 3, .returned 1 false] := by decide

/-- notify_all with a lock that cannot be taken again: the caller is stuck, and has the lock -/
theorem stuck_step (s : St) (t k : Nat) (a : Act) (hp : s.pc t = .nested k) (ho : s.owner = some t) (hc : s.count = 1) (hn : ∀ u, ¬ (u ≠ t ∧ Holds (s.pc u))) :
    (s.step false a).pc t = .nested k ∧ (s.step false a).owner = some t ∧ (s.step false a).count = 1 ∧ (∀ u, ¬ (u ≠ t ∧ Holds ((s.step false a).pc u))) ∧
      ((s.step false a).log = s.log ∨ ∃ u b, (s.step false a).log = s.log ++ [.calls u b] ∨ (s.step false a).log = s.log ++ [.locked u]) := by
  have ct : ∀ u, s.canTake false u = false := by intro u; simp [St.canTake, ho]
  have same : s.pc t = .nested k ∧ s.owner = some t ∧ s.count = 1 ∧ (∀ u, ¬ (u ≠ t ∧ Holds (s.pc u))) ∧
      (s.log = s.log ∨ ∃ u b, s.log = s.log ++ [.calls u b] ∨ s.log = s.log ++ [.locked u]) := ⟨hp, ho, hc, hn, Or.inl rfl⟩
  have moved : ∀ (u : Nat) (p : Pc), u ≠ t → ¬ Holds p → (∀ v, ¬ (v ≠ t ∧ Holds (upd s.pc u p v))) := by
    intro u p _ hpp v ⟨hv, hh⟩
    rcases upd_cases s.pc u p v with ⟨e, rfl⟩ | ⟨e, ne⟩ <;> rw [e] at hh
    · exact hpp hh
    · exact hn v ⟨hv, hh⟩
  have keep : ∀ (u : Nat) (p : Pc), u ≠ t → upd s.pc u p t = .nested k := fun u p hu => by rw [upd_ne _ _ (Ne.symm hu)]; exact hp
  have isne : ∀ u, (∀ j, s.pc u ≠ .nested j) → u ≠ t := by rintro u h rfl; exact h k hp
  have noh : ∀ u p, u ≠ t → s.pc u = p → ¬ Holds p := fun u p hu e hh => hn u ⟨hu, by rw [e]; exact hh⟩
  cases a with
  | enter u => simp only [St.step, ct]; simpa using same
  | exit u =>
    simp only [St.step]; split
    · rename_i h
      rw [ho] at h
      obtain ⟨h1, h2⟩ := h
      injection h2 with h2
      subst h2
      rw [hp] at h1; cases h1
    · exact same
  | wait u b =>
    simp only [St.step]; split
    · rename_i h
      have hu := isne u (by rw [h]; simp)
      exact ⟨keep u _ hu, ho, hc, moved u _ hu id, Or.inr ⟨u, b, Or.inl rfl⟩⟩
    · exact same
  | notify u j =>
    simp only [St.step]; split
    · rename_i h
      have hu := isne u (by rw [h]; simp)
      exact ⟨keep u _ hu, ho, hc, moved u _ hu id, Or.inl rfl⟩
    · exact same
  | timeout u =>
    simp only [St.step]; split
    · rename_i h
      have hu := isne u (by rw [h]; simp)
      simp only [ct, Bool.false_eq_true, if_false]
      exact ⟨keep u _ hu, ho, hc, moved u _ hu id, Or.inr ⟨u, true, Or.inr rfl⟩⟩
    · rename_i h
      have hu := isne u (by rw [h]; simp)
      split
      · exact same
      · exact ⟨keep u _ hu, ho, hc, moved u _ hu id, Or.inl rfl⟩
    · exact same
  | go u =>
    simp only [St.step, St.go, ct, Bool.false_eq_true, if_false]
    split
    · exact same
    · exact same
    · rename_i h
      exact absurd trivial (noh u _ (isne u (by rw [h]; simp)) h)
    · rename_i h
      have hu := isne u (by rw [h]; simp)
      split
      · exact ⟨keep u _ hu, ho, hc, moved u _ hu id, Or.inl rfl⟩
      · exact same
    · rw [ho]; simpa using same
    · rename_i h
      exact absurd trivial (noh u _ (isne u (by rw [h]; simp)) h)
    · exact same
    · exact same
    · exact same
    · rename_i h
      exact absurd trivial (noh u _ (isne u (by rw [h]; simp)) h)
    · rename_i h
      exact absurd trivial (noh u _ (isne u (by rw [h]; simp)) h)

/-- **C224 (a notification wakes somebody: a violation)** With a lock that cannot be taken again (`Condition(Lock())`): a thread waits, another calls notify_all.  It takes the lock, and notify_all of the standard library calls notify, which takes it again: from then on, whatever happens, nobody is
notified, begins to wait or returns. -/
theorem C224_plain_violates (as : List Act) : ∃ l, (St.init.run false ([.wait 1 false, .go 1, .go 1, .notify 2 none, .go 2] ++ as)).log = [.calls 1 false, .registered 1] ++ l ∧
    ∀ e ∈ l, ∃ t b, e = .calls t b ∨ e = .locked t := by
  have : ∃ l, (St.init.run false ([.wait 1 false, .go 1, .go 1, .notify 2 none, .go 2] ++ as)).log = [.calls 1 false, .registered 1] ++ l ∧
      (∀ e ∈ l, ∃ t b, e = Ev.calls t b ∨ e = .locked t) ∧
      let s := St.init.run false ([.wait 1 false, .go 1, .go 1, .notify 2 none, .go 2] ++ as)
      s.pc 2 = .nested 1 ∧ s.owner = some 2 ∧ s.count = 1 ∧ (∀ u, ¬ (u ≠ 2 ∧ Holds (s.pc u))) := by
    induction as using snoc_ind with
    | h0 =>
      refine ⟨[], by decide, by simp, by decide, by decide, by decide, ?_⟩
      intro u ⟨hu, hh⟩
      by_cases h1 : u = 1
      · subst h1; exact hh
      · have : (St.init.run false ([.wait 1 false, .go 1, .go 1, .notify 2 none, .go 2] ++ [])).pc u = .idle := by
          simp [St.run, St.step, St.go, St.init, St.at_, St.logs, St.take, St.canTake, upd, hu, h1]
        rw [this] at hh; exact hh
    | h1 as a ih =>
      obtain ⟨l, hl, he, h1, h2, h3, h4⟩ := ih
      rw [← List.append_assoc, run_snoc]
      obtain ⟨g1, g2, g3, g4, g5⟩ := stuck_step _ 2 1 a h1 h2 h3 h4
      rcases g5 with g5 | ⟨u, b, g5 | g5⟩
      · exact ⟨l, by rw [g5, hl], he, g1, g2, g3, g4⟩
      · refine ⟨l ++ [.calls u b], by rw [g5, hl, List.append_assoc], ?_, g1, g2, g3, g4⟩
        intro e h
        rcases List.mem_append.1 h with h | h
        · exact he e h
        · simp only [List.mem_singleton] at h; exact ⟨u, b, Or.inl h⟩
      · refine ⟨l ++ [.locked u], by rw [g5, hl, List.append_assoc], ?_, g1, g2, g3, g4⟩
        intro e h
        rcases List.mem_append.1 h with h | h
        · exact he e h
        · simp only [List.mem_singleton] at h; exact ⟨u, true, Or.inr h⟩
  obtain ⟨l, h1, h2, _⟩ := this
  exact ⟨l, h1, h2⟩

-- and with the usual lock the same schedule notifies it
example : (St.init.run true ([.wait 1 false, .go 1, .go 1, .notify 2 none, .go 2] ++ [.go 2, .go 2, .go 2, .go 1, .go 1, .go 1])).log =
    [.calls 1 false, .registered 1, .begins 2 none, .woke 2 1, .done 2, .returned 1 true] := by decide

/-- what holds when nobody waits with a timeout -/
structure Untimed (l : List Ev) (m : Abs) : Prop where
  called : ∀ t, m.phase t ≠ .called true ∧ m.phase t ≠ .registered true
  queue : ∀ t ∈ m.queue, m.phase t = .registered false ∧ m.told t = false
  nodup : m.queue.Nodup
  count : ∀ t, wokes t l = returns t l + if m.phase t = .registered false ∧ m.told t = true then 1 else 0
  raised : ∀ t, Ev.returned t false ∉ l

theorem untimed {l : List Ev} {m0 m : Abs} (h : Legals m0 l m) (h0 : m0 = Abs.init) (hc : ∀ t, Ev.calls t true ∉ l) : Untimed l m := by
  induction h with
  | nil => subst h0; constructor <;> simp [Abs.init, wokes, returns]
  | snoc hl he ih =>
    rename_i m' m'' l e
    have ih := ih (fun t ht => hc t (by simp [ht]))
    have uc : ∀ {α : Type} (f : Nat → α) (t : Nat) (p : α) (u : Nat), (upd f t p u = p ∧ u = t) ∨ (upd f t p u = f u ∧ u ≠ t) := by
      intro α f t p u
      by_cases e : u = t
      · subst e; exact Or.inl ⟨upd_self .., rfl⟩
      · exact Or.inr ⟨upd_ne _ _ e, e⟩
    cases he with
    | calls t b hp =>
      have hb : b = false := by cases b with
        | false => rfl
        | true => exact absurd (by simp) (hc t)
      subst hb
      refine ⟨?_, ?_, ih.nodup, ?_, ?_⟩
      · intro u; rcases uc m'.phase t (.called false) u with ⟨e, rfl⟩ | ⟨e, ne⟩ <;> simp only [e]
        · simp
        · exact ih.called u
      · intro u hu
        have := ih.queue u hu
        rcases uc m'.phase t (.called false) u with ⟨e, rfl⟩ | ⟨e, ne⟩ <;> simp only [e]
        · rw [hp] at this; cases this.1
        · exact this
      · intro u
        have := ih.count u
        rcases uc m'.phase t (.called false) u with ⟨e, rfl⟩ | ⟨e, ne⟩ <;> simp only [e]
        · rw [hp] at this; simpa [wokes, returns] using this
        · simpa [wokes, returns] using this
      · intro u; simpa using ih.raised u
    | locked t hp => exact absurd hp (ih.called t).1
    | registered t b hp hn hq =>
      have hb : b = false := by cases b with
        | false => rfl
        | true => exact absurd hp (ih.called t).1
      subst hb
      refine ⟨?_, ?_, ?_, ?_, ?_⟩
      · intro u; rcases uc m'.phase t (.registered false) u with ⟨e, rfl⟩ | ⟨e, ne⟩ <;> simp only [e]
        · simp
        · exact ih.called u
      · intro u hu
        rcases uc m'.phase t (.registered false) u with ⟨e, rfl⟩ | ⟨e, ne⟩ <;> simp only [e]
        · exact ⟨trivial, upd_self ..⟩
        · rw [upd_ne _ _ ne]
          rcases List.mem_append.1 hu with hu | hu
          · exact ih.queue u hu
          · simp only [List.mem_singleton] at hu; exact absurd hu ne
      · exact List.nodup_append.2 ⟨ih.nodup, by simp, by intro a ha c hc; simp only [List.mem_singleton] at hc; subst hc; exact fun e => hq (e ▸ ha)⟩
      · intro u
        have := ih.count u
        rcases uc m'.phase t (.registered false) u with ⟨e, rfl⟩ | ⟨e, ne⟩ <;> simp only [e]
        · rw [hp] at this; simpa [wokes, returns, upd_self] using this
        · rw [upd_ne _ _ ne]; simpa [wokes, returns] using this
      · intro u; simpa using ih.raised u
    | begins n k hn =>
      refine ⟨ih.called, ih.queue, ih.nodup, ?_, ?_⟩
      · intro u; simpa [wokes, returns] using ih.count u
      · intro u; simpa using ih.raised u
    | beginsAll n hn =>
      refine ⟨ih.called, ih.queue, ih.nodup, ?_, ?_⟩
      · intro u; simpa [wokes, returns] using ih.count u
      · intro u; simpa using ih.raised u
    | woke n w r q hn hq =>
      have hnd := ih.nodup
      rw [hq, List.nodup_cons] at hnd
      refine ⟨ih.called, ?_, hnd.2, ?_, ?_⟩
      · intro u hu
        have := ih.queue u (by rw [hq]; exact List.mem_cons_of_mem _ hu)
        simp only
        rw [upd_ne m'.told true (show u ≠ w from fun e => hnd.1 (e ▸ hu))]
        exact this
      · intro u
        have := ih.count u
        rcases uc m'.told w true u with ⟨e, rfl⟩ | ⟨e, ne⟩ <;> simp only [e]
        · have hw := ih.queue u (by rw [hq]; simp)
          simp [hw.1, hw.2] at this
          simp [wokes, returns, hw.1] at this ⊢
          exact this
        · simpa [wokes, returns, Ne.symm ne] using this
      · intro u; simpa using ih.raised u
    | done n hn =>
      refine ⟨ih.called, ih.queue, ih.nodup, ?_, ?_⟩
      · intro u; simpa [wokes, returns] using ih.count u
      · intro u; simpa using ih.raised u
    | notified t b hp hn ht hq =>
      have hb : b = false := by cases b with
        | false => rfl
        | true => exact absurd hp (ih.called t).2
      subst hb
      refine ⟨?_, ?_, ih.nodup, ?_, ?_⟩
      · intro u; rcases uc m'.phase t .outside u with ⟨e, rfl⟩ | ⟨e, ne⟩ <;> simp only [e]
        · simp
        · exact ih.called u
      · intro u hu
        have := ih.queue u hu
        rcases uc m'.phase t .outside u with ⟨e, rfl⟩ | ⟨e, ne⟩ <;> simp only [e]
        · exact absurd hu hq
        · exact this
      · intro u
        have := ih.count u
        rcases uc m'.phase t .outside u with ⟨e, rfl⟩ | ⟨e, ne⟩ <;> simp only [e]
        · simp [hp, ht] at this
          simp [wokes, returns] at this ⊢
          exact this
        · simpa [wokes, returns, Ne.symm ne] using this
      · intro u; simpa using ih.raised u
    | timedOut t hp hn => exact absurd hp (ih.called t).2

/-- **C224 (a notification wakes somebody: without timeouts)** While nobody has waited with a timeout, no notification is lost: no wait raises, and each thread was notified as many times as its waits returned, and once more if it waits now and was notified since. -/
theorem C224_kept_partial (re : Bool) (as : List Act) (h : ∀ t, Ev.calls t true ∉ (St.init.run re as).log) :
    ∃ m, Legals Abs.init (St.init.run re as).log m ∧ (∀ t, Ev.returned t false ∉ (St.init.run re as).log) ∧
      ∀ t, wokes t (St.init.run re as).log = returns t (St.init.run re as).log + if m.phase t = .registered false ∧ m.told t = true then 1 else 0 := by
  obtain ⟨m, hl⟩ := C223_legal re as
  have := untimed hl rfl h
  exact ⟨m, hl, this.raised, this.count⟩

example : (∀ t, Ev.calls t true ∉ (St.init.run true sched).log) ∧ wokes 1 (St.init.run true sched).log = 1 ∧ returns 1 (St.init.run true sched).log = 0 := by
  refine ⟨?_, by decide, by decide⟩
  intro t
  rw [show (St.init.run true sched).log = [.calls 1 false, .registered 1, .calls 2 false, .registered 2, .begins 3 (some 1), .woke 3 1] by decide]
  simp

end Verif.Condition
