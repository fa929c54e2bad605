/-!
# Calling a process and returning its stdout (satella/processes.py), C153, C154

The process, the thread that reads and the caller act in any order; the pipe holds a limited number of bytes.
-/
namespace Verif.Stdout

/-! ## Model -/

variable {β : Type}

/-- how the process ended: by itself with a code, or killed; /repo/satella/processes.py:76-79 -/
inductive Exit
  | self (code : Int)
  | killed
deriving DecidableEq

/-- where the reading thread is: in `process.wait(timeout=0.1)`, before reading, or finished; /repo/satella/processes.py:27-34 -/
inductive RPc
  | wait
  | read
  | done
deriving DecidableEq

/-- what the call gives, /repo/satella/processes.py:75-93 -/
inductive Out (β : Type)
  | ok (stdout : List β)
  | processFailed (code : Int) (stdout : List β)
  | timeoutError
deriving DecidableEq

/-- where the caller is: in `proc.wait`, in `fut.result()` (with whether the timeout expired), or finished; /repo/satella/processes.py:75-93 -/
inductive MPc (β : Type)
  | waiting
  | joining (expired : Bool)
  | ended (o : Out β)
deriving DecidableEq

/-- the call: what the process has still to write, the pipe, how the process ended, the list that was read, the thread and the caller; /repo/satella/processes.py:67-93 -/
structure St (β : Type) where
  todo : List β
  pipe : List β := []
  exited : Option Exit := none
  got : List (List β) := []
  reader : RPc := .wait
  main : MPc β := .waiting
deriving DecidableEq

/-- arguments of the call, the code that the process exits with, the size of the pipe; /repo/satella/processes.py:37-41 -/
structure Cfg where
  cap : Nat
  code : Int
  timeout : Bool := false
  expected : Option Int := none

/-- who acts; `expire` is the timeout of the caller.  /repo/satella/processes.py:69-77 -/
inductive Actor
  | proc
  | reader
  | main
  | expire
deriving DecidableEq

/-- the process writes a byte, if there is room in the pipe, or exits after the last; /repo/satella/processes.py:69 -/
def St.proc (c : Cfg) (s : St β) : St β :=
  if s.exited.isSome then s
  else match s.todo with
    | [] => { s with exited := some (.self c.code) }
    | x :: r => if s.pipe.length < c.cap then { s with todo := r, pipe := s.pipe ++ [x] } else s

/-- the thread: it waits for the end of the process, a timeout is silenced and it waits again; then reads at most 2048 bytes.  /repo/satella/processes.py:27-34 -/
def St.readNowait (s : St β) : St β :=
  match s.reader with
  | .wait => if s.exited.isSome then { s with reader := .read } else s
  | .read =>
    match s.pipe with
    | [] => { s with reader := .done }
    | _ :: _ => { s with got := s.got ++ [s.pipe.take 2048], pipe := s.pipe.drop 2048, reader := .wait }
  | .done => s

/-- the end of the call, after the thread finished; /repo/satella/processes.py:80, :84-93 -/
def St.finish (c : Cfg) (s : St β) (expired : Bool) : Out β :=
  if expired then .timeoutError
  else match c.expected, s.exited with
    | some e, some (.self k) => if k ≠ e then .processFailed k s.got.flatten else .ok s.got.flatten
    | some _, some .killed => .processFailed (-9) s.got.flatten
    | _, _ => .ok s.got.flatten

/-- the caller, /repo/satella/processes.py:75-93 -/
def St.caller (c : Cfg) (s : St β) : St β :=
  match s.main with
  | .waiting => if s.exited.isSome then { s with main := .joining false } else s
  | .joining expired => if s.reader = .done then { s with main := .ended (s.finish c expired) } else s
  | .ended _ => s

/-- the timeout: the process is killed and waited for, if it did not end before; /repo/satella/processes.py:76-80 -/
def St.expire (c : Cfg) (s : St β) : St β :=
  match c.timeout, s.main, s.exited with
  | true, .waiting, none => { s with exited := some .killed, main := .joining true }
  | _, _, _ => s

/-- a step, /repo/satella/processes.py:14-93 -/
def St.step (c : Cfg) (s : St β) : Actor → St β
  | .proc => s.proc c
  | .reader => s.readNowait
  | .main => s.caller c
  | .expire => s.expire c

/-- a schedule, /repo/satella/processes.py:14-93 -/
def St.run (c : Cfg) (s : St β) (l : List Actor) : St β := l.foldl (fun s a => s.step c a) s

/-- the text for an encoding: each part that was read is decoded by itself, `none` is UnicodeDecodeError; /repo/satella/processes.py:87 -/
def decodeRows {γ : Type} (dec : List β → Option (List γ)) : List (List β) → Option (List γ)
  | [] => some []
  | r :: rs => match dec r, decodeRows dec rs with
    | some a, some b => some (a ++ b)
    | _, _ => none

/-! ## Proofs -/

/-- what holds at all times -/
structure Inv (c : Cfg) (out : List β) (s : St β) : Prop where
  all : s.got.flatten ++ s.pipe ++ s.todo = out
  room : s.pipe.length ≤ c.cap
  early : s.exited = none → s.got = [] ∧ s.reader = .wait ∧ s.main = .waiting
  self : ∀ k, s.exited = some (.self k) → s.todo = [] ∧ k = c.code
  done : s.reader = .done → s.pipe = []
  joining : ∀ b, s.main = .joining b → (b = true → c.timeout = true) ∧ (b = false → ∃ k, s.exited = some (.self k))
  timeout : s.main = .ended .timeoutError → c.timeout = true
  ok : ∀ r, s.main = .ended (.ok r) → r = out ∧ (c.expected = none ∨ c.expected = some c.code)
  failed : ∀ k r, s.main = .ended (.processFailed k r) → r = out ∧ k = c.code ∧ c.expected ≠ none ∧ c.expected ≠ some k
  waiting : s.main = .waiting → s.exited ≠ some .killed

theorem inv_init (c : Cfg) (out : List β) : Inv c out { todo := out } where
  all := rfl
  room := by simp
  early := fun _ => ⟨rfl, rfl, rfl⟩
  self := by simp
  done := by simp
  joining := by simp
  timeout := by simp
  ok := by simp
  failed := by simp
  waiting := by simp

theorem Inv.step {c : Cfg} {out : List β} {s : St β} (h : Inv c out s) (a : Actor) : Inv c out (s.step c a) := by
  cases a with
  | proc =>
    simp only [St.step, St.proc]
    split
    · exact h
    · next hx =>
      have hx : s.exited = none := by simpa using hx
      obtain ⟨e1, e2, e3⟩ := h.early hx
      split
      · next ht =>
        refine ⟨h.all, h.room, by simp, fun k hk => ⟨ht, by simpa using hk.symm⟩, h.done, ?_, ?_, ?_, ?_, ?_⟩ <;> simp [e3]
      · next x r ht =>
        split
        · next hc =>
          refine ⟨by rw [← h.all, ht]; simp, by simp; omega, fun _ => ⟨e1, e2, e3⟩, by simp [hx], by simp [e2], by simp [e3], by simp [e3], by simp [e3], by simp [e3], by simp [hx]⟩
        · exact h
  | reader =>
    simp only [St.step, St.readNowait]
    split
    · split
      · next hx => exact ⟨h.all, h.room, fun hn => (by simp [show s.exited = none from hn] at hx), h.self, by simp, h.joining, h.timeout, h.ok, h.failed, h.waiting⟩
      · exact h
    · next hr =>
      have hx : s.exited ≠ none := by
        intro hn
        have := (h.early hn).2.1
        rw [hr] at this
        simp at this
      split
      · next hp => exact ⟨h.all, h.room, fun hn => absurd hn hx, h.self, fun _ => hp, h.joining, h.timeout, h.ok, h.failed, h.waiting⟩
      · refine ⟨?_, by simp; have := h.room; omega, fun hn => absurd hn hx, h.self, by simp, h.joining, h.timeout, h.ok, h.failed, h.waiting⟩
        simp only [List.flatten_append, List.flatten_cons, List.flatten_nil, List.append_nil]
        rw [List.append_assoc s.got.flatten, List.take_append_drop]
        exact h.all
    · exact h
  | main =>
    simp only [St.step, St.caller]
    split
    · next hm =>
      split
      · next hx =>
        refine ⟨h.all, h.room, fun hn => (by simp [show s.exited = none from hn] at hx), h.self, h.done, fun b hb => ?_, by simp, by simp, by simp, by simp⟩
        simp at hb
        subst hb
        refine ⟨by simp, fun _ => ?_⟩
        cases he : s.exited with
        | none => simp [he] at hx
        | some e =>
          cases e with
          | self k => exact ⟨k, rfl⟩
          | killed => exact absurd he (h.waiting hm)
      · exact h
    · next b hm =>
      split
      · next hr =>
        have hx : s.exited ≠ none := by
          intro hn
          have := (h.early hn).2.1
          rw [hr] at this
          simp at this
        have hfull : b = false → s.got.flatten = out ∧ ∃ k, s.exited = some (.self k) ∧ k = c.code := by
          intro hb
          obtain ⟨k, hk⟩ := (h.joining b hm).2 hb
          obtain ⟨ht, hc⟩ := h.self k hk
          have := h.all
          rw [h.done hr, ht] at this
          exact ⟨by simpa using this, k, hk, hc⟩
        refine ⟨h.all, h.room, fun hn => absurd hn hx, h.self, h.done, by simp, fun ho => ?_, fun r ho => ?_, fun k r ho => ?_, by simp⟩
        · cases b with
          | true => exact (h.joining true hm).1 rfl
          | false =>
            obtain ⟨h1, k, hk, hc⟩ := hfull rfl
            simp only [St.finish, Bool.false_eq_true, ↓reduceIte, hk, MPc.ended.injEq] at ho
            cases hexp : c.expected with
            | none => simp [hexp] at ho
            | some e => simp only [hexp] at ho; split at ho <;> simp at ho
        · cases b with
          | true => simp [St.finish] at ho
          | false =>
            obtain ⟨h1, k, hk, hc⟩ := hfull rfl
            simp only [St.finish, Bool.false_eq_true, ↓reduceIte, hk, MPc.ended.injEq] at ho
            cases hexp : c.expected with
            | none => simp only [hexp, Out.ok.injEq] at ho; exact ⟨by rw [← ho, h1], Or.inl rfl⟩
            | some e =>
              simp only [hexp] at ho
              split at ho
              · simp at ho
              · next hke => simp at ho; exact ⟨by rw [← ho, h1], Or.inr (by simp at hke; rw [← hke, hc])⟩
        · cases b with
          | true => simp [St.finish] at ho
          | false =>
            obtain ⟨h1, k', hk, hc⟩ := hfull rfl
            simp only [St.finish, Bool.false_eq_true, ↓reduceIte, hk, MPc.ended.injEq] at ho
            cases hexp : c.expected with
            | none => simp [hexp] at ho
            | some e =>
              simp only [hexp] at ho
              split at ho
              · next hke =>
                simp at ho
                refine ⟨by rw [← ho.2, h1], by rw [← ho.1, hc], by simp, ?_⟩
                rw [← ho.1]
                simp
                exact fun h => hke h.symm
              · simp at ho
      · exact h
    · exact h
  | expire =>
    simp only [St.step, St.expire]
    split
    · next hc _ _ =>
      refine ⟨h.all, h.room, by simp, by simp, h.done, fun b hb => ?_, by simp, by simp, by simp, by simp⟩
      simp at hb
      subst hb
      exact ⟨fun _ => hc, by simp⟩
    · exact h

theorem inv_run (c : Cfg) (out : List β) (l : List Actor) (s : St β) (h : Inv c out s) : Inv c out (s.run c l) := by
  induction l generalizing s with
  | nil => exact h
  | cons a l ih => exact ih _ (h.step a)

/-- **C153 (result)**: whatever the order of events, a call that returns gives all that the process wrote, in order, and the return code is the expected one, if one is; ProcessFailed is raised with all that the process wrote and its code, which is then not the expected one; TimeoutError only if a timeout was given. -/
theorem C153_result (c : Cfg) (out : List β) (l : List Actor) :
    (∀ r, (({ todo := out } : St β).run c l).main = .ended (.ok r) → r = out ∧ (c.expected = none ∨ c.expected = some c.code)) ∧
    (∀ k r, (({ todo := out } : St β).run c l).main = .ended (.processFailed k r) → r = out ∧ k = c.code ∧ c.expected ≠ none ∧ c.expected ≠ some k) ∧
    ((({ todo := out } : St β).run c l).main = .ended .timeoutError → c.timeout = true) := by
  have h := inv_run c out l _ (inv_init c out)
  exact ⟨h.ok, h.failed, h.timeout⟩

/-- what is left to be done -/
def St.left (s : St β) : Nat :=
  3 * s.todo.length + 2 * s.pipe.length + (if s.exited.isSome then 0 else 1) + (match s.reader with | .wait => 2 | .read => 1 | .done => 0) + (match s.main with | .waiting => 2 | .joining _ => 1 | .ended _ => 0)

theorem step_left (c : Cfg) (s : St β) (a : Actor) : s.step c a = s ∨ (s.step c a).left < s.left := by
  cases a with
  | proc =>
    simp only [St.step, St.proc]
    split
    · exact Or.inl rfl
    · next hx =>
      split
      · exact Or.inr (by simp only [St.left, hx]; simp)
      · next x r ht =>
        split
        · refine Or.inr ?_
          simp only [St.left, ht, List.length_cons, List.length_append, List.length_nil]
          omega
        · exact Or.inl rfl
  | reader =>
    simp only [St.step, St.readNowait]
    split
    · next hr =>
      split
      · refine Or.inr ?_; simp only [St.left, hr]; omega
      · exact Or.inl rfl
    · next hr =>
      split
      · refine Or.inr ?_; simp only [St.left, hr]; omega
      · next x l hp =>
        refine Or.inr ?_
        simp only [St.left, hr, hp, List.length_drop, List.length_cons]
        omega
    · exact Or.inl rfl
  | main =>
    simp only [St.step, St.caller]
    split
    · next hm =>
      split
      · refine Or.inr ?_; simp only [St.left, hm]; omega
      · exact Or.inl rfl
    · next hm =>
      split
      · refine Or.inr ?_; simp only [St.left, hm]; omega
      · exact Or.inl rfl
    · exact Or.inl rfl
  | expire =>
    simp only [St.step, St.expire]
    split
    · next _ hm hx => refine Or.inr ?_; simp only [St.left, hm, hx]; simp; omega
    · exact Or.inl rfl

theorem run_left (c : Cfg) (l : List Actor) (s : St β) : s.run c l = s ∨ (s.run c l).left < s.left := by
  induction l generalizing s with
  | nil => exact Or.inl rfl
  | cons a l ih =>
    have e : s.run c (a :: l) = (s.step c a).run c l := rfl
    rw [e]
    rcases step_left c s a with h | h
    · rw [h]; exact ih s
    · rcases ih (s.step c a) with h' | h'
      · rw [h']; exact Or.inr h
      · exact Or.inr (by omega)

/-- if one of those that act could do something, then something is done -/
theorem round_left (c : Cfg) (l : List Actor) (s : St β) (a : Actor) (ha : a ∈ l) (h : s.step c a ≠ s) : (s.run c l).left < s.left := by
  induction l generalizing s with
  | nil => simp at ha
  | cons b l ih =>
    have e : s.run c (b :: l) = (s.step c b).run c l := rfl
    rw [e]
    rcases step_left c s b with hb | hb
    · rw [hb]
      rcases List.mem_cons.1 ha with rfl | ha
      · exact absurd hb h
      · exact ih s ha h
    · rcases run_left c l (s.step c b) with h' | h'
      · rw [h']; exact hb
      · omega

/-- when the output fits in the pipe, or the process has ended, someone can act until the call ends -/
theorem enabled (c : Cfg) (out : List β) (s : St β) (h : Inv c out s) (hcap : out.length ≤ c.cap ∨ s.exited.isSome) (hm : ∀ o, s.main ≠ .ended o) : ∃ a, a ∈ [Actor.proc, .reader, .main] ∧ s.step c a ≠ s := by
  cases hx : s.exited with
  | none =>
    refine ⟨.proc, by simp, fun he => ?_⟩
    simp only [St.step, St.proc, hx, Option.isSome_none, Bool.false_eq_true, ↓reduceIte] at he
    split at he
    · have := congrArg St.exited he; rw [hx] at this; simp at this
    · next x r ht =>
      have hlen : s.pipe.length < c.cap := by
        have h1 := congrArg List.length h.all
        rw [ht] at h1
        simp at h1
        rcases hcap with h2 | h2
        · omega
        · rw [hx] at h2; simp at h2
      rw [if_pos hlen] at he
      have := congrArg (fun s => s.todo.length) he
      simp [ht] at this
  | some e =>
    cases hr : s.reader with
    | wait =>
      refine ⟨.reader, by simp, fun he => ?_⟩
      simp only [St.step, St.readNowait, hr, hx, Option.isSome_some, ↓reduceIte] at he
      have := congrArg St.reader he
      rw [hr] at this
      simp at this
    | read =>
      refine ⟨.reader, by simp, fun he => ?_⟩
      simp only [St.step, St.readNowait, hr] at he
      have := congrArg St.reader he
      split at this <;> simp [hr] at this
    | done =>
      refine ⟨.main, by simp, fun he => ?_⟩
      simp only [St.step, St.caller, hr, hx, Option.isSome_some, ↓reduceIte] at he
      have := congrArg St.main he
      split at this
      · next hmain => rw [hmain] at this; simp at this
      · next b hmain => rw [hmain] at this; simp at this
      · next o hmain => exact hm o hmain

theorem run_append (c : Cfg) (s : St β) (a b : List Actor) : s.run c (a ++ b) = (s.run c a).run c b := by simp [St.run]

theorem ended_run (c : Cfg) (l : List Actor) (s : St β) (o : Out β) (h : s.main = .ended o) : (s.run c l).main = .ended o := by
  induction l generalizing s with
  | nil => exact h
  | cons a l ih =>
    refine ih _ ?_
    cases a with
    | proc =>
      simp only [St.step, St.proc]
      split
      · exact h
      · split
        · exact h
        · split <;> exact h
    | reader =>
      simp only [St.step, St.readNowait]
      split
      · split <;> exact h
      · split <;> exact h
      · exact h
    | main => simp only [St.step, St.caller, h]
    | expire => simp [St.step, St.expire, h]

/-- rounds in which each of the process, the thread and the caller acts at least once, in any order: the call ends -/
theorem rounds_end (c : Cfg) (out : List β) (rounds : List (List Actor)) (hr : ∀ r ∈ rounds, Actor.proc ∈ r ∧ Actor.reader ∈ r ∧ Actor.main ∈ r) (hcap : out.length ≤ c.cap) (s : St β) (h : Inv c out s) (hl : s.left ≤ rounds.length) : ∃ o, (s.run c rounds.flatten).main = .ended o := by
  induction rounds generalizing s with
  | nil =>
    by_cases hm : ∃ o, s.main = .ended o
    · exact hm
    · obtain ⟨a, ha, hne⟩ := enabled c out s h (Or.inl hcap) (fun o ho => hm ⟨o, ho⟩)
      have := round_left c [a] s a (by simp) hne
      simp at hl
      omega
  | cons r rounds ih =>
    simp only [List.flatten_cons, run_append]
    by_cases hm : ∃ o, s.main = .ended o
    · obtain ⟨o, ho⟩ := hm
      exact ⟨o, ended_run c _ _ o (ended_run c r s o ho)⟩
    · obtain ⟨a, ha, hne⟩ := enabled c out s h (Or.inl hcap) (fun o ho => hm ⟨o, ho⟩)
      have har : a ∈ r := by
        obtain ⟨h1, h2, h3⟩ := hr r (by simp)
        simp only [List.mem_cons, List.not_mem_nil, or_false] at ha
        rcases ha with rfl | rfl | rfl <;> assumption
      have := round_left c r s a har hne
      exact ih (fun r hr' => hr r (by simp [hr'])) _ (inv_run c out r s h) (by simp at hl; omega)

/-- **C153 (ends)**: if the process writes no more than fits in the pipe, the call ends after finitely many rounds in which each party acts, in any order and any number of times; without a timeout it returns all that was written, or raises ProcessFailed exactly if the code is not the expected one. -/
theorem C153_ends (c : Cfg) (out : List β) (hcap : out.length ≤ c.cap) : ∃ n, ∀ rounds : List (List Actor), (∀ r ∈ rounds, Actor.proc ∈ r ∧ Actor.reader ∈ r ∧ Actor.main ∈ r) → n ≤ rounds.length →
    (∃ o, (({ todo := out } : St β).run c rounds.flatten).main = .ended o) ∧
    (c.timeout = false → (c.expected = none ∨ c.expected = some c.code) → (({ todo := out } : St β).run c rounds.flatten).main = .ended (.ok out)) ∧
    (c.timeout = false → (∃ e, c.expected = some e ∧ e ≠ c.code) → (({ todo := out } : St β).run c rounds.flatten).main = .ended (.processFailed c.code out)) := by
  refine ⟨({ todo := out } : St β).left, fun rounds hr hl => ?_⟩
  obtain ⟨o, ho⟩ := rounds_end c out rounds hr hcap _ (inv_init c out) hl
  have h := inv_run c out rounds.flatten _ (inv_init c out)
  refine ⟨⟨o, ho⟩, fun ht he => ?_, fun ht he => ?_⟩
  · cases o with
    | ok r => rw [ho, (h.ok r ho).1]
    | processFailed k r =>
      obtain ⟨_, h2, h3, h4⟩ := h.failed k r ho
      rcases he with he | he
      · exact absurd he h3
      · rw [h2] at h4; exact absurd he h4
    | timeoutError => rw [h.timeout ho] at ht; simp at ht
  · obtain ⟨e, he, hne⟩ := he
    cases o with
    | ok r =>
      rcases (h.ok r ho).2 with h2 | h2
      · rw [he] at h2; simp at h2
      · rw [he] at h2; simp at h2; exact absurd h2 hne
    | processFailed k r =>
      obtain ⟨h1, h2, _, _⟩ := h.failed k r ho
      rw [ho, h1, h2]
    | timeoutError => rw [h.timeout ho] at ht; simp at ht

/-- the call of the examples: three bytes, a pipe of four -/
example : (({ todo := [1, 2, 3] } : St Nat).run { cap := 4, code := 0 } [.proc, .reader, .proc, .main, .proc, .proc, .reader, .main, .reader, .reader, .reader, .main]).main = .ended (.ok [1, 2, 3]) := by decide

/-! ## C154 -/

/-- **C154 (violation), more than fits in the pipe**: nothing is read before the process ends, so if it writes more than fits in the pipe, the call never ends, whatever the order of events; with a timeout it cannot end but with TimeoutError. -/
theorem C154_deadlock_violates (c : Cfg) (out : List β) (h : c.cap < out.length) (l : List Actor) :
    (c.timeout = false → (({ todo := out } : St β).run c l).main = .waiting) ∧ ∀ o, (({ todo := out } : St β).run c l).main = .ended o → o = .timeoutError := by
  suffices ∀ (l : List Actor) (s : St β), (s.got.flatten ++ s.pipe ++ s.todo).length = out.length → s.pipe.length ≤ c.cap → ((s.exited = none ∧ s.got = [] ∧ s.reader = .wait ∧ s.main = .waiting) ∨ (c.timeout = true ∧ s.exited = some .killed ∧ (s.main = .joining true ∨ s.main = .ended .timeoutError))) →
      (c.timeout = false → (s.run c l).main = .waiting) ∧ ∀ o, (s.run c l).main = .ended o → o = .timeoutError from this l _ (by simp) (by simp) (Or.inl ⟨rfl, rfl, rfl, rfl⟩)
  intro l
  induction l with
  | nil =>
    intro s _ _ hs
    rcases hs with ⟨_, _, _, h4⟩ | ⟨h1, _, h3⟩
    · simp [St.run, h4]
    · refine ⟨fun hf => by rw [hf] at h1; simp at h1, fun o ho => ?_⟩
      rcases h3 with h3 | h3
      · simp [St.run, h3] at ho
      · simp [St.run, h3] at ho; exact ho.symm
  | cons a l ih =>
    intro s hlen hcap hs
    have e : s.run c (a :: l) = (s.step c a).run c l := rfl
    rw [e]
    rcases hs with ⟨h1, h2, h3, h4⟩ | ⟨h1, h2, h3⟩
    · cases a with
      | proc =>
        simp only [St.step, St.proc, h1, Option.isSome_none, Bool.false_eq_true, ↓reduceIte]
        split
        · next ht => rw [h2, ht] at hlen; simp at hlen; omega
        · next x r ht =>
          split
          · next hp => exact ih _ (by rw [← hlen, ht]; simp) (by simp; omega) (Or.inl ⟨by first | exact h1 | rfl, h2, by first | exact h3 | rfl, by first | exact h4 | rfl⟩)
          · exact ih _ hlen hcap (Or.inl ⟨by first | exact h1 | rfl, h2, by first | exact h3 | rfl, by first | exact h4 | rfl⟩)
      | reader =>
        simp only [St.step, St.readNowait, h3, h1, Option.isSome_none, Bool.false_eq_true, ↓reduceIte]
        exact ih _ hlen hcap (Or.inl ⟨by first | exact h1 | rfl, h2, by first | exact h3 | rfl, by first | exact h4 | rfl⟩)
      | main =>
        simp only [St.step, St.caller, h4, h1, Option.isSome_none, Bool.false_eq_true, ↓reduceIte]
        exact ih _ hlen hcap (Or.inl ⟨by first | exact h1 | rfl, h2, by first | exact h3 | rfl, by first | exact h4 | rfl⟩)
      | expire =>
        simp only [St.step, St.expire]
        split
        · next hc _ _ => exact ih _ hlen hcap (Or.inr ⟨hc, rfl, Or.inl rfl⟩)
        · exact ih _ hlen hcap (Or.inl ⟨by first | exact h1 | rfl, h2, by first | exact h3 | rfl, by first | exact h4 | rfl⟩)
    · cases a with
      | proc =>
        simp only [St.step, St.proc, h2, Option.isSome_some, ↓reduceIte]
        exact ih _ hlen hcap (Or.inr ⟨h1, by first | exact h2 | rfl, h3⟩)
      | reader =>
        simp only [St.step, St.readNowait, h2, Option.isSome_some, ↓reduceIte]
        split
        · exact ih _ hlen hcap (Or.inr ⟨h1, by first | exact h2 | rfl, h3⟩)
        · split
          · exact ih _ hlen hcap (Or.inr ⟨h1, by first | exact h2 | rfl, h3⟩)
          · refine ih _ ?_ (by simp; omega) (Or.inr ⟨h1, by first | exact h2 | rfl, h3⟩)
            rw [← hlen]
            simp
        · exact ih _ hlen hcap (Or.inr ⟨h1, by first | exact h2 | rfl, h3⟩)
      | main =>
        simp only [St.step, St.caller]
        rcases h3 with h3 | h3
        · simp only [h3]
          split
          · exact ih _ hlen hcap (Or.inr ⟨h1, h2, Or.inr (by simp [St.finish])⟩)
          · exact ih _ hlen hcap (Or.inr ⟨h1, h2, Or.inl h3⟩)
        · simp only [h3]
          exact ih _ hlen hcap (Or.inr ⟨h1, h2, Or.inr h3⟩)
      | expire =>
        have e2 : s.step c .expire = s := by
          simp only [St.step, St.expire]
          split
          · next hx => rw [h2] at hx; simp at hx
          · rfl
        rw [e2]
        exact ih _ hlen hcap (Or.inr ⟨h1, by first | exact h2 | rfl, h3⟩)

/-- **C154 (partial)**: the call ends for every process that writes no more than fits in the pipe. -/
theorem C154_ends_partial (c : Cfg) (out : List β) (hcap : out.length ≤ c.cap) : ∃ n, ∀ rounds : List (List Actor), (∀ r ∈ rounds, Actor.proc ∈ r ∧ Actor.reader ∈ r ∧ Actor.main ∈ r) → n ≤ rounds.length → ∃ o, (({ todo := out } : St β).run c rounds.flatten).main = .ended o := by
  obtain ⟨n, h⟩ := C153_ends c out hcap
  exact ⟨n, fun rounds hr hn => (h rounds hr hn).1⟩

example : (({ todo := [1, 2, 3] } : St Nat).run { cap := 2, code := 0 } [.proc, .proc, .proc, .reader, .main, .proc, .reader]) = { todo := [3], pipe := [1, 2] } := by decide

/-- the decoding of UTF-8, for one and two bytes: `none` where bytes are missing or wrong -/
def utf8 : List Nat → Option (List Nat)
  | [] => some []
  | [b] => if b < 128 then some [b] else none
  | b :: c :: r =>
    if b < 128 then (utf8 (c :: r)).map (b :: ·)
    else if 192 ≤ b ∧ b < 224 ∧ 128 ≤ c ∧ c < 192 then (utf8 r).map (((b - 192) * 64 + (c - 128)) :: ·)
    else none

theorem write_all (c : Cfg) (out pre : List β) (h : pre.length + out.length ≤ c.cap) : ({ todo := out, pipe := pre } : St β).run c (List.replicate out.length .proc) = { todo := [], pipe := pre ++ out } := by
  induction out generalizing pre with
  | nil => simp [St.run]
  | cons x out ih =>
    have e : ({ todo := x :: out, pipe := pre } : St β).run c (List.replicate (x :: out).length .proc) = (({ todo := x :: out, pipe := pre } : St β).step c .proc).run c (List.replicate out.length .proc) := rfl
    have e2 : ({ todo := x :: out, pipe := pre } : St β).step c .proc = { todo := out, pipe := pre ++ [x] } := by
      simp only [List.length_cons] at h
      have : pre.length < c.cap := by omega
      simp [St.step, St.proc, this]
    rw [e, e2, ih (pre ++ [x]) (by simp at h ⊢; omega)]
    simp

theorem utf8_as (n : Nat) (t : List Nat) : utf8 (List.replicate n 97 ++ t) = (utf8 t).map (List.replicate n 97 ++ ·) := by
  induction n with
  | zero => simp
  | succ n ih =>
    cases hl : List.replicate n 97 ++ t with
    | nil =>
      have h0 : t = [] := by simp at hl; exact hl.2
      have hn : n = 0 := by simp at hl; exact hl.1
      subst h0; subst hn
      simp [utf8]
    | cons x r =>
      simp only [List.replicate_succ, List.cons_append, hl]
      rw [utf8, if_pos (by omega), ← hl, ih]
      cases utf8 t <;> simp

/-- **C154 (violation), encoding**: the parts that were read are decoded one by one, so a character that lies across the boundary of two parts is an error, although the process wrote correct text; for instance 2047 letters and an "é". -/
theorem C154_encoding_violates : ∃ (out : List Nat) (l : List Actor), utf8 out = some (List.replicate 2047 97 ++ [233]) ∧
    (({ todo := out } : St Nat).run { cap := 65536, code := 0 } l).main = .ended (.ok out) ∧
    decodeRows utf8 (({ todo := out } : St Nat).run { cap := 65536, code := 0 } l).got = none := by
  obtain ⟨n, hn⟩ : ∃ n : Nat, n = 2047 := ⟨_, rfl⟩
  rw [← hn]
  have hlen : (List.replicate n 97 ++ [195, 169] : List Nat).length = n + 2 := by simp
  have hrun : ({ todo := List.replicate n 97 ++ [195, 169] } : St Nat).run { cap := 65536, code := 0 } (List.replicate (n + 2) .proc ++ [.proc, .reader, .reader, .reader, .reader, .reader, .reader, .main, .main]) =
      { todo := [], pipe := [], exited := some (.self 0), got := [List.replicate n 97 ++ [195], [169]], reader := .done, main := .ended (.ok (List.replicate n 97 ++ [195, 169])) } := by
    rw [run_append]
    have hw := write_all { cap := 65536, code := 0 } (List.replicate n 97 ++ [195, 169]) [] (by simp; omega)
    rw [hlen] at hw
    rw [hw]
    have h1 : 2048 - n = 1 := by omega
    have ht : (List.replicate n 97 ++ [195, 169] : List Nat).take 2048 = List.replicate n 97 ++ [195] := by
      rw [List.take_append, List.take_of_length_le (by simp; omega), List.length_replicate, h1]
      rfl
    have hd : (List.replicate n 97 ++ [195, 169] : List Nat).drop 2048 = [169] := by
      rw [List.drop_append, List.drop_of_length_le (by simp; omega), List.length_replicate, h1]
      rfl
    have hf : (List.replicate n 97 ++ [195, 169] : List Nat) = [List.replicate n 97 ++ [195], [169]].flatten := by simp
    rw [List.nil_append]
    generalize (List.replicate n 97 ++ [195, 169] : List Nat) = out at ht hd hf ⊢
    generalize (List.replicate n 97 ++ [195] : List Nat) = w at ht hf ⊢
    cases out with
    | nil => simp at hd
    | cons x r =>
      simp only [St.run, List.foldl_cons, List.foldl_nil, St.step, St.proc, St.readNowait, St.caller, St.finish, ht, hd, Option.isSome_some, Option.isSome_none, Bool.false_eq_true, ↓reduceIte, List.nil_append, List.take_succ_cons, List.take_nil, List.drop_succ_cons, List.drop_nil, List.cons_append]
      rw [hf]
  refine ⟨List.replicate n 97 ++ [195, 169], (List.replicate (n + 2) .proc ++ [.proc, .reader, .reader, .reader, .reader, .reader, .reader, .main, .main]), ?_, ?_, ?_⟩
  rotate_left 2
  · rw [hrun]
    have h1 : utf8 (List.replicate n 97 ++ [195]) = none := by
      rw [utf8_as]; rfl
    simp only [decodeRows, h1]
  · rw [utf8_as]; rfl
  · rw [hrun]

/-- **C154 (partial), encoding**: for an encoding that can be decoded part by part, as those of one byte for a character, the text is that of all that was written. -/
theorem C154_encoding_partial {γ : Type} (dec : List β → Option (List γ)) (hnil : dec [] = some [])
    (happ : ∀ a b x y, dec a = some x → dec b = some y → dec (a ++ b) = some (x ++ y)) (hpart : ∀ a b x, dec (a ++ b) = some x → (dec a).isSome ∧ (dec b).isSome) (rows : List (List β)) :
    decodeRows dec rows = dec rows.flatten := by
  induction rows with
  | nil => simp [decodeRows, hnil]
  | cons r rs ih =>
    simp only [decodeRows, ih, List.flatten_cons]
    cases h1 : dec r with
    | none =>
      cases h2 : dec (r ++ rs.flatten) with
      | none => rfl
      | some x => have := (hpart _ _ _ h2).1; simp [h1] at this
    | some a =>
      cases h3 : dec rs.flatten with
      | none =>
        cases h2 : dec (r ++ rs.flatten) with
        | none => rfl
        | some x => have := (hpart _ _ _ h2).2; simp [h3] at this
      | some b => exact (happ _ _ _ _ h1 h3).symm

end Verif.Stdout
