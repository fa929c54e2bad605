import Verif.Conc.Monitor
/-!
# Model of PIDFileLock (satella/os/pidlock.py), C45

Processes are numbered by pid; a pid is alive or not, and may be used again by a new process.  Each has one lock object for the one path.  A system call is one step; processes take steps in any order and may die
between any two.  A file has an identity: who has it open can write to it after it was removed from its directory.
-/
namespace Verif.Os
open Verif Conc

/-- what is in the file: nothing yet, a pid, or something else.  (Part of the model of `PIDFileLock`, /repo/satella/os/pidlock.py:8-85.) -/
inductive Content where
  | empty
  | pid (n : Nat)
  | garbage
  deriving DecidableEq, Repr

/-- where a process is in `acquire`, /repo/satella/os/pidlock.py:51-79: about to create the file, to read it, to decide on what it read, to unlink it, to write to the file it made; or outside, holding the lock or not -/
inductive Pc where
  | idle
  | create
  | read
  | decide (d : Content)
  | unlink
  | write (ino : Nat)
  | held
  deriving DecidableEq, Repr

/-- what calls give.  (Part of the model of `PIDFileLock`, /repo/satella/os/pidlock.py:8-85.) -/
inductive Res where
  | acquired
  | locked (pid : Nat)
  | notFound
  | released
  | notAcquired
  deriving DecidableEq, Repr

/-- the file at the path, if there is one: its identity and content; the processes; what the calls gave.  (Part of the model of `PIDFileLock`, /repo/satella/os/pidlock.py:8-85.) -/
structure St where
  file : Option (Nat × Content)
  fresh : Nat
  alive : Nat → Bool
  pcs : Nat → Pc
  rets : List (Nat × Res)

/-- events: a process calls `acquire` or `release`, or takes a step, or dies, or begins.  (Part of the model of `PIDFileLock`, /repo/satella/os/pidlock.py:8-85.) -/
inductive Act where
  | acquire (p : Nat)
  | release (p : Nat)
  | step (p : Nat)
  | die (p : Nat)
  | spawn (p : Nat)
  deriving DecidableEq, Repr

/-- a call returns.  (Part of the model of `PIDFileLock`, /repo/satella/os/pidlock.py:8-85.) -/
def St.ret (s : St) (p : Nat) (pc : Pc) (r : Res) : St := { s with pcs := upd s.pcs p pc, rets := s.rets ++ [(p, r)] }

/-- the process goes on.  (Part of the model of `PIDFileLock`, /repo/satella/os/pidlock.py:8-85.) -/
def St.goto (s : St) (p : Nat) (pc : Pc) : St := { s with pcs := upd s.pcs p pc }

/-- one step in `acquire`, /repo/satella/os/pidlock.py:51-79.  The content is written when the file is closed; if the file was unlinked meanwhile, that changes nothing at the path. -/
def St.stepProc (s : St) (p : Nat) : St :=
  match s.pcs p with
  | .idle => s
  | .held => s
  | .create =>
    match s.file with
    | none => { s with file := some (s.fresh, .empty), fresh := s.fresh + 1, pcs := upd s.pcs p (.write s.fresh) }
    | some _ => s.goto p .read
  | .read =>
    match s.file with
    | none => s.ret p .idle .notFound
    | some (_, d) => s.goto p (.decide d)
  | .decide (.pid n) => if s.alive n then s.ret p .idle (.locked n) else s.goto p .unlink
  | .decide _ => s.goto p .unlink
  | .unlink =>
    match s.file with
    | none => s.ret p .idle .notFound
    | some _ => { s with file := none, pcs := upd s.pcs p .create }
  | .write ino =>
    St.ret { s with file := s.file.map (fun f => if f.1 = ino then (ino, .pid p) else f) } p .held .acquired

/-- `release()`, /repo/satella/os/pidlock.py:41-49 -/
def St.doRelease (s : St) (p : Nat) : St :=
  match s.pcs p with
  | .held =>
    match s.file with
    | none => s.ret p .held .notFound
    | some _ => St.ret { s with file := none } p .idle .released
  | .idle => s.ret p .idle .notAcquired
  | _ => s

/-- an event.  A holder that calls `acquire` again is not modelled.  (Part of the model of `PIDFileLock`, /repo/satella/os/pidlock.py:8-85.) -/
def St.step (s : St) : Act → St
  | .acquire p => if s.alive p = true ∧ s.pcs p = .idle then s.goto p .create else s
  | .release p => if s.alive p then s.doRelease p else s
  | .step p => if s.alive p then s.stepProc p else s
  | .die p => { s with alive := upd s.alive p false, pcs := upd s.pcs p .idle }
  | .spawn p => if s.alive p then s else { s with alive := upd s.alive p true, pcs := upd s.pcs p .idle }

/-- a schedule.  (Part of the model of `PIDFileLock`, /repo/satella/os/pidlock.py:8-85.) -/
def St.run (s : St) (sched : List Act) : St := sched.foldl St.step s

/-- at the start the file may be anything, nobody holds anything.  (Part of the model of `PIDFileLock`, /repo/satella/os/pidlock.py:8-85.) -/
def St.init (file : Option Content) (alive : Nat → Bool) : St := ⟨file.map (fun c => (0, c)), 1, alive, fun _ => .idle, []⟩

/-! ## Specification -/

/-- a live process that holds the lock -/
def St.holds (s : St) (p : Nat) : Prop := s.alive p = true ∧ s.pcs p = .held

/-- it is in the middle of `acquire` -/
def Pc.busy : Pc → Bool
  | .idle => false
  | .held => false
  | _ => true

/-- no process begins to acquire while another is doing so (one that died while doing so is not) -/
def OneAtATime : St → List Act → Prop
  | _, [] => True
  | s, a :: l => (∀ p, a = .acquire p → ∀ q, (s.pcs q).busy = false) ∧ OneAtATime (s.step a) l

/-! ## Proofs -/

/-- invariant -/
structure Inv (s : St) : Prop where
  dead : ∀ p, s.alive p = false → s.pcs p = .idle
  one : ∀ p q, (s.pcs p).busy = true → (s.pcs q).busy = true → p = q
  held : ∀ p, s.pcs p = .held → ∃ ino, s.file = some (ino, .pid p)
  decide : ∀ p d h, s.pcs p = .decide d → s.pcs h = .held → d = .pid h
  unlink : ∀ p h, s.pcs p = .unlink → s.pcs h ≠ .held
  write : ∀ p ino, s.pcs p = .write ino → (∃ c, s.file = some (ino, c)) ∧ ∀ h, s.pcs h ≠ .held

theorem upd_self {α : Type} (f : Nat → α) (p : Nat) (x : α) : upd f p x p = x := by simp [upd]
theorem upd_other {α : Type} (f : Nat → α) {p q : Nat} (x : α) (h : q ≠ p) : upd f p x q = f q := by simp [upd, h]

/-- a process gets to a place where it is in `acquire` but has neither read nor made the file, or outside -/
theorem inv_goto {s : St} (h : Inv s) (p : Nat) (pc : Pc) (rets : List (Nat × Res)) (hp : s.alive p = true) (h0 : pc ≠ .held) (hb : pc.busy = true → ∀ q, q ≠ p → (s.pcs q).busy = false)
    (hd : ∀ d, pc = .decide d → ∀ q, s.pcs q = .held → d = .pid q) (hu : pc = .unlink → ∀ q, s.pcs q ≠ .held) (hw : ∀ i, pc ≠ .write i) :
    Inv { s with pcs := upd s.pcs p pc, rets := rets } where
  dead := by
    intro q hq
    dsimp only at hq ⊢
    by_cases e : q = p
    · subst e; rw [hp] at hq; cases hq
    · rw [upd_other _ _ e]; exact h.dead q hq
  one := by
    intro q r hq hr
    dsimp only at hq hr
    by_cases eq : q = p <;> by_cases er : r = p
    · rw [eq, er]
    · subst eq; rw [upd_self] at hq; rw [upd_other _ _ er, hb hq r er] at hr; cases hr
    · subst er; rw [upd_self] at hr; rw [upd_other _ _ eq, hb hr q eq] at hq; cases hq
    · rw [upd_other _ _ eq] at hq; rw [upd_other _ _ er] at hr; exact h.one q r hq hr
  held := by
    intro q hq
    dsimp only at hq
    by_cases e : q = p
    · subst e; rw [upd_self] at hq; exact absurd hq h0
    · rw [upd_other _ _ e] at hq; exact h.held q hq
  decide := by
    intro q d r hq hr
    dsimp only at hq hr
    have er : r ≠ p := by rintro rfl; rw [upd_self] at hr; exact h0 hr
    rw [upd_other _ _ er] at hr
    by_cases e : q = p
    · subst e; rw [upd_self] at hq; exact hd d hq r hr
    · rw [upd_other _ _ e] at hq; exact h.decide q d r hq hr
  unlink := by
    intro q r hq hr
    dsimp only at hq hr
    have er : r ≠ p := by rintro rfl; rw [upd_self] at hr; exact h0 hr
    rw [upd_other _ _ er] at hr
    by_cases e : q = p
    · subst e; rw [upd_self] at hq; exact hu hq r hr
    · rw [upd_other _ _ e] at hq; exact h.unlink q r hq hr
  write := by
    intro q i hq
    dsimp only at hq
    by_cases e : q = p
    · subst e; rw [upd_self] at hq; exact absurd hq (hw i)
    · rw [upd_other _ _ e] at hq
      refine ⟨(h.write q i hq).1, fun r hr => ?_⟩
      dsimp only at hr
      have er : r ≠ p := by rintro rfl; rw [upd_self] at hr; exact h0 hr
      rw [upd_other _ _ er] at hr
      exact (h.write q i hq).2 r hr

/-- a process is no longer where it was, nobody else is concerned -/
theorem inv_idle {s : St} (h : Inv s) (p : Nat) (alive : Nat → Bool) (rets : List (Nat × Res)) (ha : ∀ q, q ≠ p → alive q = s.alive q) :
    Inv { s with pcs := upd s.pcs p .idle, alive := alive, rets := rets } where
  dead := by
    intro q hq
    dsimp only at hq ⊢
    by_cases e : q = p
    · subst e; rw [upd_self]
    · rw [upd_other _ _ e]; rw [ha q e] at hq; exact h.dead q hq
  one := by
    intro q r hq hr
    dsimp only at hq hr
    by_cases eq : q = p
    · subst eq; rw [upd_self] at hq; cases hq
    by_cases er : r = p
    · subst er; rw [upd_self] at hr; cases hr
    rw [upd_other _ _ eq] at hq; rw [upd_other _ _ er] at hr; exact h.one q r hq hr
  held := by
    intro q hq
    dsimp only at hq
    by_cases e : q = p
    · subst e; rw [upd_self] at hq; cases hq
    · rw [upd_other _ _ e] at hq; exact h.held q hq
  decide := by
    intro q d r hq hr
    dsimp only at hq hr
    by_cases er : r = p
    · subst er; rw [upd_self] at hr; cases hr
    by_cases e : q = p
    · subst e; rw [upd_self] at hq; cases hq
    rw [upd_other _ _ er] at hr
    rw [upd_other _ _ e] at hq; exact h.decide q d r hq hr
  unlink := by
    intro q r hq hr
    dsimp only at hq hr
    by_cases er : r = p
    · subst er; rw [upd_self] at hr; cases hr
    by_cases e : q = p
    · subst e; rw [upd_self] at hq; cases hq
    rw [upd_other _ _ er] at hr
    rw [upd_other _ _ e] at hq; exact h.unlink q r hq hr
  write := by
    intro q i hq
    dsimp only at hq
    by_cases e : q = p
    · subst e; rw [upd_self] at hq; cases hq
    rw [upd_other _ _ e] at hq
    refine ⟨(h.write q i hq).1, fun r hr => ?_⟩
    dsimp only at hr
    by_cases er : r = p
    · subst er; rw [upd_self] at hr; cases hr
    rw [upd_other _ _ er] at hr
    exact (h.write q i hq).2 r hr

/-- the file goes while nobody, or only the process that then has it no more, holds the lock -/
theorem inv_noFile {s : St} (h : Inv s) (p : Nat) (pc : Pc) (rets : List (Nat × Res)) (hp : s.alive p = true) (hpc : pc = .idle ∨ pc = .create) (hb : (s.pcs p).busy = true ∨ pc = .idle)
    (hh : ∀ q, s.pcs q = .held → q = p) (hw : ∀ q i, s.pcs q = .write i → q = p) : Inv { s with file := none, pcs := upd s.pcs p pc, rets := rets } where
  dead := by
    intro q hq
    dsimp only at hq ⊢
    by_cases e : q = p
    · subst e; rw [hp] at hq; cases hq
    · rw [upd_other _ _ e]; exact h.dead q hq
  one := by
    intro q r hq hr
    dsimp only at hq hr
    have key : ∀ x, (upd s.pcs p pc x).busy = true → (s.pcs x).busy = true := by
      intro x hx
      by_cases e : x = p
      · subst e
        rw [upd_self] at hx
        rcases hb with hb | hb
        · exact hb
        · rw [hb] at hx; cases hx
      · rwa [upd_other _ _ e] at hx
    exact h.one q r (key q hq) (key r hr)
  held := by
    intro q hq
    dsimp only at hq
    by_cases e : q = p
    · subst e; rw [upd_self] at hq; rcases hpc with e | e <;> rw [e] at hq <;> cases hq
    · rw [upd_other _ _ e] at hq; exact absurd (hh q hq) e
  decide := by
    intro q d r hq hr
    dsimp only at hq hr
    by_cases e : r = p
    · subst e; rw [upd_self] at hr; rcases hpc with e | e <;> rw [e] at hr <;> cases hr
    · rw [upd_other _ _ e] at hr; exact absurd (hh r hr) e
  unlink := by
    intro q r hq hr
    dsimp only at hq hr
    by_cases e : r = p
    · subst e; rw [upd_self] at hr; rcases hpc with e | e <;> rw [e] at hr <;> cases hr
    · rw [upd_other _ _ e] at hr; exact absurd (hh r hr) e
  write := by
    intro q i hq
    dsimp only at hq
    by_cases e : q = p
    · subst e; rw [upd_self] at hq; rcases hpc with e | e <;> rw [e] at hq <;> cases hq
    · rw [upd_other _ _ e] at hq; exact absurd (hw q i hq) e

theorem inv_step (s : St) (a : Act) (hg : ∀ p, a = .acquire p → ∀ q, (s.pcs q).busy = false) (h : Inv s) : Inv (s.step a) := by
  have alone : ∀ p, (s.pcs p).busy = true → ∀ q, q ≠ p → (s.pcs q).busy = false := by
    intro p hp q hq
    cases hb : (s.pcs q).busy with
    | false => rfl
    | true => exact absurd (h.one q p hb hp) hq
  cases a with
  | die p => exact inv_idle h p _ s.rets (fun q hq => upd_other _ _ hq)
  | spawn p =>
    simp only [St.step]
    split
    · exact h
    · exact inv_idle h p _ s.rets (fun q hq => upd_other _ _ hq)
  | acquire p =>
    simp only [St.step]
    split
    · rename_i hp
      exact inv_goto h p .create s.rets hp.1 (by simp) (fun _ q _ => hg p rfl q) (by simp) (by simp) (by simp)
    · exact h
  | release p =>
    simp only [St.step]
    split
    · rename_i hp
      unfold St.doRelease
      split
      · rename_i hpc
        obtain ⟨ino, hf⟩ := h.held p hpc
        rw [hf]
        refine inv_noFile h p .idle _ hp (Or.inl rfl) (Or.inr rfl) ?_ ?_
        · intro q hq
          obtain ⟨ino', hf'⟩ := h.held q hq
          rw [hf] at hf'
          cases hf'
          rfl
        · intro q i hq
          exact absurd hpc ((h.write q i hq).2 p)
      · exact inv_idle h p s.alive _ (fun _ _ => rfl)
      · exact h
    · exact h
  | step p =>
    simp only [St.step]
    split
    · rename_i hp
      unfold St.stepProc
      split
      · exact h
      · exact h
      · rename_i hpc
        split
        · rename_i hf
          have nh : ∀ q, s.pcs q ≠ .held := by
            intro q hq
            obtain ⟨ino, hf'⟩ := h.held q hq
            rw [hf] at hf'
            cases hf'
          have al := alone p (by rw [hpc]; rfl)
          have nh' : ∀ q, upd s.pcs p (.write s.fresh) q ≠ .held := by
            intro q hq
            by_cases e : q = p
            · subst e; rw [upd_self] at hq; cases hq
            · rw [upd_other _ _ e] at hq; exact nh q hq
          have onlyP : ∀ q, (upd s.pcs p (.write s.fresh) q).busy = true → q = p := by
            intro q hq
            by_cases e : q = p
            · exact e
            · rw [upd_other _ _ e, al q e] at hq; cases hq
          exact {
            dead := by
              intro q hq
              dsimp only at hq ⊢
              by_cases e : q = p
              · subst e; rw [hp] at hq; cases hq
              · rw [upd_other _ _ e]; exact h.dead q hq
            one := fun q r hq hr => (onlyP q hq).trans (onlyP r hr).symm
            held := fun q hq => absurd hq (nh' q)
            decide := fun q d r _ hr => absurd hr (nh' r)
            unlink := fun q r _ => nh' r
            write := by
              intro q i hq
              dsimp only at hq
              have e := onlyP q (by rw [hq]; rfl)
              subst e
              rw [upd_self] at hq
              cases hq
              exact ⟨⟨_, rfl⟩, nh'⟩ }
        · exact inv_goto h p .read s.rets hp (by simp) (fun _ => alone p (by rw [hpc]; rfl)) (by simp) (by simp) (by simp)
      · rename_i hpc
        split
        · exact inv_idle h p s.alive _ (fun _ _ => rfl)
        · rename_i ino d hf
          refine inv_goto h p (.decide d) s.rets hp (by simp) (fun _ => alone p (by rw [hpc]; rfl)) ?_ (by simp) (by simp)
          intro d' hd' q hq
          cases hd'
          obtain ⟨ino', hf'⟩ := h.held q hq
          rw [hf] at hf'
          cases hf'
          rfl
      · rename_i n hpc
        split
        · exact inv_idle h p s.alive _ (fun _ _ => rfl)
        · rename_i hn
          refine inv_goto h p .unlink s.rets hp (by simp) (fun _ => alone p (by rw [hpc]; rfl)) (by simp) ?_ (by simp)
          intro _ q hq
          have := h.decide p _ q hpc hq
          cases this
          have hd := h.dead n (by simpa using hn)
          rw [hd] at hq
          cases hq
      · rename_i d hd hpc
        refine inv_goto h p .unlink s.rets hp (by simp) (fun _ => alone p (by rw [hpc]; rfl)) (by simp) ?_ (by simp)
        intro _ q hq
        have := h.decide p _ q hpc hq
        exact hd q this
      · rename_i hpc
        split
        · exact inv_idle h p s.alive _ (fun _ _ => rfl)
        · refine inv_noFile h p .create s.rets hp (Or.inr rfl) (Or.inl (by rw [hpc]; rfl)) (fun q hq => absurd hq (h.unlink p q hpc)) ?_
          intro q i hq
          exact h.one q p (by rw [hq]; rfl) (by rw [hpc]; rfl)
      · rename_i ino hpc
        obtain ⟨⟨c, hf⟩, nh⟩ := h.write p ino hpc
        have al := alone p (by rw [hpc]; rfl)
        have idle : ∀ q, (upd s.pcs p .held q).busy = false := by
          intro q
          by_cases e : q = p
          · subst e; rw [upd_self]; rfl
          · rw [upd_other _ _ e]; exact al q e
        exact {
          dead := by
            intro q hq
            simp only [St.ret] at hq ⊢
            by_cases e : q = p
            · subst e; rw [hp] at hq; cases hq
            · rw [upd_other _ _ e]; exact h.dead q hq
          one := by
            intro q r hq
            have := idle q
            simp only [St.ret] at hq
            rw [hq] at this
            cases this
          held := by
            intro q hq
            simp only [St.ret] at hq ⊢
            by_cases e : q = p
            · subst e; rw [hf]; exact ⟨ino, by simp⟩
            · rw [upd_other _ _ e] at hq; exact absurd hq (nh q)
          decide := by
            intro q d r hq
            have := idle q
            simp only [St.ret] at hq
            rw [hq] at this
            cases this
          unlink := by
            intro q r hq
            have := idle q
            simp only [St.ret] at hq
            rw [hq] at this
            cases this
          write := by
            intro q i hq
            have := idle q
            simp only [St.ret] at hq
            rw [hq] at this
            cases this }
    · exact h

theorem inv_init (file : Option Content) (alive : Nat → Bool) : Inv (St.init file alive) where
  dead := fun _ _ => rfl
  one := fun p q h => by simp [St.init, Pc.busy] at h
  held := fun p h => by simp [St.init] at h
  decide := fun p d q h => by simp [St.init] at h
  unlink := fun p q h => by simp [St.init] at h
  write := fun p i h => by simp [St.init] at h

theorem inv_run (s : St) (sched : List Act) (hg : OneAtATime s sched) (h : Inv s) : Inv (s.run sched) := by
  induction sched generalizing s with
  | nil => exact h
  | cons a l ih => exact ih _ hg.2 (inv_step s a hg.1 h)

/-- **C45, mutual exclusion** (partial: no process begins to acquire while another is in the middle of it). Whatever the file was at first, whoever lives, dies at any point or begins, whoever releases when: at every moment at
most one live process holds the lock. -/
theorem C45_exclusive_partial (file : Option Content) (alive : Nat → Bool) (sched : List Act) (hg : OneAtATime (St.init file alive) sched) (p q : Nat)
    (hp : ((St.init file alive).run sched).holds p) (hq : ((St.init file alive).run sched).holds q) : p = q := by
  have h := inv_run _ sched hg (inv_init file alive)
  obtain ⟨i, h1⟩ := h.held p hp.2
  obtain ⟨j, h2⟩ := h.held q hq.2
  rw [h1] at h2
  cases h2
  rfl

/-- **C45, violated by two acquiring at once**: between the creation of the file and the writing of the pid the file is empty; another process takes that for garbage and removes it. Both hold the lock. -/
theorem C45_two_holders_violates : ∃ sched, ((St.init none (fun _ => true)).run sched).holds 1 ∧ ((St.init none (fun _ => true)).run sched).holds 2 :=
  ⟨[.acquire 1, .step 1, .acquire 2, .step 2, .step 2, .step 2, .step 2, .step 2, .step 2, .step 1], by unfold St.holds; decide +kernel⟩

/-- **C45, takeover.** In whatever state, if the file is missing, empty, garbage, or names a dead process, a process that acquires without interference gets the lock. -/
theorem C45_takeover (s : St) (p : Nat) (ha : s.alive p = true) (hi : s.pcs p = .idle) (hf : ∀ i n, s.file = some (i, .pid n) → s.alive n = false) :
    ∃ k, (s.run (.acquire p :: List.replicate k (.step p))).holds p ∧ (s.run (.acquire p :: List.replicate k (.step p))).rets = s.rets ++ [(p, .acquired)] ∧
      ∃ i, (s.run (.acquire p :: List.replicate k (.step p))).file = some (i, .pid p) := by
  obtain ⟨file, fresh, alive, pcs, rets⟩ := s
  dsimp only at ha hi hf
  cases file with
  | none => exact ⟨2, by simp [St.run, List.replicate, St.step, St.stepProc, St.goto, St.ret, St.holds, upd, ha, hi]⟩
  | some f =>
    obtain ⟨i, d⟩ := f
    cases d with
    | empty => exact ⟨6, by simp [St.run, List.replicate, St.step, St.stepProc, St.goto, St.ret, St.holds, upd, ha, hi]⟩
    | garbage => exact ⟨6, by simp [St.run, List.replicate, St.step, St.stepProc, St.goto, St.ret, St.holds, upd, ha, hi]⟩
    | pid n =>
      have hn := hf i n rfl
      exact ⟨6, by simp [St.run, List.replicate, St.step, St.stepProc, St.goto, St.ret, St.holds, upd, ha, hi, hn]⟩

/-- **C45, held.** In whatever state, if the file names a live process, a process that acquires without interference is told so, and the file stays. -/
theorem C45_locked (s : St) (p i n : Nat) (ha : s.alive p = true) (hi : s.pcs p = .idle) (hf : s.file = some (i, .pid n)) (hn : s.alive n = true) :
    ∃ k, (s.run (.acquire p :: List.replicate k (.step p))).rets = s.rets ++ [(p, .locked n)] ∧ (s.run (.acquire p :: List.replicate k (.step p))).file = s.file ∧
      (s.run (.acquire p :: List.replicate k (.step p))).pcs p = .idle := by
  obtain ⟨file, fresh, alive, pcs, rets⟩ := s
  dsimp only at ha hi hf hn
  subst hf
  exact ⟨3, by simp [St.run, List.replicate, St.step, St.stepProc, St.goto, St.ret, upd, ha, hi, hn]⟩

/-- **C45, release** (partial: as for mutual exclusion). Whatever happened before, a holder's `release` succeeds, the lock is free afterwards, and any live process that then acquires without interference gets it. -/
theorem C45_release_partial (file : Option Content) (alive : Nat → Bool) (sched : List Act) (hg : OneAtATime (St.init file alive) sched) (p q : Nat)
    (hp : ((St.init file alive).run sched).holds p) (ha : ((St.init file alive).run sched).alive q = true) (hq : ((St.init file alive).run sched).pcs q = .idle ∨ q = p) :
    (((St.init file alive).run sched).step (.release p)).rets = ((St.init file alive).run sched).rets ++ [(p, .released)] ∧ (((St.init file alive).run sched).step (.release p)).file = none ∧
      ∃ k, ((((St.init file alive).run sched).step (.release p)).run (.acquire q :: List.replicate k (.step q))).holds q := by
  have h := inv_run _ sched hg (inv_init file alive)
  generalize (St.init file alive).run sched = s at hp ha hq h
  obtain ⟨i, h1⟩ := h.held p hp.2
  have hs : s.step (.release p) = St.ret { s with file := none } p .idle .released := by
    simp [St.step, hp.1, St.doRelease, hp.2, h1]
  rw [hs]
  refine ⟨rfl, rfl, ?_⟩
  obtain ⟨k, h2, _⟩ := C45_takeover (St.ret { s with file := none } p .idle .released) q ha (by
    simp only [St.ret]
    by_cases e : q = p
    · subst e; exact upd_self _ _ _
    · rw [upd_other _ _ e]; exact hq.resolve_right e) (by intro j n hj; simp [St.ret] at hj)
  exact ⟨k, h2⟩

/-- **C45, violated: the pid is used again.** If a process died holding the lock and the process that now has its pid is the one that wants the lock (as pid 1 in a container always is), it is told that the lock is held, by itself;
however often it tries. -/
theorem C45_own_pid_violates : ∃ sched, (1, Res.locked 1) ∈ ((St.init none (fun _ => true)).run sched).rets ∧ ∀ p, ¬ ((St.init none (fun _ => true)).run sched).holds p := by
  refine ⟨[.acquire 1, .step 1, .step 1, .die 1, .spawn 1, .acquire 1, .step 1, .step 1, .step 1], by decide +kernel, ?_⟩
  intro p hp
  have h2 := hp.2
  simp [St.init, St.run, St.step, St.stepProc, St.goto, St.ret, upd] at h2
  by_cases e : p = 1 <;> simp [e] at h2

/-- **C45, violated: the lock is released at the wrong moment.** A process that finds the file there, and gone when it reads it, raises FileNotFoundError instead of getting the free lock; acquires do not overlap. -/
theorem C45_not_found_violates : ∃ sched, OneAtATime (St.init none (fun _ => true)) sched ∧ (2, Res.notFound) ∈ ((St.init none (fun _ => true)).run sched).rets := by
  refine ⟨[.acquire 1, .step 1, .step 1, .acquire 2, .step 2, .release 1, .step 2], ?_, by decide +kernel⟩
  simp [OneAtATime, St.init, St.step, St.stepProc, St.goto, St.ret, St.doRelease, upd, Pc.busy]
  intro q
  by_cases e : q = 1 <;> simp [e]

/-! Concrete cases. -/

/-- 1 dies in the middle of acquiring; 2 takes the lock over and releases it; 3 gets it, 4 does not -/
def sched0 : List Act := [.acquire 1, .step 1, .die 1, .acquire 2, .step 2, .step 2, .step 2, .step 2, .step 2, .step 2, .release 2, .acquire 3, .step 3, .step 3, .acquire 4, .step 4, .step 4, .step 4]
example : ((St.init (some .garbage) (fun _ => true)).run (.acquire 5 :: List.replicate 6 (.step 5))).rets = [(5, .acquired)] := by decide +kernel
example : ((St.init none (fun _ => true)).run sched0).rets = [(2, .acquired), (2, .released), (3, .acquired), (4, .locked 3)] ∧ ((St.init none (fun _ => true)).run sched0).pcs 3 = .held := by decide +kernel
example : OneAtATime (St.init none (fun _ => true)) sched0 := by
  simp [OneAtATime, sched0, St.init, St.step, St.stepProc, St.goto, St.ret, St.doRelease, upd, Pc.busy]
  refine ⟨?_, ?_, ?_⟩ <;> (intro q; repeat' split) <;> simp_all

end Verif.Os
