/-!
# Model of jump_to_directory (satella/files.py), C76

Directories are numbers (what `os.getcwd()` gives).  A program is a tree of blocks.  Not modelled: directories that disappear, and other threads, which share the working directory.
-/
namespace Verif.Files.Jump

/-- a program that uses `jump_to_directory` objects.  (Part of the model of `jump_to_directory`, /repo/satella/files.py:41-67.) -/
inductive Prog where
  | skip
  /-- the program itself changes the directory -/
  | chdir (d : Nat)
  /-- an exception -/
  | raise
  | seq (a b : Prog)
  /-- `with objects[o]: body` -/
  | jump (o : Nat) (body : Prog)
  deriving Repr

/-- the working directory and `prev_path` of the objects.  (Part of the model of `jump_to_directory`, /repo/satella/files.py:41-67.) -/
structure St where
  cwd : Nat
  prev : Nat → Option Nat

/-- assignment to `prev_path`.  (Part of the model of `jump_to_directory`, /repo/satella/files.py:41-67.) -/
def setPrev (f : Nat → Option Nat) (o d : Nat) : Nat → Option Nat := fun x => if x = o then some d else f x

/-- `__enter__`, /repo/satella/files.py:59-62 -/
def enter (path : Nat → Nat) (o : Nat) (s : St) : St := ⟨path o, setPrev s.prev o s.cwd⟩

/-- `__exit__`, /repo/satella/files.py:64-67; `none` if the assertion fails -/
def leave (o : Nat) (s : St) : Option St :=
  match s.prev o with
  | some d => some { s with cwd := d }
  | none => none

/-- Run a program; the second component tells whether an exception is on its way, `none` that the assertion failed.  (Part of the model of `jump_to_directory`, /repo/satella/files.py:41-67.) -/
def run (path : Nat → Nat) : Prog → St → Option (St × Bool)
  | .skip, s => some (s, false)
  | .chdir d, s => some ({ s with cwd := d }, false)
  | .raise, s => some (s, true)
  | .seq a b, s =>
    match run path a s with
    | some (s', false) => run path b s'
    | r => r
  | .jump o body, s =>
    match run path body (enter path o s) with
    | some (s', x) => (leave o s').map (fun t => (t, x))
    | none => none

/-! ## Specification -/

/-- the object is used in the program -/
def Uses (o : Nat) : Prog → Prop
  | .seq a b => Uses o a ∨ Uses o b
  | .jump o' body => o = o' ∨ Uses o body
  | _ => False

/-- no object is used inside its own block -/
def Proper : Prog → Prop
  | .seq a b => Proper a ∧ Proper b
  | .jump o body => ¬ Uses o body ∧ Proper body
  | _ => True

/-- the program may change the directory outside of blocks -/
def changes : Prog → Bool
  | .chdir _ => true
  | .seq a b => changes a || changes b
  | _ => false

/-- the program may raise -/
def raises : Prog → Bool
  | .raise => true
  | .seq a b => raises a || raises b
  | .jump _ body => raises body
  | _ => false

/-! ## Proofs -/

theorem run_prev (path : Nat → Nat) (p : Prog) (s s' : St) (x : Bool) (h : run path p s = some (s', x)) (o : Nat) (ho : ¬ Uses o p) : s'.prev o = s.prev o := by
  induction p generalizing s s' x with
  | skip => cases h; rfl
  | chdir d => cases h; rfl
  | raise => cases h; rfl
  | seq a b iha ihb =>
    simp only [Uses, not_or] at ho
    unfold run at h
    split at h
    · rename_i s1 h1
      rw [ihb _ _ _ h ho.2, iha _ _ _ h1 ho.1]
    · exact iha _ _ _ h ho.1
  | jump o' body ih =>
    simp only [Uses, not_or] at ho
    unfold run at h
    split at h
    · rename_i s1 x1 h1
      rw [Option.map_eq_some_iff] at h
      obtain ⟨t, ht, e⟩ := h
      cases e
      have hp := ih _ _ _ h1 ho.2
      unfold leave at ht
      split at ht
      · cases ht
        rw [hp]
        simp [enter, setPrev, ho.1]
      · cases ht
    · cases h

theorem jump_restores (path : Nat → Nat) (o : Nat) (body : Prog) (ho : ¬ Uses o body) (s s1 : St) (x : Bool) (h : run path body (enter path o s) = some (s1, x)) :
    run path (.jump o body) s = some ({ s1 with cwd := s.cwd }, x) := by
  have hp := run_prev path body _ _ _ h o ho
  unfold run
  rw [h]
  simp only
  unfold leave
  rw [hp]
  simp [enter, setPrev]

/-- **C76, programs do not fail** (partial: no object is used inside its own block): the assertion in `__exit__` holds. -/
theorem C76_runs_partial (path : Nat → Nat) (p : Prog) (hp : Proper p) (s : St) : ∃ s' x, run path p s = some (s', x) := by
  induction p generalizing s with
  | skip => exact ⟨_, _, rfl⟩
  | chdir d => exact ⟨_, _, rfl⟩
  | raise => exact ⟨_, _, rfl⟩
  | seq a b iha ihb =>
    obtain ⟨s1, x1, h1⟩ := iha hp.1 s
    unfold run
    rw [h1]
    cases x1 with
    | false => exact ihb hp.2 s1
    | true => exact ⟨s1, true, rfl⟩
  | jump o body ih =>
    obtain ⟨s1, x1, h1⟩ := ih hp.2 (enter path o s)
    exact ⟨_, x1, jump_restores path o body hp.1 s s1 x1 h1⟩

/-- **C76** (partial: no object is used inside its own block). The body runs in the directory of the object, and when the block is left, with an exception or without one, and whatever the body does, the working directory is the one from before. -/
theorem C76_restored_partial (path : Nat → Nat) (o : Nat) (body : Prog) (hp : Proper (.jump o body)) (s s' : St) (x : Bool) (h : run path (.jump o body) s = some (s', x)) :
    s'.cwd = s.cwd ∧ (enter path o s).cwd = path o ∧ ∃ s1, run path body (enter path o s) = some (s1, x) := by
  obtain ⟨s1, x1, h1⟩ := C76_runs_partial path body hp.2 (enter path o s)
  have := jump_restores path o body hp.1 s s1 x1 h1
  rw [this] at h
  cases h
  exact ⟨rfl, rfl, s1, h1⟩

/-- **C76, whole programs** (partial, as above): a program that itself changes the directory only inside of blocks ends where it began. -/
theorem C76_program_partial (path : Nat → Nat) (p : Prog) (hp : Proper p) (hc : changes p = false) (s s' : St) (x : Bool) (h : run path p s = some (s', x)) : s'.cwd = s.cwd := by
  induction p generalizing s s' x with
  | skip => cases h; rfl
  | chdir d => cases hc
  | raise => cases h; rfl
  | seq a b iha ihb =>
    simp only [changes, Bool.or_eq_false_iff] at hc
    unfold run at h
    split at h
    · rename_i s1 h1
      rw [ihb hp.2 hc.2 _ _ _ h, iha hp.1 hc.1 _ _ _ h1]
    · exact iha hp.1 hc.1 _ _ _ h
  | jump o body _ => exact (C76_restored_partial path o body hp s s' x h).1

/-- **C76, exceptions** (partial, as above): entering and leaving blocks adds no exceptions. -/
theorem C76_no_exceptions_partial (path : Nat → Nat) (p : Prog) (hp : Proper p) (hr : raises p = false) (s : St) : ∃ s', run path p s = some (s', false) := by
  induction p generalizing s with
  | skip => exact ⟨_, rfl⟩
  | chdir d => exact ⟨_, rfl⟩
  | raise => cases hr
  | seq a b iha ihb =>
    simp only [raises, Bool.or_eq_false_iff] at hr
    obtain ⟨s1, h1⟩ := iha hp.1 hr.1 s
    unfold run
    rw [h1]
    exact ihb hp.2 hr.2 s1
  | jump o body ih =>
    obtain ⟨s1, h1⟩ := ih hp.2 hr (enter path o s)
    exact ⟨_, jump_restores path o body hp.1 s s1 false h1⟩

/-- **C76, violated by an object that is used inside its own block**: afterwards the working directory is the object's, not the one from before. -/
theorem C76_nested_violates (path : Nat → Nat) (o : Nat) (s : St) : ∃ s', run path (.jump o (.jump o .skip)) s = some (s', false) ∧ s'.cwd = path o := by
  refine ⟨⟨path o, setPrev (setPrev s.prev o s.cwd) o (path o)⟩, ?_, rfl⟩
  simp [run, enter, leave, setPrev]

/-! Cases that meet the hypotheses -/

example : Proper (.jump 1 (.seq (.chdir 9) (.jump 2 .raise))) ∧ changes (.jump 1 (.seq (.chdir 9) (.jump 2 .raise))) = false := by simp [Proper, Uses, changes]
example : (run (fun o => o + 10) (.jump 1 (.seq (.chdir 9) (.jump 2 .raise))) ⟨3, fun _ => none⟩).map (fun r => (r.1.cwd, r.2)) = some (3, true) := by decide
example : Proper (.jump 1 (.seq (.chdir 9) (.jump 2 .skip))) ∧ raises (.jump 1 (.seq (.chdir 9) (.jump 2 .skip))) = false := by simp [Proper, Uses, raises]
example : (run (fun o => o + 10) (.seq (.chdir 9) (.jump 2 .skip)) ⟨3, fun _ => none⟩).map (fun r => (r.1.cwd, r.2)) = some (9, false) := by decide

end Verif.Files.Jump
