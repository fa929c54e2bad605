import Verif.Py.Run

/-!
# Model of AutoflushFile (satella/files.py), C77

The file is a list of bytes, and other processes may change it or remove it between the calls.  What is written is given as bytes, `none` standing for data that the file object refuses (wrong type, not encodable).
Python's file objects are modelled in append mode, in which all bytes go to the end.  Not modelled: several threads with the same object, buffering=0.
-/
namespace Verif.Files.Autoflush
open Verif

/-- the modes that callers pass.  (Part of the model of `AutoflushFile`, /repo/satella/files.py:425-551.) -/
inductive Mode where
  | w | wb | wPlus | wbPlus | a | ab | aPlus | abPlus
  /-- r, rb, r+, rb+, x, ... -/
  | other
  deriving DecidableEq, Repr

/-- `mode in ('w', 'w+', 'wb+', 'wb')`, /repo/satella/files.py:452 -/
def Mode.truncates : Mode → Bool
  | .w | .wb | .wPlus | .wbPlus => true
  | _ => false

/-- the dictionary of /repo/satella/files.py:458: `none` is a KeyError, otherwise whether the effective mode (append) can read -/
def Mode.effective : Mode → Option Bool
  | .w => some false
  | .wb => some false
  | .wPlus => some true
  | .wbPlus => some true
  | .a => some false
  | .ab => some false
  | _ => none

/-- part of the model of `AutoflushFile`, /repo/satella/files.py:425-551 -/
inductive Res where
  | none
  | num (n : Nat)
  | bytes (b : List Nat)
  | valueError
  /-- `io.UnsupportedOperation` -/
  | unsupported
  | osError
  /-- `TypeError` or `UnicodeEncodeError` of the data -/
  | dataError
  | attributeError
  deriving DecidableEq, Repr

/-- the content of the file (`none`: there is none), the attributes `_Proxy__obj` (the position of the open file) and `closed`, and whether the effective mode can read.  (Part of the model of `AutoflushFile`, /repo/satella/files.py:425-551.) -/
structure St where
  disk : Option (List Nat)
  obj : Option Nat
  closed : Bool
  reads : Bool
  deriving Repr, DecidableEq

/-- the calls; `ok` says whether the system lets the file be opened.  (Part of the model of `AutoflushFile`, /repo/satella/files.py:425-551.) -/
inductive Op where
  | write (d : Option (List Nat)) (ok : Bool)
  | truncate (n : Option Nat) (ok : Bool)
  | seek (n : Nat) (ok : Bool)
  | read (ok : Bool)
  | readall (ok : Bool)
  | close
  /-- another process leaves this content -/
  | other (d : Option (List Nat))
  deriving Repr, DecidableEq

/-- `_open_file`, /repo/satella/files.py:506-513: a new file object in append mode stands at the end; `none` if `open` raises -/
def St.openFile (s : St) (ok : Bool) : Option St :=
  match s.obj with
  | some _ => some s
  | none => if ok then some { s with disk := some (s.disk.getD []), obj := some (s.disk.getD []).length } else none

/-- `_close_file`, /repo/satella/files.py:515-521 -/
def St.closeFile (s : St) : St := { s with obj := none }

/-- the decorators `is_closed_getter` and `close_file_after`, /repo/satella/files.py:25-35, 411-422, with `fle = self._open_file()` -/
def St.call (s : St) (ok : Bool) (f : St → St × Res) : St × Res :=
  if s.closed then (s, .valueError)
  else match s.openFile ok with
    | none => (s.closeFile, .osError)
    | some s' => ((f s').1.closeFile, (f s').2)

/-- `file.write` in append mode.  (Part of the model of `AutoflushFile`, /repo/satella/files.py:425-551.) -/
def fileWrite (s : St) : Option (List Nat) → St × Res
  | none => (s, .dataError)
  | some d => ({ s with disk := some (s.disk.getD [] ++ d), obj := some ((s.disk.getD []).length + d.length) }, .num d.length)

/-- the first `n` bytes, filled up with zeros.  (Part of the model of `AutoflushFile`, /repo/satella/files.py:425-551.) -/
def cut (b : List Nat) (n : Nat) : List Nat := b.take n ++ List.replicate (n - b.length) 0

/-- `file.truncate`: without a size, to the current position.  (Part of the model of `AutoflushFile`, /repo/satella/files.py:425-551.) -/
def fileTruncate (s : St) (n : Option Nat) : St × Res :=
  ({ s with disk := some (cut (s.disk.getD []) (n.getD (s.obj.getD 0))) }, .num (n.getD (s.obj.getD 0)))

/-- `file.seek`.  (Part of the model of `AutoflushFile`, /repo/satella/files.py:425-551.) -/
def fileSeek (s : St) (n : Nat) : St × Res := ({ s with obj := some n }, .num n)

/-- `file.read()`.  (Part of the model of `AutoflushFile`, /repo/satella/files.py:425-551.) -/
def fileRead (s : St) : St × Res :=
  if s.reads then ({ s with obj := some (max (s.obj.getD 0) (s.disk.getD []).length) }, .bytes ((s.disk.getD []).drop (s.obj.getD 0)))
  else (s, .unsupported)

/-- the methods: `write`, /repo/satella/files.py:531-542; `truncate`, :544-551; `seek`, :467-481; `read`, :483-494; `readall`, :499-504 (the objects that `open` gives do not have it); `close`, :523-529 -/
def St.step (s : St) : Op → St × Res
  | .write d ok => s.call ok (fun s => fileWrite s d)
  | .truncate n ok => s.call ok (fun s => fileTruncate s n)
  | .seek n ok => s.call ok (fun s => fileSeek s n)
  | .read ok => s.call ok fileRead
  | .readall ok => s.call ok (fun s => (s, .attributeError))
  | .close => if s.closed then (s, .valueError) else ({ s with closed := true }.closeFile, .none)
  | .other d => ({ s with disk := d }, .none)

/-- `AutoflushFile(...)`, /repo/satella/files.py:441-465, on a file that the process may write; the object, or `none` with the file if it raises ValueError -/
def construct (m : Mode) (disk : Option (List Nat)) : Option (List Nat) × Option St :=
  match m.effective with
  | none => (if m.truncates then some [] else disk, none)
  | some r => (if m.truncates then some [] else some (disk.getD []), some ⟨if m.truncates then some [] else some (disk.getD []), none, false, r⟩)

/-! ## Specification -/

/-- what the user knows: the content of the file, and whether `close` was called -/
abbrev Abs := Option (List Nat) × Bool

/-- What each call does. After `close` every call is a ValueError; if the file cannot be opened, nothing changes. -/
def Spec (b : Abs) (o : Op) (r : Res) (b' : Abs) : Prop :=
  match o with
  | .other d => b' = (d, b.2) ∧ r = .none
  | .close => if b.2 then r = .valueError ∧ b' = b else r = .none ∧ b' = (b.1, true)
  | .write d ok =>
    if b.2 then r = .valueError ∧ b' = b
    else if ok = false then r = .osError ∧ b' = b
    else match d with
      | some d => r = .num d.length ∧ b' = (some (b.1.getD [] ++ d), false)
      | none => r = .dataError ∧ b' = (some (b.1.getD []), false)
  | .truncate (some n) ok =>
    if b.2 then r = .valueError ∧ b' = b
    else if ok = false then r = .osError ∧ b' = b
    else r = .num n ∧ ∃ c, b' = (some c, false) ∧ c.length = n ∧ ∀ i, i < n → c[i]? = some ((b.1.getD [])[i]?.getD 0)
  | _ => True

/-- the calls that work -/
def Fine : Op → Prop
  | .write .. | .truncate (some _) _ | .close | .other _ => True
  | _ => False

/-! ## Proofs -/

theorem cut_length (b : List Nat) (n : Nat) : (cut b n).length = n := by
  simp only [cut, List.length_append, List.length_take, List.length_replicate]
  omega

theorem cut_get (b : List Nat) (n i : Nat) (h : i < n) : (cut b n)[i]? = some (b[i]?.getD 0) := by
  unfold cut
  rw [List.getElem?_append]
  simp only [List.length_take]
  by_cases hi : i < b.length
  · rw [if_pos (by omega), List.getElem?_take, if_pos h, List.getElem?_eq_getElem hi]
    rfl
  · rw [if_neg (by omega), List.getElem?_replicate, if_pos (by omega), List.getElem?_eq_none (by omega)]
    rfl

/-- the file is not open and the object knows what the user knows -/
def Rep (s : St) (b : Abs) : Prop := s.obj = none ∧ (s.disk, s.closed) = b

theorem call_closes (s : St) (ok : Bool) (f : St → St × Res) (h : s.obj = none) : (s.call ok f).1.obj = none := by
  unfold St.call
  split
  · exact h
  · split <;> rfl

theorem step_closes (s : St) (o : Op) (h : s.obj = none) : (s.step o).1.obj = none := by
  cases o with
  | close => unfold St.step; simp only; split
             · exact h
             · rfl
  | other d => exact h
  | _ => exact call_closes s _ _ h

theorem step_sim (s : St) (b : Abs) (o : Op) (h : Rep s b) (hf : Fine o) : ∃ b', Spec b o (s.step o).2 b' ∧ Rep (s.step o).1 b' := by
  obtain ⟨h1, h2⟩ := h
  subst h2
  obtain ⟨disk, obj, closed, reads⟩ := s
  simp only at h1
  subst h1
  cases o with
  | other d => exact ⟨(d, closed), ⟨rfl, rfl⟩, rfl, rfl⟩
  | close => cases closed <;> exact ⟨_, by simp [Spec, St.step, St.closeFile], rfl, rfl⟩
  | write d ok =>
    cases closed <;> cases ok <;> cases d <;>
      exact ⟨_, by simp [Spec, St.step, St.call, St.openFile, St.closeFile, fileWrite]; try rfl, rfl, rfl⟩
  | truncate n ok =>
    cases n with
    | none => exact hf.elim
    | some n =>
      cases closed with
      | true => cases ok <;> exact ⟨_, by simp [Spec, St.step, St.call]; try rfl, rfl, rfl⟩
      | false =>
        cases ok with
        | false => exact ⟨_, by simp [Spec, St.step, St.call, St.openFile, St.closeFile]; try rfl, rfl, rfl⟩
        | true =>
          refine ⟨(some (cut (disk.getD []) n), false), ?_, rfl, rfl⟩
          simp only [Spec, St.step, St.call, St.openFile, fileTruncate]
          exact ⟨rfl, _, rfl, cut_length _ _, fun i hi => cut_get _ _ _ hi⟩
  | _ => exact hf.elim

theorem construct_rep (m : Mode) (disk : Option (List Nat)) (s : St) (h : (construct m disk).2 = some s) : Rep s ((construct m disk).1, false) := by
  unfold construct at h ⊢
  cases hm : m.effective with
  | none => rw [hm] at h; cases h
  | some r =>
    rw [hm] at h
    simp only at h
    injection h with h
    subst h
    exact ⟨rfl, rfl⟩

/-- **C77** (partial: write, truncate with a size, close). After each call the file holds what was written, at its end and in order, for everyone to see; other processes may change or remove it in between; after `close` each call is a ValueError; and what raises changes nothing, except that an open file is created. -/
theorem C77_autoflush_partial (m : Mode) (disk : Option (List Nat)) (s : St) (hc : (construct m disk).2 = some s) (ops : List Op) (h : ∀ o ∈ ops, Fine o) :
    ∃ b, History Spec ((construct m disk).1, false) ops (runOps St.step s ops).2 b ∧ (runOps St.step s ops).1.disk = b.1 := by
  obtain ⟨b, h1, h2⟩ := history_of_sim (step := St.step) (spec := Spec) Rep Fine (fun s b o hf hr => step_sim s b o hr hf) s _ ops h (construct_rep m disk s hc)
  exact ⟨b, h1, by rw [← h2.2]⟩

/-- **C77, the file is not held open**: between the calls, all of them, also those that raise. -/
theorem C77_not_held (m : Mode) (disk : Option (List Nat)) (s : St) (hc : (construct m disk).2 = some s) (ops : List Op) : (runOps St.step s ops).1.obj = none :=
  run_inv (fun s => s.obj = none) (fun _ => True) (fun s o _ h => step_closes s o h) s ops (fun _ _ => trivial) (construct_rep m disk s hc).1

/-- **C77, construction**: the modes with w empty the file, those with a keep its content, both create it; other modes are a ValueError and leave the file alone. -/
theorem C77_construct_partial (m : Mode) (disk : Option (List Nat)) :
    (m = .w ∨ m = .wb ∨ m = .wPlus ∨ m = .wbPlus → ∃ s, construct m disk = (some [], some s)) ∧
    (m = .a ∨ m = .ab → ∃ s, construct m disk = (some (disk.getD []), some s)) ∧
    (m = .other → construct m disk = (disk, none)) := by
  refine ⟨?_, ?_, ?_⟩
  · rintro (h | h | h | h) <;> subst h <;> exact ⟨_, rfl⟩
  · rintro (h | h) <;> subst h <;> exact ⟨_, rfl⟩
  · intro h; subst h; rfl

/-- **C77, violated by the documented modes a+ and ab+**: they are a ValueError. -/
theorem C77_modes_violates (disk : Option (List Nat)) : construct .aPlus disk = (disk, none) ∧ construct .abPlus disk = (disk, none) := ⟨rfl, rfl⟩

/-- **C77, which modes read**: a new file opened with w+ or wb+ answers a read (with nothing, see `C77_read_violates`), one opened with w, wb, a or ab refuses it. -/
theorem C77_which_read_partial (m : Mode) (disk : Option (List Nat)) (s : St) (hc : (construct m disk).2 = some s) :
    ((m = .wPlus ∨ m = .wbPlus) ∧ (s.step (.read true)).2 = .bytes []) ∨ ((m = .w ∨ m = .wb ∨ m = .a ∨ m = .ab) ∧ (s.step (.read true)).2 = .unsupported) := by
  cases m <;> cases disk <;> simp [construct, Mode.effective, Mode.truncates] at hc <;> subst hc <;>
    simp [St.step, St.call, St.openFile, St.closeFile, fileRead]

example : ∃ s, (construct .ab (some [1])).2 = some s ∧ (s.step (.read true)).2 = .unsupported := ⟨_, rfl, by decide⟩

/-- **C77, violated by reading**: whatever the file holds and wherever the position was put before, `read` gives nothing or is refused (io.UnsupportedOperation), and `readall` is an AttributeError. -/
theorem C77_read_violates (s : St) (hs : s.obj = none) (hc : s.closed = false) (n : Nat) :
    ((s.step (.seek n true)).1.step (.read true)).2 = (if s.reads then .bytes [] else .unsupported) ∧ (s.step (.readall true)).2 = .attributeError := by
  obtain ⟨disk, obj, closed, reads⟩ := s
  simp only at hs hc
  subst hs hc
  cases reads <;> simp [St.step, St.call, St.openFile, St.closeFile, fileSeek, fileRead]

/-- **C77, violated by truncate() without a size**: whatever the position was put to before, nothing is cut off. -/
theorem C77_truncate_violates (s : St) (hs : s.obj = none) (hc : s.closed = false) (n : Nat) (b : List Nat) (hb : s.disk = some b) :
    ((s.step (.seek n true)).1.step (.truncate none true)).1.disk = some b := by
  obtain ⟨disk, obj, closed, reads⟩ := s
  simp only at hs hc hb
  subst hs hc hb
  simp [St.step, St.call, St.openFile, St.closeFile, fileSeek, fileTruncate, cut]

/-! Cases that meet the hypotheses -/

example : ∃ s, (construct .w (some [1, 2])).2 = some s ∧
    runOps St.step s [.write (some [7]) true, .write none true, .write (some [8, 9]) true, .truncate (some 2) true, .other none, .write (some [5]) true, .close, .close]
      = (⟨some [5], none, true, false⟩, [.num 1, .dataError, .num 2, .num 2, .none, .num 1, .none, .valueError]) := ⟨_, rfl, by decide⟩
example : ∀ o ∈ [Op.write (some [7]) true, .truncate (some 2) false, .close], Fine o := by simp [Fine]
example : ∃ s, (construct .wPlus none).2 = some s ∧ s.obj = none ∧ s.closed = false ∧ s.reads = true ∧ ((s.step (.write (some [1, 2]) true)).1.step (.seek 0 true)).2 = .num 0 := ⟨_, rfl, by decide⟩

end Verif.Files.Autoflush
