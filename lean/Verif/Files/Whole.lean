import Verif.Py.Run

/-!
# Model of write_to_file, read_in_file, write_out_file_if_different and try_unlink (satella/files.py), C74

Files are named by lists of components.  An encoding is a pair of functions, of which `decode` undoes `encode`; it may refuse texts and contents.
Not modelled: links, and readers and writers that run at the same time.
-/
namespace Verif.Files.Whole
open Verif

/-- what is at a path.  (Part of the model of `write_to_file`, /repo/satella/files.py:222-239.) -/
inductive Node where
  | missing
  | dir
  | file (bytes : List Nat)
  deriving DecidableEq, Repr

/-- a path, by its components.  (Part of the model of `write_to_file`, /repo/satella/files.py:222-239.) -/
abbrev Name := List Nat

/-- the file system.  (Part of the model of `write_to_file`, /repo/satella/files.py:222-239.) -/
abbrev FS := Name → Node

/-- bytes or text.  (Part of the model of `write_to_file`, /repo/satella/files.py:222-239.) -/
inductive Data where
  | bytes (b : List Nat)
  | text (t : List Nat)
  deriving DecidableEq, Repr

/-- an encoding: texts and contents that it cannot treat give `none`.  (Part of the model of `write_to_file`, /repo/satella/files.py:222-239.) -/
structure Codec where
  encode : List Nat → Option (List Nat)
  decode : List Nat → Option (List Nat)
  undo : ∀ t b, encode t = some b → decode b = some t

/-- the parameter `encoding`.  (Part of the model of `write_to_file`, /repo/satella/files.py:222-239.) -/
inductive Enc where
  | none
  | known (c : Codec)
  /-- a name that Python has no encoding for -/
  | unknown

/-- part of the model of `write_to_file`, /repo/satella/files.py:222-239 -/
inductive Err where
  | notFound
  | isDir
  | notDir
  | permission
  | unicode
  | type
  | lookup
  deriving DecidableEq, Repr

/-- part of the model of `write_to_file`, /repo/satella/files.py:222-239 -/
inductive Res where
  | done
  | data (d : Data)
  | bool (b : Bool)
  | default
  | raised (e : Err)
  deriving DecidableEq, Repr

/-- what the system lets the process do.  (Part of the model of `write_to_file`, /repo/satella/files.py:222-239.) -/
structure Env where
  noRead : Name → Bool
  noWrite : Name → Bool
  /-- an entry that cannot be removed -/
  noRemove : Name → Bool
  /-- a removal of a directory that fails has removed only the entries for which this is false -/
  left : Name → Bool

/-! ## Python's files -/

/-- the error of `open(path, 'wb')`, if it raises; nothing is changed then.  (Part of the model of `write_to_file`, /repo/satella/files.py:222-239.) -/
def openW (E : Env) (fs : FS) (p : Name) : Option Err :=
  match fs p with
  | .dir => some .isDir
  | .file _ => if E.noWrite p then some .permission else none
  | .missing =>
    match fs p.dropLast with
    | .dir => if E.noWrite p.dropLast then some .permission else none
    | .file _ => some .notDir
    | .missing => some .notFound

/-- put something at a path.  (Part of the model of `write_to_file`, /repo/satella/files.py:222-239.) -/
def FS.set (fs : FS) (p : Name) (n : Node) : FS := fun q => if q = p then n else fs q

/-- what `file.write(data)` puts into a file opened with the encoding, or the error.  (Part of the model of `write_to_file`, /repo/satella/files.py:222-239.) -/
def encodeData : Enc → Data → Except Err (List Nat)
  | .none, .bytes b => .ok b
  | .none, .text _ => .error .type
  | .known c, .text t => match c.encode t with | some b => .ok b | none => .error .unicode
  | .known _, .bytes _ => .error .type
  | .unknown, _ => .error .lookup

/-- what `file.read()` gives for a content.  (Part of the model of `write_to_file`, /repo/satella/files.py:222-239.) -/
def decodeData : Enc → List Nat → Except Err Data
  | .none, b => .ok (.bytes b)
  | .known c, b => match c.decode b with | some t => .ok (.text t) | none => .error .unicode
  | .unknown, _ => .error .lookup

/-! ## satella -/

/-- `write_to_file`, /repo/satella/files.py:222-239: opening empties the file (or creates it), also if the encoding turns out to be unknown -/
def write (E : Env) (fs : FS) (p : Name) (d : Data) (e : Enc) : FS × Res :=
  match openW E fs p with
  | some err => (fs, .raised err)
  | none =>
    match encodeData e d with
    | .ok b => (fs.set p (.file b), .done)
    | .error err => (fs.set p (.file []), .raised err)

/-- `read_in_file`, /repo/satella/files.py:246-277; `dflt` says whether a default was given -/
def read (E : Env) (fs : FS) (p : Name) (e : Enc) (dflt : Bool) : Res :=
  match fs p with
  | .dir => if dflt then .default else .raised .notFound
  | .missing =>
    match fs p.dropLast with
    | .file _ => .raised .notDir
    | _ => if dflt then .default else .raised .notFound
  | .file b =>
    if E.noRead p then .raised .permission
    else match decodeData e b with
      | .ok d => .data d
      | .error err => .raised err

/-- the result of `write_to_file` followed by `return True`.  (Part of the model of `write_out_file_if_different`, /repo/satella/files.py:380-408.) -/
def wrote (x : FS × Res) : FS × Res :=
  match x.2 with
  | .done => (x.1, .bool true)
  | r => (x.1, r)

/-- `write_out_file_if_different`, /repo/satella/files.py:380-408 -/
def writeIfDifferent (E : Env) (fs : FS) (p : Name) (d : Data) (e : Enc) : FS × Res :=
  match read E fs p e false with
  | .data d' => if d' ≠ d then wrote (write E fs p d e) else (fs, .bool false)
  | .raised .notFound => wrote (write E fs p d e)
  | r => (fs, r)

/-- `try_unlink`, /repo/satella/files.py:303-324 -/
def unlink (E : Env) (fs : FS) (p : Name) (below : List Name) : FS × Res :=
  match fs p with
  | .dir =>
    if (p :: below).any E.noRemove then (fun q => if q ∈ below ∧ E.left q = false then .missing else fs q, .bool false)
    else (fun q => if q ∈ p :: below then .missing else fs q, .bool true)
  | .file _ => if E.noRemove p then (fs, .bool false) else (fs.set p .missing, .bool true)
  | .missing => (fs, .bool false)

/-- the calls; `unlink` is told what is below the path (`Below`).  (Part of the model of `try_unlink`, /repo/satella/files.py:303-324.) -/
inductive Op where
  | write (p : Name) (d : Data) (e : Enc)
  | read (p : Name) (e : Enc) (dflt : Bool)
  | writeIfDifferent (p : Name) (d : Data) (e : Enc)
  | unlink (p : Name) (below : List Name)

/-- a call.  (Part of the model of `try_unlink`, /repo/satella/files.py:303-324.) -/
def step (E : Env) (fs : FS) : Op → FS × Res
  | .write p d e => write E fs p d e
  | .read p e dflt => (fs, read E fs p e dflt)
  | .writeIfDifferent p d e => writeIfDifferent E fs p d e
  | .unlink p below => unlink E fs p below

/-! ## Specification -/

/-- the path holds the data, in the encoding -/
def Holds (fs : FS) (p : Name) (d : Data) (e : Enc) : Prop := ∃ b, fs p = .file b ∧
  match d, e with
  | .bytes x, .none => b = x
  | .text t, .known c => c.decode b = some t
  | _, _ => False

/-- nothing has changed elsewhere -/
def Same (fs fs' : FS) (p : Name) : Prop := ∀ q, q ≠ p → fs' q = fs q

/-- the entries below a directory -/
def Below (fs : FS) (p : Name) (below : List Name) : Prop := ∀ q, q ∈ below ↔ (p <+: q ∧ q ≠ p ∧ fs q ≠ .missing)

/-- the path can be written: it is a file or there is nothing in an existing directory, and the system allows it -/
def Writable (E : Env) (fs : FS) (p : Name) : Prop :=
  (∃ b, fs p = .file b ∧ E.noWrite p = false) ∨ (fs p = .missing ∧ fs p.dropLast = .dir ∧ E.noWrite p.dropLast = false)

/-- there is a file that cannot be read with the encoding, or the path goes through a file -/
def Unreadable (E : Env) (fs : FS) (p : Name) (e : Enc) : Prop :=
  (∃ b, fs p = .file b ∧ (E.noRead p = true ∨ ∀ d, ¬ Holds fs p d e)) ∨ (fs p = .missing ∧ ∃ b, fs p.dropLast = .file b)

/-- What the documentation promises of each call. -/
def Spec (E : Env) (fs : FS) : Op → Res → FS → Prop
  | .write p d e, r, fs' =>
    match r with
    | .done => Writable E fs p ∧ Holds fs' p d e ∧ Same fs fs' p
    | .raised _ => ¬ Writable E fs p ∧ ∀ q, fs' q = fs q
    | _ => False
  | .read p e dflt, r, fs' => (∀ q, fs' q = fs q) ∧
    match r with
    | .data d => Holds fs p d e
    | .default => dflt = true ∧ ∀ b, fs p ≠ .file b
    | .raised .notFound => dflt = false ∧ ∀ b, fs p ≠ .file b
    | .raised _ => Unreadable E fs p e
    | _ => False
  | .writeIfDifferent p d e, r, fs' =>
    match r with
    | .bool w => Holds fs' p d e ∧ Same fs fs' p ∧ (w = false ↔ Holds fs p d e) ∧ (w = false → ∀ q, fs' q = fs q) ∧ (w = true → Writable E fs p)
    | .raised _ => (¬ Writable E fs p ∨ Unreadable E fs p e) ∧ ∀ q, fs' q = fs q
    | _ => False
  | .unlink p _, r, fs' =>
    match r with
    | .bool true => fs p ≠ .missing ∧ ∀ q, fs' q = if p <+: q then Node.missing else fs q
    | .bool false => (∀ q, ¬ p <+: q → fs' q = fs q) ∧ fs' p = fs p ∧ (fs p = .missing ∨ ∃ q, p <+: q ∧ fs q ≠ .missing ∧ E.noRemove q = true)
    | _ => False

/-- The data fit the encoding, and a text is not written where the encoding cannot represent it. -/
def Fits : Data → Enc → Prop
  | .bytes _, .none => True
  | .text t, .known c => (c.encode t).isSome
  | _, _ => False

/-- below a file and below nothing there is nothing -/
def Tree (fs : FS) : Prop := ∀ p q, p <+: q → q ≠ p → fs q ≠ .missing → fs p = .dir

/-- the guard of the partial theorem -/
def Guard (fs : FS) : Op → Prop
  | .write _ d e => Fits d e
  | .writeIfDifferent _ d e => Fits d e
  | .unlink p below => Below fs p below ∧ Tree fs
  | .read .. => True

/-! ## Proofs -/

theorem encode_fits (d : Data) (e : Enc) (h : Fits d e) : ∃ b, encodeData e d = .ok b ∧ decodeData e b = .ok d := by
  unfold Fits at h
  split at h
  · exact ⟨_, rfl, rfl⟩
  · rename_i t c
    obtain ⟨b, hb⟩ := Option.isSome_iff_exists.1 h
    exact ⟨b, by simp [encodeData, hb], by simp [decodeData, c.undo t b hb]⟩
  · exact h.elim

theorem holds_of_decode (fs : FS) (p : Name) (b : List Nat) (d : Data) (e : Enc) (hf : fs p = .file b) (h : decodeData e b = .ok d) : Holds fs p d e := by
  refine ⟨b, hf, ?_⟩
  cases e with
  | none => simp [decodeData] at h; subst h; rfl
  | known c =>
    simp only [decodeData] at h
    split at h
    · rename_i t ht
      injection h with h
      subst h
      exact ht
    · cases h
  | unknown => cases h

theorem decode_of_holds (fs : FS) (p : Name) (b : List Nat) (d : Data) (e : Enc) (hf : fs p = .file b) (h : Holds fs p d e) : decodeData e b = .ok d := by
  obtain ⟨b', hf', h⟩ := h
  rw [hf] at hf'
  injection hf' with hb
  subst hb
  cases d <;> cases e <;> simp_all [decodeData]

theorem write_spec (E : Env) (fs : FS) (p : Name) (d : Data) (e : Enc) (h : Fits d e) :
    ((write E fs p d e).2 = .done ∧ Writable E fs p ∧ Holds (write E fs p d e).1 p d e ∧ Same fs (write E fs p d e).1 p) ∨
    (∃ err, (write E fs p d e).2 = .raised err ∧ (write E fs p d e).1 = fs ∧ ¬ Writable E fs p) := by
  obtain ⟨b, h1, h2⟩ := encode_fits d e h
  unfold write
  cases ho : openW E fs p with
  | some err =>
    refine Or.inr ⟨err, rfl, rfl, ?_⟩
    rintro (⟨b, hb, hw⟩ | ⟨hb, hd, hw⟩) <;> simp [openW, hb, hw] at ho
    simp [hd] at ho
  | none =>
    simp only [h1]
    refine Or.inl ⟨trivial, ?_, holds_of_decode _ p b d e (by simp [FS.set]) h2, ?_⟩
    · unfold openW at ho
      cases hp : fs p with
      | dir => simp [hp] at ho
      | file b => simp [hp] at ho; exact Or.inl ⟨b, hp, ho⟩
      | missing => cases hd : fs p.dropLast <;> simp [hp, hd] at ho; exact Or.inr ⟨hp, hd, ho⟩
    intro q hq
    simp [FS.set, hq]

theorem wrote_spec (E : Env) (fs : FS) (p : Name) (d : Data) (e : Enc) (h : Fits d e) (hn : ¬ Holds fs p d e) :
    Spec E fs (.writeIfDifferent p d e) (wrote (write E fs p d e)).2 (wrote (write E fs p d e)).1 := by
  unfold wrote
  rcases write_spec E fs p d e h with ⟨h1, h0, h2, h3⟩ | ⟨err, h1, h2, h3⟩
  · rw [h1]
    exact ⟨h2, h3, ⟨(by intro e; cases e), fun x => absurd x hn⟩, (by intro e; cases e), fun _ => h0⟩
  · rw [h1]
    refine ⟨Or.inl h3, ?_⟩
    intro q
    rw [h2]

theorem read_spec (E : Env) (fs : FS) (p : Name) (e : Enc) (dflt : Bool) : Spec E fs (.read p e dflt) (read E fs p e dflt) fs := by
  refine ⟨fun _ => rfl, ?_⟩
  unfold read
  cases hp : fs p with
  | dir => cases dflt <;> simp
  | missing =>
    cases hd : fs p.dropLast <;> cases dflt <;> simp [Unreadable, hp, hd]
  | file b =>
    cases hr : E.noRead p with
    | true => simp [Unreadable, hp, hr]
    | false =>
      simp only [Bool.false_eq_true, if_false]
      cases h : decodeData e b with
      | ok d => exact holds_of_decode fs p b d e hp h
      | error err =>
        have : err ≠ .notFound := by
          intro e'
          subst e'
          cases e with
          | none => cases h
          | known c => simp only [decodeData] at h; split at h <;> cases h
          | unknown => cases h
        have hu : Unreadable E fs p e := by
          refine Or.inl ⟨b, hp, Or.inr ?_⟩
          intro d hd
          have := decode_of_holds fs p b d e hp hd
          rw [h] at this
          cases this
        cases err <;> first | exact hu | exact absurd rfl this

theorem prefix_of_mem (fs : FS) (p q : Name) (below : List Name) (hb : Below fs p below) (h : q ∈ below) : p <+: q := ((hb q).1 h).1

theorem step_spec (E : Env) (fs : FS) (o : Op) (h : Guard fs o) : Spec E fs o (step E fs o).2 (step E fs o).1 := by
  cases o with
  | write p d e =>
    unfold step
    rcases write_spec E fs p d e h with ⟨h1, h0, h2, h3⟩ | ⟨err, h1, h2, h3⟩
    · simp only [Spec, h1]
      exact ⟨h0, h2, h3⟩
    · simp only [Spec, h1, h2]
      exact ⟨h3, fun _ => trivial⟩
  | read p e dflt => exact read_spec E fs p e dflt
  | writeIfDifferent p d e =>
    unfold step
    simp only
    unfold writeIfDifferent
    have hrs := read_spec E fs p e false
    obtain ⟨_, hrs⟩ := hrs
    cases hr : read E fs p e false with
    | data d' =>
      rw [hr] at hrs
      simp only at hrs
      by_cases hd : d' = d
      · subst hd
        simp only [ne_eq, not_true, if_false]
        exact ⟨hrs, fun _ _ => rfl, ⟨fun _ => hrs, fun _ => rfl⟩, fun _ _ => rfl, by intro e; cases e⟩
      · simp only [ne_eq, hd, not_false_eq_true, if_true]
        refine wrote_spec E fs p d e h ?_
        intro hh
        obtain ⟨b, hb, _⟩ := id hh
        have h1 := decode_of_holds fs p b d e hb hh
        have h2 := decode_of_holds fs p b d' e hb hrs
        rw [h1] at h2
        injection h2 with h2
        exact hd h2.symm
    | raised err =>
      by_cases he : err = .notFound
      · subst he
        refine wrote_spec E fs p d e h ?_
        rintro ⟨b, hb, _⟩
        rw [hr] at hrs
        exact hrs.2 b hb
      · cases err <;> simp_all [Spec]
    | done => rw [hr] at hrs; exact hrs.elim
    | bool b => rw [hr] at hrs; exact hrs.elim
    | default => rw [hr] at hrs; exact absurd hrs.1 (by simp)
  | unlink p below =>
    obtain ⟨hb, ht⟩ := h
    unfold step
    simp only
    unfold unlink
    cases hp : fs p with
    | missing => exact ⟨fun _ _ => rfl, rfl, Or.inl hp⟩
    | file b =>
      cases hr : E.noRemove p with
      | true => exact ⟨fun _ _ => rfl, rfl, Or.inr ⟨p, List.prefix_rfl, by rw [hp]; simp, hr⟩⟩
      | false =>
        refine ⟨by rw [hp]; simp, ?_⟩
        intro q
        show FS.set fs p .missing q = _
        unfold FS.set
        by_cases hq : q = p
        · subst hq; simp
        · rw [if_neg hq]
          split
          · rename_i hpre
            cases hn : fs q with
            | missing => rfl
            | _ =>
              have := ht p q hpre hq (by rw [hn]; simp)
              rw [hp] at this
              cases this
          · rfl
    | dir =>
      simp only
      by_cases hr : (p :: below).any E.noRemove = true
      · rw [if_pos hr]
        refine ⟨?_, ?_, Or.inr ?_⟩
        · intro q hq
          show (if q ∈ below ∧ E.left q = false then Node.missing else fs q) = fs q
          rw [if_neg]
          rintro ⟨hm, _⟩
          exact hq (prefix_of_mem fs p q below hb hm)
        · show (if p ∈ below ∧ E.left p = false then Node.missing else fs p) = fs p
          rw [if_neg]
          rintro ⟨hm, _⟩
          exact ((hb p).1 hm).2.1 rfl
        · obtain ⟨q, hq, hn⟩ := List.any_eq_true.1 hr
          rcases List.mem_cons.1 hq with e | hm
          · exact ⟨p, List.prefix_rfl, by rw [hp]; simp, by rw [← e]; exact hn⟩
          · exact ⟨q, prefix_of_mem fs p q below hb hm, ((hb q).1 hm).2.2, hn⟩
      · rw [if_neg hr]
        refine ⟨by rw [hp]; simp, ?_⟩
        intro q
        show (if q ∈ p :: below then Node.missing else fs q) = _
        by_cases hq : q ∈ p :: below
        · rw [if_pos hq]
          rw [if_pos]
          rcases List.mem_cons.1 hq with e | hm
          · rw [e]; exact List.prefix_rfl
          · exact prefix_of_mem fs p q below hb hm
        · rw [if_neg hq]
          split
          · rename_i hpre
            by_cases hn : fs q = .missing
            · exact hn
            · exfalso
              apply hq
              by_cases e : q = p
              · rw [e]; exact List.mem_cons_self ..
              · exact List.mem_cons_of_mem _ ((hb q).2 ⟨hpre, e, hn⟩)
          · rfl

/-- **C74** (partial: the data fit the encoding). Every sequence of calls does what the documentation says: a write leaves the data in the file and nothing else changed, or raises and changes nothing; `write_out_file_if_different` leaves the data in the file and says whether it had to write; reading gives what is held; `try_unlink` says whether the path is gone. -/
theorem C74_files_partial (E : Env) (fs : FS) (ops : List Op) (h : AllSteps Guard (step E) fs ops) : History (Spec E) fs ops (runOps (step E) fs ops).2 (runOps (step E) fs ops).1 := by
  obtain ⟨b, h1, h2⟩ := history_of_sim' (step := step E) (spec := Spec E) (fun s b => s = b) Guard
    (by
      intro s b o hg e
      subst e
      exact ⟨_, step_spec E s o hg, rfl⟩) fs fs ops h rfl
  rw [h2]
  exact h1

/-- the call leaves the file alone -/
def Apart (p : Name) : Op → Prop
  | .write q _ _ => q ≠ p
  | .writeIfDifferent q _ _ => q ≠ p
  | .unlink q _ => ¬ q <+: p
  | .read .. => True

theorem apart_step (E : Env) (fs : FS) (o : Op) (p : Name) (ha : Apart p o) (hg : ∀ q below, o = .unlink q below → Below fs q below) : (step E fs o).1 p = fs p := by
  have hw : ∀ q d e, q ≠ p → (write E fs q d e).1 p = fs p := by
    intro q d e hq
    unfold write
    cases openW E fs q with
    | some err => rfl
    | none => cases encodeData e d <;> simp [FS.set, Ne.symm hq]
  have hwr : ∀ x : FS × Res, (wrote x).1 = x.1 := by
    intro x
    unfold wrote
    split <;> rfl
  cases o with
  | write q d e => exact hw q d e ha
  | read q e dflt => rfl
  | writeIfDifferent q d e =>
    show (writeIfDifferent E fs q d e).1 p = fs p
    unfold writeIfDifferent
    split
    · split
      · rw [hwr]; exact hw q d e ha
      · rfl
    · rw [hwr]; exact hw q d e ha
    · rfl
  | unlink q below =>
    have hb := hg q below rfl
    have hm : p ∉ below := fun hm => ha (prefix_of_mem fs q p below hb hm)
    have hne : p ≠ q := by
      intro e
      subst e
      exact ha List.prefix_rfl
    show (unlink E fs q below).1 p = fs p
    unfold unlink
    cases fs q with
    | missing => rfl
    | file b =>
      cases E.noRemove q with
      | true => rfl
      | false => simp [FS.set, hne]
    | dir =>
      simp only
      split <;> simp [hm, hne]

/-- every removal is told the entries below -/
def Told (fs : FS) : Op → Prop
  | .unlink q below => Below fs q below
  | _ => True

/-- **C74, reading gives what was written last.** After a write that succeeded and any calls that concern other files (whether they succeed or not), reading with the same encoding gives the data. -/
theorem C74_last_written_partial (E : Env) (fs : FS) (p : Name) (d : Data) (e : Enc) (hf : Fits d e) (hr : E.noRead p = false)
    (hw : (step E fs (.write p d e)).2 = .done) (ops : List Op) (ha : ∀ o ∈ ops, Apart p o) (ht : AllSteps Told (step E) (step E fs (.write p d e)).1 ops) (dflt : Bool) :
    (step E (runOps (step E) (step E fs (.write p d e)).1 ops).1 (.read p e dflt)).2 = .data d := by
  have hs := step_spec E fs (.write p d e) hf
  rw [hw] at hs
  obtain ⟨_, hs, _⟩ := hs
  generalize (step E fs (.write p d e)).1 = f at hs ht
  have key : ∀ f, Holds f p d e → AllSteps Told (step E) f ops → Holds (runOps (step E) f ops).1 p d e := by
    clear hs ht
    induction ops with
    | nil => intro f hs _; exact hs
    | cons o ops ih =>
      intro f hs ht
      refine ih (fun o ho => ha o (List.mem_cons_of_mem _ ho)) _ ?_ ht.2
      have := apart_step E f o p (ha o (List.mem_cons_self ..)) (by
        intro q below eo
        have := ht.1
        rw [eo] at this
        exact this)
      obtain ⟨b, hb, h⟩ := hs
      exact ⟨b, by rw [this]; exact hb, h⟩
  have hs := key f hs ht
  obtain ⟨b, hb, _⟩ := id hs
  have hd := decode_of_holds _ p b d e hb hs
  show read E _ p e dflt = _
  unfold read
  rw [hb]
  simp [hr, hd]

/-- **C74, violated by data that do not fit**: the write raises, but the old content is gone. For every content, every text that the encoding cannot represent, bytes with an encoding, text without one, and an unknown encoding. -/
theorem C74_truncated_violates (E : Env) (fs : FS) (p : Name) (b : List Nat) (d : Data) (e : Enc) (hb : fs p = .file b) (hw : E.noWrite p = false) (hn : ¬ Fits d e) :
    (∃ err, (step E fs (.write p d e)).2 = .raised err ∧ (err = .unicode ∨ err = .type ∨ err = .lookup) ∧ (err = .lookup ↔ e = .unknown)) ∧ (step E fs (.write p d e)).1 p = .file [] := by
  have ho : openW E fs p = none := by simp [openW, hb, hw]
  have he : ∃ err, encodeData e d = .error err ∧ (err = .unicode ∨ err = .type ∨ err = .lookup) ∧ (err = .lookup ↔ e = .unknown) := by
    cases d <;> cases e <;> simp_all [encodeData, Fits]
  obtain ⟨err, he, hos⟩ := he
  constructor
  · exact ⟨err, by simp [step, write, ho, he], hos⟩
  · simp [step, write, ho, he, FS.set]

/-- **C74, violated by contents that cannot be decoded**: `write_out_file_if_different` raises and does not write, although the file is different. -/
theorem C74_undecodable_violates (E : Env) (fs : FS) (p : Name) (b t : List Nat) (c : Codec) (hb : fs p = .file b) (hr : E.noRead p = false) (hd : c.decode b = none) :
    step E fs (.writeIfDifferent p (.text t) (.known c)) = (fs, .raised .unicode) := by
  simp [step, writeIfDifferent, read, hb, hr, decodeData, hd]

/-! Cases that meet the hypotheses -/

/-- ASCII -/
def ascii : Codec where
  encode t := if t.all (· < 128) then some t else none
  decode b := if b.all (· < 128) then some b else none
  undo := by
    intro t b h
    split at h
    · rename_i ht
      injection h with h
      subst h
      rw [if_pos ht]
    · cases h

def allAllowed : Env := ⟨fun _ => false, fun _ => false, fun _ => false, fun _ => false⟩

def onlyRoot : FS := fun p => if p = [] then .dir else .missing

example : (runOps (step allAllowed) onlyRoot [.writeIfDifferent [1] (.text [65]) (.known ascii), .writeIfDifferent [1] (.text [65]) (.known ascii), .writeIfDifferent [1] (.text [66]) (.known ascii), .read [1] .none false, .unlink [1] [], .unlink [1] []]).2
    = [.bool true, .bool false, .bool true, .data (.bytes [66]), .bool true, .bool false] := by decide
example : AllSteps Guard (step allAllowed) onlyRoot [.writeIfDifferent [1] (.text [65]) (.known ascii), .read [1] .none false] := by simp [AllSteps, Guard, Fits, ascii]
example : ∃ ops : List Op, (step allAllowed onlyRoot (.write [1] (.bytes [65]) .none)).2 = .done ∧ (∀ o ∈ ops, Apart [1] o) ∧ ops.length = 2 ∧ Fits (.bytes [65]) .none := ⟨[.write [2] (.text []) .unknown, .read [1] .none true], by decide, by simp [Apart], rfl, trivial⟩
example : ¬ Fits (.text [200]) (.known ascii) ∧ ascii.decode [200] = none := by simp [Fits, ascii]

end Verif.Files.Whole
