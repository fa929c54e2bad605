import Verif.Py.Run

/-!
# Handlers that kill on MemoryError and that dump exceptions

Model of `satella/exception_handling/memerrhandler.py`, `suicide` of `satella/os/misc.py` and
`satella/exception_handling/dump_to_file.py`.
-/

namespace Verif.Dump

/-! ## MemoryError: model -/

/-- What the custom hook does, /repo/satella/exception_handling/memerrhandler.py:49-56: gives a value that is true or
not, a sequence of such, or raises. -/
inductive Hook where
  | value (b : Bool)
  | seq (l : List Bool)
  | raises
deriving DecidableEq

/-- What writing to stderr does, /repo/satella/exception_handling/memerrhandler.py:58-63: it succeeds, raises OSError, or
raises something else, as ValueError if stderr is closed or AttributeError if it is None. -/
inductive Stderr where
  | ok
  | osError
  | other
deriving DecidableEq

/-- Whom a signal 9 is sent to, /repo/satella/os/misc.py:88-91. -/
inductive Kill where
  | process
  | group
deriving DecidableEq

/-- How handling ends: it returns a value (None is false), the process is killed, or an exception is raised.  (Part of the model of `suicide`, /repo/satella/os/misc.py:76-91.) -/
inductive Handled where
  | returned (b : Bool)
  | killed (k : Kill)
  | raised
deriving DecidableEq

/-- /repo/satella/os/misc.py:76-91, `suicide` on POSIX; `leader` says that the process leads its group. -/
def suicide (killPg leader : Bool) : Kill := if killPg && leader then .group else .process

/-- /repo/satella/exception_handling/memerrhandler.py:48-56, whether the hook gave something true. -/
def hookVal : Hook → Bool
  | .value b => b
  | .seq l => l.any id
  | .raises => false

/-- /repo/satella/exception_handling/memerrhandler.py:38-68, `handle_exception`; `isMem` says that the exception is a
MemoryError. -/
def handle (isMem : Bool) (hook : Hook) (stderr : Stderr) (killPg leader : Bool) : Handled :=
  if !isMem then .returned false
  else
    if hookVal hook then .returned true
    else match stderr with
      | .other => .raised
      | _ => .killed (suicide killPg leader)

/-- The handler as installed, /repo/satella/exception_handling/memerrhandler.py:25-36: the flag and the number of times it is among the hooks. -/
structure Handler where
  installed : Bool
  hooked : Nat
deriving DecidableEq

/-- /repo/satella/exception_handling/memerrhandler.py:31-36, `install`; gives whether RuntimeError is raised. The hook is
added unless it is there already (/repo/satella/exception_handling/global_eh.py:50-51). -/
def install (h : Handler) : Handler × Bool :=
  if h.installed then (h, true) else ({ h with hooked := if h.hooked = 0 then 1 else h.hooked }, false)

/-! ## MemoryError: properties -/

/-- The custom hook asked for the process not to be killed: it returned something true, or a sequence with something
true in it.  (Part of the model of `AsStream`, /repo/satella/exception_handling/dump_to_file.py:27-80.) -/
def Spares : Hook → Prop
  | .value b => b = true
  | .seq l => true ∈ l
  | .raises => False

theorem hookVal_iff (hook : Hook) : hookVal hook = true ↔ Spares hook := by
  cases hook with
  | value b => rfl
  | seq l => simp [hookVal, Spares]
  | raises => simp [hookVal, Spares]

/-- **C176 killed exactly on MemoryError.** If stderr can be written to, or raises OSError: the process is killed exactly if
the exception is a MemoryError and the hook did not ask to spare it; a hook that raises does not prevent it. -/
theorem C176_killed (isMem : Bool) (hook : Hook) (stderr : Stderr) (hs : stderr ≠ .other) (killPg leader : Bool) :
    (∃ k, handle isMem hook stderr killPg leader = .killed k) ↔ isMem = true ∧ ¬ Spares hook := by
  rw [← hookVal_iff]
  simp only [handle]
  generalize hookVal hook = v
  cases isMem <;> cases v <;> cases stderr <;> simp_all

/-- **C176 whom it kills.** The group is killed exactly if that was asked for and the process leads it, otherwise only
the process. -/
theorem C176_whom (isMem : Bool) (hook : Hook) (stderr : Stderr) (killPg leader : Bool) (k : Kill) (h : handle isMem hook stderr killPg leader = .killed k) :
    k = .group ↔ killPg = true ∧ leader = true := by
  simp only [handle] at h
  generalize hookVal hook = v at h
  cases isMem <;> cases v <;> cases stderr <;> simp at h <;> subst h <;> cases killPg <;> cases leader <;> simp [suicide]

/-- **C176 others are not affected.** Other exceptions are left to other hooks; a MemoryError that was spared is not. -/
theorem C176_returned (isMem : Bool) (hook : Hook) (stderr : Stderr) (killPg leader : Bool) :
    (handle isMem hook stderr killPg leader = .returned false ↔ isMem = false) ∧ (handle isMem hook stderr killPg leader = .returned true ↔ isMem = true ∧ Spares hook) := by
  rw [← hookVal_iff]
  simp only [handle]
  generalize hookVal hook = v
  cases isMem <;> cases v <;> cases stderr <;> simp

/-- Cases of C176: a group of hooks, one of which spares; a hook that fails. -/
example : handle true (.seq [false, true]) .ok true true = .returned true ∧ handle true .raises .osError true true = .killed .group ∧
    handle true (.value false) .ok true false = .killed .process ∧ handle false .raises .ok true true = .returned false := by decide

/-- **C177 (violated) killed whatever stderr is.** If writing to stderr raises something other than OSError, as it does
when stderr is closed, the process survives the MemoryError. -/
theorem C177_stderr_violates (hook : Hook) (h : ¬ Spares hook) (killPg leader : Bool) : handle true hook .other killPg leader = .raised := by
  rw [← hookVal_iff] at h
  simp [handle, h]

/-- Installing that many times. -/
def installs (h : Handler) : Nat → Handler
  | 0 => h
  | n + 1 => (install (installs h n)).1

/-- **C177 (violated) installed once.** Installing again is meant to raise RuntimeError, but the handler never learns
that it is installed: it never does. -/
theorem C177_installed_violates (n : Nat) : (install (installs ⟨false, 0⟩ n)).2 = false := by
  have : ∀ n, (installs ⟨false, 0⟩ n).installed = false := by
    intro n
    induction n with
    | zero => rfl
    | succ n ih => simp [installs, install, ih]
  simp [install, this n]

/-- **C177 (partial) hooked once.** However many times it is installed, it is among the hooks once. Missing: the
exception, and stderr that raises anything. -/
theorem C177_hooked_partial (n : Nat) : (installs ⟨false, 0⟩ (n + 1)).hooked = 1 := by
  have : ∀ n, (installs ⟨false, 0⟩ n).installed = false ∧ ((installs ⟨false, 0⟩ n).hooked = 0 ∨ (installs ⟨false, 0⟩ n).hooked = 1) := by
    intro n
    induction n with
    | zero => exact ⟨rfl, .inl rfl⟩
    | succ n ih => obtain ⟨h1, h2 | h2⟩ := ih <;> simp [installs, install, h1, h2]
  obtain ⟨h1, h2 | h2⟩ := this n <;> simp [installs, install, h1, h2]

/-! ## Dumping: model -/

/-- What is given to the constructor, /repo/satella/exception_handling/dump_to_file.py:30-60: a path, a path of a
directory, a logger with a level or without, a stream, None, or anything else. -/
inductive Given where
  | path (p : String)
  | dir (p : String)
  | logger (l : Nat)
  | loggerLevel (l : Nat) (level : Nat)
  | stream (n : Nat)
  | none
  | other
deriving DecidableEq

/-- The stream, /repo/satella/exception_handling/dump_to_file.py:20-24: to a file, a stream, nowhere or a logger. -/
inductive Target where
  | file (p : String)
  | stream (n : Nat)
  | devnull
  | logger (l : Nat) (level : Nat)
deriving DecidableEq

/-- /repo/satella/exception_handling/dump_to_file.py:30-60, the constructor of `AsStream`; `uuid` is the name made for a
directory; `Option.none` is TypeError. `logging.ERROR` is 40. -/
def asStream (uuid : String) : Given → Option Target
  | .path p => some (.file p)
  | .dir p => some (.file (p ++ "/" ++ uuid))
  | .loggerLevel l v => some (.logger l v)
  | .logger l => some (.logger l 40)
  | .stream n => some (.stream n)
  | .none => some .devnull
  | .other => Option.none

/-- What is written for an exception: text for people, a pickle, a record of a logger;
/repo/satella/exception_handling/dump_to_file.py:115-125. -/
inductive Piece where
  | text (exc : Nat)
  | pickle (exc : Nat)
  | record (level : Nat) (exc : Nat)
deriving DecidableEq

/-- The world: contents of files, what streams and loggers got. Part of the model of
/repo/satella/exception_handling/dump_to_file.py:108-125. -/
structure World where
  files : String → Option (List Piece)
  streams : Nat → List Piece
  logs : Nat → List Piece

/-- /repo/satella/exception_handling/dump_to_file.py:62-80 and 115-125, writing to one target: files are opened for
writing, so what they had is gone. `fails` says which targets raise when written to, before anything is written (a
file is then empty). A logger for pickles: `__enter__` gives None, so `f.write` raises AttributeError. None for pickles:
the DevNullFilelikeObject is one for texts, so writing bytes raises TypeError (/repo/satella/files.py:129-130). Gives
whether it raised. -/
def writeTo (fails : Target → Bool) (pickle : Bool) (exc : Nat) (w : World) (t : Target) : World × Bool :=
  let piece := if pickle then Piece.pickle exc else .text exc
  match t with
  | .file p => if fails t then ({ w with files := fun q => if q = p then some [] else w.files q }, true)
      else ({ w with files := fun q => if q = p then some [piece] else w.files q }, false)
  | .stream n => if fails t then (w, true) else ({ w with streams := fun m => if m = n then w.streams n ++ [piece] else w.streams m }, false)
  | .devnull => (w, pickle)
  | .logger l v => if pickle then (w, true) else if fails t then (w, true)
      else ({ w with logs := fun m => if m = l then w.logs l ++ [.record v exc] else w.logs m }, false)

/-- /repo/satella/exception_handling/dump_to_file.py:115-125, one of the two loops. -/
def writeAll (fails : Target → Bool) (pickle : Bool) (exc : Nat) (w : World) : List Target → World × Bool
  | [] => (w, false)
  | t :: rest => match writeTo fails pickle exc w t with
    | (w', true) => (w', true)
    | (w', false) => writeAll fails pickle exc w' rest

/-- /repo/satella/exception_handling/dump_to_file.py:108-125, `handle_exception` (a traceback can be taken). Gives
whether it raised. -/
def dump (fails : Target → Bool) (hr tb : List Target) (w : World) (exc : Nat) : World × Bool :=
  match writeAll fails false exc w hr with
  | (w', true) => (w', true)
  | (w', false) => writeAll fails true exc w' tb

/-! ## Dumping: specification -/

/-- What a target holds for an exception after a successful dump, given where it is in the lists. -/
def pieceOf (exc : Nat) (pickle : Bool) (t : Target) : Piece :=
  match pickle, t with
  | true, _ => .pickle exc
  | false, .logger _ v => .record v exc
  | false, _ => .text exc

/-- All writes of a dump, in order. -/
def writes (hr tb : List Target) (exc : Nat) : List (Target × Piece) :=
  hr.map (fun t => (t, pieceOf exc false t)) ++ tb.map (fun t => (t, pieceOf exc true t))

/-- Pieces written to the targets that satisfy the condition. -/
def got (P : Target → Bool) (ws : List (Target × Piece)) : List Piece := (ws.filter fun x => P x.1).map Prod.snd

/-- A target is a logger. -/
def Target.isLogger (l : Nat) : Target → Bool
  | .logger m _ => m == l
  | _ => false

/-! ## Dumping: proofs -/

/-- What the writes, if all succeed, do with the world. -/
def Wrote (w w' : World) (ws : List (Target × Piece)) : Prop :=
  (∀ n, w'.streams n = w.streams n ++ got (· = .stream n) ws) ∧
  (∀ l, w'.logs l = w.logs l ++ got (Target.isLogger l) ws) ∧
  (∀ p, w'.files p = match (got (· = .file p) ws).getLast? with | some x => some [x] | none => w.files p)

theorem got_append (P : Target → Bool) (a b : List (Target × Piece)) : got P (a ++ b) = got P a ++ got P b := by
  simp [got]

theorem Wrote.trans {w1 w2 w3 : World} {a b : List (Target × Piece)} (h1 : Wrote w1 w2 a) (h2 : Wrote w2 w3 b) : Wrote w1 w3 (a ++ b) := by
  obtain ⟨a1, a2, a3⟩ := h1
  obtain ⟨b1, b2, b3⟩ := h2
  refine ⟨fun n => ?_, fun l => ?_, fun p => ?_⟩
  · rw [b1, a1, got_append, List.append_assoc]
  · rw [b2, a2, got_append, List.append_assoc]
  · rw [b3, a3, got_append, List.getLast?_append]
    cases (got (fun x => decide (x = .file p)) b).getLast? <;> simp

theorem writeTo_wrote (fails : Target → Bool) (pickle : Bool) (exc : Nat) (w : World) (t : Target) (hf : fails t = false) (hl : pickle = true → t ≠ .devnull ∧ ∀ l v, t ≠ .logger l v) :
    (writeTo fails pickle exc w t).2 = false ∧ Wrote w (writeTo fails pickle exc w t).1 [(t, pieceOf exc pickle t)] := by
  cases t with
  | file p =>
    refine ⟨by simp [writeTo, hf], fun n => by simp [writeTo, hf, got], fun l => by simp [writeTo, hf, got, Target.isLogger], fun q => ?_⟩
    by_cases hq : q = p
    · subst hq; cases pickle <;> simp [writeTo, hf, got, pieceOf]
    · have : ¬ p = q := fun c => hq c.symm
      simp [writeTo, hf, got, hq, this]
  | stream m =>
    refine ⟨by simp [writeTo, hf], fun n => ?_, fun l => by simp [writeTo, hf, got, Target.isLogger], fun q => by simp [writeTo, hf, got]⟩
    by_cases hq : n = m
    · subst hq; cases pickle <;> simp [writeTo, hf, got, pieceOf]
    · have : ¬ m = n := fun c => hq c.symm
      simp [writeTo, hf, got, hq, this]
  | devnull =>
    cases pickle with
    | true => exact absurd rfl (hl rfl).1
    | false => exact ⟨rfl, fun n => by simp [writeTo, got], fun l => by simp [writeTo, got, Target.isLogger], fun q => by simp [writeTo, got]⟩
  | logger l v =>
    cases pickle with
    | true => exact absurd rfl ((hl rfl).2 l v)
    | false =>
      refine ⟨by simp [writeTo, hf], fun n => by simp [writeTo, hf, got], fun m => ?_, fun q => by simp [writeTo, hf, got]⟩
      by_cases hq : m = l
      · subst hq; simp [writeTo, hf, got, pieceOf, Target.isLogger]
      · have : ¬ l = m := fun c => hq c.symm
        simp [writeTo, hf, got, hq, this, Target.isLogger]

theorem writeAll_wrote (fails : Target → Bool) (pickle : Bool) (exc : Nat) (ts : List Target) (hf : ∀ t ∈ ts, fails t = false) (hl : pickle = true → ∀ t ∈ ts, t ≠ .devnull ∧ ∀ l v, t ≠ .logger l v) : ∀ w,
    (writeAll fails pickle exc w ts).2 = false ∧ Wrote w (writeAll fails pickle exc w ts).1 (ts.map fun t => (t, pieceOf exc pickle t)) := by
  induction ts with
  | nil => intro w; exact ⟨rfl, fun n => by simp [writeAll, got], fun l => by simp [writeAll, got], fun p => by simp [writeAll, got]⟩
  | cons t ts ih =>
    intro w
    obtain ⟨h1, h2⟩ := writeTo_wrote fails pickle exc w t (hf t (by simp)) (fun hp => hl hp t (by simp))
    have ih := ih (fun t ht => hf t (by simp [ht])) (fun hp t ht => hl hp t (by simp [ht]))
    have he : writeAll fails pickle exc w (t :: ts) = writeAll fails pickle exc (writeTo fails pickle exc w t).1 ts := by
      simp only [writeAll]
      generalize writeTo fails pickle exc w t = r at h1
      obtain ⟨r1, r2⟩ := r
      simp only at h1
      subst h1
      rfl
    rw [he]
    exact ⟨(ih _).1, h2.trans (ih _).2⟩

/-- **C178 an exception is dumped everywhere.** If no target fails, and neither a logger nor None is given for pickles, dumping raises
nothing; each stream and each logger gets, after what they had, one piece for each time they are given, in order; a
file that is given holds exactly the last piece written to it; other files, streams and loggers are as they were. -/
theorem C178_dumped (fails : Target → Bool) (hr tb : List Target) (hf : ∀ t ∈ hr ++ tb, fails t = false) (hl : ∀ t ∈ tb, t ≠ .devnull ∧ ∀ l v, t ≠ .logger l v) (w : World) (exc : Nat) :
    (dump fails hr tb w exc).2 = false ∧
    (∀ n, (dump fails hr tb w exc).1.streams n = w.streams n ++ got (· = .stream n) (writes hr tb exc)) ∧
    (∀ l, (dump fails hr tb w exc).1.logs l = w.logs l ++ got (Target.isLogger l) (writes hr tb exc)) ∧
    (∀ p, (got (· = .file p) (writes hr tb exc) = [] → (dump fails hr tb w exc).1.files p = w.files p) ∧
      ∀ a x, got (· = .file p) (writes hr tb exc) = a ++ [x] → (dump fails hr tb w exc).1.files p = some [x]) := by
  obtain ⟨h1, h2⟩ := writeAll_wrote fails false exc hr (fun t ht => hf t (by simp [ht])) (by simp) w
  obtain ⟨h3, h4⟩ := writeAll_wrote fails true exc tb (fun t ht => hf t (by simp [ht])) (fun _ => hl) (writeAll fails false exc w hr).1
  have he : dump fails hr tb w exc = writeAll fails true exc (writeAll fails false exc w hr).1 tb := by
    simp only [dump]
    generalize writeAll fails false exc w hr = r at h1
    obtain ⟨r1, r2⟩ := r
    simp only at h1
    subst h1
    rfl
  have ht := h2.trans h4
  rw [he]
  refine ⟨h3, ht.1, ht.2.1, fun p => ⟨fun hn => ?_, fun a x hx => ?_⟩⟩
  · have := ht.2.2 p
    simp only [writes] at hn
    rw [hn] at this
    simpa using this
  · have := ht.2.2 p
    simp only [writes] at hx
    rw [hx] at this
    simpa using this

/-- **C178 a target that fails** The exception of the first target that fails, or of a logger or None given for pickles, is raised. -/
theorem C178_raises (fails : Target → Bool) (hr tb : List Target) (w : World) (exc : Nat) :
    (dump fails hr tb w exc).2 = true ↔ (∃ t ∈ hr ++ tb, fails t = true ∧ t ≠ .devnull) ∨ .devnull ∈ tb ∨ ∃ l v, .logger l v ∈ tb := by
  have one : ∀ pickle w t, (writeTo fails pickle exc w t).2 = true ↔ (fails t = true ∧ t ≠ .devnull) ∨ (pickle = true ∧ (t = .devnull ∨ ∃ l v, t = .logger l v)) := by
    intro pickle w t
    cases t <;> simp [writeTo]
    · split <;> simp_all
    · split <;> simp_all
    · cases pickle <;> simp
      split <;> simp_all
  have all : ∀ pickle ts w, (writeAll fails pickle exc w ts).2 = true ↔ ∃ t ∈ ts, (fails t = true ∧ t ≠ .devnull) ∨ (pickle = true ∧ (t = .devnull ∨ ∃ l v, t = .logger l v)) := by
    intro pickle ts
    induction ts with
    | nil => intro w; simp [writeAll]
    | cons t ts ih =>
      intro w
      have h1 := one pickle w t
      simp only [writeAll]
      generalize writeTo fails pickle exc w t = r at h1
      obtain ⟨w', b⟩ := r
      cases b with
      | true =>
        simp only [true_iff] at h1
        simp only [true_iff]
        exact ⟨t, by simp, h1⟩
      | false =>
        simp only [Bool.false_eq_true, false_iff] at h1
        simp only [ih]
        constructor
        · rintro ⟨x, hx, h⟩; exact ⟨x, by simp [hx], h⟩
        · rintro ⟨x, hx, h⟩
          rcases List.mem_cons.1 hx with rfl | hx
          · exact absurd h h1
          · exact ⟨x, hx, h⟩
  have h1 := all false hr w
  unfold dump
  generalize writeAll fails false exc w hr = r at h1
  obtain ⟨w', b⟩ := r
  cases b with
  | true =>
    simp only [true_iff, Bool.false_eq_true, false_and, or_false] at h1
    obtain ⟨t, ht, hx⟩ := h1
    simp only [true_iff]
    exact Or.inl ⟨t, by simp [ht], hx⟩
  | false =>
    simp only [Bool.false_eq_true, false_iff, false_and, or_false, not_exists] at h1
    simp only [all, true_and]
    constructor
    · rintro ⟨t, ht, h | rfl | ⟨l, v, rfl⟩⟩
      · exact Or.inl ⟨t, by simp [ht], h⟩
      · exact Or.inr (Or.inl ht)
      · exact Or.inr (Or.inr ⟨l, v, ht⟩)
    · rintro (⟨t, ht, h⟩ | h | ⟨l, v, h⟩)
      · rcases List.mem_append.1 ht with ht | ht
        · exact absurd ⟨ht, h⟩ (h1 t)
        · exact ⟨t, ht, Or.inl h⟩
      · exact ⟨_, h, Or.inr (Or.inl rfl)⟩
      · exact ⟨_, h, Or.inr (Or.inr ⟨l, v, rfl⟩)⟩

/-- **C178 what is accepted.** Paths, loggers with a level or without (then ERROR), streams and None are accepted, all else is
TypeError. -/
theorem C178_accepted (uuid : String) (g : Given) : asStream uuid g = none ↔ g = .other := by
  cases g <;> simp [asStream]

/-- **C178 where it goes.** A path is that file, a directory a new file in it, a stream itself, None nowhere, and a logger gets records of the level given, or of ERROR (40). -/
theorem C178_where (uuid : String) (fails : Target → Bool) (w : World) (exc : Nat) (hn : ∀ t, fails t = false) :
    (∀ p, ∃ t, asStream uuid (.path p) = some t ∧ (dump fails [t] [] w exc).1.files p = some [.text exc]) ∧
    (∀ p, ∃ t, asStream uuid (.dir p) = some t ∧ (dump fails [t] [] w exc).1.files (p ++ "/" ++ uuid) = some [.text exc]) ∧
    (∀ l v, ∃ t, asStream uuid (.loggerLevel l v) = some t ∧ (dump fails [t] [] w exc).1.logs l = w.logs l ++ [.record v exc]) ∧
    (∀ l, ∃ t, asStream uuid (.logger l) = some t ∧ (dump fails [t] [] w exc).1.logs l = w.logs l ++ [.record 40 exc]) ∧
    (∀ n, ∃ t, asStream uuid (.stream n) = some t ∧ (dump fails [t] [] w exc).1.streams n = w.streams n ++ [.text exc]) ∧
    ∃ t, asStream uuid .none = some t ∧ (dump fails [t] [] w exc).1 = w := by
  refine ⟨fun p => ⟨_, rfl, ?_⟩, fun p => ⟨_, rfl, ?_⟩, fun l v => ⟨_, rfl, ?_⟩, fun l => ⟨_, rfl, ?_⟩, fun n => ⟨_, rfl, ?_⟩, ⟨_, rfl, ?_⟩⟩ <;> simp [dump, writeAll, writeTo, hn]

/-- An empty world. -/
def World.empty : World := ⟨fun _ => none, fun _ => [], fun _ => []⟩

/-- A case of C178: a file, a stream and a logger get it, another file the pickle. -/
example : let d := dump (fun _ => false) [.file "a", .stream 0, .logger 1 40] [.file "b"] World.empty 7
    d.1.files "a" = some [.text 7] ∧ d.1.files "b" = some [.pickle 7] ∧ d.1.streams 0 = [.text 7] ∧ d.1.logs 1 = [.record 40 7] := by decide

/-- **C179 (violated) every exception is kept.** A second exception overwrites what was dumped to a file about the first.
So it does if a directory was given: the name of the file in it is made once. -/
theorem C179_overwritten_violates (uuid : String) (g : Given) (hg : (∃ p, g = .path p) ∨ ∃ p, g = .dir p) (w : World) (e1 e2 : Nat) :
    ∃ p, asStream uuid g = some (.file p) ∧ (dump (fun _ => false) [.file p] [] (dump (fun _ => false) [.file p] [] w e1).1 e2).1.files p = some [.text e2] := by
  rcases hg with ⟨p, rfl⟩ | ⟨p, rfl⟩
  · exact ⟨p, rfl, by simp [dump, writeAll, writeTo]⟩
  · exact ⟨_, rfl, by simp [dump, writeAll, writeTo]⟩

/-- **C179 (violated) one target does not spoil others.** If writing to a target fails, later ones get nothing and the
handler raises. -/
theorem C179_fails_violates (w : World) (exc : Nat) (fails : Target → Bool) (hf : fails (.stream 0) = true) (rest tb : List Target) :
    dump fails (.stream 0 :: rest) tb w exc = (w, true) := by
  simp [dump, writeAll, writeTo, hf]

/-- **C179 (violated) every target accepted can be written to.** A logger for pickles is accepted, but every dump raises
at it. -/
theorem C179_logger_violates (uuid : String) (l : Nat) (w : World) (exc : Nat) : asStream uuid (.logger l) = some (.logger l 40) ∧ ∀ rest, dump (fun _ => false) [] (.logger l 40 :: rest) w exc = (w, true) := by
  simp [asStream, dump, writeAll, writeTo]

/-- Exceptions one after another. -/
def dumps (fails : Target → Bool) (hr tb : List Target) (w : World) : List Nat → World
  | [] => w
  | e :: es => dumps fails hr tb (dump fails hr tb w e).1 es

/-- **C179 (violated) None for pickles.** None is accepted for pickles, to have them thrown away, but every dump raises at it,
and what comes after it gets nothing. -/
theorem C179_none_violates (uuid : String) (w : World) (exc : Nat) : asStream uuid .none = some .devnull ∧ ∀ rest, dump (fun _ => false) [] (.devnull :: rest) w exc = (w, true) := by
  exact ⟨rfl, fun rest => by simp [dump, writeAll, writeTo]⟩

/-- **C179 (partial) every exception is kept in streams and loggers.** For every sequence of exceptions, streams and
loggers get all of them in order. Missing: files; targets that fail; loggers and None for pickles. -/
theorem C179_streams_partial (fails : Target → Bool) (hr tb : List Target) (hf : ∀ t ∈ hr ++ tb, fails t = false) (hl : ∀ t ∈ tb, t ≠ .devnull ∧ ∀ l v, t ≠ .logger l v) (es : List Nat) : ∀ w,
    (∀ n, (dumps fails hr tb w es).streams n = w.streams n ++ es.flatMap fun e => got (· = .stream n) (writes hr tb e)) ∧
    (∀ l, (dumps fails hr tb w es).logs l = w.logs l ++ es.flatMap fun e => got (Target.isLogger l) (writes hr tb e)) := by
  induction es with
  | nil => intro w; simp [dumps]
  | cons e es ih =>
    intro w
    obtain ⟨-, h1, h2, -⟩ := C178_dumped fails hr tb hf hl w e
    obtain ⟨i1, i2⟩ := ih (dump fails hr tb w e).1
    refine ⟨fun n => ?_, fun l => ?_⟩
    · simp only [dumps, i1, h1, List.flatMap_cons, List.append_assoc]
    · simp only [dumps, i2, h2, List.flatMap_cons, List.append_assoc]

end Verif.Dump
