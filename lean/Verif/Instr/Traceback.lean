import Verif.Py.Basic
/-!
# Preserved tracebacks (satella/instrumentation/trace_back), C137, C138

`repr`, pickle, zlib and base64 are parameters.
-/
namespace Verif.Traceback

/-! ## Model -/

/-- part of the model of `StoredVariableValue`, /repo/satella/instrumentation/trace_back/classes.py:85-199 -/
abbrev Bytes := List Nat
/-- part of the model of `StoredVariableValue`, /repo/satella/instrumentation/trace_back/classes.py:85-199 -/
abbrev Str := List Char

/-- how pickle.loads fails: with UnpicklingError, or with another exception such as AttributeError or ModuleNotFoundError for a class that is not there; /repo/satella/instrumentation/trace_back/classes.py:192-196 -/
inductive LoadErr | unpickling | other
deriving DecidableEq

/-- what the code calls: `repr` may raise (`none`), and so may pickling, with a description; compression may fail with a description, decompression with zlib.error.  /repo/satella/instrumentation/trace_back/classes.py:140-168, :186, :193 -/
structure Env (V : Type) where
  repr : V → Option Str
  typ : V → Str
  dumps : V → Except Bytes Bytes
  loads : Bytes → Except LoadErr V
  compress : Nat → Bytes → Except Bytes Bytes
  decompress : Bytes → Option Bytes
  encode : Bytes → Str
  decode : Str → Bytes

/-- `GenerationPolicy`, /repo/satella/instrumentation/trace_back/classes.py:30-39 -/
structure Policy where
  pickling : Bool := true
  compressAt : Nat := 128 * 1024
  reprLimit : Option Nat := some (128 * 1024)
  level : Nat := 6

/-- `process_repr`, /repo/satella/instrumentation/trace_back/classes.py:69-82 -/
def Policy.processRepr (p : Policy) (r : Str) : Str :=
  match p.reprLimit with
  | none => r
  | some n => if r.length > n then r.take n ++ ['.', '.', '.'] else r

/-- values of `pickle_type` other than None, /repo/satella/instrumentation/trace_back/classes.py:94-101 -/
inductive PType | pickle | gzip | failed | failedGzip
deriving DecidableEq

/-- `StoredVariableValue`, /repo/satella/instrumentation/trace_back/classes.py:110 -/
structure Stored where
  repr : Str
  type_ : Str
  pickle : Option Bytes
  ptype : Option PType

variable {V : Type} (E : Env V)

/-- `StoredVariableValue(value, policy)`, /repo/satella/instrumentation/trace_back/classes.py:139-168 with :41-67; `none` when `repr` raises -/
def store (p : Policy) (v : V) : Option Stored :=
  match E.repr v with
  | none => none
  | some r =>
    let r := p.processRepr r
    if p.pickling then
      match E.dumps v with
      | .error d => some ⟨r, E.typ v, some d, some .failed⟩
      | .ok b =>
        if b.length > p.compressAt then
          match E.compress p.level b with
          | .ok c => some ⟨r, E.typ v, some c, some .gzip⟩
          | .error d => some ⟨r, E.typ v, some d, some .failedGzip⟩
        else some ⟨r, E.typ v, some b, some .pickle⟩
    else some ⟨r, E.typ v, none, none⟩

/-- what load_value may raise: ValueError, TypeError, zlib.error, or what pickle.loads raised; /repo/satella/instrumentation/trace_back/classes.py:170-196 -/
inductive Err | value | type | zlib | other
deriving DecidableEq

/-- `load_value`; `loads` and `decompress` of None raise TypeError.  /repo/satella/instrumentation/trace_back/classes.py:170-196 -/
def Stored.load (s : Stored) : Except Err V :=
  match s.ptype with
  | none => .error .value
  | some .failed => .error .value
  | some .failedGzip => .error .value
  | some .gzip =>
    match s.pickle with
    | none => .error .type
    | some c =>
      match E.decompress c with
      | none => .error .zlib
      | some b => match E.loads b with
        | .ok v => .ok v
        | .error .unpickling => .error .value
        | .error .other => .error .other
  | some .pickle =>
    match s.pickle with
    | none => .error .type
    | some b => match E.loads b with
      | .ok v => .ok v
      | .error .unpickling => .error .value
      | .error .other => .error .other

/-- the dictionary of `to_json`, /repo/satella/instrumentation/trace_back/classes.py:123-131 -/
structure SJson where
  repr : Str
  type_ : Str
  ptype : Option PType
  pickle : Option Str

/-- `to_json`: an empty pickle is left out.  /repo/satella/instrumentation/trace_back/classes.py:123-131 -/
def Stored.toJson (s : Stored) : SJson :=
  ⟨s.repr, s.type_, s.ptype, match s.pickle with
    | some (x :: b) => some (E.encode (x :: b))
    | _ => none⟩

/-- `from_json`: the pickle is decoded and then overwritten with None.  /repo/satella/instrumentation/trace_back/classes.py:112-121 -/
def Stored.fromJson (j : SJson) : Stored :=
  let s : Stored := ⟨j.repr, j.type_, none, j.ptype⟩
  let s := match j.pickle with
    | some e => { s with pickle := some (E.decode e) }
    | none => s
  { s with pickle := none }

/-- `__eq__`, /repo/satella/instrumentation/trace_back/classes.py:198-199 -/
def Stored.eq (a b : Stored) : Bool := a.repr = b.repr && a.type_ = b.type_

/-- a frame of Python with the frames that called it; /repo/satella/instrumentation/trace_back/classes.py:220-231, /repo/satella/instrumentation/trace_back/trace_back.py:74-76 -/
inductive Frame (V : Type)
  | mk (name file : Str) (line : Nat) (locals_ globals : List (Str × V)) (back : Option (Frame V))

/-- `StackFrame`, /repo/satella/instrumentation/trace_back/classes.py:206 -/
structure SFrame where
  name : Str
  file : Str
  line : Nat
  locals_ : List (Str × Stored)
  globals : List (Str × Stored)

/-- the loops over variables, /repo/satella/instrumentation/trace_back/classes.py:225-231 -/
def storeAll (p : Policy) : List (Str × V) → Option (List (Str × Stored))
  | [] => some []
  | (k, v) :: r =>
    match store E p v with
    | none => none
    | some s => (storeAll p r).map ((k, s) :: ·)

/-- the loop of `Traceback()` over `f_back`, with StackFrame(f, policy): /repo/satella/instrumentation/trace_back/trace_back.py:74-76, classes.py:220-231 -/
def frames (p : Policy) : Frame V → Option (List SFrame)
  | .mk n f l lo gl back =>
    match storeAll E p lo, storeAll E p gl with
    | some lo', some gl' =>
      match back with
      | none => some [⟨n, f, l, lo', gl'⟩]
      | some b => (frames p b).map (⟨n, f, l, lo', gl'⟩ :: ·)
    | _, _ => none

/-- `Traceback`: frames and the formatted text; /repo/satella/instrumentation/trace_back/trace_back.py:48, :63-78 -/
structure TB where
  frames : List SFrame
  text : Str

/-- `Traceback(starting_frame, policy)`, `text` is what format_exc gives; /repo/satella/instrumentation/trace_back/trace_back.py:56-78 -/
def traceback (p : Policy) (f : Frame V) (text : Str) : Option TB := (frames E p f).map (⟨·, text⟩)

/-- `frame_from_traceback` of the frames of a traceback, outermost first; /repo/satella/instrumentation/trace_back/trace_back.py:18-27 -/
def bottom : Frame V → List (Frame V) → Frame V
  | f, [] => f
  | _, g :: r => bottom g r

/-- the dictionary of a frame, /repo/satella/instrumentation/trace_back/classes.py:248-255 -/
structure FJson where
  name : Str
  file : Str
  line : Nat
  locals_ : List (Str × SJson)
  globals : List (Str × SJson)

/-- `StackFrame.to_json`, /repo/satella/instrumentation/trace_back/classes.py:248-255 -/
def SFrame.toJson (f : SFrame) : FJson :=
  ⟨f.name, f.file, f.line, f.locals_.map (fun p => (p.1, p.2.toJson E)), f.globals.map (fun p => (p.1, p.2.toJson E))⟩

/-- `StackFrame.from_json`, /repo/satella/instrumentation/trace_back/classes.py:238-246 -/
def SFrame.fromJson (j : FJson) : SFrame :=
  ⟨j.name, j.file, j.line, j.locals_.map (fun p => (p.1, Stored.fromJson E p.2)), j.globals.map (fun p => (p.1, Stored.fromJson E p.2))⟩

/-- equality of dictionaries of stored variables, which keep the order of variables here; /repo/satella/instrumentation/trace_back/classes.py:235-236 -/
def eqVars : List (Str × Stored) → List (Str × Stored) → Bool
  | [], [] => true
  | a :: l, b :: m => a.1 = b.1 && a.2.eq b.2 && eqVars l m
  | _, _ => false

/-- `StackFrame.__eq__`, /repo/satella/instrumentation/trace_back/classes.py:233-236 -/
def SFrame.eq (a b : SFrame) : Bool := a.name = b.name && a.file = b.file && a.line = b.line && eqVars a.locals_ b.locals_ && eqVars a.globals b.globals

/-- equality of lists of frames, /repo/satella/instrumentation/trace_back/trace_back.py:80-81 -/
def eqFrames : List SFrame → List SFrame → Bool
  | [], [] => true
  | a :: l, b :: m => a.eq b && eqFrames l m
  | _, _ => false

/-- `Traceback.to_json`, /repo/satella/instrumentation/trace_back/trace_back.py:110-114 -/
def TB.toJson (t : TB) : List FJson × Str := (t.frames.map (SFrame.toJson E), t.text)

/-- `Traceback.from_json`, /repo/satella/instrumentation/trace_back/trace_back.py:116-121 -/
def TB.fromJson (j : List FJson × Str) : TB := ⟨j.1.map (SFrame.fromJson E), j.2⟩

/-! ## Specification -/

/-- the frame `n` calls further out -/
def caller : Nat → Frame V → Option (Frame V)
  | 0, f => some f
  | n + 1, .mk _ _ _ _ _ back =>
    match back with
    | none => none
    | some b => caller n b

/-- pickle and zlib give back what they were given, for this value -/
structure Pickles (v : V) : Prop where
  loads : ∀ b, E.dumps v = .ok b → E.loads b = .ok v
  decompress : ∀ l b c, E.dumps v = .ok b → E.compress l b = .ok c → E.decompress c = some b

/-- the frame is preserved: its place, and all its variables in order -/
structure Preserves (p : Policy) (f : Frame V) (s : SFrame) : Prop where
  place : ∃ lo gl back, f = .mk s.name s.file s.line lo gl back ∧
    s.locals_.length = lo.length ∧ s.globals.length = gl.length ∧
    (∀ (i : Nat) x, lo[i]? = some x → ∃ y, s.locals_[i]? = some (x.1, y) ∧ store E p x.2 = some y) ∧
    (∀ (i : Nat) x, gl[i]? = some x → ∃ y, s.globals[i]? = some (x.1, y) ∧ store E p x.2 = some y)

/-! ## Proofs -/

/-- **C137 (values come back)**: a value that can be pickled, with pickling enabled, is what load_value returns, compressed or not. -/
theorem C137_load (p : Policy) (v : V) (s : Stored) (h : store E p v = some s) (hp : p.pickling = true) (b : Bytes) (hd : E.dumps v = .ok b) (hc : ∃ c, E.compress p.level b = .ok c) (hv : Pickles E v) :
    s.load E = .ok v := by
  unfold store at h
  cases hr : E.repr v with
  | none => rw [hr] at h; simp at h
  | some r =>
    obtain ⟨c, hc⟩ := hc
    simp only [hr, hp, ↓reduceIte, hd, hc] at h
    split at h
    · obtain rfl := Option.some.inj h
      simp [Stored.load, hv.decompress _ b c hd hc, hv.loads b hd]
    · obtain rfl := Option.some.inj h
      simp [Stored.load, hv.loads b hd]

/-- **C137 (values that do not come back)**: without pickling, or if pickling or compression failed, load_value raises ValueError. -/
theorem C137_load_fails (p : Policy) (v : V) (s : Stored) (h : store E p v = some s)
    (hf : p.pickling = false ∨ (∃ d, E.dumps v = .error d) ∨ ∃ b d, E.dumps v = .ok b ∧ p.compressAt < b.length ∧ E.compress p.level b = .error d) : s.load E = .error .value := by
  unfold store at h
  cases hr : E.repr v with
  | none => rw [hr] at h; simp at h
  | some r =>
    rcases hf with hp | ⟨d, hd⟩ | ⟨b, d, hd, hl, hc⟩
    · simp only [hr, hp] at h
      obtain rfl := Option.some.inj h
      rfl
    · by_cases hp : p.pickling = true
      · simp only [hr, hp, ↓reduceIte, hd] at h
        obtain rfl := Option.some.inj h
        rfl
      · simp only [hr, hp] at h
        obtain rfl := Option.some.inj h
        rfl
    · by_cases hp : p.pickling = true
      · have : b.length > p.compressAt := hl
        simp only [hr, hp, ↓reduceIte, hd, hc, if_pos this] at h
        obtain rfl := Option.some.inj h
        rfl
      · simp only [hr, hp] at h
        obtain rfl := Option.some.inj h
        rfl

/-- **C137 (values that cannot be unpickled)**: if unpickling fails as such, load_value raises ValueError, compressed or not; other exceptions of unpickling are raised as they are. -/
theorem C137_unpickling (p : Policy) (v : V) (s : Stored) (h : store E p v = some s) (hp : p.pickling = true) (b : Bytes) (hd : E.dumps v = .ok b)
    (hc : ∃ c, E.compress p.level b = .ok c ∧ E.decompress c = some b) :
    (E.loads b = .error .unpickling → s.load E = .error .value) ∧ (E.loads b = .error .other → s.load E = .error .other) := by
  unfold store at h
  cases hr : E.repr v with
  | none => rw [hr] at h; simp at h
  | some r =>
    obtain ⟨c, hc, hb⟩ := hc
    simp only [hr, hp, ↓reduceIte, hd, hc] at h
    split at h <;> obtain rfl := Option.some.inj h <;> constructor <;> intro hl <;> simp [Stored.load, hb, hl]

/-- **C137 (repr)**: the stored repr is the whole repr if it is within the limit, and otherwise as many of its first characters as the limit says, with three dots. -/
theorem C137_repr (p : Policy) (v : V) (s : Stored) (h : store E p v = some s) : ∃ r, E.repr v = some r ∧ s.type_ = E.typ v ∧
    ((p.reprLimit = none → s.repr = r) ∧ ∀ n, p.reprLimit = some n → (r.length ≤ n → s.repr = r) ∧ (n < r.length → ∃ q t, r = q ++ t ∧ q.length = n ∧ s.repr = q ++ ['.', '.', '.'])) := by
  unfold store at h
  cases hr : E.repr v with
  | none => rw [hr] at h; simp at h
  | some r =>
    have hs : s.repr = p.processRepr r ∧ s.type_ = E.typ v := by
      simp only [hr] at h
      split at h
      · split at h
        · obtain rfl := Option.some.inj h; exact ⟨rfl, rfl⟩
        · split at h
          · split at h <;> (obtain rfl := Option.some.inj h; exact ⟨rfl, rfl⟩)
          · obtain rfl := Option.some.inj h; exact ⟨rfl, rfl⟩
      · obtain rfl := Option.some.inj h; exact ⟨rfl, rfl⟩
    refine ⟨r, rfl, hs.2, fun hl => by rw [hs.1]; simp [Policy.processRepr, hl], fun n hl => ⟨fun hle => ?_, fun hlt => ?_⟩⟩
    · have : ¬ r.length > n := by omega
      rw [hs.1]; simp [Policy.processRepr, hl, this]
    · refine ⟨r.take n, r.drop n, (List.take_append_drop n r).symm, by simp; omega, ?_⟩
      rw [hs.1]; simp [Policy.processRepr, hl, hlt]

theorem storeAll_spec (p : Policy) (l : List (Str × V)) (m : List (Str × Stored)) (h : storeAll E p l = some m) :
    m.length = l.length ∧ ∀ (i : Nat) x, l[i]? = some x → ∃ y, m[i]? = some (x.1, y) ∧ store E p x.2 = some y := by
  induction l generalizing m with
  | nil => simp only [storeAll, Option.some.injEq] at h; subst h; exact ⟨rfl, by intro i x hx; simp at hx⟩
  | cons q l ih =>
    obtain ⟨k, v⟩ := q
    simp only [storeAll] at h
    cases hs : store E p v with
    | none => rw [hs] at h; simp at h
    | some s =>
      rw [hs] at h
      simp only [Option.map_eq_some_iff] at h
      obtain ⟨m', hm', rfl⟩ := h
      obtain ⟨h1, h2⟩ := ih m' hm'
      refine ⟨by simp [h1], fun i x hx => ?_⟩
      cases i with
      | zero => simp at hx; subst hx; exact ⟨s, rfl, hs⟩
      | succ i => exact h2 i x (by simpa using hx)

theorem frames_spec (p : Policy) : ∀ (f : Frame V) (l : List SFrame), frames E p f = some l →
    ∀ n, (∀ g, caller n f = some g → ∃ s, l[n]? = some s ∧ Preserves E p g s) ∧ (caller n f = none → l[n]? = none)
  | .mk nm fl ln lo gl back, l, h, n => by
    simp only [frames] at h
    cases hlo : storeAll E p lo with
    | none => rw [hlo] at h; simp at h
    | some lo' =>
      cases hgl : storeAll E p gl with
      | none => rw [hlo, hgl] at h; simp at h
      | some gl' =>
        rw [hlo, hgl] at h
        obtain ⟨a1, a2⟩ := storeAll_spec E p lo lo' hlo
        obtain ⟨b1, b2⟩ := storeAll_spec E p gl gl' hgl
        have hpres : Preserves E p (.mk nm fl ln lo gl back) ⟨nm, fl, ln, lo', gl'⟩ := ⟨lo, gl, back, rfl, a1, b1, a2, b2⟩
        cases back with
        | none =>
          simp only [Option.some.injEq] at h
          subst h
          cases n with
          | zero => exact ⟨fun g hg => by simp [caller] at hg; subst hg; exact ⟨_, rfl, hpres⟩, fun hn => by simp [caller] at hn⟩
          | succ n => exact ⟨fun g hg => by simp [caller] at hg, fun _ => by simp⟩
        | some b =>
          simp only [Option.map_eq_some_iff] at h
          obtain ⟨l', hl', rfl⟩ := h
          cases n with
          | zero => exact ⟨fun g hg => by simp [caller] at hg; subst hg; exact ⟨_, rfl, hpres⟩, fun hn => by simp [caller] at hn⟩
          | succ n =>
            obtain ⟨h1, h2⟩ := frames_spec p b l' hl' n
            exact ⟨fun g hg => by simpa using h1 g (by simpa [caller] using hg), fun hn => by simpa using h2 (by simpa [caller] using hn)⟩

/-- **C137 (frames)**: a Traceback has the starting frame, the one that called it, and so on to the outermost one, in this order and no others, each with its name, file, line and all its variables. -/
theorem C137_frames (p : Policy) (f : Frame V) (text : Str) (t : TB) (h : traceback E p f text = some t) (n : Nat) :
    (∀ g, caller n f = some g → ∃ s, t.frames[n]? = some s ∧ Preserves E p g s) ∧ (caller n f = none → t.frames[n]? = none) := by
  simp only [traceback, Option.map_eq_some_iff] at h
  obtain ⟨l, hl, rfl⟩ := h
  exact frames_spec E p f l hl n

/-- **C137 (exceptions)**: without a starting frame the one that raised is taken, the last of the traceback. -/
theorem C137_bottom (f : Frame V) (r : List (Frame V)) : bottom f r = (f :: r).getLast (by simp) := by
  induction r generalizing f with
  | nil => rfl
  | cons g r ih => rw [bottom, ih]; rfl

theorem stored_eq (s : Stored) : (Stored.fromJson E (s.toJson E)).eq s = true := by
  have h : (Stored.fromJson E (s.toJson E)).repr = s.repr ∧ (Stored.fromJson E (s.toJson E)).type_ = s.type_ := by
    simp only [Stored.fromJson, Stored.toJson]
    split <;> simp
  simp [Stored.eq, h]

theorem eqVars_map (l : List (Str × Stored)) : eqVars ((l.map (fun p => (p.1, p.2.toJson E))).map (fun p => (p.1, Stored.fromJson E p.2))) l = true := by
  induction l with
  | nil => rfl
  | cons q l ih => simp only [List.map_cons, eqVars, stored_eq, ih, decide_true, Bool.and_self]

/-- what the equality of frames looks at: the place, and of each variable its name, representation and type; specification of /repo/satella/instrumentation/trace_back/classes.py:198-199 and :233-236 -/
def Shown (s : SFrame) : (Str × Str × Nat) × List (Str × Str × Str) × List (Str × Str × Str) :=
  ((s.name, s.file, s.line), s.locals_.map (fun v => (v.1, v.2.repr, v.2.type_)), s.globals.map (fun v => (v.1, v.2.repr, v.2.type_)))

theorem eqVars_iff (l m : List (Str × Stored)) : eqVars l m = true ↔ l.map (fun v => (v.1, v.2.repr, v.2.type_)) = m.map (fun v => (v.1, v.2.repr, v.2.type_)) := by
  induction l generalizing m with
  | nil => cases m <;> simp [eqVars]
  | cons a l ih => cases m <;> simp [eqVars, Stored.eq, ih, and_assoc]

/-- **C137 (equality)**: two Tracebacks are equal exactly if they have equally many frames, and each frame is that of the same place with variables of the same names, representations and types. -/
theorem C137_equal (l m : List SFrame) : eqFrames l m = true ↔ l.map Shown = m.map Shown := by
  induction l generalizing m with
  | nil => cases m <;> simp [eqFrames]
  | cons a l ih => cases m <;> simp [eqFrames, SFrame.eq, Shown, eqVars_iff, ih, and_assoc]

/-- **C137 (JSON)**: a Traceback read from its JSON equals the one that it was made from, has the same text, and every frame has the same place and number of variables. -/
theorem C137_json (t : TB) : eqFrames (TB.fromJson E (t.toJson E)).frames t.frames = true ∧ (TB.fromJson E (t.toJson E)).text = t.text ∧
    ∀ (i : Nat) s, t.frames[i]? = some s → ∃ s', (TB.fromJson E (t.toJson E)).frames[i]? = some s' ∧ s'.name = s.name ∧ s'.file = s.file ∧ s'.line = s.line ∧
      ∀ (j : Nat) k x, (s.locals_[j]? = some (k, x) → ∃ y, s'.locals_[j]? = some (k, y) ∧ y.repr = x.repr ∧ y.type_ = x.type_ ∧ y.ptype = x.ptype) ∧
        (s.globals[j]? = some (k, x) → ∃ y, s'.globals[j]? = some (k, y) ∧ y.repr = x.repr ∧ y.type_ = x.type_ ∧ y.ptype = x.ptype) := by
  have hst : ∀ x : Stored, (Stored.fromJson E (x.toJson E)).repr = x.repr ∧ (Stored.fromJson E (x.toJson E)).type_ = x.type_ ∧ (Stored.fromJson E (x.toJson E)).ptype = x.ptype := by
    intro x
    simp only [Stored.fromJson, Stored.toJson]
    split <;> simp
  refine ⟨?_, rfl, fun i s hs => ⟨SFrame.fromJson E (s.toJson E), by simp [TB.fromJson, TB.toJson, hs], rfl, rfl, rfl, fun j k x => ⟨fun hx => ?_, fun hx => ?_⟩⟩⟩
  · simp only [TB.fromJson, TB.toJson]
    generalize t.frames = l
    induction l with
    | nil => rfl
    | cons f l ih =>
      simp only [List.map_cons, eqFrames, ih, Bool.and_true]
      simp [SFrame.eq, SFrame.fromJson, SFrame.toJson]
      exact ⟨by have := eqVars_map E f.locals_; simpa using this, by have := eqVars_map E f.globals; simpa using this⟩
  · exact ⟨Stored.fromJson E (x.toJson E), by simp [SFrame.fromJson, SFrame.toJson, hx], hst x⟩
  · exact ⟨Stored.fromJson E (x.toJson E), by simp [SFrame.fromJson, SFrame.toJson, hx], hst x⟩

/-- numbers: their pickle is one byte, 7 cannot be pickled, and 13 has no repr; compression adds a byte -/
def someEnv : Env Nat :=
  { repr := fun n => if n = 13 then none else some (List.replicate n 'x'), typ := fun _ => ['i', 'n', 't'], dumps := fun n => if n = 7 then .error [0] else .ok [n], loads := fun b => match b with | [] => .error .unpickling | n :: _ => if n = 99 then .error .other else .ok n
    compress := fun l b => .ok (l :: b), decompress := fun b => some b.tail, encode := fun b => b.map (fun n => Char.ofNat n), decode := fun s => s.map (fun c => c.toNat) }
example : Pickles someEnv 5 := ⟨by intro b h; simp [someEnv] at h; subst h; rfl, by intro l b c h h'; simp [someEnv] at h h'; subst h'; rfl⟩
example : (∃ c, someEnv.compress 9 [99] = .ok c ∧ someEnv.decompress c = some [99]) ∧ someEnv.dumps 99 = .ok [99] ∧ someEnv.loads [99] = .error .other := ⟨⟨_, rfl, rfl⟩, rfl, rfl⟩
example : store someEnv { compressAt := 0, reprLimit := some 2 } 5 = some ⟨['x', 'x', '.', '.', '.'], ['i', 'n', 't'], some [6, 5], some .gzip⟩ := rfl
example : (⟨['x', 'x', '.', '.', '.'], ['i', 'n', 't'], some [6, 5], some .gzip⟩ : Stored).load someEnv = .ok 5 := rfl
example : ∃ t, traceback someEnv {} (.mk ['f'] ['a'] 3 [(['v'], 1)] [] (some (.mk ['g'] ['a'] 9 [] [(['w'], 7)] none))) [] = some t ∧ t.frames.length = 2 := ⟨_, rfl, rfl⟩

/-! ## C138 -/

/-- **C138 (violation), JSON loses values**: a value that load_value returned cannot be loaded from a Traceback read from JSON: TypeError is raised. -/
theorem C138_json_violates : ∀ (s : Stored) (v : V), s.load E = .ok v → (Stored.fromJson E (s.toJson E)).load E = .error .type := by
  intro s v h
  have hj : ∀ pt, s.ptype = some pt → (Stored.fromJson E (s.toJson E)).ptype = some pt ∧ (Stored.fromJson E (s.toJson E)).pickle = none := by
    intro pt hpt
    simp only [Stored.fromJson, Stored.toJson]
    split <;> simp [hpt]
  cases hp : s.ptype with
  | none => simp [Stored.load, hp] at h
  | some pt =>
    obtain ⟨h1, h2⟩ := hj pt hp
    cases pt with
    | failed => simp [Stored.load, hp] at h
    | failedGzip => simp [Stored.load, hp] at h
    | pickle => simp [Stored.load, h1, h2]
    | gzip => simp [Stored.load, h1, h2]

/-- a value does come back before JSON, so C138_json_violates is about something -/
example : ∃ (s : Stored) (v : Nat), s.load someEnv = .ok v := ⟨⟨[], [], some [6, 5], some .gzip⟩, 5, rfl⟩

/-- **C138 (violation), repr**: a single variable whose repr raises makes the whole Traceback raise. -/
theorem C138_repr_violates : ∀ (p : Policy) (f g : Frame V) (n : Nat) (nm fl : Str) (ln : Nat) (lo gl : List (Str × V)) (b : Option (Frame V)) (text : Str),
    caller n f = some g → g = .mk nm fl ln lo gl b → ∀ k v, (k, v) ∈ lo → E.repr v = none → traceback E p f text = none := by
  intro p f g n nm fl ln lo gl b text hc hg k v hm hr
  cases h : traceback E p f text with
  | none => rfl
  | some t =>
    obtain ⟨s, _, ⟨lo', gl', b', e, _, _, h1, _⟩⟩ := (C137_frames E p f text t h n).1 g hc
    rw [hg] at e
    cases e
    obtain ⟨i, hi⟩ := List.mem_iff_getElem?.1 hm
    obtain ⟨y, _, hy⟩ := h1 i (k, v) hi
    simp [store, hr] at hy

example : traceback someEnv {} (.mk ['f'] ['a'] 3 [(['v'], 13)] [] none) [] = none := rfl

/-- **C138 (violation), another environment**: where the class of a value cannot be found, load_value raises what pickle raised (AttributeError, ModuleNotFoundError), although it promises ValueError for this. -/
theorem C138_environment_violates : ∀ (p : Policy) (v : V) (s : Stored) (b : Bytes), store E p v = some s → p.pickling = true → E.dumps v = .ok b → b.length ≤ p.compressAt →
    E.loads b = .error .other → s.load E = .error .other := by
  intro p v s b h hp hd hl ho
  have hl : ¬ b.length > p.compressAt := by omega
  unfold store at h
  cases hr : E.repr v with
  | none => rw [hr] at h; simp at h
  | some r =>
    simp only [hr, hp, ↓reduceIte, hd, if_neg hl] at h
    obtain rfl := Option.some.inj h
    simp [Stored.load, ho]

example : ∃ s, store someEnv {} 99 = some s ∧ s.load someEnv = .error .other := ⟨_, rfl, rfl⟩

/-- **C138 (partial)**: for values that could not be loaded, the same ValueError is raised after JSON. -/
theorem C138_json_partial (p : Policy) (v : V) (s : Stored) (h : store E p v = some s) (hf : p.pickling = false ∨ ∃ d, E.dumps v = .error d) :
    s.load E = .error .value ∧ (Stored.fromJson E (s.toJson E)).load E = .error .value := by
  refine ⟨C137_load_fails E p v s h (hf.imp id (fun h => Or.inl h)), ?_⟩
  have hpt : s.ptype = none ∨ s.ptype = some .failed := by
    unfold store at h
    cases hr : E.repr v with
    | none => rw [hr] at h; simp at h
    | some r =>
      by_cases hp : p.pickling = true
      · rcases hf with hf | ⟨d, hd⟩
        · rw [hp] at hf; simp at hf
        · simp only [hr, hp, ↓reduceIte, hd] at h
          obtain rfl := Option.some.inj h
          exact Or.inr rfl
      · simp only [hr, hp] at h
        obtain rfl := Option.some.inj h
        exact Or.inl rfl
  have hj : (Stored.fromJson E (s.toJson E)).ptype = s.ptype := by
    simp only [Stored.fromJson, Stored.toJson]
    split <;> simp
  rcases hpt with h | h <;> simp [Stored.load, hj, h]

example : store someEnv {} 7 = some ⟨List.replicate 7 'x', ['i', 'n', 't'], some [0], some .failed⟩ := rfl

end Verif.Traceback
