/-!
# Basic descriptors and checkers

`/repo/satella/configuration/schema/basic.py` and `/repo/satella/configuration/schema/base.py`: booleans, integers,
files, directories, contents of files, and checkers.
-/
namespace Verif.SchemaBasic

/-- Exceptions; ConfigurationValidationError is a ValueError, `/repo/satella/exceptions.py:177-189`. -/
inductive Exc where
  | invalid
  | valueError
  | typeError
  | osError
  | overflowError
  deriving Repr, DecidableEq

/-- `except self.my_exceptions` turns ValueError and TypeError into ConfigurationValidationError,
`/repo/satella/configuration/schema/base.py:75-78`. -/
def wrapped {W : Type} : Except Exc W → Except Exc W
  | .ok w => .ok w
  | .error .valueError => .error .invalid
  | .error .typeError => .error .invalid
  | .error e => .error e

/-- A CallableGroup of checkers called with a value: it is emptied first, and checkers are put back one
by one when they have not raised; true if one raised.  `/repo/satella/coding/concurrent/callablegroup.py:168-191`,
with `CheckerCondition.__call__`, `/repo/satella/configuration/schema/base.py:26-28`. -/
def callGroup {V : Type} (v : V) : List (V → Bool) → List (V → Bool) × Bool
  | [] => ([], false)
  | c :: cs =>
    if c v then let r := callGroup v cs; (c :: r.1, r.2)
    else ([], true)

/-- A descriptor: its checkers, before and after the maker, `/repo/satella/configuration/schema/base.py:54-64`. -/
structure Desc (V W : Type) where
  pre : List (V → Bool)
  post : List (W → Bool)

/-- `Descriptor.__call__`, `/repo/satella/configuration/schema/base.py:69-82`. -/
def Desc.call {V W : Type} (maker : V → Except Exc W) (d : Desc V W) (v : V) : Desc V W × Except Exc W :=
  let p := callGroup v d.pre
  if p.2 then ({ d with pre := p.1 }, .error .invalid)
  else
    match wrapped (maker v) with
    | .error e => ({ d with pre := p.1 }, .error e)
    | .ok w =>
      let q := callGroup w d.post
      (⟨p.1, q.1⟩, if q.2 then .error .invalid else .ok w)

/-- Configuration values.  Numbers with a fraction are infinite, not numbers, or finite (then the whole
part is of interest).  (Part of the model of `Descriptor`, /repo/satella/configuration/schema/base.py:42-88.) -/
inductive Val where
  | null
  | bool (b : Bool)
  | int (i : Int)
  | infinite
  | nan
  | finite (whole : Int) (zero : Bool)
  | str (s : List Char)
  | list (l : List Val)

/-- `bool(v)`.  (Part of the model of `_make_boolean`, /repo/satella/configuration/schema/basic.py:11-22.) -/
def Val.truth : Val → Bool
  | .null => false
  | .bool b => b
  | .int i => i != 0
  | .infinite => true
  | .nan => true
  | .finite _ zero => !zero
  | .str s => !s.isEmpty
  | .list l => !l.isEmpty

/-- `str.upper` of ASCII characters.  (Part of the model of `_make_boolean`, /repo/satella/configuration/schema/basic.py:11-22.) -/
def upper (s : List Char) : List Char := s.map Char.toUpper

/-- `_make_boolean`, `/repo/satella/configuration/schema/basic.py:11-22`; strings are ASCII. -/
def makeBoolean : Val → Except Exc Bool
  | .str s => if upper s = "TRUE".toList then .ok true else if upper s = "FALSE".toList then .ok false else .error .invalid
  | v => .ok v.truth

/-- `int(v)`, the maker of Integer, `/repo/satella/configuration/schema/basic.py:33-38`; `parse` is what `int` makes of
strings. -/
def makeInt (parse : List Char → Option Int) : Val → Except Exc Int
  | .null => .error .typeError
  | .bool b => .ok (if b then 1 else 0)
  | .int i => .ok i
  | .infinite => .error .overflowError
  | .nan => .error .valueError
  | .finite w _ => .ok w
  | .str s => match parse s with | some i => .ok i | none => .error .valueError
  | .list _ => .error .typeError

/-- A path is a file with contents (bytes), a directory, or nothing is there.  (Part of the model of `_make_file`, /repo/satella/configuration/schema/basic.py:135-140.) -/
inductive Node where
  | file (bytes : List Char)
  | dir
  | nothing
  deriving Repr, DecidableEq

/-- `FileObject`, `/repo/satella/configuration/schema/basic.py:57-101`; `DirectoryObject`,
`/repo/satella/configuration/schema/basic.py:104-132`; and strings, to which they are compared. -/
inductive Obj where
  | file (path : List Char)
  | directory (path : List Char)
  | string (s : List Char)
  deriving Repr, DecidableEq

/-- `str(o)`, `/repo/satella/configuration/schema/basic.py:71-72` -/
def Obj.text : Obj → List Char
  | .file p => p
  | .directory p => p
  | .string s => s

/-- `isinstance(o, FileObject)`.  (Part of the model of `FileObject`, /repo/satella/configuration/schema/basic.py:57-101.) -/
def Obj.isFile : Obj → Bool
  | .file _ => true
  | _ => false

/-- `isinstance(o, DirectoryObject)`.  (Part of the model of `DirectoryObject`, /repo/satella/configuration/schema/basic.py:104-132.) -/
def Obj.isDirectory : Obj → Bool
  | .directory _ => true
  | _ => false

/-- `a == b`, `/repo/satella/configuration/schema/basic.py:74-75`, `/repo/satella/configuration/schema/basic.py:121-122`; a string
does not know how to compare itself with an object, so that the object is asked. -/
def Obj.eq : Obj → Obj → Bool
  | .file p, o => p == o.text && o.isFile
  | .directory p, o => p == o.text && o.isDirectory
  | .string s, .string t => s == t
  | .string s, .file p => p == s && false
  | .string s, .directory p => p == s && false

/-- `hash(o)`, `/repo/satella/configuration/schema/basic.py:77-78`, `/repo/satella/configuration/schema/basic.py:124-125` -/
def Obj.hash (h : List Char → Int) : Obj → Int
  | .file p => h p
  | .directory p => h p
  | .string s => h s

/-- `_make_file`, `/repo/satella/configuration/schema/basic.py:135-140` -/
def makeFile (fs : List Char → Node) (v : List Char) : Except Exc Obj :=
  match fs v with
  | .file _ => .ok (.file v)
  | _ => .error .invalid

/-- `_make_directory`, `/repo/satella/configuration/schema/basic.py:178-183` -/
def makeDirectory (fs : List Char → Node) (v : List Char) : Except Exc Obj :=
  match fs v with
  | .dir => .ok (.directory v)
  | _ => .error .invalid

/-- `strip`: of the whitespace at both ends.  (Part of the model of `FileContents`, /repo/satella/configuration/schema/basic.py:153-175.) -/
def strip (ws : Char → Bool) (s : List Char) : List Char := ((s.dropWhile ws).reverse.dropWhile ws).reverse

/-- What is read: bytes, or characters if an encoding is given, `/repo/satella/configuration/schema/basic.py:166-171`. -/
def readAs (decode : Option (List Char → Option (List Char))) (b : List Char) : Option (List Char) :=
  match decode with
  | none => some b
  | some d => d b

/-- `FileContents.BASIC_MAKER`, `/repo/satella/configuration/schema/basic.py:165-175`.  `decode` is given if there is an encoding:
`none` is for UnicodeDecodeError, which is a ValueError. -/
def makeContents (decode : Option (List Char → Option (List Char))) (stripAfter : Bool) (ws : Char → Bool) (fs : List Char → Node) (v : List Char) : Except Exc (List Char) :=
  match fs v with
  | .file b =>
    match readAs decode b with
    | none => .error .valueError
    | some y => .ok (if stripAfter then strip ws y else y)
  | _ => .error .osError

/-! ### Specification -/

/-- The two strings are the same but for the case of letters. -/
inductive SameBut : List Char → List Char → Prop
  | nil : SameBut [] []
  | cons {c u s t} : (c = u ∨ c = u.toLower) → SameBut s t → SameBut (c :: s) (u :: t)

/-! ### Properties -/

theorem toUpper_iff (c u : Char) (hu : u ∈ "TRUEFALS".toList) : c.toUpper = u ↔ (c = u ∨ c = u.toLower) := by
  have key : ∀ n : Nat, 65 ≤ n → n ≤ 90 → ∀ (u : Char), u.toNat = n → (c.toUpper = u ↔ (c = u ∨ c = u.toLower)) := by
    intro n h1 h2 u hu
    have hul : u.toLower.toNat = n + 32 := by
      have hn : u.val.toNat = n := hu
      unfold Char.toLower
      rw [dif_pos (by rw [ge_iff_le, UInt32.le_iff_toNat_le, UInt32.le_iff_toNat_le]; simp only [hn]; exact ⟨h1, h2⟩)]
      show (u.val + 32).toNat = n + 32
      rw [UInt32.toNat_add, hn]
      simp; omega
    have hcu : ∀ a b : Char, a = b ↔ a.toNat = b.toNat := by
      intro a b
      exact ⟨fun h => by rw [h], fun h => Char.ext (UInt32.toNat_inj.1 h)⟩
    rw [hcu, hcu c u, hcu c u.toLower, hul, hu]
    unfold Char.toUpper
    split
    · rename_i hc
      simp only [UInt32.le_iff_toNat_le] at hc
      have hc1 : 97 ≤ c.val.toNat := hc.1
      have hc2 : c.val.toNat ≤ 122 := hc.2
      show (c.val + _).toNat = n ↔ _
      have : (c.val + ('A'.val - 'a'.val)).toNat = c.val.toNat - 32 := by
        rw [UInt32.toNat_add]
        have : ('A'.val - 'a'.val).toNat = 2^32 - 32 := by decide
        rw [this]; omega
      rw [this]
      show _ ↔ (c.val.toNat = n ∨ c.val.toNat = n + 32)
      omega
    · rename_i hc
      simp only [UInt32.le_iff_toNat_le] at hc
      show c.val.toNat = n ↔ (c.val.toNat = n ∨ c.val.toNat = n + 32)
      have : ¬ (97 ≤ c.val.toNat ∧ c.val.toNat ≤ 122) := hc
      omega
  have : ∀ u ∈ "TRUEFALS".toList, 65 ≤ u.toNat ∧ u.toNat ≤ 90 := by decide
  exact key u.toNat (this u hu).1 (this u hu).2 u rfl

theorem upper_iff : ∀ (s t : List Char), (∀ u ∈ t, u ∈ "TRUEFALS".toList) → (upper s = t ↔ SameBut s t) := by
  intro s t ht
  induction t generalizing s with
  | nil =>
    cases s with
    | nil => exact ⟨fun _ => .nil, fun _ => rfl⟩
    | cons c s => exact ⟨fun h => (by cases h), fun h => (by cases h)⟩
  | cons u t ih =>
    cases s with
    | nil => exact ⟨fun h => (by cases h), fun h => (by cases h)⟩
    | cons c s =>
      have ih := ih s (fun u hu => ht u (List.mem_cons_of_mem _ hu))
      have h1 := toUpper_iff c u (ht u (List.mem_cons_self ..))
      simp only [upper, List.map_cons, List.cons.injEq] at ih ⊢
      rw [h1, ih]
      exact ⟨fun h => .cons h.1 h.2, fun h => by cases h with | cons a b => exact ⟨a, b⟩⟩

/-- **C205 (booleans)** A string is true if it is `true`, false if it is `false`, in any case of letters, and
is refused otherwise; anything else counts as its truth. -/
theorem C205_boolean (v : Val) (b : Bool) :
    ((∀ s, v ≠ .str s) → (makeBoolean v = .ok false ↔ v = .null ∨ v = .bool false ∨ v = .int 0 ∨ (∃ i, v = .finite i true) ∨ v = .list []) ∧
      (makeBoolean v = .ok false ∨ makeBoolean v = .ok true)) ∧
    (∀ s, v = .str s → (makeBoolean v = .ok b ↔ SameBut s (if b then "TRUE".toList else "FALSE".toList))) ∧
    (∀ s, v = .str s → ((∀ b, makeBoolean v ≠ .ok b) → makeBoolean v = .error .invalid)) := by
  have hT := fun s => upper_iff s "TRUE".toList (by decide)
  have hF := fun s => upper_iff s "FALSE".toList (by decide)
  refine ⟨?_, ?_, ?_⟩
  · intro h
    cases v with
    | str s => exact absurd rfl (h s)
    | bool b => cases b <;> simp [makeBoolean, Val.truth]
    | int i => by_cases hi : i = 0 <;> simp [makeBoolean, Val.truth, hi]
    | finite i z => cases z <;> simp [makeBoolean, Val.truth]
    | list l => cases l <;> simp [makeBoolean, Val.truth]
    | _ => simp [makeBoolean, Val.truth]
  · rintro s rfl
    have hne : upper s = "TRUE".toList → upper s ≠ "FALSE".toList := by
      intro h1 h2; rw [h1] at h2; exact absurd h2 (by decide)
    simp only [makeBoolean]
    cases b with
    | true =>
      simp only [↓reduceIte, ← hT]
      split
      · rename_i h; simp [h]
      · rename_i h
        refine ⟨fun h' => ?_, fun h' => absurd h' h⟩
        split at h' <;> cases h'
    | false =>
      simp only [Bool.false_eq_true, ↓reduceIte, ← hF]
      split
      · rename_i h; simpa using hne h
      · split <;> simp_all
  · rintro s rfl h
    have h1 := h true
    have h2 := h false
    simp only [makeBoolean] at h1 h2 ⊢
    by_cases a : upper s = "TRUE".toList
    · rw [if_pos a] at h1; exact absurd rfl h1
    · rw [if_neg a] at h2 ⊢
      by_cases b : upper s = "FALSE".toList
      · rw [if_pos b] at h2; exact absurd rfl h2
      · rw [if_neg b]

/-- **C205 (booleans of booleans)** What Boolean gives, it gives back. -/
theorem C205_boolean_again (v : Val) (b : Bool) (_h : makeBoolean v = .ok b) : makeBoolean (.bool b) = .ok b := rfl

/-- **C205 (files and directories)** A path is taken as a file exactly if there is a file there, as a
directory exactly if there is a directory; what is given names the path; otherwise it is refused. -/
theorem C205_files (fs : List Char → Node) (p : List Char) :
    (∀ o, makeFile fs p = .ok o ↔ (∃ b, fs p = .file b) ∧ o = .file p) ∧
    (∀ o, makeDirectory fs p = .ok o ↔ fs p = .dir ∧ o = .directory p) ∧
    ((∀ b, fs p ≠ .file b) → makeFile fs p = .error .invalid) ∧ (fs p ≠ .dir → makeDirectory fs p = .error .invalid) := by
  unfold makeFile makeDirectory
  refine ⟨fun o => ?_, fun o => ?_, ?_, ?_⟩ <;> cases h : fs p <;> simp [eq_comm]

/-- **C205 (equality of files)** Files are equal exactly if their paths are, directories likewise, and
a file never equals a directory; equality is symmetric and transitive, and equal objects have equal hashes. -/
theorem C205_equality (a b c : Obj) (h : List Char → Int) :
    (a.eq b = true ↔ a = b) ∧ a.eq b = b.eq a ∧ (a.eq b → b.eq c → a.eq c) ∧ (a.eq b → a.hash h = b.hash h) := by
  have key : ∀ a b : Obj, a.eq b = true ↔ a = b := by
    intro a b; cases a <;> cases b <;> simp [Obj.eq, Obj.text, Obj.isFile, Obj.isDirectory]
  refine ⟨key a b, ?_, ?_, ?_⟩
  · rw [Bool.eq_iff_iff, key, key]; exact ⟨Eq.symm, Eq.symm⟩
  · intro h1 h2; rw [key] at *; exact h1.trans h2
  · intro h1; rw [key] at h1; rw [h1]

theorem dropWhile_split (ws : Char → Bool) (s : List Char) : ∃ a, s = a ++ s.dropWhile ws ∧ (∀ c ∈ a, ws c) ∧ (∀ c, (s.dropWhile ws).head? = some c → ws c = false) := by
  induction s with
  | nil => exact ⟨[], rfl, by simp, by simp⟩
  | cons c s ih =>
    by_cases h : ws c
    · obtain ⟨a, h1, h2, h3⟩ := ih
      refine ⟨c :: a, ?_, ?_, ?_⟩
      · rw [List.dropWhile_cons_of_pos h]; simpa using h1
      · intro d hd; rcases List.mem_cons.1 hd with rfl | hd
        · exact h
        · exact h2 d hd
      · rw [List.dropWhile_cons_of_pos h]; exact h3
    · refine ⟨[], ?_, by simp, ?_⟩
      · rw [List.dropWhile_cons_of_neg h]; rfl
      · rw [List.dropWhile_cons_of_neg h]; intro d hd; cases hd; simpa using h

/-- **C205 (contents of files)** The value is what the file has, decoded if an encoding was given; with
stripping, only whitespace is removed, and only from the ends, and none remains there. What cannot be decoded is
refused. -/
theorem C205_contents (fs : List Char → Node) (p b y : List Char) (ws : Char → Bool) (decode : Option (List Char → Option (List Char)))
    (hf : fs p = .file b) (hd : (decode = none ∧ y = b) ∨ ∃ d, decode = some d ∧ d b = some y) :
    makeContents decode false ws fs p = .ok y ∧
    ∃ l m r, makeContents decode true ws fs p = .ok m ∧ y = l ++ m ++ r ∧ (∀ c ∈ l, ws c) ∧ (∀ c ∈ r, ws c) ∧
      (∀ c, m.head? = some c → ws c = false) ∧ (∀ c, m.getLast? = some c → ws c = false) := by
  have hm : readAs decode b = some y := by
    rcases hd with ⟨rfl, rfl⟩ | ⟨d, rfl, h⟩
    · rfl
    · exact h
  constructor
  · simp only [makeContents, hf, hm]; rfl
  · obtain ⟨l, h1, h2, h3⟩ := dropWhile_split ws y
    obtain ⟨r, h4, h5, h6⟩ := dropWhile_split ws (y.dropWhile ws).reverse
    have h7 : y.dropWhile ws = strip ws y ++ r.reverse := by
      have := congrArg List.reverse h4
      simpa [strip] using this
    refine ⟨l, strip ws y, r.reverse, ?_, ?_, h2, ?_, ?_, ?_⟩
    · simp only [makeContents, hf, hm]; rfl
    · rw [List.append_assoc, ← h7]; exact h1
    · intro c hc; exact h5 c (by simpa using hc)
    · intro c hc
      apply h3
      rw [h7, List.head?_append, hc]; rfl
    · intro c hc
      apply h6
      simpa [strip] using hc

/-- **C205 (contents that cannot be decoded)** are refused. -/
theorem C205_undecodable (fs : List Char → Node) (p b : List Char) (ws : Char → Bool) (d : List Char → Option (List Char)) (s : Bool)
    (hf : fs p = .file b) (hd : d b = none) (post : List (List Char → Bool)) :
    (Desc.call (makeContents (some d) s ws fs) ⟨[], post⟩ p).2 = .error .invalid := by
  simp [Desc.call, callGroup, makeContents, readAs, hf, hd, wrapped]

theorem callGroup_all {V : Type} (v : V) (cs : List (V → Bool)) (h : ∀ c ∈ cs, c v) : callGroup v cs = (cs, false) := by
  induction cs with
  | nil => rfl
  | cons c cs ih =>
    simp only [callGroup, h c (List.mem_cons_self ..), ↓reduceIte, ih (fun d hd => h d (List.mem_cons_of_mem _ hd))]

theorem callGroup_some {V : Type} (v : V) (cs : List (V → Bool)) (c : V → Bool) (hc : c ∈ cs) (h : c v = false) : (callGroup v cs).2 = true := by
  induction cs with
  | nil => cases hc
  | cons d cs ih =>
    simp only [callGroup]
    split
    · rename_i hd
      rcases List.mem_cons.1 hc with rfl | hc
      · rw [h] at hd; cases hd
      · exact ih hc
    · rfl

/-- **C205 (checkers)** A value is taken exactly if it passes all the checkers that come before the maker, the
maker gives something, and that passes all the checkers that come after it. Then the result is what the maker gives, and the descriptor has
all its checkers still. -/
theorem C205_checkers {V W : Type} (maker : V → Except Exc W) (d : Desc V W) (v : V) (w : W) :
    ((d.call maker v).2 = .ok w ↔ (∀ c ∈ d.pre, c v) ∧ maker v = .ok w ∧ ∀ c ∈ d.post, c w) ∧
    ((d.call maker v).2 = .ok w → (d.call maker v).1 = d) := by
  have key : (d.call maker v).2 = .ok w → (∀ c ∈ d.pre, c v) ∧ maker v = .ok w ∧ ∀ c ∈ d.post, c w := by
    intro h
    simp only [Desc.call] at h
    split at h
    · cases h
    · rename_i hp
      have h1 : ∀ c ∈ d.pre, c v := by
        intro c hc
        cases hcv : c v with
        | true => rfl
        | false => exact absurd (callGroup_some v _ c hc hcv) hp
      cases hm : maker v with
      | error e => rw [hm] at h; cases e <;> simp [wrapped] at h
      | ok x =>
        rw [hm] at h
        simp only [wrapped] at h
        split at h
        · cases h
        · rename_i hq
          cases h
          refine ⟨h1, rfl, ?_⟩
          intro c hc
          cases hcv : c w with
          | true => rfl
          | false => exact absurd (callGroup_some w _ c hc hcv) hq
  have back : (∀ c ∈ d.pre, c v) ∧ maker v = .ok w ∧ (∀ c ∈ d.post, c w) → d.call maker v = (d, .ok w) := by
    rintro ⟨h1, h2, h3⟩
    simp only [Desc.call, callGroup_all v _ h1, h2, wrapped, callGroup_all w _ h3]; rfl
  exact ⟨⟨key, fun h => by rw [back h]⟩, fun h => by rw [back (key h)]⟩

/-- **C205 (refusals)** A value that some checker refuses raises ConfigurationValidationError. -/
theorem C205_refused {V W : Type} (maker : V → Except Exc W) (d : Desc V W) (v : V) :
    ((∃ c ∈ d.pre, c v = false) → (d.call maker v).2 = .error .invalid) ∧
    ((∀ c ∈ d.pre, c v) → (maker v = .error .valueError ∨ maker v = .error .typeError ∨ maker v = .error .invalid) → (d.call maker v).2 = .error .invalid) ∧
    ((∀ c ∈ d.pre, c v) → ∀ w, maker v = .ok w → (∃ c ∈ d.post, c w = false) → (d.call maker v).2 = .error .invalid) := by
  refine ⟨?_, ?_, ?_⟩
  · rintro ⟨c, hc, h⟩
    simp only [Desc.call, callGroup_some v _ c hc h, ↓reduceIte]
  · rintro h1 (h | h | h) <;> simp [Desc.call, callGroup_all v _ h1, h, wrapped]
  · rintro h1 w h2 ⟨c, hc, h⟩
    simp only [Desc.call, callGroup_all v _ h1, h2, wrapped, callGroup_some w _ c hc h, Bool.false_eq_true, ↓reduceIte]

/-- **C206 (a checker always checks), the violation** A value that is refused by a checker before the maker is
taken when it is given a second time: the checker, and all after it, are lost. -/
theorem C206_second_time_violates {V W : Type} (maker : V → Except Exc W) (c : V → Bool) (v : V) (w : W) (hc : c v = false) (hm : maker v = .ok w) :
    ((⟨[c], []⟩ : Desc V W).call maker v).2 = .error .invalid ∧ (((⟨[c], []⟩ : Desc V W).call maker v).1.call maker v).2 = .ok w := by
  simp [Desc.call, callGroup, hc, hm, wrapped]

/-- **C206 (a file equals the string of its path), the violation** It never does, although its hash is that of
the string. -/
theorem C206_string_violates (p : List Char) (h : List Char → Int) :
    (Obj.file p).eq (.string p) = false ∧ (Obj.string p).eq (.file p) = false ∧ (Obj.directory p).eq (.string p) = false ∧ (Obj.file p).hash h = (Obj.string p).hash h := by
  simp [Obj.eq, Obj.isFile, Obj.isDirectory, Obj.hash]

/-- **C206 (invalid values raise ConfigurationValidationError), the violation** The path of a file that is
not there raises OSError from FileContents. -/
theorem C206_missing_violates (decode : Option (List Char → Option (List Char))) (s : Bool) (ws : Char → Bool) (fs : List Char → Node) (p : List Char)
    (h : ∀ b, fs p ≠ .file b) (post : List (List Char → Bool)) : (Desc.call (makeContents decode s ws fs) ⟨[], post⟩ p).2 = .error .osError := by
  cases hf : fs p with
  | file b => exact absurd hf (h b)
  | dir => simp [Desc.call, callGroup, makeContents, hf, wrapped]
  | nothing => simp [Desc.call, callGroup, makeContents, hf, wrapped]

/-- **C206 (invalid values raise ConfigurationValidationError), the violation** An infinite number raises
OverflowError from Integer. -/
theorem C206_infinite_violates (parse : List Char → Option Int) (post : List (Int → Bool)) :
    (Desc.call (makeInt parse) ⟨[], post⟩ .infinite).2 = .error .overflowError := rfl

/-- **C206 (invalid values raise ConfigurationValidationError), the part that holds** Integer, of a value that
is not infinite, gives an integer or raises ConfigurationValidationError. -/
theorem C206_integer_partial (parse : List Char → Option Int) (v : Val) (hv : v ≠ .infinite) :
    (∃ i, (Desc.call (makeInt parse) ⟨[], []⟩ v).2 = .ok i) ∨ (Desc.call (makeInt parse) ⟨[], []⟩ v).2 = .error .invalid := by
  cases v with
  | infinite => exact absurd rfl hv
  | str s => cases h : parse s <;> simp [Desc.call, callGroup, makeInt, h, wrapped]
  | bool b => left; exact ⟨_, rfl⟩
  | int i => left; exact ⟨_, rfl⟩
  | finite w z => left; exact ⟨_, rfl⟩
  | null => right; rfl
  | nan => right; rfl
  | list l => right; rfl

/-- **C206 (invalid values raise ConfigurationValidationError), what Integer gives** A number is cut to an integer, True
is 1 and False is 0, and a string is what it says; None and lists are refused. -/
theorem C206_integer_values_partial (parse : List Char → Option Int) (i w : Int) (z : Bool) (s : List Char) (l : List Val) (v : Val) (y : Int)
    (hy : (Desc.call (makeInt parse) ⟨[], []⟩ v).2 = .ok y) :
    (v = .int i → y = i) ∧ (v = .bool true → y = 1) ∧ (v = .bool false → y = 0) ∧ (v = .finite w z → y = w) ∧ (v = .str s → parse s = some y) ∧ v ≠ .null ∧ v ≠ .list l := by
  have h : ∀ x, makeInt parse v = .ok x → x = y := by
    intro x hx
    simp only [Desc.call, callGroup, hx, wrapped] at hy
    simpa using hy
  refine ⟨?_, ?_, ?_, ?_, ?_, ?_, ?_⟩
  · rintro rfl; exact (h i rfl).symm
  · rintro rfl; exact (h 1 rfl).symm
  · rintro rfl; exact (h 0 rfl).symm
  · rintro rfl; exact (h w rfl).symm
  · rintro rfl
    cases hp : parse s with
    | none => simp [Desc.call, callGroup, makeInt, hp, wrapped] at hy
    | some x => rw [h x (by simp [makeInt, hp])]
  · rintro rfl; simp [Desc.call, callGroup, makeInt, wrapped] at hy
  · rintro rfl; simp [Desc.call, callGroup, makeInt, wrapped] at hy

/-- **C206 (a checker always checks), the part that holds** After any number of values that were taken, the
descriptor checks as it did at first. -/
theorem C206_checks_partial {V W : Type} (maker : V → Except Exc W) (d : Desc V W) (vs : List V)
    (h : ∀ v ∈ vs, ∃ w, (d.call maker v).2 = .ok w) (v : V) : ((vs.foldl (fun d v => (d.call maker v).1) d).call maker v) = d.call maker v := by
  induction vs with
  | nil => rfl
  | cons x vs ih =>
    obtain ⟨w, hw⟩ := h x (List.mem_cons_self ..)
    simp only [List.foldl_cons]
    rw [(C205_checkers maker d x w).2 hw]
    exact ih (fun y hy => h y (List.mem_cons_of_mem _ hy))

/-! ## Examples -/

example : makeBoolean (.str "TrUe".toList) = .ok true := rfl
example : SameBut "fAlSe".toList "FALSE".toList := by
  repeat (first | exact SameBut.nil | refine SameBut.cons (by decide) ?_)
/-- A file system with one file.  -/
def exFs : List Char → Node := fun p => if p = "a".toList then .file " xy ".toList else if p = "d".toList then .dir else .nothing
example : makeFile exFs "a".toList = .ok (.file "a".toList) := rfl
example : makeContents none true (· == ' ') exFs "a".toList = .ok "xy".toList := rfl
example : (Desc.call (makeInt (fun _ => none)) ⟨[], [(· > 3)]⟩ (.int 5)).2 = .ok 5 := rfl
example : (Desc.call (makeInt (fun _ => none)) ⟨[], [(fun i => decide (i > 3))]⟩ (.int 2)).2 = .error .invalid := rfl

end Verif.SchemaBasic
