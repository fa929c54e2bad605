import Verif.Py.Run

/-!
# Model of read_lines, read_re_sub_and_write and DevNullFilelikeObject (satella/files.py), C225 to C227

Texts are lists of code points, contents are lists of bytes; an encoding is a pair of functions that may refuse.  The platform is POSIX: writing does not translate the ends of lines.
-/
namespace Verif.Files.Lines
open Verif

/-! ## Python's texts -/

/-- where `str.splitlines` ends a line.  (Part of the model of `read_lines`, /repo/satella/files.py:163-179.) -/
def isBreak (c : Nat) : Bool :=
  c == 10 || c == 11 || c == 12 || c == 13 || c == 28 || c == 29 || c == 30 || c == 0x85 || c == 0x2028 || c == 0x2029

/-- `str.isspace` of a character.  (Part of the model of `read_lines`, /repo/satella/files.py:163-179.) -/
def isSpace (c : Nat) : Bool :=
  (9 ≤ c && c ≤ 13) || (28 ≤ c && c ≤ 32) || c == 0x85 || c == 0xa0 || c == 0x1680 || (0x2000 ≤ c && c ≤ 0x200a) ||
    c == 0x2028 || c == 0x2029 || c == 0x202f || c == 0x205f || c == 0x3000

/-- `readlines()` of a stream of the module codecs: `read().splitlines(True)`; `cur` is what was read of the line.  (Part of the model of `read_lines`, /repo/satella/files.py:163-179.) -/
def splitlines : List Nat → List Nat → List (List Nat)
  | cur, [] => if cur = [] then [] else [cur]
  | cur, c :: r =>
    if isBreak c then
      match r with
      | [] => [cur ++ [c]]
      | d :: r' => if c = 13 ∧ d = 10 then (cur ++ [c, d]) :: splitlines [] r' else (cur ++ [c]) :: splitlines [] (d :: r')
    else splitlines (cur ++ [c]) r

/-- `str.strip()`.  (Part of the model of `read_lines`, /repo/satella/files.py:163-179.) -/
def strip (l : List Nat) : List Nat := ((l.dropWhile isSpace).reverse.dropWhile isSpace).reverse

/-! ## satella -/

/-- part of the model of `read_lines`, /repo/satella/files.py:163-179 -/
inductive Err where
  | notFound
  /-- the content cannot be decoded, or the text cannot be encoded -/
  | unicode
  /-- what `re.sub`, or a function given as `repl`, raises -/
  | sub (n : Nat)
  deriving DecidableEq, Repr

/-- `read_lines`, /repo/satella/files.py:163-179; `none` is a file that is not there -/
def readLines (decode : List Nat → Option (List Nat)) (file : Option (List Nat)) (deleteEmpty : Bool) : Except Err (List (List Nat)) :=
  match file with
  | none => .error .notFound
  | some b =>
    match decode b with
    | none => .error .unicode
    | some t =>
      let lines := (splitlines [] t).map strip
      .ok (if deleteEmpty then lines.filter (fun l => decide (l ≠ [])) else lines)

/-- what reading a file opened with `open(path, 'r')` makes of the ends of lines (universal newlines).  (Part of the model of `read_re_sub_and_write`, /repo/satella/files.py:280-300.) -/
def newlines : List Nat → List Nat
  | [] => []
  | c :: r =>
    if c = 13 then
      match r with
      | [] => [10]
      | d :: r' => if d = 10 then 10 :: newlines r' else 10 :: newlines (d :: r')
    else c :: newlines r

/-- `read_re_sub_and_write`, /repo/satella/files.py:280-300: the file afterwards, and what is raised.  `sub` is `re.sub` with the pattern, be it a text or a compiled one, and with `repl`; opening with 'w' empties the file -/
def reSub (decode encode : List Nat → Option (List Nat)) (sub : List Nat → Except Err (List Nat)) (file : Option (List Nat)) : Option (List Nat) × Option Err :=
  match file with
  | none => (none, some .notFound)
  | some b =>
    match decode b with
    | none => (some b, some .unicode)
    | some t =>
      match sub (newlines t) with
      | .error e => (some b, some e)
      | .ok t' =>
        match encode t' with
        | none => (some [], some .unicode)
        | some b' => (some b', none)

/-- what is written to a DevNullFilelikeObject.  (Part of the model of `DevNullFilelikeObject`, /repo/satella/files.py:69-152.) -/
inductive Data where
  | text (length : Nat)
  | bytes (length : Nat)
  | other
  deriving DecidableEq, Repr

/-- the calls.  (Part of the model of `DevNullFilelikeObject`, /repo/satella/files.py:69-152.) -/
inductive Op where
  | tell | truncate | writable | seek | seekable | read
  | write (d : Data)
  | flush | close | enter | exit
  deriving DecidableEq, Repr

/-- what they return.  (Part of the model of `DevNullFilelikeObject`, /repo/satella/files.py:69-152.) -/
inductive Res where
  | int (n : Nat)
  | true
  | emptyText
  | emptyBytes
  | none
  | self
  | valueError
  | typeError
  deriving DecidableEq, Repr

/-- the attributes `is_closed` and `binary`, /repo/satella/files.py:77-79 -/
structure Null where
  closed : Bool
  binary : Bool
  deriving DecidableEq, Repr

/-- `write`, /repo/satella/files.py:127-133 -/
def Null.write (s : Null) : Data → Res
  | .text n => if s.binary then .typeError else .int n
  | .bytes n => if s.binary then .int n else .typeError
  | .other => .typeError

/-- the methods, /repo/satella/files.py:80-152, under `value_error_on_closed_file`, /repo/satella/files.py:25-35 -/
def Null.step (s : Null) : Op → Null × Res
  | .close => ({ s with closed := Bool.true }, .none)
  | .enter => (s, .self)
  | .exit => ({ s with closed := Bool.true }, .none)
  | o =>
    if s.closed then (s, .valueError)
    else (s, match o with
      | .tell | .truncate | .seek => .int 0
      | .writable | .seekable => .true
      | .read => if s.binary then .emptyBytes else .emptyText
      | .write d => s.write d
      | _ => .none)

/-! ## Specification -/

/-- the characters that end a line: the ends of lines, tabulations and pages, separators of information, and those of Unicode -/
def Break (c : Nat) : Prop := c ∈ [10, 11, 12, 13, 28, 29, 30, 133, 8232, 8233]

/-- `e` ends a line, before `rest`: a carriage return and a line feed together, or one of the characters -/
def Terminator (e rest : List Nat) : Prop :=
  e = [13, 10] ∨ ∃ c, e = [c] ∧ Break c ∧ ¬ (c = 13 ∧ rest.head? = some 10)

/-- the lines of a text, without their ends -/
inductive LinesOf : List Nat → List (List Nat) → Prop where
  | nothing : LinesOf [] []
  | last (l : List Nat) : l ≠ [] → (∀ c ∈ l, ¬ Break c) → LinesOf l [l]
  | line (l e rest : List Nat) (ls : List (List Nat)) : (∀ c ∈ l, ¬ Break c) → Terminator e rest → LinesOf rest ls → LinesOf (l ++ e ++ rest) (l :: ls)

/-- the white space of Unicode, as Python has it -/
def White (c : Nat) : Prop :=
  c ∈ [9, 10, 11, 12, 13, 28, 29, 30, 31, 32, 133, 160, 5760, 8232, 8233, 8239, 8287, 12288] ∨ 8192 ≤ c ∧ c ≤ 8202

/-- `t` is `l` without the white space at its two ends -/
def Trimmed (l t : List Nat) : Prop :=
  ∃ a b, l = a ++ t ++ b ∧ (∀ c ∈ a, White c) ∧ (∀ c ∈ b, White c) ∧ (∀ c, t.head? = some c → ¬ White c) ∧ (∀ c, t.getLast? = some c → ¬ White c)

/-- each line has its trimmed one -/
inductive Each : List (List Nat) → List (List Nat) → Prop where
  | nil : Each [] []
  | cons (l t : List Nat) (ls ts : List (List Nat)) : Trimmed l t → Each ls ts → Each (l :: ls) (t :: ts)

/-! ## Proofs -/

theorem isBreak_iff (c : Nat) : isBreak c = true ↔ Break c := by
  simp [isBreak, Break, or_assoc]

theorem isSpace_iff (c : Nat) : isSpace c = true ↔ White c := by
  simp [isSpace, White]
  omega

theorem break_white {c : Nat} (h : Break c) : White c := by
  simp [Break] at h
  simp [White]
  omega

theorem dropWhile_white (l : List Nat) : ∃ a, l = a ++ l.dropWhile isSpace ∧ (∀ c ∈ a, White c) ∧ ∀ c, (l.dropWhile isSpace).head? = some c → ¬ White c := by
  induction l with
  | nil => exact ⟨[], rfl, by simp, by simp⟩
  | cons x l ih =>
    by_cases hx : isSpace x = true
    · obtain ⟨a, h1, h2, h3⟩ := ih
      refine ⟨x :: a, ?_, ?_, ?_⟩
      · rw [List.dropWhile_cons_of_pos hx, List.cons_append, ← h1]
      · intro c hc
        rcases List.mem_cons.1 hc with rfl | hc
        · exact (isSpace_iff _).1 hx
        · exact h2 c hc
      · rw [List.dropWhile_cons_of_pos hx]; exact h3
    · rw [List.dropWhile_cons_of_neg hx]
      refine ⟨[], rfl, by simp, ?_⟩
      intro c hc hw
      simp at hc
      subst hc
      exact hx ((isSpace_iff _).2 hw)

theorem strip_trimmed (l : List Nat) : Trimmed l (strip l) := by
  obtain ⟨a, h1, h2, h3⟩ := dropWhile_white l
  obtain ⟨b, g1, g2, g3⟩ := dropWhile_white (l.dropWhile isSpace).reverse
  have g1' : l.dropWhile isSpace = strip l ++ b.reverse := by
    have := congrArg List.reverse g1
    rw [List.reverse_reverse, List.reverse_append] at this
    exact this
  refine ⟨a, b.reverse, ?_, h2, ?_, ?_, ?_⟩
  · rw [List.append_assoc, ← g1', ← h1]
  · intro c hc; exact g2 c (List.mem_reverse.1 hc)
  · intro c hc
    apply h3 c
    rw [g1']
    cases hs : strip l with
    | nil => rw [hs] at hc; cases hc
    | cons y ys => rw [hs] at hc; simpa using hc
  · intro c hc
    apply g3 c
    have : strip l = ((l.dropWhile isSpace).reverse.dropWhile isSpace).reverse := rfl
    rw [this, List.getLast?_reverse] at hc
    exact hc

theorem left_unique (a a' r r' : List Nat) (h : a ++ r = a' ++ r') (ha : ∀ c ∈ a, White c) (ha' : ∀ c ∈ a', White c)
    (hr : ∀ c, r.head? = some c → ¬ White c) (hr' : ∀ c, r'.head? = some c → ¬ White c) : r = r' := by
  induction a generalizing a' with
  | nil =>
    cases a' with
    | nil => simpa using h
    | cons x a' =>
      simp at h
      exact absurd (ha' x (by simp)) (hr x (by rw [h]; rfl))
  | cons x a ih =>
    cases a' with
    | nil =>
      simp at h
      exact absurd (ha x (by simp)) (hr' x (by rw [← h]; rfl))
    | cons y a' =>
      simp at h
      exact ih a' h.2 (fun c hc => ha c (by simp [hc])) (fun c hc => ha' c (by simp [hc]))

theorem white_of_trimmed_nil {l : List Nat} (h : Trimmed l []) : ∀ c ∈ l, White c := by
  obtain ⟨a, b, rfl, ha, hb, _, _⟩ := h
  intro c hc
  simp at hc
  rcases hc with h | h
  · exact ha c h
  · exact hb c h

/-- there is one way to trim a line -/
theorem trimmed_unique (l t t' : List Nat) (h : Trimmed l t) (h' : Trimmed l t') : t = t' := by
  have nils : ∀ u, (∀ c ∈ l, White c) → Trimmed l u → u = [] := by
    intro u hw hu
    obtain ⟨a, b, e, _, _, h3, _⟩ := hu
    cases u with
    | nil => rfl
    | cons c r => exact absurd (hw c (by rw [e]; simp)) (h3 c rfl)
  by_cases ht : t = []
  · subst ht; exact (nils t' (white_of_trimmed_nil h) h').symm
  by_cases ht' : t' = []
  · subst ht'; exact nils t (white_of_trimmed_nil h') h
  obtain ⟨a, b, e, h1, h2, h3, h4⟩ := h
  obtain ⟨a', b', e', h1', h2', h3', h4'⟩ := h'
  have hd : ∀ (u v : List Nat), u ≠ [] → (u ++ v).head? = u.head? := by
    intro u v hu
    cases u with
    | nil => exact absurd rfl hu
    | cons => rfl
  have key : t ++ b = t' ++ b' := by
    apply left_unique a a' _ _ _ h1 h1'
    · rw [hd t b ht]; exact h3
    · rw [hd t' b' ht']; exact h3'
    · rw [← List.append_assoc, ← List.append_assoc, ← e, ← e']
  have key2 : b.reverse ++ t.reverse = b'.reverse ++ t'.reverse := by
    rw [← List.reverse_append, ← List.reverse_append, key]
  have := left_unique b.reverse b'.reverse _ _ key2 (fun c hc => h2 c (List.mem_reverse.1 hc)) (fun c hc => h2' c (List.mem_reverse.1 hc))
    (by rw [List.head?_reverse]; exact h4) (by rw [List.head?_reverse]; exact h4')
  simpa using congrArg List.reverse this

theorem trimmed_end {l e t : List Nat} (he : ∀ c ∈ e, White c) (h : Trimmed l t) : Trimmed (l ++ e) t := by
  obtain ⟨a, b, rfl, h1, h2, h3, h4⟩ := h
  refine ⟨a, b ++ e, by simp, h1, ?_, h3, h4⟩
  intro c hc
  rcases List.mem_append.1 hc with h | h
  · exact h2 c h
  · exact he c h

theorem strip_end (l e : List Nat) (he : ∀ c ∈ e, White c) : strip (l ++ e) = strip l :=
  trimmed_unique (l ++ e) _ _ (strip_trimmed _) (trimmed_end he (strip_trimmed l))

/-- what the lines have in common with those of `splitlines`: the ends are white -/
theorem splitlines_lines (t cur : List Nat) (hcur : ∀ c ∈ cur, ¬ Break c) :
    ∃ ls, LinesOf (cur ++ t) ls ∧ (splitlines cur t).map strip = ls.map strip := by
  induction cur, t using splitlines.induct with
  | case1 => exact ⟨[], LinesOf.nothing, by simp [splitlines]⟩
  | case2 cur hc =>
    refine ⟨[cur], ?_, by simp [splitlines, hc]⟩
    rw [List.append_nil]
    exact LinesOf.last cur hc hcur
  | case3 cur c hb =>
    refine ⟨[cur], ?_, ?_⟩
    · have := LinesOf.line cur [c] [] [] hcur (Or.inr ⟨c, rfl, (isBreak_iff c).1 hb, by simp⟩) LinesOf.nothing
      simpa using this
    · simp only [splitlines, hb, if_true, List.map_cons, List.map_nil]
      rw [strip_end _ _ (by simpa using break_white ((isBreak_iff c).1 hb))]
  | case4 cur c hb d r' hcd ih =>
    obtain ⟨rfl, rfl⟩ := hcd
    obtain ⟨ls, h1, h2⟩ := ih (by simp)
    refine ⟨cur :: ls, ?_, ?_⟩
    · have := LinesOf.line cur [13, 10] r' ls hcur (Or.inl rfl) (by simpa using h1)
      simpa using this
    · simp only [splitlines, hb, if_true, and_self, List.map_cons, h2]
      rw [strip_end _ _ (by simp [White])]
  | case5 cur c hb d r' hcd ih =>
    obtain ⟨ls, h1, h2⟩ := ih (by simp)
    refine ⟨cur :: ls, ?_, ?_⟩
    · have := LinesOf.line cur [c] (d :: r') ls hcur (Or.inr ⟨c, rfl, (isBreak_iff c).1 hb, by simpa using hcd⟩) (by simpa using h1)
      simpa using this
    · simp only [splitlines, hb, if_true, if_neg hcd, List.map_cons, h2]
      rw [strip_end _ _ (by simpa using break_white ((isBreak_iff c).1 hb))]
  | case6 cur c r hb ih =>
    obtain ⟨ls, h1, h2⟩ := ih (by
      intro x hx
      rcases List.mem_append.1 hx with h | h
      · exact hcur x h
      · simp at h; subst h; exact fun hk => hb ((isBreak_iff _).2 hk))
    refine ⟨ls, by simpa using h1, ?_⟩
    rw [← h2]
    conv => lhs; unfold splitlines
    rw [if_neg hb]

theorem each_strip (ls : List (List Nat)) : Each ls (ls.map strip) := by
  induction ls with
  | nil => exact Each.nil
  | cons l ls ih => exact Each.cons l _ ls _ (strip_trimmed l) ih

theorem each_unique (ls ts ts' : List (List Nat)) (h : Each ls ts) (h' : Each ls ts') : ts = ts' := by
  induction h generalizing ts' with
  | nil => cases h'; rfl
  | cons l t ls ts h1 _ ih =>
    cases h' with
    | cons _ t' _ ts' h1' h2' => rw [trimmed_unique l t t' h1 h1', ih ts' h2']

theorem terminator_cases {e r : List Nat} (h : Terminator e r) : ∃ c e', e = c :: e' ∧ Break c := by
  rcases h with rfl | ⟨c, rfl, hb, _⟩
  · exact ⟨13, [10], rfl, by simp [Break]⟩
  · exact ⟨c, [], rfl, hb⟩

theorem before_break (l l' x y : List Nat) (c d : Nat) (h : l ++ c :: x = l' ++ d :: y) (hl : ∀ c ∈ l, ¬ Break c) (hl' : ∀ c ∈ l', ¬ Break c) (hc : Break c) (hd : Break d) :
    l = l' ∧ c = d ∧ x = y := by
  induction l generalizing l' with
  | nil =>
    cases l' with
    | nil => simpa using h
    | cons z l' =>
      simp at h
      exact absurd (h.1 ▸ hc) (hl' z (by simp))
  | cons w l ih =>
    cases l' with
    | nil =>
      simp at h
      exact absurd (h.1 ▸ hd) (hl w (by simp))
    | cons z l' =>
      simp at h
      obtain ⟨rfl, h⟩ := h
      obtain ⟨rfl, h2⟩ := ih l' h (fun c hc => hl c (by simp [hc])) (fun c hc => hl' c (by simp [hc]))
      exact ⟨rfl, h2⟩

theorem terminator_unique {e r e' r' : List Nat} (h : e ++ r = e' ++ r') (he : Terminator e r) (he' : Terminator e' r') : e = e' ∧ r = r' := by
  rcases he with rfl | ⟨c, rfl, _, hn⟩ <;> rcases he' with rfl | ⟨c', rfl, _, hn'⟩
  · simpa using h
  · simp at h
    obtain ⟨rfl, h⟩ := h
    exact absurd ⟨rfl, by rw [← h]; rfl⟩ hn'
  · simp at h
    obtain ⟨rfl, h⟩ := h
    exact absurd ⟨rfl, by rw [h]; rfl⟩ hn
  · simpa using h

/-- a text has its lines in one way -/
theorem lines_unique (t : List Nat) (ls ls' : List (List Nat)) (h : LinesOf t ls) (h' : LinesOf t ls') : ls = ls' := by
  induction h generalizing ls' with
  | nothing =>
    generalize hx : ([] : List Nat) = x at h'
    cases h' with
    | nothing => rfl
    | last _ hn _ => exact absurd hx.symm hn
    | line l e rest ls _ ht _ =>
      obtain ⟨c, e', rfl, _⟩ := terminator_cases ht
      simp at hx
  | last l hn hb =>
    cases h' with
    | nothing => exact absurd rfl hn
    | last => rfl
    | line l e rest ls _ ht _ =>
      obtain ⟨c, e', rfl, hc⟩ := terminator_cases ht
      exact absurd hc (hb c (by simp))
  | line l e rest ls hl ht _ ih =>
    obtain ⟨c, e', rfl, hc⟩ := terminator_cases ht
    generalize hx : l ++ c :: e' ++ rest = x at h'
    cases h' with
    | nothing => simp at hx
    | last _ hn hb => subst hx; exact absurd hc (hb c (by simp))
    | line l' e2 rest' ls2 hl' ht' h2 =>
      obtain ⟨d, e2', rfl, hd⟩ := terminator_cases ht'
      obtain ⟨rfl, rfl, h3⟩ := before_break l l' (e' ++ rest) (e2' ++ rest') c d (by simpa using hx) hl hl' hc hd
      obtain ⟨_, rfl⟩ := terminator_unique (e := c :: e') (e' := c :: e2') (by simpa using h3) ht ht'
      rw [ih _ h2]

/-! ## Theorems -/

/-- **C225.** `read_lines` gives the lines of the file in order, each without the white space at its two ends, and without the empty ones unless asked to keep them. -/
theorem C225_lines (decode : List Nat → Option (List Nat)) (b t : List Nat) (deleteEmpty : Bool) (ht : decode b = some t) (out : List (List Nat)) :
    readLines decode (some b) deleteEmpty = .ok out ↔
      ∃ ls ts, LinesOf t ls ∧ Each ls ts ∧ out = if deleteEmpty then ts.filter (fun l => !l.isEmpty) else ts := by
  have hf : ∀ ts : List (List Nat), ts.filter (fun l => decide (l ≠ [])) = ts.filter (fun l => !l.isEmpty) := by
    intro ts
    apply List.filter_congr
    intro x _
    cases x <;> simp
  obtain ⟨ls, h1, h2⟩ := splitlines_lines t [] (by simp)
  simp only [readLines, ht, h2, hf]
  constructor
  · intro h
    injection h with h
    exact ⟨ls, _, by simpa using h1, each_strip ls, h.symm⟩
  · rintro ⟨ls', ts, g1, g2, rfl⟩
    have e1 := lines_unique t ls ls' (by simpa using h1) g1
    subst e1
    rw [each_unique ls _ _ g2 (each_strip ls)]

example : readLines some (some [97, 32, 13, 10, 10, 9, 98, 32, 99]) true = .ok [[97], [98, 32, 99]] := by rfl
example : readLines some (some [97, 32, 13, 10, 10, 9, 98, 32, 99]) false = .ok [[97], [], [98, 32, 99]] := by rfl

/-- **C225, the errors**: only those of opening and decoding the file. -/
theorem C225_errors (decode : List Nat → Option (List Nat)) (file : Option (List Nat)) (deleteEmpty : Bool) (e : Err) :
    readLines decode file deleteEmpty = .error e ↔ (file = none ∧ e = .notFound) ∨ ∃ b, file = some b ∧ decode b = none ∧ e = .unicode := by
  cases file with
  | none => simp [readLines, eq_comm]
  | some b =>
    cases hd : decode b with
    | none => simp [readLines, hd, eq_comm]
    | some t => simp [readLines, hd]

theorem newlines_id (t : List Nat) (h : 13 ∉ t) : newlines t = t := by
  induction t with
  | nil => rfl
  | cons c r ih =>
    simp at h
    unfold newlines
    rw [if_neg (fun hc => h.1 hc.symm), ih h.2]

theorem newlines_no_cr (t : List Nat) : 13 ∉ newlines t := by
  induction t using newlines.induct with
  | case1 => simp [newlines]
  | case2 => simp [newlines]
  | case3 r' ih => simpa [newlines] using ih
  | case4 d r' hd ih =>
    unfold newlines
    simp only [if_true, if_neg hd]
    simpa using ih
  | case5 c r hc ih =>
    unfold newlines
    rw [if_neg hc]
    simp [ih, Ne.symm hc]

/-- **C226** (partial: the file holds no carriage return, and what the substitution makes of it can be encoded). The file then holds its text with the substitution applied; if the file cannot be read or the substitution raises, that is raised and nothing changes. -/
theorem C226_sub_partial (decode encode : List Nat → Option (List Nat)) (sub : List Nat → Except Err (List Nat)) (file : Option (List Nat))
    (hcr : ∀ b t, file = some b → decode b = some t → 13 ∉ t) (henc : ∀ b t t', file = some b → decode b = some t → sub t = .ok t' → encode t' ≠ none) :
    (file = none → reSub decode encode sub file = (none, some .notFound)) ∧
    (∀ b, file = some b → decode b = none → reSub decode encode sub file = (some b, some .unicode)) ∧
    (∀ b t e, file = some b → decode b = some t → sub t = .error e → reSub decode encode sub file = (some b, some e)) ∧
    (∀ b t t', file = some b → decode b = some t → sub t = .ok t' → ∃ b', encode t' = some b' ∧ reSub decode encode sub file = (some b', none)) := by
  refine ⟨?_, ?_, ?_, ?_⟩
  · rintro rfl; rfl
  · rintro b rfl hd; simp [reSub, hd]
  · rintro b t e rfl hd hs
    simp [reSub, hd, newlines_id t (hcr b t rfl hd), hs]
  · rintro b t t' rfl hd hs
    cases he : encode t' with
    | none => exact absurd he (henc b t t' rfl hd hs)
    | some b' => exact ⟨b', rfl, by simp [reSub, hd, newlines_id t (hcr b t rfl hd), hs, he]⟩

example : reSub some some (fun t => .ok (t.map (fun c => if c = 97 then 98 else c))) (some [97, 10, 99]) = (some [98, 10, 99], none) := by rfl
example : reSub some some (fun _ => .error (.sub 1)) (some [97]) = (some [97], some (.sub 1)) := by rfl

/-- the second text is the first with every end of line, be it CR LF, CR or LF, replaced by LF -/
inductive Universal : List Nat → List Nat → Prop where
  | nil : Universal [] []
  | crlf (t t' : List Nat) : Universal t t' → Universal (13 :: 10 :: t) (10 :: t')
  | cr (t t' : List Nat) : t.head? ≠ some 10 → Universal t t' → Universal (13 :: t) (10 :: t')
  | other (c : Nat) (t t' : List Nat) : c ≠ 13 → Universal t t' → Universal (c :: t) (c :: t')

theorem newlines_universal (t : List Nat) : Universal t (newlines t) := by
  induction t using newlines.induct with
  | case1 => exact .nil
  | case2 => exact .cr [] [] (by simp) .nil
  | case3 r' ih => simpa [newlines] using Universal.crlf _ _ ih
  | case4 d r' hd ih =>
    have h : newlines (13 :: d :: r') = 10 :: newlines (d :: r') := by
      rw [newlines]; simp only [if_true, if_neg hd]
    rw [h]
    exact .cr _ _ (by simpa using hd) ih
  | case5 c r hc ih =>
    unfold newlines
    rw [if_neg hc]
    exact .other c _ _ hc ih

/-- **C226, violated by other ends of lines**: a file that holds a carriage return is changed although the pattern matches nowhere; all its carriage returns are gone: ends of lines are replaced by those of one kind. -/
theorem C226_newlines_violates (b : List Nat) (h : 13 ∈ b) : ∃ b', reSub some some .ok (some b) = (some b', none) ∧ b' ≠ b ∧ 13 ∉ b' ∧ Universal b b' :=
  ⟨newlines b, rfl, fun he => newlines_no_cr b (by rw [he]; exact h), newlines_no_cr b, newlines_universal b⟩

example : Universal [97, 13, 10, 98, 13, 99, 10] [97, 10, 98, 10, 99, 10] := newlines_universal _

/-- **C226, violated by text that cannot be encoded**: the file is left empty. -/
theorem C226_emptied_violates (decode encode : List Nat → Option (List Nat)) (sub : List Nat → Except Err (List Nat)) (b t t' : List Nat)
    (hd : decode b = some t) (hcr : 13 ∉ t) (hs : sub t = .ok t') (he : encode t' = none) : reSub decode encode sub (some b) = (some [], some .unicode) := by
  simp [reSub, hd, newlines_id t hcr, hs, he]

example : reSub some (fun t => if t.all (· < 128) then some t else none) (fun _ => .ok [233]) (some [101]) = (some [], some .unicode) := by rfl

/-- what each call answers on an object not closed -/
def Answers (binary : Bool) : Op → Res → Prop
  | .tell, r => r = .int 0
  | .truncate, r => r = .int 0
  | .seek, r => r = .int 0
  | .writable, r => r = .true
  | .seekable, r => r = .true
  | .read, r => r = if binary then .emptyBytes else .emptyText
  | .write (.text n), r => r = if binary then .typeError else .int n
  | .write (.bytes n), r => r = if binary then .int n else .typeError
  | .write .other, r => r = .typeError
  | .flush, r => r = .none
  | .close, r => r = .none
  | .enter, r => r = .self
  | .exit, r => r = .none

theorem null_run (s : Null) (ops : List Op) : (runOps Null.step s ops).1 = ⟨s.closed || ops.any (fun o => decide (o = .close ∨ o = .exit)), s.binary⟩ := by
  induction ops generalizing s with
  | nil => simp [runOps]
  | cons o ops ih =>
    simp only [runOps, ih, List.any_cons]
    cases o <;> simp [Null.step] <;> split <;> simp_all

/-- **C227.** Whatever was done before: a call on a DevNullFilelikeObject that was closed, by `close` or by leaving a `with`, is a ValueError, but for `close`, entering and leaving;
  on one that was not it discards what it is given and answers what a file always empty would: text or bytes of the kind of the file are taken whole, anything else is a TypeError, and there is nothing to read. -/
theorem C227_null (binary : Bool) (ops : List Op) (o : Op) :
    let s := (runOps Null.step ⟨false, binary⟩ ops).1
    ((.close ∈ ops ∨ .exit ∈ ops) → o ≠ .close → o ≠ .enter → o ≠ .exit → (s.step o).2 = .valueError) ∧
    ((.close ∉ ops ∧ .exit ∉ ops) ∨ o = .close ∨ o = .enter ∨ o = .exit → Answers binary o (s.step o).2) := by
  intro s
  have hs : s = ⟨ops.any (fun o => decide (o = .close ∨ o = .exit)), binary⟩ := by
    show (runOps Null.step ⟨false, binary⟩ ops).1 = _
    rw [null_run]; simp
  have hany : ops.any (fun o => decide (o = .close ∨ o = .exit)) = true ↔ (Op.close ∈ ops ∨ Op.exit ∈ ops) := by
    rw [List.any_eq_true]
    constructor
    · rintro ⟨x, hx, h⟩
      simp at h
      rcases h with rfl | rfl
      · exact Or.inl hx
      · exact Or.inr hx
    · rintro (h | h)
      · exact ⟨_, h, by simp⟩
      · exact ⟨_, h, by simp⟩
  rw [hs]
  constructor
  · intro hc h1 h2 h3
    rw [hany.2 hc]
    cases o <;> simp_all [Null.step]
  · intro hc
    rcases hc with ⟨h1, h2⟩ | rfl | rfl | rfl
    · have : ops.any (fun o => decide (o = .close ∨ o = .exit)) = false := by
        rw [Bool.eq_false_iff]
        intro h
        rcases hany.1 h with h | h
        · exact h1 h
        · exact h2 h
      rw [this]
      cases o with
      | write d => cases d <;> simp [Null.step, Answers, Null.write]
      | _ => simp [Null.step, Answers]
    · rfl
    · rfl
    · rfl

example : (runOps Null.step ⟨false, false⟩ [.write (.text 3), .write (.bytes 3), .read, .close, .write (.text 3), .close]).2 =
    [.int 3, .typeError, .emptyText, .none, .valueError, .none] := by decide

end Verif.Files.Lines
