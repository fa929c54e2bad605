/-!
# Model of split and make_noncolliding_name (satella/files.py), C72, C73

Paths are lists of characters, on a POSIX system.  `os.path.split` and `os.path.join` are modelled after the library of Python.
-/
namespace Verif.Files

/-- a path.  (Part of the model of `_has_separator`, /repo/satella/files.py:155-160.) -/
abbrev Path := List Char

/-! ## Python's os.path -/

/-- what follows the last slash (`p[i:]` with `i = p.rfind('/') + 1`).  (Part of the model of `_has_separator`, /repo/satella/files.py:155-160.) -/
def tailOf (p : Path) : Path := (p.reverse.takeWhile (· ≠ '/')).reverse

/-- what comes before, with the last slash (`p[:i]`).  (Part of the model of `_has_separator`, /repo/satella/files.py:155-160.) -/
def headOf (p : Path) : Path := (p.reverse.dropWhile (· ≠ '/')).reverse

/-- `p.rstrip('/')`.  (Part of the model of `_has_separator`, /repo/satella/files.py:155-160.) -/
def rstrip (p : Path) : Path := (p.reverse.dropWhile (· = '/')).reverse

/-- `os.path.split`.  (Part of the model of `_has_separator`, /repo/satella/files.py:155-160.) -/
def osSplit (p : Path) : Path × Path := (if (headOf p).all (· = '/') then headOf p else rstrip (headOf p), tailOf p)

/-- `os.path.join` of two paths.  (Part of the model of `_has_separator`, /repo/satella/files.py:155-160.) -/
def join2 (a b : Path) : Path :=
  if b.head? = some '/' then b
  else if a = [] ∨ a.getLast? = some '/' then a ++ b
  else a ++ '/' :: b

/-- `os.path.join`.  (Part of the model of `_has_separator`, /repo/satella/files.py:155-160.) -/
def joinAll : List Path → Path
  | [] => []
  | a :: l => l.foldl join2 a

/-! ## split -/

/-- `_has_separator`, /repo/satella/files.py:155-160, with `SEPARATORS`, :21-22 -/
def hasSeparator (p : Path) : Bool :=
  if p.length = 3 ∧ (p.drop 1 = [':', '/'] ∨ p.drop 1 = [':', '\\']) then false
  else decide ('\\' ∈ p) || decide ('/' ∈ p)

/-- the loop of `split`, /repo/satella/files.py:217-219; `none` if it takes more rounds than the fuel -/
def splitLoop : Nat → List Path → Option (List Path)
  | 0, _ => none
  | _ + 1, [] => some []
  | fuel + 1, d :: ds => if hasSeparator d then splitLoop fuel ((osSplit d).1 :: (osSplit d).2 :: ds) else some (d :: ds)

/-- `split`, /repo/satella/files.py:208-219 -/
def split (fuel : Nat) (p : Path) : Option (List Path) := splitLoop fuel [(osSplit p).1, (osSplit p).2]

/-! ## Specification -/

/-- no two slashes in a row -/
def NoDouble : Path → Prop
  | a :: b :: l => ¬ (a = '/' ∧ b = '/') ∧ NoDouble (b :: l)
  | _ => True

/-- a path that does not begin with a slash and has no two slashes in a row -/
def Plain (p : Path) : Prop := p.head? ≠ some '/' ∧ NoDouble p

/-! ## Proofs -/

theorem takeWhile_all_append {p : Char → Bool} (a b : Path) (ha : ∀ x ∈ a, p x = true) : (a ++ b).takeWhile p = a ++ b.takeWhile p := by
  induction a with
  | nil => rfl
  | cons x a ih =>
    rw [List.cons_append, List.takeWhile_cons, if_pos (ha x (List.mem_cons_self ..)), ih (fun y hy => ha y (List.mem_cons_of_mem _ hy))]
    rfl

theorem dropWhile_all_append {p : Char → Bool} (a b : Path) (ha : ∀ x ∈ a, p x = true) : (a ++ b).dropWhile p = b.dropWhile p := by
  induction a with
  | nil => rfl
  | cons x a ih =>
    rw [List.cons_append, List.dropWhile_cons, if_pos (ha x (List.mem_cons_self ..)), ih (fun y hy => ha y (List.mem_cons_of_mem _ hy))]

theorem osSplit_none (p : Path) (h : '/' ∉ p) : osSplit p = ([], p) := by
  have hr : ∀ x ∈ p.reverse, decide (x ≠ '/') = true := by
    intro x hx
    rw [List.mem_reverse] at hx
    simp only [decide_eq_true_eq]
    intro e
    subst e
    exact h hx
  have h1 := takeWhile_all_append (p := fun x => decide (x ≠ '/')) p.reverse [] hr
  have h2 := dropWhile_all_append (p := fun x => decide (x ≠ '/')) p.reverse [] hr
  simp only [List.append_nil, List.takeWhile_nil, List.dropWhile_nil] at h1 h2
  unfold osSplit headOf tailOf
  rw [h1, h2]
  simp

theorem osSplit_slash (h t : Path) (ht : '/' ∉ t) (hh : h ≠ []) (hl : h.getLast? ≠ some '/') : osSplit (h ++ '/' :: t) = (h, t) := by
  have hr : ∀ x ∈ t.reverse, decide (x ≠ '/') = true := by
    intro x hx
    rw [List.mem_reverse] at hx
    simp only [decide_eq_true_eq]
    intro e
    subst e
    exact ht hx
  have e : (h ++ '/' :: t).reverse = t.reverse ++ ('/' :: h.reverse) := by simp
  have h1 : tailOf (h ++ '/' :: t) = t := by
    unfold tailOf
    rw [e, takeWhile_all_append _ _ hr]
    simp
  have h2 : headOf (h ++ '/' :: t) = h ++ ['/'] := by
    unfold headOf
    rw [e, dropWhile_all_append _ _ hr]
    simp
  unfold osSplit
  rw [h1, h2]
  have h3 : (h ++ ['/']).all (· = '/') = false := by
    rw [List.all_append]
    have : h.all (· = '/') = false := by
      rw [List.all_eq_false]
      refine ⟨h.getLast hh, List.getLast_mem hh, ?_⟩
      intro e
      apply hl
      rw [List.getLast?_eq_some_getLast hh]
      simpa using e
    simp [this]
  rw [h3]
  have h4 : rstrip (h ++ ['/']) = h := by
    unfold rstrip
    simp only [List.reverse_append, List.reverse_cons, List.reverse_nil, List.nil_append, List.cons_append]
    rw [List.dropWhile_cons, if_pos (by simp)]
    cases hrev : h.reverse with
    | nil => simp at hrev; exact absurd hrev hh
    | cons x r =>
      have hx : x ≠ '/' := by
        intro e
        apply hl
        have : h = (x :: r).reverse := by rw [← hrev]; simp
        rw [this, e]; simp
      rw [List.dropWhile_cons, if_neg (by simpa using hx), ← hrev]
      simp
  rw [h4]
  simp

/-- a path with a slash is what comes before the last slash, the slash, and what comes after -/
theorem last_slash (p : Path) (h : '/' ∈ p) : ∃ a b, p = a ++ '/' :: b ∧ '/' ∉ b := by
  induction p with
  | nil => cases h
  | cons x p ih =>
    by_cases hp : '/' ∈ p
    · obtain ⟨a, b, e, hb⟩ := ih hp
      exact ⟨x :: a, b, by rw [e]; rfl, hb⟩
    · rcases List.mem_cons.1 h with e | e
      · exact ⟨[], p, by rw [e]; rfl, hp⟩
      · exact absurd e hp

theorem noDouble_prefix (a b : Path) (h : NoDouble (a ++ b)) : NoDouble a := by
  induction a with
  | nil => trivial
  | cons x a ih =>
    cases a with
    | nil => trivial
    | cons y a => exact ⟨h.1, ih h.2⟩

theorem noDouble_last (a b : Path) (h : NoDouble (a ++ '/' :: b)) : a.getLast? ≠ some '/' := by
  induction a with
  | nil => simp
  | cons x a ih =>
    cases a with
    | nil =>
      intro e
      simp at e
      subst e
      exact h.1 ⟨rfl, rfl⟩
    | cons y a =>
      rw [List.getLast?_cons_cons]
      exact ih h.2

/-- a plain path with a slash splits into a plain path and what comes after the last slash -/
theorem osSplit_plain (p : Path) (hp : Plain p) (h : '/' ∈ p) : ∃ a b, p = a ++ '/' :: b ∧ '/' ∉ b ∧ a ≠ [] ∧ a.getLast? ≠ some '/' ∧ Plain a ∧ osSplit p = (a, b) := by
  obtain ⟨a, b, e, hb⟩ := last_slash p h
  have ha : a ≠ [] := by
    intro ea
    subst ea
    apply hp.1
    rw [e]; rfl
  have hl : a.getLast? ≠ some '/' := noDouble_last a b (by rw [← e]; exact hp.2)
  refine ⟨a, b, e, hb, ha, hl, ⟨?_, noDouble_prefix a ('/' :: b) (by rw [← e]; exact hp.2)⟩, by rw [e]; exact osSplit_slash a b hb ha hl⟩
  cases a with
  | nil => exact absurd rfl ha
  | cons x a =>
    have := hp.1
    rw [e] at this
    simpa using this

theorem join2_none (t : Path) : join2 [] t = t := by
  unfold join2
  split <;> simp

theorem join2_slash (h t : Path) (ht : '/' ∉ t) (hh : h ≠ []) (hl : h.getLast? ≠ some '/') : join2 h t = h ++ '/' :: t := by
  unfold join2
  rw [if_neg, if_neg]
  · rintro (e | e)
    · exact hh e
    · exact hl e
  · intro e
    cases t with
    | nil => cases e
    | cons x t =>
      injection e with e
      subst e
      exact ht (List.mem_cons_self ..)

theorem join2_osSplit (p : Path) (hp : Plain p) : join2 (osSplit p).1 (osSplit p).2 = p := by
  by_cases h : '/' ∈ p
  · obtain ⟨a, b, e, hb, ha, hl, _, hs⟩ := osSplit_plain p hp h
    rw [hs, e]
    exact join2_slash a b hb ha hl
  · rw [osSplit_none p h]
    exact join2_none p

theorem osSplit_facts (p : Path) (hp : Plain p) : Plain (osSplit p).1 ∧ '/' ∉ (osSplit p).2 ∧ ((osSplit p).1 = [] ∨ (osSplit p).1.length < p.length) ∧ ((osSplit p).1.getLast? ≠ some '/') := by
  by_cases h : '/' ∈ p
  · obtain ⟨a, b, e, hb, ha, hl, hpa, hs⟩ := osSplit_plain p hp h
    rw [hs]
    refine ⟨hpa, hb, Or.inr ?_, hl⟩
    rw [e]; simp
  · rw [osSplit_none p h]
    exact ⟨⟨by simp, trivial⟩, h, Or.inl rfl, by simp⟩

theorem hasSeparator_false (p : Path) (hh : p.head? ≠ some '/') (hl : p.getLast? ≠ some '/') (h : hasSeparator p = false) : '/' ∉ p := by
  unfold hasSeparator at h
  split at h
  · rename_i hc
    obtain ⟨h3, hd⟩ := hc
    cases p with
    | nil => simp
    | cons a p =>
      rcases hd with hd | hd
      · simp at hd
        subst hd
        simp at hl
      · simp at hd
        subst hd
        intro hm
        rcases List.mem_cons.1 hm with e | e
        · exact hh (by rw [← e]; rfl)
        · simp at e
  · intro hm
    simp [hm] at h

theorem joinAll_split (d : Path) (ds : List Path) (hd : Plain d) : joinAll ((osSplit d).1 :: (osSplit d).2 :: ds) = joinAll (d :: ds) := by
  show List.foldl join2 (join2 (osSplit d).1 (osSplit d).2) ds = List.foldl join2 d ds
  rw [join2_osSplit d hd]

theorem splitLoop_spec (fuel : Nat) (d : Path) (ds : List Path) (hd : Plain d) (hl : d.getLast? ≠ some '/') (hds : ∀ x ∈ ds, '/' ∉ x) (hf : d.length < fuel) :
    ∃ parts, splitLoop fuel (d :: ds) = some parts ∧ joinAll parts = joinAll (d :: ds) ∧ ∀ x ∈ parts, '/' ∉ x := by
  induction fuel generalizing d ds with
  | zero => omega
  | succ fuel ih =>
    unfold splitLoop
    cases hs : hasSeparator d with
    | false =>
      refine ⟨d :: ds, by simp, rfl, ?_⟩
      intro x hx
      rcases List.mem_cons.1 hx with e | hx
      · rw [e]; exact hasSeparator_false d hd.1 hl hs
      · exact hds x hx
    | true =>
      obtain ⟨h1, h2, h3, h4⟩ := osSplit_facts d hd
      have hlen : (osSplit d).1.length < fuel := by
        rcases h3 with h3 | h3
        · rw [h3]
          cases d with
          | nil => simp [hasSeparator] at hs
          | cons x d => simp at hf ⊢; omega
        · omega
      obtain ⟨parts, e1, e2, e3⟩ := ih (osSplit d).1 ((osSplit d).2 :: ds) h1 h4 (by
        intro x hx
        rcases List.mem_cons.1 hx with e | hx
        · rw [e]; exact h2
        · exact hds x hx) hlen
      exact ⟨parts, by simpa using e1, by rw [e2]; exact joinAll_split d ds hd, e3⟩

/-- **C72** (partial: the path does not begin with a slash and has no two slashes in a row). `split` ends, its parts have no slashes, and `os.path.join` of them is the path. -/
theorem C72_split_partial (p : Path) (hp : Plain p) : ∃ parts, split (p.length + 1) p = some parts ∧ joinAll parts = p ∧ ∀ x ∈ parts, '/' ∉ x := by
  obtain ⟨h1, h2, h3, h4⟩ := osSplit_facts p hp
  obtain ⟨parts, e1, e2, e3⟩ := splitLoop_spec (p.length + 1) (osSplit p).1 [(osSplit p).2] h1 h4 (by
    intro x hx
    rw [List.mem_singleton] at hx
    rw [hx]; exact h2) (by
    rcases h3 with h3 | h3
    · rw [h3]; simp
    · omega)
  refine ⟨parts, e1, ?_, e3⟩
  rw [e2, joinAll_split p [] hp]
  rfl

theorem dropWhile_nil (q : Char → Bool) : ∀ l : List Char, l.dropWhile q = [] → ∀ x ∈ l, q x = true
  | [], _, x, hx => by cases hx
  | y :: l, h, x, hx => by
    cases hy : q y with
    | false => simp [List.dropWhile, hy] at h
    | true =>
      rcases List.mem_cons.1 hx with e | hx
      · rw [e]; exact hy
      · exact dropWhile_nil q l (by simpa [List.dropWhile, hy] using h) x hx

theorem mem_takeWhile (q : Char → Bool) : ∀ l : List Char, ∀ x ∈ l.takeWhile q, q x = true
  | [], x, hx => by cases hx
  | y :: l, x, hx => by
    cases hy : q y with
    | false => simp [List.takeWhile, hy] at hx
    | true =>
      simp only [List.takeWhile, hy] at hx
      rcases List.mem_cons.1 hx with e | hx
      · rw [e]; exact hy
      · exact mem_takeWhile q l x hx

theorem split_absolute_head (p : Path) (h : p.head? = some '/') (hc : ':' ∉ p) : (osSplit p).1.head? = some '/' ∧ ':' ∉ (osSplit p).1 := by
  obtain ⟨x, q, rfl⟩ : ∃ x q, p = x :: q := by
    cases p with
    | nil => cases h
    | cons x q => exact ⟨x, q, rfl⟩
  simp at h
  subst h
  obtain ⟨a, b, e, hb⟩ := last_slash ('/' :: q) (List.mem_cons_self ..)
  have hr : ∀ x ∈ b.reverse, decide (x ≠ '/') = true := by
    intro x hx
    rw [List.mem_reverse] at hx
    simp only [decide_eq_true_eq]
    intro e
    subst e
    exact hb hx
  have h2 : headOf ('/' :: q) = a ++ ['/'] := by
    unfold headOf
    rw [e]
    have e' : (a ++ '/' :: b).reverse = b.reverse ++ ('/' :: a.reverse) := by simp
    rw [e', dropWhile_all_append _ _ hr]
    simp
  have hhead : (a ++ ['/']).head? = some '/' := by
    cases a with
    | nil => rfl
    | cons y a =>
      rw [List.cons_append] at e
      injection e with e _
      rw [← e]; rfl
  have hca : ':' ∉ a ++ ['/'] := by
    intro hm
    apply hc
    rw [e]
    rcases List.mem_append.1 hm with hm | hm
    · exact List.mem_append_left _ hm
    · simp at hm
  unfold osSplit
  rw [h2]
  split
  · exact ⟨hhead, hca⟩
  · rename_i hall
    have hsub : ∀ x ∈ rstrip (a ++ ['/']), x ∈ a ++ ['/'] := by
      intro x hx
      unfold rstrip at hx
      rw [List.mem_reverse] at hx
      have := (List.dropWhile_sublist (fun x => decide (x = '/')) (l := (a ++ ['/']).reverse)).subset hx
      rwa [List.mem_reverse] at this
    refine ⟨?_, fun hm => hca (hsub _ hm)⟩
    -- what is stripped is a proper suffix, so the first character stays
    have hpre : rstrip (a ++ ['/']) <+: (a ++ ['/']) := by
      unfold rstrip
      have := List.dropWhile_suffix (fun x => decide (x = '/')) (l := (a ++ ['/']).reverse)
      rw [← List.reverse_prefix, List.reverse_reverse] at this
      exact this
    cases hr : rstrip (a ++ ['/']) with
    | nil =>
      exfalso
      apply hall
      unfold rstrip at hr
      rw [List.reverse_eq_nil_iff] at hr
      rw [List.all_eq_true]
      intro x hx
      exact dropWhile_nil _ _ hr x (by rw [List.mem_reverse]; exact hx)
    | cons y r =>
      rw [hr] at hpre
      obtain ⟨s, hs⟩ := hpre
      rw [← hs] at hhead
      simpa using hhead

/-- **C72, violated by absolute paths**: `split` does not end. (A path with a colon may be taken for a drive; it is left out.) -/
theorem C72_absolute_violates (p : Path) (h : p.head? = some '/') (hc : ':' ∉ p) (fuel : Nat) : split fuel p = none := by
  have key : ∀ fuel d ds, d.head? = some '/' → ':' ∉ d → splitLoop fuel (d :: ds) = none := by
    intro fuel
    induction fuel with
    | zero => intros; rfl
    | succ fuel ih =>
      intro d ds hd hcd
      have hs : hasSeparator d = true := by
        unfold hasSeparator
        rw [if_neg]
        · cases d with
          | nil => cases hd
          | cons x d => simp at hd; subst hd; simp
        · rintro ⟨_, h1 | h1⟩
          · exact hcd ((List.drop_sublist 1 d).subset (by rw [h1]; simp))
          · exact hcd ((List.drop_sublist 1 d).subset (by rw [h1]; simp))
      unfold splitLoop
      rw [hs]
      obtain ⟨h1, h2⟩ := split_absolute_head d hd hcd
      simpa using ih _ _ h1 h2
  obtain ⟨h1, h2⟩ := split_absolute_head p h hc
  exact key fuel _ _ h1 h2

/-- **C72, violated by two slashes in a row**: joining the parts of `a//b` gives `a/b`. -/
theorem C72_double_violates : ∃ parts, split 5 ['a', '/', '/', 'b'] = some parts ∧ joinAll parts = ['a', '/', 'b'] := ⟨[['a'], ['b']], by decide, by decide⟩

/-! ## make_noncolliding_name -/

/-- `str(n)` -/
def str (n : Nat) : Path := Nat.toDigits 10 n

/-- `'.' in filename` decides, /repo/satella/files.py:194-199: the name up to its last dot, and the rest with the dot -/
def stem (f : Path) : Path := if '.' ∈ f then ((f.reverse.dropWhile (· ≠ '.')).tail).reverse else f

/-- the extension with its dot, or nothing, /repo/satella/files.py:195-199 -/
def extension (f : Path) : Path := if '.' ∈ f then '.' :: (f.reverse.takeWhile (· ≠ '.')).reverse else []

/-- `addition`, /repo/satella/files.py:200-204 -/
def addition (k : Nat) : Path := if k = 0 then [] else '.' :: str k

/-- the name that is tried with the counter at `k`, /repo/satella/files.py:202 -/
def candidate (p : Path) (k : Nat) : Path := join2 (osSplit p).1 (stem (osSplit p).2 ++ addition k ++ extension (osSplit p).2)

/-- the loop, /repo/satella/files.py:202-205 -/
def nameLoop (exist : Path → Bool) (p : Path) : Nat → Nat → Option Path
  | 0, _ => none
  | fuel + 1, k => if exist (candidate p k) then nameLoop exist p fuel (k + 1) else some (candidate p k)

/-- `make_noncolliding_name`, /repo/satella/files.py:182-205; `none` if it takes more rounds than the fuel -/
def makeName (exist : Path → Bool) (fuel : Nat) (p : Path) : Option Path := nameLoop exist p fuel 0

theorem str_inj (a b : Nat) (h : str a = str b) : a = b := by
  have := congrArg (fun l => Nat.ofDigitChars 10 l 0) h
  simp only [str] at this
  rwa [Nat.ofDigitChars_toDigits (by omega) (by omega), Nat.ofDigitChars_toDigits (by omega) (by omega)] at this

theorem stem_extension (f : Path) : stem f ++ extension f = f := by
  unfold stem extension
  split
  · rename_i h
    have hr : ∃ a b, f.reverse = a ++ '.' :: b ∧ '.' ∉ a := by
      have h' : '.' ∈ f.reverse := by rwa [List.mem_reverse]
      generalize f.reverse = g at h'
      induction g with
      | nil => cases h'
      | cons x g ih =>
        by_cases hx : x = '.'
        · exact ⟨[], g, by rw [hx]; rfl, by simp⟩
        · rcases List.mem_cons.1 h' with e | e
          · exact absurd e.symm hx
          · obtain ⟨a, b, e1, e2⟩ := ih e
            refine ⟨x :: a, b, by rw [e1]; rfl, ?_⟩
            intro hm
            rcases List.mem_cons.1 hm with e | e
            · exact hx e.symm
            · exact e2 e
    obtain ⟨a, b, e1, e2⟩ := hr
    have ha : ∀ x ∈ a, decide (x ≠ '.') = true := by
      intro x hx
      simp only [decide_eq_true_eq]
      intro e
      subst e
      exact e2 hx
    rw [e1, dropWhile_all_append _ _ ha, takeWhile_all_append _ _ ha]
    have : f = (a ++ '.' :: b).reverse := by rw [← e1]; simp
    rw [this]
    simp
  · simp

theorem slash_tail (p : Path) : '/' ∉ (osSplit p).2 := by
  show '/' ∉ tailOf p
  unfold tailOf
  rw [List.mem_reverse]
  intro hm
  have := mem_takeWhile _ _ _ hm
  simp at this

theorem digits_slash (n : Nat) : '/' ∉ str n := by
  intro hm
  have := Nat.isDigit_of_mem_toDigits (by omega) (by omega) hm
  simp [Char.isDigit] at this

theorem name_slash (p : Path) (k : Nat) : '/' ∉ stem (osSplit p).2 ++ addition k ++ extension (osSplit p).2 := by
  have h := slash_tail p
  rw [← stem_extension (osSplit p).2] at h
  have h1 : '/' ∉ stem (osSplit p).2 := fun hm => h (List.mem_append_left _ hm)
  have h2 : '/' ∉ extension (osSplit p).2 := fun hm => h (List.mem_append_right _ hm)
  have h3 : '/' ∉ addition k := by
    unfold addition
    split
    · simp
    · intro hm
      rcases List.mem_cons.1 hm with e | e
      · simp at e
      · exact digits_slash k e
  simp only [List.mem_append, not_or]
  exact ⟨⟨h1, h3⟩, h2⟩

theorem join2_inj (a b c : Path) (hb : '/' ∉ b) (hc : '/' ∉ c) (h : join2 a b = join2 a c) : b = c := by
  have hn : ∀ x : Path, '/' ∉ x → x.head? ≠ some '/' := by
    intro x hx e
    cases x with
    | nil => cases e
    | cons y x => injection e with e; subst e; exact hx (List.mem_cons_self ..)
  unfold join2 at h
  rw [if_neg (hn b hb), if_neg (hn c hc)] at h
  split at h
  · exact List.append_cancel_left h
  · have := List.append_cancel_left h
    injection this

theorem candidate_inj (p : Path) (i j : Nat) (h : candidate p i = candidate p j) : i = j := by
  have := join2_inj _ _ _ (name_slash p i) (name_slash p j) h
  have := List.append_cancel_right this
  have := List.append_cancel_left this
  unfold addition at this
  split at this
  · split at this
    · omega
    · cases this
  · split at this
    · cases this
    · injection this with _ this
      exact str_inj i j this

/-- **C73.** If `make_noncolliding_name` ends, the name does not exist; it is the directory of the path, the file's name with a number before the extension (none if the path itself does not exist), and that number is the smallest that does. -/
theorem C73_name (exist : Path → Bool) (fuel : Nat) (p r : Path) (h : makeName exist fuel p = some r) :
    exist r = false ∧ ∃ k, r = join2 (osSplit p).1 (stem (osSplit p).2 ++ addition k ++ extension (osSplit p).2) ∧
      ∀ i, i < k → exist (join2 (osSplit p).1 (stem (osSplit p).2 ++ addition i ++ extension (osSplit p).2)) = true := by
  have key : ∀ fuel k, (∀ i, i < k → exist (candidate p i) = true) → nameLoop exist p fuel k = some r →
      exist r = false ∧ ∃ k, r = candidate p k ∧ ∀ i, i < k → exist (candidate p i) = true := by
    intro fuel
    induction fuel with
    | zero => intro k _ h; cases h
    | succ fuel ih =>
      intro k hk h
      unfold nameLoop at h
      cases he : exist (candidate p k) with
      | true =>
        rw [he] at h
        refine ih (k + 1) ?_ (by simpa using h)
        intro i hi
        by_cases e : i = k
        · rw [e]; exact he
        · exact hk i (by omega)
      | false =>
        rw [he] at h
        have h : candidate p k = r := by simpa using h
        subst h
        exact ⟨he, k, rfl, hk⟩
  exact key fuel 0 (by omega) h

/-- **C73, the name is kept where possible**: it is the path's own name, with the numbers 1, 2, ... put before the extension if it has one; directory and name together are the path, for paths without two slashes in a row that do not begin with one. -/
theorem C73_same (exist : Path → Bool) (fuel : Nat) (p : Path) (hp : Plain p) (h : exist p = false) : makeName exist (fuel + 1) p = some p := by
  have e : candidate p 0 = p := by
    unfold candidate addition
    rw [if_pos rfl, List.append_nil, stem_extension]
    exact join2_osSplit p hp
  unfold makeName nameLoop
  rw [e, h]
  rfl

/-- a list without repetitions whose members are all in the other list is not longer -/
theorem length_le_of_subset : ∀ (a b : List Path), a.Nodup → (∀ x ∈ a, x ∈ b) → a.length ≤ b.length
  | [], _, _, _ => Nat.zero_le _
  | x :: a, b, hn, hs => by
    have hx : x ∈ b := hs x (List.mem_cons_self ..)
    rw [List.nodup_cons] at hn
    have := length_le_of_subset a (b.erase x) hn.2 (by
      intro y hy
      have hne : y ≠ x := by
        intro e
        subst e
        exact hn.1 hy
      exact (List.mem_erase_of_ne hne).2 (hs y (List.mem_cons_of_mem _ hy)))
    rw [List.length_erase_of_mem hx] at this
    have : 0 < b.length := List.length_pos_of_mem hx
    simp only [List.length_cons]
    omega

/-- **C73, it ends.** If there are only finitely many names that exist, `make_noncolliding_name` ends, after at most one more round than there are such names. -/
theorem C73_ends (exist : Path → Bool) (names : List Path) (hn : ∀ q, exist q = true → q ∈ names) (p : Path) : ∃ r, makeName exist (names.length + 1) p = some r := by
  have key : ∀ fuel k, (∀ i, i < fuel → exist (candidate p (k + i)) = true) ∨ ∃ r, nameLoop exist p fuel k = some r := by
    intro fuel
    induction fuel with
    | zero => intro k; exact Or.inl (by omega)
    | succ fuel ih =>
      intro k
      cases he : exist (candidate p k) with
      | false => exact Or.inr ⟨candidate p k, by simp [nameLoop, he]⟩
      | true =>
        rcases ih (k + 1) with h | ⟨r, h⟩
        · refine Or.inl ?_
          intro i hi
          cases i with
          | zero => exact he
          | succ i =>
            have := h i (by omega)
            rwa [show k + 1 + i = k + (i + 1) by omega] at this
        · exact Or.inr ⟨r, by simp [nameLoop, he, h]⟩
  rcases key (names.length + 1) 0 with h | h
  · exfalso
    have hnd : ((List.range (names.length + 1)).map (candidate p)).Nodup := by
      rw [List.nodup_iff_pairwise_ne, List.pairwise_map]
      refine List.Pairwise.imp ?_ (List.nodup_range (n := names.length + 1))
      intro a b hab e
      exact hab (candidate_inj p a b e)
    have hsub : ∀ x ∈ (List.range (names.length + 1)).map (candidate p), x ∈ names := by
      intro x hx
      obtain ⟨i, hi, rfl⟩ := List.mem_map.1 hx
      rw [List.mem_range] at hi
      have := h i hi
      rw [Nat.zero_add] at this
      exact hn _ this
    have := length_le_of_subset _ _ hnd hsub
    simp only [List.length_map, List.length_range] at this
    omega
  · exact h

/-! Cases that meet the hypotheses -/

example : Plain "data/sub/file.tar.gz".toList := by simp [Plain, NoDouble]
example : split 30 "data/sub/file".toList = some ["data".toList, "sub".toList, "file".toList] := by decide
example : splitLoop 5 ["c:/".toList, "a".toList] = some ["c:/".toList, "a".toList] ∧ splitLoop 5 ["c:\\".toList] = some ["c:\\".toList] := by decide
example : ("/etc/passwd".toList).head? = some '/' ∧ ':' ∉ "/etc/passwd".toList := by decide
example : makeName (fun q => q == "d/f.txt".toList || q == "d/f.1.txt".toList) 5 "d/f.txt".toList = some "d/f.2.txt".toList := by decide
example : makeName (fun q => q == "d/f".toList) 5 "d/f".toList = some "d/f.1".toList := by decide

end Verif.Files
