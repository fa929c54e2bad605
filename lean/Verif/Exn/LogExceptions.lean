/-!
# Logging and catching exceptions (satella/coding/recast_exceptions.py), C145, C146

What a function does is given as what it yields (nothing, if it is not a generator) and how it ends.
-/
namespace Verif.LogExceptions

/-! ## Model -/

/-- an exception that is raised: the one the function raised, or those that the machinery may raise itself; `ε` are exceptions of the function.  /repo/satella/coding/recast_exceptions.py:86-102 -/
inductive Exc (ε : Type)
  | orig (e : ε)
  | keyError
  | typeError
  | valueError
  | made (cause : ε)
deriving DecidableEq

/-- how a call ends, /repo/satella/coding/recast_exceptions.py:104-126 -/
inductive Res (ν ε : Type)
  | ret (v : ν)
  | exc (e : Exc ε)
deriving DecidableEq

/-- a piece of a format string: text, or a field, which is just a name in braces or has something behind the name, such as an index or a conversion.  Escaped braces and positional fields are not modelled.  /repo/satella/coding/recast_exceptions.py:48-55 -/
inductive Piece
  | text (s : String)
  | field (name : String)
  | fieldWith (name : String) (more : String)
deriving DecidableEq

/-- an entry of format_dict: last one wins.  /repo/satella/coding/recast_exceptions.py:90-99 -/
def lookup {α : Type} (d : List (String × α)) (k : String) : Option α := (d.reverse.find? (fun p => p.1 = k)).map (·.2)

/-- `'{name}' in self.format_string`, /repo/satella/coding/recast_exceptions.py:91, :93, :97 -/
def mentions (fs : List Piece) (name : String) : Bool := fs.any (fun p => p = .field name)

/-- `format_dict`, /repo/satella/coding/recast_exceptions.py:90-99 -/
def formatDict {α : Type} (fs : List Piece) (args kwargs : α) (locals : List (String × α)) (e : α) : List (String × α) :=
  (if mentions fs "args" then [("args", args)] else []) ++
  (if mentions fs "kwargs" then [("kwargs", kwargs)] else []) ++
  locals.filter (fun p => mentions fs p.1) ++
  [("e", e)]

/-- `format_string.format(**format_dict)`: `none` is KeyError; `sh v more` is the text of a value, `more` is what stands behind the name, and getting it is taken to succeed.  /repo/satella/coding/recast_exceptions.py:100 -/
def format {α : Type} (sh : α → String → String) (d : List (String × α)) : List Piece → Option String
  | [] => some ""
  | .text s :: l => (format sh d l).map (s ++ ·)
  | .field n :: l =>
    match lookup d n, format sh d l with
    | some v, some s => some (sh v "" ++ s)
    | _, _ => none
  | .fieldWith n m :: l =>
    match lookup d n, format sh d l with
    | some v, some s => some (sh v m ++ s)
    | _, _ => none

/-- `exc_types` as given: a class or a tuple of them, a list of them, or None; /repo/satella/coding/recast_exceptions.py:68-69 -/
inductive Types (ε : Type)
  | classes (p : ε → Bool)
  | list
  | none

/-- `log_exceptions(...)`, /repo/satella/coding/recast_exceptions.py:64-76; `asExc` is an exception as a value to format -/
structure Cfg (α ε : Type) where
  fs : List Piece
  locals : List (String × α) := []
  types : Types ε
  swallow : Bool := false
  sh : α → String → String
  asExc : ε → α
  /-- is it an Exception, other than KeyboardInterrupt and the like -/
  isException : ε → Bool

/-- what `analyze_exception` does: says whether it logged, with the text, or raises; /repo/satella/coding/recast_exceptions.py:86-102 -/
inductive Analysed
  | not
  | logged (s : String)
  | keyError
  | typeError
deriving DecidableEq

/-- `analyze_exception`; isinstance with a list or None raises TypeError.  /repo/satella/coding/recast_exceptions.py:86-102 -/
def analyse {α ε : Type} (c : Cfg α ε) (e : ε) (args kwargs : α) : Analysed :=
  match c.types with
  | .list => .typeError
  | .none => .typeError
  | .classes p =>
    if p e then
      match format c.sh (formatDict c.fs args kwargs c.locals (c.asExc e)) c.fs with
      | some s => .logged s
      | none => .keyError
    else .not

/-- messages logged, and how it ended; /repo/satella/coding/recast_exceptions.py:81-126 -/
abbrev Seen (ν ε : Type) := List String × Res ν ε

/-- a handler of the exception `e` around a call, `noVal` is what is returned if it is swallowed; /repo/satella/coding/recast_exceptions.py:81-84, :122-124 -/
def handle {α ν ε : Type} (c : Cfg α ε) (noVal : ν) (args kwargs : α) (e : ε) : Seen ν ε :=
  match analyse c e args kwargs with
  | .not => ([], .exc (.orig e))
  | .logged s => ([s], if c.swallow then .ret noVal else .exc (.orig e))
  | .keyError => ([], .exc .keyError)
  | .typeError => ([], .exc .typeError)

/-- a call of a decorated function, /repo/satella/coding/recast_exceptions.py:118-124; `out` is how the function itself ends -/
def decorated {α ν ε : Type} (c : Cfg α ε) (noVal : ν) (args kwargs : α) (out : Except ε ν) : Seen ν ε :=
  match out with
  | .ok v => ([], .ret v)
  | .error e => if c.isException e then handle c noVal args kwargs e else ([], .exc (.orig e))

/-- a decorated generator: what it yields, with messages and its end; /repo/satella/coding/recast_exceptions.py:107-113 -/
def decoratedGen {α ν ε : Type} (c : Cfg α ε) (noVal : ν) (args kwargs : α) (yields : List ν) (out : Except ε ν) : List ν × Seen ν ε :=
  (yields, decorated c noVal args kwargs out)

/-- the context manager, with args and kwargs empty; /repo/satella/coding/recast_exceptions.py:81-84 -/
def context {α ν ε : Type} (c : Cfg α ε) (noVal : ν) (noArgs noKwargs : α) (out : Except ε ν) : Seen ν ε :=
  match out with
  | .ok v => ([], .ret v)
  | .error e => handle c noVal noArgs noKwargs e

/-- `reraise_as` as a context manager, /repo/satella/coding/recast_exceptions.py:187-193; `target` tells whether a target exception was given -/
def reraiseContext {ν ε : Type} (source : ε → Bool) (target : Bool) (noVal : ν) (out : Except ε ν) : Res ν ε :=
  match out with
  | .ok v => .ret v
  | .error e => if source e then (if target then .exc (.made e) else .ret noVal) else .exc (.orig e)

/-- `raises_exception`, /repo/satella/coding/recast_exceptions.py:298-307 -/
def raisesException {ν ε : Type} (p : ε → Bool) (out : Except ε ν) : Res Bool ε :=
  match out with
  | .ok _ => .ret false
  | .error e => if p e then .ret true else .exc (.orig e)

/-- what `catch_exception` returns: the exception, or a value; /repo/satella/coding/recast_exceptions.py:313 -/
inductive Got (ν ε : Type)
  | caught (e : ε)
  | value (v : ν)
deriving DecidableEq

/-- `catch_exception`, /repo/satella/coding/recast_exceptions.py:310-347 -/
def catchException {ν ε : Type} (p : ε → Bool) (instead : Option ν) (onNone : Bool) (out : Except ε ν) : Res (Got ν ε) ε :=
  match out with
  | .error e => if p e then .ret (.caught e) else .exc (.orig e)
  | .ok v =>
    match instead with
    | some w => .ret (.value w)
    | none => if onNone then .ret (.value v) else .exc .valueError

/-! ## Specification -/

variable {α ν ε : Type}

/-- the value that a field stands for: `e` is the exception; otherwise what locals_ has, last; otherwise the arguments -/
inductive FieldOf (args kwargs : α) (locals : List (String × α)) (e : α) : String → α → Prop
  | e (n) : n = "e" → FieldOf args kwargs locals e n e
  | localVar (n v pre post) : n ≠ "e" → locals = pre ++ (n, v) :: post → (∀ p ∈ post, p.1 ≠ n) → FieldOf args kwargs locals e n v
  | args (n) : n = "args" → (∀ p ∈ locals, p.1 ≠ n) → FieldOf args kwargs locals e n args
  | kwargs (n) : n = "kwargs" → (∀ p ∈ locals, p.1 ≠ n) → FieldOf args kwargs locals e n kwargs

/-- the text: pieces in order, fields replaced by their values -/
inductive Text (sh : α → String → String) (val : String → α → Prop) : List Piece → String → Prop
  | nil : Text sh val [] ""
  | text (t l s) : Text sh val l s → Text sh val (.text t :: l) (t ++ s)
  | field (n v l s) : val n v → Text sh val l s → Text sh val (.field n :: l) (sh v "" ++ s)
  | fieldWith (n m v l s) : val n v → Text sh val l s → Text sh val (.fieldWith n m :: l) (sh v m ++ s)

/-! ## Proofs -/

theorem mentions_iff (fs : List Piece) (n : String) : mentions fs n = true ↔ Piece.field n ∈ fs := by
  simp [mentions]

theorem lookup_append (d d' : List (String × α)) (k : String) : lookup (d ++ d') k = (lookup d' k).or (lookup d k) := by
  simp only [lookup, List.reverse_append, List.find?_append]
  cases h : List.find? (fun p => decide (p.1 = k)) d'.reverse <;> simp

theorem lookup_single (k k' : String) (v : α) : lookup [(k, v)] k' = if k = k' then some v else none := by
  simp only [lookup, List.reverse_singleton, List.find?_singleton]
  by_cases h : k = k' <;> simp [h]

theorem lookup_none (d : List (String × α)) (k : String) : lookup d k = none ↔ ∀ p ∈ d, p.1 ≠ k := by
  simp [lookup, List.find?_eq_none]

theorem lookup_some (d : List (String × α)) (k : String) (v : α) : lookup d k = some v ↔ ∃ pre post, d = pre ++ (k, v) :: post ∧ ∀ p ∈ post, p.1 ≠ k := by
  constructor
  · intro h
    induction d with
    | nil => simp [lookup] at h
    | cons p d ih =>
      rw [show p :: d = [p] ++ d from rfl, lookup_append] at h
      cases hd : lookup d k with
      | some w =>
        rw [hd] at h
        simp at h
        subst h
        obtain ⟨pre, post, rfl, h2⟩ := ih hd
        exact ⟨p :: pre, post, rfl, h2⟩
      | none =>
        rw [hd] at h
        obtain ⟨a, b⟩ := p
        rw [lookup_single] at h
        by_cases hk : a = k
        · rw [if_pos hk] at h
          simp at h
          subst h hk
          exact ⟨[], d, rfl, (lookup_none d a).1 hd⟩
        · rw [if_neg hk] at h; simp at h
  · rintro ⟨pre, post, rfl, h⟩
    rw [lookup_append, show (k, v) :: post = [(k, v)] ++ post from rfl, lookup_append, (lookup_none post k).2 h, lookup_single]
    simp

theorem lookup_filter (d : List (String × α)) (q : String → Bool) (k : String) : lookup (d.filter (fun p => q p.1)) k = if q k then lookup d k else none := by
  induction d with
  | nil => simp [lookup]
  | cons p d ih =>
    obtain ⟨a, b⟩ := p
    have e : (a, b) :: d = [(a, b)] ++ d := rfl
    rw [e, List.filter_append, lookup_append, lookup_append, ih]
    by_cases hq : q a = true
    · have : List.filter (fun p => q p.1) [(a, b)] = [(a, b)] := by simp [hq]
      rw [this, lookup_single]
      by_cases hk : a = k
      · subst hk; simp [hq]
      · cases q k <;> simp [hk]
    · have : List.filter (fun p => q p.1) [(a, b)] = ([] : List (String × α)) := by simp [hq]
      rw [this, lookup_single]
      by_cases hk : a = k
      · subst hk; simp [hq, lookup]
      · cases q k <;> simp [hk, lookup]

/-- what a field gives, in terms of what the format string mentions as a plain field -/
theorem lookup_formatDict (fs : List Piece) (args kwargs : α) (locals : List (String × α)) (e : α) (n : String) (v : α) :
    lookup (formatDict fs args kwargs locals e) n = some v ↔ FieldOf args kwargs locals e n v ∧ (n = "e" ∨ Piece.field n ∈ fs) := by
  have hif : ∀ (b : Bool) (k : String) (w : α), lookup (if b then [(k, w)] else []) n = if b ∧ k = n then some w else none := by
    intro b k w
    cases b
    · simp [lookup]
    · simp [lookup_single]
  unfold formatDict
  rw [lookup_append, lookup_append, lookup_append, lookup_filter, lookup_single, hif, hif]
  by_cases he : n = "e"
  · subst he
    simp only [↓reduceIte, Option.some_or, Option.some.injEq, true_or, and_true]
    constructor
    · rintro rfl; exact .e _ rfl
    · intro h
      cases h with
      | e => rfl
      | localVar _ _ _ h => exact absurd rfl h
      | args h => exact absurd h (by decide)
      | kwargs h => exact absurd h (by decide)
  · have he' : ¬ "e" = n := fun h => he h.symm
    simp only [he', ↓reduceIte, Option.none_or, he, false_or]
    by_cases hm : mentions fs n = true
    · rw [if_pos hm]
      have hmem := (mentions_iff fs n).1 hm
      simp only [hmem, and_true]
      cases hl : lookup locals n with
      | some w =>
        obtain ⟨pre, post, h1, h2⟩ := (lookup_some locals n w).1 hl
        simp only [Option.some_or, Option.some.injEq]
        constructor
        · rintro rfl; exact .localVar n w pre post he h1 h2
        · intro h
          cases h with
          | e h => exact absurd h he
          | localVar _ pre' post' _ h3 h4 =>
            have := (lookup_some locals n v).2 ⟨pre', post', h3, h4⟩
            rw [hl] at this
            simpa using this
          | args _ h3 => exact absurd rfl (h3 (n, w) (by rw [h1]; simp))
          | kwargs _ h3 => exact absurd rfl (h3 (n, w) (by rw [h1]; simp))
      | none =>
        have hl' := (lookup_none locals n).1 hl
        simp only [Option.none_or]
        constructor
        · intro h
          by_cases hk : "kwargs" = n
          · subst hk
            simp only [hm, and_self, ↓reduceIte, Option.some_or, Option.some.injEq] at h
            subst h
            exact .kwargs _ rfl hl'
          · by_cases ha : "args" = n
            · subst ha
              simp [hm] at h
              subst h
              exact .args _ rfl hl'
            · simp [hk, ha] at h
        · intro h
          cases h with
          | e h => exact absurd h he
          | localVar _ pre' post' _ h3 h4 =>
            have := (lookup_some locals n v).2 ⟨pre', post', h3, h4⟩
            rw [hl] at this
            simp at this
          | args h3 => subst h3; simp [hm]
          | kwargs h3 => subst h3; simp [hm]
    · have hmem : ¬ Piece.field n ∈ fs := fun h => hm ((mentions_iff fs n).2 h)
      rw [if_neg hm]
      simp only [hmem, and_false, iff_false, Option.none_or]
      intro h
      by_cases hk : "kwargs" = n
      · subst hk
        simp [hm] at h
      · by_cases ha : "args" = n
        · subst ha; simp [hm] at h
        · simp [hk, ha] at h

theorem format_spec (sh : α → String → String) (d : List (String × α)) (l : List Piece) (s : String) : format sh d l = some s ↔ Text sh (fun n v => lookup d n = some v) l s := by
  induction l generalizing s with
  | nil =>
    simp only [format, Option.some.injEq]
    constructor
    · rintro rfl; exact .nil
    · intro h; cases h; rfl
  | cons p l ih =>
    cases p with
    | text t =>
      simp only [format, Option.map_eq_some_iff]
      constructor
      · rintro ⟨r, h, rfl⟩; exact .text t l r ((ih r).1 h)
      · intro h; cases h with | text _ _ r h => exact ⟨r, (ih r).2 h, rfl⟩
    | field n =>
      simp only [format]
      constructor
      · intro h
        split at h
        · next v r h1 h2 => simp at h; subst h; exact .field n v l r h1 ((ih r).1 h2)
        · simp at h
      · intro h
        cases h with
        | field _ v _ r h1 h2 => rw [h1, (ih r).2 h2]
    | fieldWith n m =>
      simp only [format]
      constructor
      · intro h
        split at h
        · next v r h1 h2 => simp at h; subst h; exact .fieldWith n m v l r h1 ((ih r).1 h2)
        · simp at h
      · intro h
        cases h with
        | fieldWith _ _ v _ r h1 h2 => rw [h1, (ih r).2 h2]

theorem Text.mono {sh : α → String → String} {P Q : String → α → Prop} {l : List Piece} {s : String} (h : Text sh P l s) (hpq : ∀ n v, (Piece.field n ∈ l ∨ ∃ m, Piece.fieldWith n m ∈ l) → P n v → Q n v) : Text sh Q l s := by
  induction h with
  | nil => exact .nil
  | text t l s _ ih => exact .text t l s (ih (fun n v hm => hpq n v (by simpa using hm)))
  | field n v l s h1 _ ih => exact .field n v l s (hpq n v (by simp) h1) (ih (fun n v hm => hpq n v (by
      rcases hm with h | ⟨m, h⟩
      · exact Or.inl (by simp [h])
      · exact Or.inr ⟨m, by simp [h]⟩)))
  | fieldWith n m v l s h1 _ ih => exact .fieldWith n m v l s (hpq n v (Or.inr ⟨m, by simp⟩) h1) (ih (fun n v hm => hpq n v (by
      rcases hm with h | ⟨m, h⟩
      · exact Or.inl (by simp [h])
      · exact Or.inr ⟨m, by simp [h]⟩)))

/-- the text logged, when there is one -/
theorem format_iff (c : Cfg α ε) (e : ε) (args kwargs : α) (s : String) (hplain : ∀ n m, Piece.fieldWith n m ∈ c.fs → n = "e" ∨ Piece.field n ∈ c.fs) :
    format c.sh (formatDict c.fs args kwargs c.locals (c.asExc e)) c.fs = some s ↔ Text c.sh (FieldOf args kwargs c.locals (c.asExc e)) c.fs s := by
  rw [format_spec]
  constructor
  · intro h
    exact h.mono (fun n v _ hv => ((lookup_formatDict _ _ _ _ _ _ _).1 hv).1)
  · intro h
    refine h.mono (fun n v hm hv => (lookup_formatDict _ _ _ _ _ _ _).2 ⟨hv, ?_⟩)
    rcases hm with h | ⟨m, h⟩
    · exact Or.inr h
    · exact hplain n m h

/-- **C145 (not logged)**: a function that returns, or raises an exception that is not of exc_types, is not logged, and does as without log_exceptions: as a decorator, of functions and generators, and as a context manager. -/
theorem C145_untouched (c : Cfg α ε) (noVal : ν) (args kwargs : α) (yields : List ν) (p : ε → Bool) (hp : c.types = .classes p) :
    (∀ v, decoratedGen c noVal args kwargs yields (.ok v) = (yields, [], .ret v) ∧ decorated c noVal args kwargs (.ok v) = ([], .ret v) ∧ context c noVal args kwargs (.ok v) = ([], .ret v)) ∧
    (∀ e, p e = false → decoratedGen c noVal args kwargs yields (.error e) = (yields, [], .exc (.orig e)) ∧ decorated c noVal args kwargs (.error e) = ([], .exc (.orig e)) ∧ context c noVal args kwargs (.error e) = ([], .exc (.orig e))) := by
  refine ⟨fun v => ⟨rfl, rfl, rfl⟩, fun e he => ?_⟩
  have h : handle c noVal args kwargs e = ([], .exc (.orig e)) := by simp [handle, analyse, hp, he]
  have h2 : decorated c noVal args kwargs (.error e) = ([], .exc (.orig e)) := by
    simp only [decorated]
    split
    · exact h
    · rfl
  exact ⟨by simp [decoratedGen, h2], h2, h⟩

/-- **C145 (logged)**: an exception of exc_types is logged once, with each field that is replaced by what it stands for, if all of them stand for something; it is then raised, or None returned if it is to be swallowed. -/
theorem C145_logged (c : Cfg α ε) (noVal : ν) (args kwargs : α) (yields : List ν) (p : ε → Bool) (hp : c.types = .classes p) (e : ε) (he : p e = true) (s : String)
    (hplain : ∀ n m, Piece.fieldWith n m ∈ c.fs → n = "e") (hs : Text c.sh (FieldOf args kwargs c.locals (c.asExc e)) c.fs s) :
    context c noVal args kwargs (.error e) = ([s], if c.swallow then .ret noVal else .exc (.orig e)) ∧
    (c.isException e = true → decorated c noVal args kwargs (.error e) = ([s], if c.swallow then .ret noVal else .exc (.orig e)) ∧
      decoratedGen c noVal args kwargs yields (.error e) = (yields, [s], if c.swallow then .ret noVal else .exc (.orig e))) := by
  have h : handle c noVal args kwargs e = ([s], if c.swallow then .ret noVal else .exc (.orig e)) := by
    simp only [handle, analyse, hp, he, ↓reduceIte, (format_iff c e args kwargs s (fun n m h => Or.inl (hplain n m h))).2 hs]
  exact ⟨h, fun hx => ⟨by simp only [decorated, hx, ↓reduceIte, h], by simp only [decoratedGen, decorated, hx, ↓reduceIte, h]⟩⟩

/-- **C145 (reraise_as as a context manager)**: exceptions of the source become the target, made from them, or are swallowed if there is none; others and values are left. -/
theorem C145_reraise (source : ε → Bool) (target : Bool) (noVal v : ν) (e : ε) :
    reraiseContext source target noVal (.ok v) = .ret v ∧ (source e = false → reraiseContext source target noVal (.error e) = .exc (.orig e)) ∧
    (source e = true → reraiseContext source true noVal (.error e) = .exc (.made e) ∧ reraiseContext source false noVal (.error e) = .ret noVal) := by
  refine ⟨rfl, fun h => by simp [reraiseContext, h], fun h => by simp [reraiseContext, h]⟩

/-- **C145 (raises_exception)**: it returns whether the callable raised such an exception; others propagate. -/
theorem C145_raises (p : ε → Bool) (out : Except ε ν) (b : Bool) : (raisesException p out = .ret b ↔ (b = true ∧ ∃ e, out = .error e ∧ p e = true) ∨ (b = false ∧ ∃ v, out = .ok v)) ∧ ∀ x, raisesException p out = .exc x ↔ ∃ e, out = .error e ∧ p e = false ∧ x = .orig e := by
  cases out with
  | ok v => cases b <;> simp [raisesException]
  | error e =>
    cases h : p e <;> cases b <;> simp [raisesException, h]
    all_goals exact fun x => ⟨fun h => h.symm, fun h => h.symm⟩

/-- **C145 (catch_exception)**: the exception is returned if it is such, others propagate; without an exception return_instead is returned if given, else the result if it is to be returned, and otherwise ValueError is raised. -/
theorem C145_catch (p : ε → Bool) (instead : Option ν) (onNone : Bool) :
    (∀ e, p e = true → catchException p instead onNone (.error e) = .ret (.caught e)) ∧ (∀ e, p e = false → catchException p instead onNone (.error e) = .exc (.orig e)) ∧
    (∀ v w, instead = some w → catchException p instead onNone (.ok v) = .ret (.value w)) ∧
    (∀ v, instead = none → catchException p instead onNone (.ok v) = if onNone then .ret (.value v) else .exc .valueError) := by
  refine ⟨fun e h => by simp [catchException, h], fun e h => by simp [catchException, h], fun v w h => by simp [catchException, h], fun v h => by subst h; rfl⟩

/-- the configuration of the examples: values are numbers, shown in decimal -/
def exCfg : Cfg Nat Nat where
  fs := [.text "failed: ", .field "e", .text " for ", .field "args", .field "host"]
  locals := [("host", 7)]
  types := .classes (· < 10)
  sh := fun n _ => toString n
  asExc := id
  isException := fun _ => true

example : decorated exCfg (0 : Nat) 5 6 (.error 3) = (["failed: 3 for 57"], .exc (.orig 3)) := by decide
example : Text exCfg.sh (FieldOf 5 6 exCfg.locals (exCfg.asExc 3)) exCfg.fs ("failed: " ++ ("3" ++ (" for " ++ ("5" ++ ("7" ++ ""))))) :=
  .text _ _ _ (.field _ 3 _ _ (.e _ rfl) (.text _ _ _ (.field _ 5 _ _ (.args _ rfl (by decide)) (.field _ 7 _ _ (.localVar _ 7 [] [] (by decide) rfl (by simp)) .nil))))

/-! ## C146 -/

/-- **C146 (violation), the example of the docs**: fields exc_type, exc_val and exc_tb do not exist, so a KeyError is raised instead of the exception, and nothing is logged. -/
theorem C146_doc_example_violates (sh : α → String → String) (asExc : ε → α) (isException : ε → Bool) (p : ε → Bool) (swallow : Bool) (noVal : ν) (args kwargs : α) (e : ε) (he : p e = true) (hx : isException e = true) :
    decorated { fs := [.field "exc_type", .text " occurred with message ", .field "exc_val", .text " with traceback ", .field "exc_tb"], types := .classes p, swallow := swallow, sh := sh, asExc := asExc, isException := isException } noVal args kwargs (.error e) = ([], .exc .keyError) := by
  simp only [decorated, hx, ↓reduceIte, handle, analyse, he]
  have : lookup (formatDict [.field "exc_type", .text " occurred with message ", .field "exc_val", .text " with traceback ", .field "exc_tb"] args kwargs ([] : List (String × α)) (asExc e)) "exc_type" = none := rfl
  simp [format, this]

/-- **C146 (violation), fields with more than a name**: args is there only if the format string has just `{args}`; with `{args[0]}` alone a KeyError is raised instead of the exception. -/
theorem C146_index_violates (sh : α → String → String) (asExc : ε → α) (isException : ε → Bool) (p : ε → Bool) (swallow : Bool) (noVal : ν) (args kwargs : α) (e : ε) (he : p e = true) (hx : isException e = true) :
    decorated { fs := [.fieldWith "args" "[0]"], types := .classes p, swallow := swallow, sh := sh, asExc := asExc, isException := isException } noVal args kwargs (.error e) = ([], .exc .keyError) := by
  simp only [decorated, hx, ↓reduceIte, handle, analyse, he]
  have : lookup (formatDict [.fieldWith "args" "[0]"] args kwargs ([] : List (String × α)) (asExc e)) "args" = none := rfl
  simp [format, this]

/-- **C146 (violation), exc_types**: None, which is documented to mean all exceptions, and a list, which is an accepted type of it, raise TypeError instead of the exception, and nothing is logged. -/
theorem C146_exc_types_violates (c : Cfg α ε) (noVal : ν) (args kwargs : α) (e : ε) (ht : c.types = .none ∨ c.types = .list) (hx : c.isException e = true) :
    decorated c noVal args kwargs (.error e) = ([], .exc .typeError) ∧ context c noVal args kwargs (.error e) = ([], .exc .typeError) := by
  have h : handle c noVal args kwargs e = ([], .exc .typeError) := by
    rcases ht with h | h <;> simp [handle, analyse, h]
  exact ⟨by simp [decorated, hx, h], h⟩

/-- **C146 (violation), exceptions such as KeyboardInterrupt**: a decorated function does not log them, even if exc_types has them, while the context manager does. -/
theorem C146_base_violates (c : Cfg α ε) (noVal : ν) (args kwargs : α) (e : ε) (hx : c.isException e = false) : decorated c noVal args kwargs (.error e) = ([], .exc (.orig e)) := by
  simp [decorated, hx]

/-- what the docs of catch_exception say it does: `truthy` is whether return_instead would pass an if -/
def docCatch (p : ε → Bool) (truthy : ν → Bool) (instead : Option ν) (onNone : Bool) (out : Except ε ν) : Option (Res (Got ν ε) ε) :=
  match out with
  | .ok v => if onNone then some (.ret (.value v)) else none
  | .error e => if p e then (match instead with | some w => if truthy w then some (.ret (.value w)) else some (.ret (.caught e)) | none => some (.ret (.caught e))) else some (.exc (.orig e))

/-- **C146 (violation), catch_exception**: it is not what its docs call equivalent: with return_instead the exception is returned, and return_instead is returned instead of a result. -/
theorem C146_catch_violates (p : ε → Bool) (truthy : ν → Bool) (w v : ν) (e : ε) (he : p e = true) (hw : truthy w = true) (hv : v ≠ w) :
    docCatch p truthy (some w) true (.error e) = some (.ret (.value w)) ∧ catchException p (some w) true (.error e) = .ret (.caught e) ∧
    docCatch p truthy (some w) true (.ok v) = some (.ret (.value v)) ∧ catchException p (some w) true (.ok v) ≠ .ret (.value v) := by
  refine ⟨by simp [docCatch, he, hw], by simp [catchException, he], by simp [docCatch], by simp [catchException, Ne.symm hv]⟩

/-- **C146 (partial)**: with a class or tuple of them as exc_types, the exception raised by a function is replaced only by KeyError, and only if it is to be logged and the format string has no text: there is a field which stands for nothing, or is one that stands with more than its name and not also alone. -/
theorem C146_replaced_partial (c : Cfg α ε) (noVal : ν) (args kwargs : α) (p : ε → Bool) (hp : c.types = .classes p) (e : ε) (x : Exc ε) (ms : List String) (h : decorated c noVal args kwargs (.error e) = (ms, .exc x)) (hx : x ≠ .orig e) :
    x = .keyError ∧ p e = true ∧ ms = [] ∧ ((¬ ∃ s, Text c.sh (FieldOf args kwargs c.locals (c.asExc e)) c.fs s) ∨ ∃ n m, Piece.fieldWith n m ∈ c.fs ∧ n ≠ "e" ∧ Piece.field n ∉ c.fs) := by
  simp only [decorated] at h
  split at h
  · simp only [handle, analyse, hp] at h
    by_cases hpe : p e = true
    · simp only [hpe, ↓reduceIte] at h
      cases hf : format c.sh (formatDict c.fs args kwargs c.locals (c.asExc e)) c.fs with
      | some s =>
        simp only [hf, Prod.mk.injEq] at h
        obtain ⟨_, h2⟩ := h
        split at h2
        · simp at h2
        · simp at h2; exact absurd h2.symm hx
      | none =>
        simp only [hf, Prod.mk.injEq, Res.exc.injEq] at h
        refine ⟨h.2.symm, hpe, h.1.symm, ?_⟩
        by_cases hb : ∃ n m, Piece.fieldWith n m ∈ c.fs ∧ n ≠ "e" ∧ Piece.field n ∉ c.fs
        · exact Or.inr hb
        · refine Or.inl ?_
          rintro ⟨s, hs⟩
          have := (format_iff c e args kwargs s (fun n m hm => by
            by_cases h1 : n = "e"
            · exact Or.inl h1
            · refine Or.inr (Classical.byContradiction (fun h2 => hb ⟨n, m, hm, h1, h2⟩)))).2 hs
          rw [hf] at this
          simp at this
    · simp only [hpe, Bool.false_eq_true, ↓reduceIte, Prod.mk.injEq, Res.exc.injEq] at h
      exact absurd h.2.symm hx
  · simp only [Prod.mk.injEq, Res.exc.injEq] at h
    exact absurd h.2.symm hx

example : decorated { exCfg with fs := [.field "nothing"] } (0 : Nat) 5 6 (.error 3) = ([], .exc .keyError) := by decide

end Verif.LogExceptions
