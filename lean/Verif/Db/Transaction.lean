import Verif.Py.Basic
/-!
# Model of the transaction context manager (satella/db.py), C46

Everything the driver or the user's code does is an event; whether it raises is up to the environment, which knows all that happened before.  Logging is left out.
-/
namespace Verif.Db
open Verif

/-- what can be seen happening.  (Part of the model of `transaction`, /repo/satella/db.py:7-60.) -/
inductive Ev where
  | getter
  | cursor
  | body
  | commit
  | rollback
  | closeCursor
  | closeConnection
  deriving DecidableEq, Repr

/-- what was given as the connection: a connection, a function that gives one, or something else that can be called (a method, a partial, a class).  (Part of the model of `transaction`, /repo/satella/db.py:7-60.) -/
inductive Given where
  | connection
  | function
  | callable
  deriving DecidableEq, Repr

/-- whether an event raises, given what happened before.  (Part of the model of `transaction`, /repo/satella/db.py:7-60.) -/
abbrev Env := List Ev → Ev → Option Exc

/-- `_connection` (as given, or already replaced by what the function gave), `close_the_connection_after`, /repo/satella/db.py:28-33; what happened -/
structure St where
  given : Given
  closeAfter : Bool
  trace : List Ev

/-- something happens, and may raise.  (Part of the model of `transaction`, /repo/satella/db.py:7-60.) -/
def St.happen (R : Env) (s : St) (e : Ev) : St × Option Exc := ({ s with trace := s.trace ++ [e] }, R s.trace e)

/-- the property `connection`, /repo/satella/db.py:39-46: only a plain function is called, once -/
def St.connection (R : Env) (s : St) : St × Option Exc :=
  match s.given with
  | .function =>
    match s.happen R .getter with
    | (s, none) => ({ s with given := .connection }, none)
    | r => r
  | _ => (s, none)

/-- using a method of the connection.  Something else that can be called has none of them.  (Part of the model of `transaction`, /repo/satella/db.py:7-60.) -/
def St.method (R : Env) (s : St) (e : Ev) : St × Option Exc :=
  match s.connection R with
  | (s, none) => if s.given = .callable then (s, some .attributeError) else s.happen R e
  | r => r

/-- `__enter__`, /repo/satella/db.py:35-37 -/
def St.enter (R : Env) (s : St) : St × Option Exc := s.method R .cursor

/-- `__exit__`, /repo/satella/db.py:48-62, given what the body raised -/
def St.exit (R : Env) (s : St) (exc : Option Exc) : St × Option Exc :=
  match s.method R (if exc.isNone then .commit else .rollback) with
  | (s, some e) => (s, some e)
  | (s, none) =>
    match s.happen R .closeCursor with
    | (s, some e) => (s, some e)
    | (s, none) => if s.closeAfter then s.method R .closeConnection else (s, none)

/-- `with transaction(...) as cur: body`, as Python runs it; what the whole statement raises.  (Part of the model of `transaction`, /repo/satella/db.py:7-60.) -/
def St.use (R : Env) (s : St) : St × Option Exc :=
  match s.enter R with
  | (s, some e) => (s, some e)
  | (s, none) =>
    match s.happen R .body with
    | (s, exc) =>
      match s.exit R exc with
      | (s, some e) => (s, some e)
      | (s, none) => (s, exc)

/-! ## Specification -/

/-- these should happen in order, until one raises: those that happened, and what was raised -/
def fire (R : Env) : List Ev → List Ev → List Ev × Option Exc
  | _, [] => ([], none)
  | t, e :: es =>
    match R t e with
    | some x => ([e], some x)
    | none => (e :: (fire R (t ++ [e]) es).1, (fire R (t ++ [e]) es).2)

/-- what should happen before the body -/
def opening : Given → List Ev
  | .connection => [.cursor]
  | .function => [.getter, .cursor]
  | .callable => [.getter, .cursor]

/-- what should happen after the body, given what it raised -/
def closing (closeAfter : Bool) (exc : Option Exc) : List Ev := [if exc.isNone then .commit else .rollback] ++ [.closeCursor] ++ (if closeAfter then [.closeConnection] else [])

/-! ## Proofs -/

theorem exit_eq (R : Env) (c : Bool) (t : List Ev) (exc : Option Exc) :
    (⟨.connection, c, t⟩ : St).exit R exc = (⟨.connection, c, t ++ (fire R t (closing c exc)).1⟩, (fire R t (closing c exc)).2) := by
  simp only [St.exit, St.method, St.connection, St.happen, closing]
  generalize (if exc.isNone = true then Ev.commit else Ev.rollback) = x
  simp only [reduceCtorEq, if_false, List.cons_append, List.nil_append, fire]
  cases h1 : R t x with
  | some e => simp
  | none =>
    simp only
    cases h2 : R (t ++ [x]) .closeCursor with
    | some e => simp
    | none =>
      cases c with
      | false => simp [fire]
      | true =>
        simp only [if_true, fire]
        cases h3 : R (t ++ [x] ++ [.closeCursor]) .closeConnection <;> simp [h3]

theorem enter_eq (R : Env) (s : St) (hg : s.given ≠ .callable) : ∃ g, s.enter R = (⟨g, s.closeAfter, s.trace ++ (fire R s.trace (opening s.given)).1⟩, (fire R s.trace (opening s.given)).2) ∧
    ((fire R s.trace (opening s.given)).2 = none → g = .connection) := by
  obtain ⟨g, c, t⟩ := s
  cases g with
  | callable => exact absurd rfl hg
  | connection =>
    refine ⟨.connection, ?_, fun _ => rfl⟩
    simp only [St.enter, St.method, St.connection, St.happen, opening, fire]
    cases h : R t .cursor <;> simp
  | function =>
    simp only [St.enter, St.method, St.connection, St.happen, opening, fire]
    cases h : R t .getter with
    | some e => exact ⟨.function, by simp, by simp⟩
    | none =>
      refine ⟨.connection, ?_, fun _ => rfl⟩
      simp only [reduceCtorEq, if_false]
      cases h : R (t ++ [.getter]) .cursor <;> simp

theorem fire_none {R : Env} {t es : List Ev} (h : (fire R t es).2 = none) : (fire R t es).1 = es := by
  induction es generalizing t with
  | nil => rfl
  | cons e es ih =>
    simp only [fire] at h ⊢
    cases hr : R t e with
    | some x => rw [hr] at h; simp at h
    | none =>
      rw [hr] at h
      simp only at h ⊢
      rw [ih h]

theorem fire_prefix (R : Env) (t es : List Ev) : (fire R t es).1 <+: es := by
  induction es generalizing t with
  | nil => exact List.prefix_refl _
  | cons e es ih =>
    simp only [fire]
    split
    · exact ⟨es, rfl⟩
    · obtain ⟨l, hl⟩ := ih (t ++ [e])
      exact ⟨l, by rw [List.cons_append, hl]⟩

theorem fire_first (R : Env) (t : List Ev) (e : Ev) (es : List Ev) : ∃ l, (fire R t (e :: es)).1 = e :: l := by
  simp only [fire]
  split
  · exact ⟨[], rfl⟩
  · exact ⟨_, rfl⟩

/-! ## Properties -/

/-- **C46, exactly.** For every driver and body, whatever raises and when: the connection is got if need be and the cursor made; if that raises, nothing else happens.  Otherwise the body runs; then exactly one of commit
(the body raised nothing) and rollback (it raised) is called, then the cursor is closed, then the connection if that was asked for, until one of these raises; the statement raises what one of these
raised, or what the body raised. -/
theorem C46_exact (R : Env) (s : St) (hg : s.given ≠ .callable) :
    (∀ e, (fire R s.trace (opening s.given)).2 = some e → (s.use R).1.trace = s.trace ++ (fire R s.trace (opening s.given)).1 ∧ (s.use R).2 = some e) ∧
    ((fire R s.trace (opening s.given)).2 = none →
      let t := s.trace ++ opening s.given
      let last := fire R (t ++ [.body]) (closing s.closeAfter (R t .body))
      (s.use R).1.trace = t ++ [.body] ++ last.1 ∧ (s.use R).2 = last.2.or (R t .body)) := by
  obtain ⟨g, h1, h2⟩ := enter_eq R s hg
  constructor
  · intro e he
    rw [he] at h1
    simp [St.use, h1]
  · intro hn
    rw [hn] at h1
    simp only [fire_none hn, h2 hn] at h1
    simp only [St.use, h1, St.happen, exit_eq]
    generalize fire R _ _ = f
    obtain ⟨l, x⟩ := f
    cases x <;> simp

/-- **C46, a driver that does not raise.** The cursor is made, the body runs, then exactly a commit if it raised nothing and exactly a rollback if it raised, then the cursor is closed, and the connection if and only if
that was asked for; the statement raises what the body raised. -/
theorem C46_transaction (R : Env) (s : St) (hg : s.given ≠ .callable) (hR : ∀ t e, e ≠ .body → R t e = none) :
    let t := s.trace ++ (if s.given = .function then [.getter] else []) ++ [.cursor]
    (s.use R).1.trace = t ++ [.body] ++ [if (R t .body).isNone then .commit else .rollback] ++ [.closeCursor] ++ (if s.closeAfter then [.closeConnection] else []) ∧ (s.use R).2 = R t .body := by
  have quiet : ∀ (es t : List Ev), Ev.body ∉ es → (fire R t es).2 = none := by
    intro es
    induction es with
    | nil => exact fun _ _ => rfl
    | cons e es ih =>
      intro t he
      simp only [List.mem_cons, not_or] at he
      simp only [fire, hR t e (fun h => he.1 h.symm)]
      exact ih _ he.2
  have ho : (if s.given = .function then [Ev.getter] else []) ++ [.cursor] = opening s.given := by
    cases hg' : s.given with
    | callable => exact absurd hg' hg
    | connection => rfl
    | function => rfl
  obtain ⟨h1, h2⟩ := (C46_exact R s hg).2 (quiet _ _ (by cases s.given <;> simp [opening]))
  simp only [List.append_assoc s.trace, ho]
  have hq := quiet (closing s.closeAfter (R (s.trace ++ opening s.given) .body)) (s.trace ++ opening s.given ++ [.body]) (by
    unfold closing; cases (R (s.trace ++ opening s.given) .body) <;> cases s.closeAfter <;> simp)
  rw [hq] at h2
  rw [fire_none hq] at h1
  refine ⟨?_, by simpa using h2⟩
  rw [h1]
  simp [closing]

/-- **C46, never both, whatever raises.** Of the events of one use: a commit is there exactly if the body ran and raised nothing, a rollback exactly if it ran and raised; the connection is closed only if that was
asked for. -/
theorem C46_never_both (R : Env) (s : St) (hg : s.given ≠ .callable) : ∃ es, (s.use R).1.trace = s.trace ++ es ∧
    (Ev.commit ∈ es ↔ Ev.body ∈ es ∧ R (s.trace ++ opening s.given) .body = none) ∧ (Ev.rollback ∈ es ↔ Ev.body ∈ es ∧ R (s.trace ++ opening s.given) .body ≠ none) ∧
    (Ev.closeConnection ∈ es → s.closeAfter = true) ∧ es.Nodup := by
  obtain ⟨h1, h2⟩ := C46_exact R s hg
  have hon : (opening s.given).Nodup ∧ Ev.body ∉ opening s.given ∧ Ev.commit ∉ opening s.given ∧ Ev.rollback ∉ opening s.given ∧ Ev.closeConnection ∉ opening s.given := by
    cases s.given <;> simp [opening]
  obtain ⟨n1, n2, n3, n4, n5⟩ := hon
  cases ho : (fire R s.trace (opening s.given)).2 with
  | some e =>
    have hp := fire_prefix R s.trace (opening s.given)
    have hs := hp.subset
    exact ⟨_, (h1 e ho).1, ⟨fun h => absurd (hs h) n3, fun h => absurd (hs h.1) n2⟩, ⟨fun h => absurd (hs h) n4, fun h => absurd (hs h.1) n2⟩, fun h => absurd (hs h) n5, n1.sublist hp.sublist⟩
  | none =>
    obtain ⟨h3, _⟩ := h2 ho
    refine ⟨opening s.given ++ [.body] ++ (fire R (s.trace ++ opening s.given ++ [.body]) (closing s.closeAfter (R (s.trace ++ opening s.given) .body))).1, by rw [h3]; simp, ?_⟩
    have hp := fire_prefix R (s.trace ++ opening s.given ++ [.body]) (closing s.closeAfter (R (s.trace ++ opening s.given) .body))
    have hs := hp.subset
    have hf := fire_first R (s.trace ++ opening s.given ++ [.body]) (if (R (s.trace ++ opening s.given) .body).isNone then .commit else .rollback) ([.closeCursor] ++ (if s.closeAfter then [.closeConnection] else []))
    change ∃ l, (fire R (s.trace ++ opening s.given ++ [.body]) (closing s.closeAfter (R (s.trace ++ opening s.given) .body))).1 = _ at hf
    generalize (fire R (s.trace ++ opening s.given ++ [.body]) (closing s.closeAfter (R (s.trace ++ opening s.given) .body))).1 = l at hp hs hf
    obtain ⟨l', hl'⟩ := hf
    generalize s.closeAfter = c at hp hs
    refine ⟨?_, ?_, ?_, ?_⟩
    · simp only [List.mem_append, n3, List.mem_singleton, reduceCtorEq, false_or, or_true, true_or, true_and]
      cases hb : R (s.trace ++ opening s.given) .body with
      | none => rw [hl', hb]; simp
      | some x => rw [hb] at hs; exact ⟨fun h => absurd (hs h) (by cases c <;> simp [closing]), by simp⟩
    · simp only [List.mem_append, n4, List.mem_singleton, reduceCtorEq, false_or, or_true, true_or, true_and]
      cases hb : R (s.trace ++ opening s.given) .body with
      | some x => rw [hl', hb]; simp
      | none => rw [hb] at hs; exact ⟨fun h => absurd (hs h) (by cases c <;> simp [closing]), by simp⟩
    · simp only [List.mem_append, n5, List.mem_singleton, reduceCtorEq, false_or]
      intro h
      cases c with
      | true => rfl
      | false => exact absurd (hs h) (by cases R (s.trace ++ opening s.given) .body <;> simp [closing])
    · have hfull : (opening s.given ++ [Ev.body] ++ closing c (R (s.trace ++ opening s.given) .body)).Nodup := by
        generalize R (s.trace ++ opening s.given) .body = b
        cases s.given <;> cases c <;> cases b <;> simp [opening, closing]
      exact hfull.sublist (List.Sublist.append (List.Sublist.refl _) hp.sublist)

/-- **C46, the cursor** (partial: neither commit nor rollback raises). Whenever the body ran, the cursor is closed. -/
theorem C46_cursor_partial (R : Env) (s : St) (hg : s.given ≠ .callable) (hR : ∀ t, R t .commit = none ∧ R t .rollback = none) (ho : (fire R s.trace (opening s.given)).2 = none) :
    Ev.closeCursor ∈ (s.use R).1.trace.drop s.trace.length := by
  obtain ⟨h1, _⟩ := (C46_exact R s hg).2 ho
  rw [h1]
  simp only [List.append_assoc, List.drop_left, List.mem_append]
  right; right
  have : ∀ t x es, R t x = none → Ev.closeCursor ∈ (fire R t (x :: .closeCursor :: es)).1 := by
    intro t x es hx
    simp only [fire, hx]
    split <;> simp
  apply this
  split
  · exact (hR _).1
  · exact (hR _).2

/-- **C46, violated: the cursor stays open**, and the connection too although it was to be closed, when commit or rollback raises. -/
theorem C46_cursor_violates (R : Env) (s : St) (hg : s.given = .connection) (h1 : ∀ t, R t .cursor = none) (h2 : ∀ t, R t .commit ≠ none ∧ R t .rollback ≠ none) :
    Ev.closeCursor ∉ (s.use R).1.trace.drop s.trace.length ∧ Ev.closeConnection ∉ (s.use R).1.trace.drop s.trace.length := by
  have ho : (fire R s.trace (opening s.given)).2 = none := by rw [hg]; simp [opening, fire, h1]
  obtain ⟨h3, _⟩ := (C46_exact R s (by rw [hg]; decide)).2 ho
  rw [h3, hg]
  simp only [List.append_assoc, List.drop_left, List.mem_append, opening]
  have : ∀ t x es, R t x ≠ none → (fire R t (x :: es)).1 = [x] := by
    intro t x es hx
    cases hr : R t x with
    | none => exact absurd hr hx
    | some e => simp [fire, hr]
  have hc : ∀ t c b, (fire R t (closing c b)).1 = [if b.isNone then .commit else .rollback] := by
    intro t c b
    unfold closing
    rw [List.append_assoc, List.singleton_append]
    apply this
    split
    · exact (h2 t).1
    · exact (h2 t).2
  rw [hc]
  cases R (s.trace ++ [Ev.cursor]) .body <;> simp

/-- **C46, violated: a callable that is not a plain function** (a method, a partial, a class) is documented to be called for the connection, but is taken for the connection: nothing happens but an exception. -/
theorem C46_callable_violates (R : Env) (s : St) (hg : s.given = .callable) : (s.use R).1.trace = s.trace ∧ (s.use R).2 = some .attributeError := by
  simp [St.use, St.enter, St.method, St.connection, hg]

/-! Concrete cases. -/
/-- only the body raises -/
def badBody : Env := fun _ e => if e = .body then some .valueError else none
example : ((⟨.function, true, []⟩ : St).use badBody).1.trace = [.getter, .cursor, .body, .rollback, .closeCursor, .closeConnection] ∧ ((⟨.function, true, []⟩ : St).use badBody).2 = some .valueError := by decide
example : ∀ t e, e ≠ .body → badBody t e = none := fun _ _ h => if_neg h
example : ((⟨.connection, false, []⟩ : St).use (fun _ _ => none)).1.trace = [.cursor, .body, .commit, .closeCursor] := by decide
/-- commit and rollback raise -/
def badCommit : Env := fun _ e => if e = .commit ∨ e = .rollback then some (.other 1) else none
example : (∀ t, badCommit t .cursor = none) ∧ (∀ t, badCommit t .commit ≠ none ∧ badCommit t .rollback ≠ none) := by simp [badCommit]
example : ((⟨.connection, true, []⟩ : St).use badCommit).1.trace = [.cursor, .body, .commit] := by decide
example : (∀ t, badBody t .commit = none ∧ badBody t .rollback = none) ∧ (fire badBody [] (opening .function)).2 = none := by simp [badBody, fire, opening]

end Verif.Db
