/-!
# Showing tracebacks (satella/instrumentation/trace_back), C234

Frames are as stored: name, file, line, and the texts of the variables.
-/
namespace Verif.PrettyPrint

/-! ## Model -/

/-- A stored frame; variables with the text of their values, in the order of the dictionaries; /repo/satella/instrumentation/trace_back/classes.py:220-231 -/
structure Frame where
  name : String
  file : String
  line : Nat
  locals : List (String × String)
  globals : List (String × String)

/-- A text stream, as far as used: which texts its `write` refuses, with the text of the exception (as a stream does that cannot encode them); a text refused is not written.
(Part of the model of `Traceback.pretty_print`, /repo/satella/instrumentation/trace_back/trace_back.py:134-150.) -/
structure Stream where
  refuses : String → Option String

/-- `output.write(s)`; what was written before comes first; `false` if it raises.  (Part of the model of `Traceback.pretty_print`, /repo/satella/instrumentation/trace_back/trace_back.py:134-150.) -/
def Stream.write (o : Stream) (out : List String) (s : String) : List String × Bool :=
  match o.refuses s with
  | none => (out ++ [s], true)
  | some _ => (out, false)

/-- /repo/satella/instrumentation/trace_back/trace_back.py:144 -/
def frameLine (f : Frame) : String := "** " ++ f.name ++ " at " ++ f.file ++ ":" ++ toString f.line ++ "\n"

/-- /repo/satella/instrumentation/trace_back/trace_back.py:147 -/
def localLine (n v : String) : String := "*** " ++ n ++ ": " ++ v ++ "\n"

/-- /repo/satella/instrumentation/trace_back/trace_back.py:149-150 -/
def excuse (n e : String) : String := "*** " ++ n ++ ": repr unavailable (due to locally raised " ++ e ++ ")\n"

/-- the loop over variables, /repo/satella/instrumentation/trace_back/trace_back.py:145-150 -/
def printLocals (o : Stream) : List String → List (String × String) → List String × Bool
  | out, [] => (out, true)
  | out, (n, v) :: rest =>
    match o.refuses (localLine n v) with
    | none => printLocals o (out ++ [localLine n v]) rest
    | some e =>
      match o.write out (excuse n e) with
      | (out, true) => printLocals o out rest
      | (out, false) => (out, false)

/-- the loop over frames, /repo/satella/instrumentation/trace_back/trace_back.py:143-150 -/
def printFrames (o : Stream) : List String → List Frame → List String × Bool
  | out, [] => (out, true)
  | out, f :: rest =>
    match o.write out (frameLine f) with
    | (out, false) => (out, false)
    | (out, true) =>
      match printLocals o out f.locals with
      | (out, true) => printFrames o out rest
      | (out, false) => (out, false)

/-- `pretty_print`: what is written, and whether it ends without raising; /repo/satella/instrumentation/trace_back/trace_back.py:134-150 -/
def prettyPrint (o : Stream) (text : String) (frames : List Frame) : List String × Bool :=
  match o.write [] text with
  | (out, false) => (out, false)
  | (out, true) =>
    match o.write out "\n* Stack trace, innermost first\n" with
    | (out, false) => (out, false)
    | (out, true) => printFrames o out frames

/-- all texts one after another, `getvalue` of io.StringIO and `''.join`, /repo/satella/instrumentation/trace_back/trace_back.py:132 and :54 -/
def joined : List String → String
  | [] => ""
  | s :: l => s ++ joined l

/-- `pretty_format`: to a stream that refuses nothing, /repo/satella/instrumentation/trace_back/trace_back.py:123-132 -/
def prettyFormat (text : String) (frames : List Frame) : String := joined (prettyPrint ⟨fun _ => none⟩ text frames).1

/-- /repo/satella/instrumentation/trace_back/classes.py:211-213 and :215-217 -/
def section_ (title : String) (vars : List (String × String)) : List String :=
  if vars = [] then [] else title :: vars.map (fun p => "        " ++ p.1 ++ ": " ++ p.2 ++ "\n")

/-- `StackFrame.__str__`, /repo/satella/instrumentation/trace_back/classes.py:208-218 -/
def frameStr (f : Frame) : String :=
  joined ([f.name ++ " - " ++ f.file ++ ":" ++ toString f.line ++ "\n"] ++ section_ "    Locals: \n" f.locals ++ section_ "    Globals: \n" f.globals)

/-- `Traceback.__str__`, /repo/satella/instrumentation/trace_back/trace_back.py:50-54 -/
def tracebackStr (frames : List Frame) : String := joined ("Traceback:\n" :: frames.map frameStr)

/-! ## Specification -/

/-- What is shown of one variable: its text, or the note that it cannot be shown, exactly if the stream refuses the text. -/
def ShowsVar (o : Stream) (p : String × String) (s : String) : Prop :=
  (o.refuses ("*** " ++ p.1 ++ ": " ++ p.2 ++ "\n") = none ∧ s = "*** " ++ p.1 ++ ": " ++ p.2 ++ "\n") ∨
  (∃ e, o.refuses ("*** " ++ p.1 ++ ": " ++ p.2 ++ "\n") = some e ∧ s = "*** " ++ p.1 ++ ": repr unavailable (due to locally raised " ++ e ++ ")\n" ∧ o.refuses s = none)

/-- What is shown of variables: each once, in order. -/
inductive ShowsVars (o : Stream) : List (String × String) → List String → Prop
  | nil : ShowsVars o [] []
  | cons (p s vars out) : ShowsVar o p s → ShowsVars o vars out → ShowsVars o (p :: vars) (s :: out)

/-- What is shown of frames: for each, in order, a line with its name, file and line, and then its variables. -/
inductive ShowsFrames (o : Stream) : List Frame → List String → Prop
  | nil : ShowsFrames o [] []
  | cons (f vars frames out) : ShowsVars o f.locals vars → o.refuses ("** " ++ f.name ++ " at " ++ f.file ++ ":" ++ toString f.line ++ "\n") = none → ShowsFrames o frames out →
      ShowsFrames o (f :: frames) (("** " ++ f.name ++ " at " ++ f.file ++ ":" ++ toString f.line ++ "\n") :: vars ++ out)

theorem printLocals_spec (o : Stream) (vars : List (String × String)) : ∀ out, ∃ l, (printLocals o out vars).1 = out ++ l ∧
    ((printLocals o out vars).2 = true → ShowsVars o vars l) ∧
    ((printLocals o out vars).2 = false → ∃ pre p post e, vars = pre ++ p :: post ∧ ShowsVars o pre l ∧
      o.refuses ("*** " ++ p.1 ++ ": " ++ p.2 ++ "\n") = some e ∧ o.refuses ("*** " ++ p.1 ++ ": repr unavailable (due to locally raised " ++ e ++ ")\n") ≠ none) := by
  induction vars with
  | nil => exact fun out => ⟨[], by simp [printLocals], fun _ => .nil, by simp [printLocals]⟩
  | cons p rest ih =>
    intro out
    obtain ⟨n, v⟩ := p
    unfold printLocals
    cases hr : o.refuses (localLine n v) with
    | none =>
      obtain ⟨l, h1, h2, h3⟩ := ih (out ++ [localLine n v])
      refine ⟨localLine n v :: l, by simpa using h1, fun h => .cons _ _ _ _ (Or.inl ⟨hr, rfl⟩) (h2 h), fun h => ?_⟩
      obtain ⟨pre, p, post, e, rfl, hv, h4, h5⟩ := h3 h
      exact ⟨(n, v) :: pre, p, post, e, rfl, .cons _ _ _ _ (Or.inl ⟨hr, rfl⟩) hv, h4, h5⟩
    | some e =>
      simp only [Stream.write]
      cases he : o.refuses (excuse n e) with
      | some x => exact ⟨[], by simp, by simp, fun _ => ⟨[], (n, v), rest, e, rfl, .nil, hr, by rw [show ("*** " ++ (n, v).1 ++ ": repr unavailable (due to locally raised " ++ e ++ ")\n") = excuse n e from rfl, he]; simp⟩⟩
      | none =>
        obtain ⟨l, h1, h2, h3⟩ := ih (out ++ [excuse n e])
        refine ⟨excuse n e :: l, by simpa using h1, fun h => .cons _ _ _ _ (Or.inr ⟨e, hr, rfl, he⟩) (h2 h), fun h => ?_⟩
        obtain ⟨pre, p, post, e', rfl, hv, h4, h5⟩ := h3 h
        exact ⟨(n, v) :: pre, p, post, e', rfl, .cons _ _ _ _ (Or.inr ⟨e, hr, rfl, he⟩) hv, h4, h5⟩

theorem printFrames_spec (o : Stream) (frames : List Frame) : ∀ out, ∃ l, (printFrames o out frames).1 = out ++ l ∧ ((printFrames o out frames).2 = true → ShowsFrames o frames l) := by
  induction frames with
  | nil => exact fun out => ⟨[], by simp [printFrames], fun _ => .nil⟩
  | cons f rest ih =>
    intro out
    unfold printFrames Stream.write
    cases hr : o.refuses (frameLine f) with
    | some e => exact ⟨[], by simp, by simp⟩
    | none =>
      obtain ⟨l, h1, h2, _⟩ := printLocals_spec o f.locals (out ++ [frameLine f])
      cases hp : printLocals o (out ++ [frameLine f]) f.locals with
      | mk out' b =>
        rw [hp] at h1 h2
        cases b with
        | false => simp only [hp]; exact ⟨frameLine f :: l, by simpa using h1, by simp⟩
        | true =>
          obtain ⟨l', h3, h4⟩ := ih out'
          simp only [hp]
          refine ⟨frameLine f :: l ++ l', ?_, fun h => .cons f l rest l' (h2 rfl) hr (h4 h)⟩
          rw [h3]
          simp only at h1
          simp [h1]

/-- What must be accepted for printing to succeed: the lines that have no replacement. -/
def Takes (o : Stream) (text : String) (frames : List Frame) : Prop :=
  o.refuses text = none ∧ o.refuses "\n* Stack trace, innermost first\n" = none ∧
  ∀ f ∈ frames, o.refuses ("** " ++ f.name ++ " at " ++ f.file ++ ":" ++ toString f.line ++ "\n") = none ∧
    ∀ p ∈ f.locals, ∀ e, o.refuses ("*** " ++ p.1 ++ ": " ++ p.2 ++ "\n") = some e → o.refuses ("*** " ++ p.1 ++ ": repr unavailable (due to locally raised " ++ e ++ ")\n") = none

theorem printFrames_total (o : Stream) (frames : List Frame)
    (h : ∀ f ∈ frames, o.refuses ("** " ++ f.name ++ " at " ++ f.file ++ ":" ++ toString f.line ++ "\n") = none ∧
      ∀ p ∈ f.locals, ∀ e, o.refuses ("*** " ++ p.1 ++ ": " ++ p.2 ++ "\n") = some e → o.refuses ("*** " ++ p.1 ++ ": repr unavailable (due to locally raised " ++ e ++ ")\n") = none) :
    ∀ out, (printFrames o out frames).2 = true := by
  induction frames with
  | nil => exact fun _ => rfl
  | cons f rest ih =>
    intro out
    have hf := h f (by simp)
    unfold printFrames Stream.write
    have hr : o.refuses (frameLine f) = none := hf.1
    rw [hr]
    simp only
    obtain ⟨l, _, _, h3⟩ := printLocals_spec o f.locals (out ++ [frameLine f])
    cases hp : printLocals o (out ++ [frameLine f]) f.locals with
    | mk out' b =>
      cases b with
      | true => exact ih (fun g hg => h g (by simp [hg])) out'
      | false =>
        rw [hp] at h3
        obtain ⟨pre, p, post, e, hl, _, h4, h5⟩ := h3 rfl
        exact absurd (hf.2 p (by rw [hl]; simp) e h4) h5

/-- **C234, printing.** `pretty_print` to any stream that takes the lines that have no replacement ends without raising, and writes the formatted traceback, the
heading, and for each frame, innermost first as stored, its name, file and line and each of its variables once in order, with its text, or with a note if (and
only if) the stream refuses the text.  If it raises, one of these lines was refused. -/
theorem C234_printed (o : Stream) (text : String) (frames : List Frame) :
    ((prettyPrint o text frames).2 = true ↔ Takes o text frames) ∧
    (Takes o text frames → ∃ l, (prettyPrint o text frames).1 = text :: "\n* Stack trace, innermost first\n" :: l ∧ ShowsFrames o frames l) := by
  have hv : ∀ vars l, ShowsVars o vars l → ∀ p ∈ vars, ∀ e, o.refuses ("*** " ++ p.1 ++ ": " ++ p.2 ++ "\n") = some e → o.refuses ("*** " ++ p.1 ++ ": repr unavailable (due to locally raised " ++ e ++ ")\n") = none := by
    intro vars l h
    induction h with
    | nil => simp
    | cons q s vars out hq _ ih =>
      intro p hp e he
      rcases List.mem_cons.1 hp with rfl | hp
      · rcases hq with ⟨h1, _⟩ | ⟨e', h1, h2, h3⟩
        · rw [h1] at he; cases he
        · rw [h1] at he; cases he; rw [h2] at h3; exact h3
      · exact ih p hp e he
  have hf : ∀ frames l, ShowsFrames o frames l → ∀ f ∈ frames, o.refuses ("** " ++ f.name ++ " at " ++ f.file ++ ":" ++ toString f.line ++ "\n") = none ∧
      ∀ p ∈ f.locals, ∀ e, o.refuses ("*** " ++ p.1 ++ ": " ++ p.2 ++ "\n") = some e → o.refuses ("*** " ++ p.1 ++ ": repr unavailable (due to locally raised " ++ e ++ ")\n") = none := by
    intro frames l h
    induction h with
    | nil => simp
    | cons g vars frames out h1 h2 _ ih =>
      intro f hm
      rcases List.mem_cons.1 hm with rfl | hm
      · exact ⟨h2, hv _ _ h1⟩
      · exact ih f hm
  unfold prettyPrint Stream.write Takes
  cases h1 : o.refuses text with
  | some e => simp
  | none =>
    cases h2 : o.refuses "\n* Stack trace, innermost first\n" with
    | some e => simp
    | none =>
      simp only [List.nil_append, List.cons_append, true_and]
      obtain ⟨l, h3, h4⟩ := printFrames_spec o frames [text, "\n* Stack trace, innermost first\n"]
      refine ⟨⟨fun h => hf _ _ (h4 h), fun h => printFrames_total o frames h _⟩, fun h => ⟨l, ?_, h4 (printFrames_total o frames h _)⟩⟩
      rw [h3]; rfl

/-- **C234, formatting.** `pretty_format` is what would be printed to a stream that takes everything: nothing is left out and no text is replaced. -/
theorem C234_formatted (text : String) (frames : List Frame) : ∃ l, ShowsFrames ⟨fun _ => none⟩ frames l ∧ prettyFormat text frames = text ++ ("\n* Stack trace, innermost first\n" ++ joined l) := by
  obtain ⟨l, h1, h2⟩ := (C234_printed ⟨fun _ => none⟩ text frames).2 (by simp [Takes])
  exact ⟨l, h2, by simp only [prettyFormat, h1, joined]⟩

/-- **C234, str.** The text of a traceback has a heading and, for each frame in order, its name, file and line, then its local variables and then its global ones with their texts, each under a
heading that is there exactly if there are any. -/
theorem C234_str (frames : List Frame) : ∃ parts : List (List String), tracebackStr frames = "Traceback:\n" ++ joined (parts.map joined) ∧ parts.length = frames.length ∧
    ∀ (i : Nat) f p, frames[i]? = some f → parts[i]? = some p → ∃ ls gs, p = (f.name ++ " - " ++ f.file ++ ":" ++ toString f.line ++ "\n") :: ls ++ gs ∧
      (f.locals = [] → ls = []) ∧ (f.locals ≠ [] → ls = "    Locals: \n" :: f.locals.map (fun v => "        " ++ v.1 ++ ": " ++ v.2 ++ "\n")) ∧
      (f.globals = [] → gs = []) ∧ (f.globals ≠ [] → gs = "    Globals: \n" :: f.globals.map (fun v => "        " ++ v.1 ++ ": " ++ v.2 ++ "\n")) := by
  refine ⟨frames.map (fun f => [f.name ++ " - " ++ f.file ++ ":" ++ toString f.line ++ "\n"] ++ section_ "    Locals: \n" f.locals ++ section_ "    Globals: \n" f.globals), ?_, by simp, ?_⟩
  · simp only [tracebackStr, joined, List.map_map]; rfl
  · intro i f p hf hp
    rw [List.getElem?_map, hf] at hp
    simp only [Option.map_some, Option.some.injEq] at hp
    refine ⟨section_ "    Locals: \n" f.locals, section_ "    Globals: \n" f.globals, hp.symm, ?_, ?_, ?_, ?_⟩ <;> intro h <;> simp [section_, h]

/-! Cases that meet the hypotheses -/

/-- refuses the value of `b` -/
def exampleStream : Stream := ⟨fun s => if s = "*** b: ż\n" then some "UnicodeEncodeError()" else none⟩

example : Takes exampleStream "E" [⟨"f", "a.py", 3, [("a", "1"), ("b", "ż")], []⟩] := by
  refine ⟨by decide +kernel, by decide +kernel, ?_⟩
  intro f hf
  simp only [List.mem_cons, List.not_mem_nil, or_false] at hf
  subst hf
  refine ⟨by decide +kernel, ?_⟩
  intro p hp e he
  simp only [List.mem_cons, List.not_mem_nil, or_false] at hp
  rcases hp with rfl | rfl
  · exact absurd he (by rw [show exampleStream.refuses ("*** " ++ ("a", "1").1 ++ ": " ++ ("a", "1").2 ++ "\n") = none by decide +kernel]; simp)
  · rw [show exampleStream.refuses ("*** " ++ ("b", "ż").1 ++ ": " ++ ("b", "ż").2 ++ "\n") = some "UnicodeEncodeError()" by decide +kernel] at he
    cases he
    decide +kernel
example : prettyPrint exampleStream "E" [⟨"f", "a.py", 3, [("a", "1"), ("b", "ż")], []⟩] =
    (["E", "\n* Stack trace, innermost first\n", "** f at a.py:3\n", "*** a: 1\n", "*** b: repr unavailable (due to locally raised UnicodeEncodeError())\n"], true) := by decide +kernel
example : tracebackStr [⟨"f", "a.py", 3, [], [("g", "2")]⟩] = "Traceback:\nf - a.py:3\n    Globals: \n        g: 2\n" := by decide +kernel

end Verif.PrettyPrint
