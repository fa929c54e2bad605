import Verif.Schema.FromJson

/-!
# Model of DictObject.is_valid_schema (satella/coding/structures/dictionaries/dict_object.py), C228
-/
namespace Verif.Schema

/-- the argument `schema`.  (Part of the model of `is_valid_schema`, /repo/satella/coding/structures/dictionaries/dict_object.py:49-76.) -/
inductive Given where
  | none
  | descriptor (d : D)
  | json (fs : Fields)

/-- what the call does: answers, raises what reading the schema raises, or raises what a descriptor raises beside ConfigurationValidationError.
  (Part of the model of `is_valid_schema`, /repo/satella/coding/structures/dictionaries/dict_object.py:49-76.) -/
inductive Answer where
  | bool (b : Bool)
  | schema (e : Err)
  | exc (e : Nat)
  deriving DecidableEq

/-- the `try` statement, /repo/satella/coding/structures/dictionaries/dict_object.py:71-76 -/
def answer : Res V → Answer
  | .ok _ => .bool true
  | .invalid => .bool false
  | .exc e => .exc e

/-- a schema given as a dictionary: a new descriptor, none of whose lists has lost its checker, /repo/satella/coding/structures/dictionaries/dict_object.py:68-72 -/
def validFor (R : Reg) (E : Env) (fs : Fields) (f : Nat → Option V) : Answer :=
  match descriptorFromDict R fs with
  | .error e => .schema e
  | .ok d => answer (call E d (.dict f) (fun _ => false)).1

/-- `is_valid_schema`, /repo/satella/coding/structures/dictionaries/dict_object.py:49-76.  `kwargs` are the keyword arguments; `s` says which lists of the descriptor given have lost their checker.
  Without anything `descriptor_from_dict(None)` is an AttributeError. -/
def isValidSchema (R : Reg) (E : Env) (g : Given) (kwargs : Fields) (f : Nat → Option V) (s : Lost) : Answer × Lost :=
  match kwargs with
  | .cons _ _ _ => (validFor R E kwargs f, s)
  | .nil =>
    match g with
    | .none => (.schema .attribute, s)
    | .descriptor d => (answer (call E d (.dict f) s).1, (call E d (.dict f) s).2)
    | .json fs => (validFor R E fs f, s)

/-- the same question put any number of times (to `is_valid_schema`, /repo/satella/coding/structures/dictionaries/dict_object.py:49-76) -/
def askMany (R : Reg) (E : Env) (g : Given) (kwargs : Fields) : List (Nat → Option V) → Lost → List Answer
  | [], _ => []
  | f :: l, s => (isValidSchema R E g kwargs f s).1 :: askMany R E g kwargs l (isValidSchema R E g kwargs f s).2

variable (R : Reg) (E : Env)

theorem answer_true (r : Res V) : answer r = .bool true ↔ ∃ o, r = .ok o := by cases r <;> simp [answer]
theorem answer_no (r : Res V) : answer r = .bool false ↔ r = .invalid := by cases r <;> simp [answer]

mutual
theorem armed_new (d : D) : Armed (fun _ => false) d := by
  cases d with
  | basic => simp [Armed]
  | caster => simp [Armed]
  | list id d => simp [Armed, armed_new d]
  | dict ks u => simp [Armed, keysArmed_new ks]
  | union as => simp [Armed, altsArmed_new as]
theorem keysArmed_new (ks : Keys) : KeysArmed (fun _ => false) ks := by
  cases ks with
  | nil => simp [KeysArmed]
  | cons n o d rest => simp [KeysArmed, armed_new d, keysArmed_new rest]
theorem altsArmed_new (as : Alts) : AltsArmed (fun _ => false) as := by
  cases as with
  | nil => simp [AltsArmed]
  | cons d rest => simp [AltsArmed, armed_new d, altsArmed_new rest]
end

theorem validFor_spec (fs : GFields) (h : FieldsKnown R fs) (hk : fs.keys.Nodup) (hs : FieldsSound R fs) (f : Nat → Option V) :
    ((∃ g, FieldsMean R fs f g) → validFor R E fs.write f = .bool true) ∧ ((∀ g, ¬ FieldsMean R fs f g) → validFor R E fs.write f = .bool false) := by
  obtain ⟨d, hd, hc⟩ := C90_call_partial R E fs h hk hs
  obtain ⟨h1, h2⟩ := hc (fun _ => false) (armed_new d) f
  simp only [validFor, hd]
  constructor
  · rintro ⟨g, hg⟩
    cases hr : (call E d (.dict f) fun _ => false).1 with
    | ok o => rfl
    | invalid => exact absurd hg ((h2.1 hr) g)
    | exc e =>
      exfalso
      obtain ⟨d', hd', hF⟩ := C90_from_dict_partial R fs h
      rw [hd] at hd'
      injection hd' with hd'
      subst hd'
      have hG : ∃ o, Fits d (.dict f) o := by
        obtain ⟨ks, hk', hn, hm, _⟩ := compFields_write R fs h
        refine ⟨.dict (fun n => if n ∈ fs.keys then g n else f n), (hF _ _).2 ⟨f, _, rfl, rfl, ?_, fun n hn => by simp [hn]⟩⟩
        rw [← hm] at hg ⊢
        exact keysFit_congr ks f _ _ (fun n hnn => by rw [hn] at hnn; simp [hnn]) hg
      obtain ⟨o, ho⟩ := hG
      obtain ⟨f', g', e1, e2, e3, e4⟩ := (hF _ _).1 ho
      injection e1 with e1
      subst e1
      have := (h1 o).2 ⟨g', e2, e3, e4⟩
      rw [hr] at this
      cases this
  · intro hn
    rw [h2.2 hn]
    rfl

/-- **C228, a schema written as a dictionary** (partial: one that C90 treats). However often dictionaries are checked against it, given as the argument or, then the argument does not matter, by keywords:
  the answer is True exactly if the dictionary conforms to the schema as documented, False otherwise. -/
theorem C228_json_partial (fs : GFields) (h : FieldsKnown R fs) (hk : fs.keys.Nodup) (hs : FieldsSound R fs) (g : Given) (kwargs : Fields)
    (hg : (g = .json fs.write ∧ kwargs = .nil) ∨ (kwargs = fs.write ∧ fs.keys ≠ [])) (l : List (Nat → Option V)) (s : Lost) :
    (askMany R E g kwargs l s).length = l.length ∧
    ∀ (i : Nat) f, l[i]? = some f → ((∃ o, FieldsMean R fs f o) → (askMany R E g kwargs l s)[i]? = some (.bool true)) ∧ ((∀ o, ¬ FieldsMean R fs f o) → (askMany R E g kwargs l s)[i]? = some (.bool false)) := by
  have one : ∀ f s, isValidSchema R E g kwargs f s = (validFor R E fs.write f, s) := by
    intro f s
    rcases hg with ⟨rfl, rfl⟩ | ⟨rfl, hne⟩
    · rfl
    · cases fs with
      | nil => exact absurd rfl hne
      | cons k x rest => rfl
  have many : askMany R E g kwargs l s = l.map (validFor R E fs.write) := by
    induction l with
    | nil => rfl
    | cons f l ih => simp only [askMany, one, List.map_cons, ih]
  rw [many]
  refine ⟨by simp, ?_⟩
  intro i f hi
  obtain ⟨h1, h2⟩ := validFor_spec R E fs h hk hs f
  refine ⟨fun ho => ?_, fun ho => ?_⟩
  · rw [List.getElem?_map, hi, ← h1 ho]; rfl
  · rw [List.getElem?_map, hi, ← h2 ho]; rfl

/-- **C228, a descriptor** (partial: one that C88 treats, that has refused nothing before). The answer is True exactly if the dictionary conforms. -/
theorem C228_descriptor_partial (d : D) (s : Lost) (ha : Armed s d) (hg : Good d) (f : Nat → Option V) :
    ((isValidSchema R E (.descriptor d) .nil f s).1 = .bool true ↔ ∃ o, Fits d (.dict f) o) ∧
    ((isValidSchema R E (.descriptor d) .nil f s).1 = .bool false ↔ ∀ o, ¬ Fits d (.dict f) o) := by
  obtain ⟨h1, h2⟩ := C88_schema_partial E d s ha hg (.dict f)
  simp only [isValidSchema, answer_true, answer_no, h2]
  exact ⟨⟨fun ⟨o, h⟩ => ⟨o, (h1 o).1 h⟩, fun ⟨o, h⟩ => ⟨o, (h1 o).2 h⟩⟩, trivial⟩

/-- **C228, what is not a schema**: nothing at all is an AttributeError, and what reading the schema raises is raised. -/
theorem C228_raises (f : Nat → Option V) (s : Lost) (g : Given) (fs : Fields) (e : Err) :
    (isValidSchema R E .none .nil f s).1 = .schema .attribute ∧
    (descriptorFromDict R fs = .error e → (isValidSchema R E (.json fs) .nil f s).1 = .schema e ∧ (fs ≠ .nil → (isValidSchema R E g fs f s).1 = .schema e)) := by
  refine ⟨rfl, ?_⟩
  intro h
  refine ⟨by simp [isValidSchema, validFor, h], ?_⟩
  intro hne
  cases fs with
  | nil => exact absurd rfl hne
  | cons => simp [isValidSchema, validFor, h]

/-- **C228, violated by a descriptor used again**: a dictionary that does not conform, since a string is where a list belongs, is refused the first time, and accepted the second time. -/
theorem C228_again_violates (x : Nat) :
    askMany R E (.descriptor (.dict (.cons 1 none (.list 1 anything) .nil) (fun _ v => v))) .nil [put (fun _ => none) 1 (.str x), put (fun _ => none) 1 (.str x)] (fun _ => false)
      = [.bool false, .bool true] := by
  have hcall : ∀ (l : List V) (s : Lost), callAll (call E anything) l s = (.ok l, s) := by
    intro l s
    induction l with
    | nil => rfl
    | cons y l ih => simp [callAll, anything, call] at ih ⊢; simp [ih, Res.map]
  simp [askMany, isValidSchema, call, callKeys, put, V.isList, Res.map, answer, Env.listOf, hcall]

example : (isValidSchema exampleReg ⟨fun _ => [], fun _ => []⟩ .none exampleFields.write (put (fun _ => none) 100 (.int 3)) (fun _ => false)).1 = .bool true := by
  have key := fun h1 h2 h3 h4 => ((C228_json_partial exampleReg ⟨fun _ => [], fun _ => []⟩ exampleFields h1 h2 h3 .none exampleFields.write (Or.inr ⟨rfl, by decide⟩)
    [put (fun _ => none) 100 (.int 3)] (fun _ => false)).2 0 _ rfl).1 ⟨put (put (fun _ => none) 100 (.int 3)) 101 .null, h4⟩
  simp only [askMany, List.getElem?_cons_zero, Option.some.injEq] at key
  refine key ?_ ?_ ?_ ?_
  · simp [exampleFields, FieldsKnown, Known, AllKnown, exampleReg, GFields.keys, sEmpty, sType]
  · decide
  · have hi : ∀ (v : V) (e : Nat), (match v with | .int i => Made.ok (.int i) | _ => .valueError) ≠ .other e := by
      intro v e; cases v <;> simp
    simp only [exampleFields, FieldsSound, Sound, AllSound, exampleReg, GFields.keys, Gs.NoList, G.NoList]
    refine ⟨?_, ⟨by simp, ⟨⟨?_, ?_, trivial⟩, trivial, trivial, trivial⟩, trivial⟩, trivial⟩
    · intro m hm; simp at hm; subst hm; exact hi
    · intro m hm; simp at hm; subst hm; exact hi
    · intro m hm; simp at hm; subst hm; simp
  · simp only [exampleFields, FieldsMean, Means, exampleReg, GFields.keys]
    refine ⟨Or.inl ⟨.int 3, .int 3, by simp [put], ⟨_, rfl, rfl⟩, by simp [put]⟩, Or.inr ⟨by simp [put], .null, ?_, by simp [put]⟩, trivial⟩
    simp [G.ifMissing, Opt.value]

end Verif.Schema
