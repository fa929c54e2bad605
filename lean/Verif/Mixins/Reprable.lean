/-!
# ReprableMixin (satella/coding/structures/mixins/strings.py), C235

Texts are lists of characters.
-/
namespace Verif.Reprable

/-- part of the model of `ReprableMixin`, /repo/satella/coding/structures/mixins/strings.py:22-59 -/
abbrev Text := List Char

/-! ## Model -/

/-- A class: `__module__`, `__qualname__`, `__name__`, `_REPR_FIELDS`, and `_REPR_FULL_CLASSNAME` (False if it is not there);
/repo/satella/coding/structures/mixins/strings.py:43-56 -/
structure Cls where
  module : Text
  qualname : Text
  name : Text
  fields : List String
  full : Bool

/-- `', '.join`, /repo/satella/coding/structures/mixins/strings.py:57 -/
def join : List Text → Text
  | [] => []
  | [a] => a
  | a :: l => a ++ [',', ' '] ++ join l

/-- the reprs of fields, or the first exception, /repo/satella/coding/structures/mixins/strings.py:54-56 -/
def arguments {E : Type} (get : String → Except E Text) : List String → Except E (List Text)
  | [] => .ok []
  | n :: l =>
    match get n with
    | .error e => .error e
    | .ok t =>
      match arguments get l with
      | .error e => .error e
      | .ok ts => .ok (t :: ts)

/-- `ReprableMixin.__repr__`, /repo/satella/coding/structures/mixins/strings.py:45-59; `get n` is what repr(getattr(self, n)) gives or raises -/
def repr {E : Type} (c : Cls) (get : String → Except E Text) : Except E Text :=
  let first := if c.full then (if c.module ≠ ['b', 'u', 'i', 'l', 't', 'i', 'n', 's'] then c.module ++ ['.'] else []) ++ c.qualname else c.name
  match arguments get c.fields with
  | .error e => .error e
  | .ok ts => .ok (first ++ ['('] ++ join ts ++ [')'])

/-! ## Specification -/

/-- The text has these parts, with a comma and a space between each two. -/
inductive Separated : List Text → Text → Prop
  | nil : Separated [] []
  | one (a) : Separated [a] a
  | cons (a b l t) : Separated (b :: l) t → Separated (a :: b :: l) (a ++ ',' :: ' ' :: t)

/-- What stands before the bracket: the name, or, if asked for, the full name, which has the module unless it is that of the builtins. -/
def Heading (c : Cls) (h : Text) : Prop :=
  (c.full = false ∧ h = c.name) ∨ (c.full = true ∧ c.module = ['b', 'u', 'i', 'l', 't', 'i', 'n', 's'] ∧ h = c.qualname) ∨ (c.full = true ∧ c.module ≠ ['b', 'u', 'i', 'l', 't', 'i', 'n', 's'] ∧ h = c.module ++ '.' :: c.qualname)

/-- Texts of values, of which it can be told where they end: none is empty, and a text and a comma do not begin like another text and a comma, nor like another text at the end. Numbers, quoted
strings and bracketed collections are such. -/
def Distinct (T : Text → Prop) : Prop := (∀ a, T a → a ≠ []) ∧ (∀ a b x y, T a → T b → a ++ ',' :: x = b ++ ',' :: y → a = b) ∧ (∀ a b x, T a → T b → a ≠ b ++ ',' :: x)

theorem join_separated : ∀ l, Separated l (join l)
  | [] => .nil
  | [a] => .one a
  | a :: b :: l => by
    have := Separated.cons a b l _ (join_separated (b :: l))
    simpa [join] using this

theorem arguments_ok {E : Type} (get : String → Except E Text) : ∀ names ts, arguments get names = .ok ts ↔ (names.map get = ts.map .ok)
  | [], ts => by cases ts <;> simp [arguments]
  | n :: l, ts => by
    simp only [arguments]
    cases hg : get n with
    | error e => cases ts <;> simp [hg]
    | ok t =>
      cases ha : arguments get l with
      | error e =>
        cases ts with
        | nil => simp
        | cons t' ts =>
          simp only [reduceCtorEq, List.map_cons, hg, List.cons.injEq, false_iff, not_and]
          intro _ h
          rw [(arguments_ok get l ts).2 h] at ha
          cases ha
      | ok us =>
        have := (arguments_ok get l us).1 ha
        cases ts with
        | nil => simp
        | cons t' ts =>
          simp only [Except.ok.injEq, List.cons.injEq, List.map_cons, hg, this]
          constructor
          · rintro ⟨rfl, rfl⟩; exact ⟨rfl, rfl⟩
          · rintro ⟨rfl, h⟩
            refine ⟨rfl, ?_⟩
            exact (List.map_inj_right (by intro a b h; injection h)).1 h

theorem arguments_error {E : Type} (get : String → Except E Text) : ∀ names e, arguments get names = .error e → ∃ pre n post, names = pre ++ n :: post ∧ get n = .error e ∧ ∀ m ∈ pre, ∃ t, get m = .ok t
  | [], e, h => by cases h
  | n :: l, e, h => by
    simp only [arguments] at h
    cases hg : get n with
    | error e' =>
      rw [hg] at h
      injection h with h
      subst h
      exact ⟨[], n, l, rfl, hg, by simp⟩
    | ok t =>
      rw [hg] at h
      cases ha : arguments get l with
      | ok ts => rw [ha] at h; cases h
      | error e' =>
        rw [ha] at h
        injection h with h
        subst h
        obtain ⟨pre, m, post, rfl, h1, h2⟩ := arguments_error get l e' ha
        refine ⟨n :: pre, m, post, rfl, h1, ?_⟩
        intro k hk
        rcases List.mem_cons.1 hk with rfl | hk
        · exact ⟨t, hg⟩
        · exact h2 k hk

/-- **C235, the text.** repr gives the name of the class, with the module if asked for, and in brackets the reprs of the fields listed, in that order, separated by commas; if getting or
showing a field raises, the exception of the first such field is raised. -/
theorem C235_repr {E : Type} (c : Cls) (get : String → Except E Text) :
    (∀ t, repr c get = .ok t → ∃ h ts inner, Heading c h ∧ c.fields.map get = ts.map .ok ∧ Separated ts inner ∧ t = h ++ '(' :: inner ++ [')']) ∧
    (∀ e, repr c get = .error e → ∃ pre n post, c.fields = pre ++ n :: post ∧ get n = .error e ∧ ∀ m ∈ pre, ∃ t, get m = .ok t) := by
  constructor
  · intro t h
    unfold repr at h
    dsimp only at h
    cases ha : arguments get c.fields with
    | error e => rw [ha] at h; cases h
    | ok ts =>
      rw [ha] at h
      injection h with h
      refine ⟨if c.full then (if c.module ≠ ['b', 'u', 'i', 'l', 't', 'i', 'n', 's'] then c.module ++ ['.'] else []) ++ c.qualname else c.name, ts, join ts, ?_, (arguments_ok get _ ts).1 ha, join_separated ts, ?_⟩
      · unfold Heading
        cases hf : c.full with
        | false => simp
        | true =>
          by_cases hm : c.module = ['b', 'u', 'i', 'l', 't', 'i', 'n', 's']
          · right; left; simp [hm]
          · right; right; simp [hm]
      · rw [← h]; simp
  · intro e h
    unfold repr at h
    dsimp only at h
    cases ha : arguments get c.fields with
    | ok ts => rw [ha] at h; cases h
    | error e' =>
      rw [ha] at h
      injection h with h
      subst h
      exact arguments_error get _ _ ha

theorem join_inj (T : Text → Prop) (hT : Distinct T) : ∀ l m : List Text, (∀ a ∈ l, T a) → (∀ a ∈ m, T a) → join l = join m → l = m
  | [], [], _, _, _ => rfl
  | [], [b], _, hm, h => absurd h.symm (by simpa [join] using hT.1 b (hm b (by simp)))
  | [], b :: b' :: m, _, _, h => by simp [join] at h
  | [a], [], hl, _, h => absurd h (by simpa [join] using hT.1 a (hl a (by simp)))
  | a :: a' :: l, [], _, _, h => by simp [join] at h
  | [a], [b], _, _, h => by simpa [join] using h
  | [a], b :: b' :: m, hl, hm, h => by
    simp only [join, List.append_assoc, List.cons_append, List.nil_append] at h
    exact absurd h (hT.2.2 a b _ (hl a (by simp)) (hm b (by simp)))
  | a :: a' :: l, [b], hl, hm, h => by
    simp only [join, List.append_assoc, List.cons_append, List.nil_append] at h
    exact absurd h.symm (hT.2.2 b a _ (hm b (by simp)) (hl a (by simp)))
  | a :: a' :: l, b :: b' :: m, hl, hm, h => by
    have h' : a ++ ',' :: (' ' :: join (a' :: l)) = b ++ ',' :: (' ' :: join (b' :: m)) := by simpa [join] using h
    have e := hT.2.1 a b _ _ (hl a (by simp)) (hm b (by simp)) h'
    subst e
    have h'' := List.append_cancel_left h'
    simp only [List.cons.injEq, true_and] at h''
    rw [join_inj T hT (a' :: l) (b' :: m) (fun x hx => hl x (by simp [hx])) (fun x hx => hm x (by simp [hx])) h'']

/-- **C235, telling apart.** If it can be told where the reprs of fields end, two objects of a class have the same repr exactly if all their fields have. -/
theorem C235_distinguishes {E : Type} (T : Text → Prop) (hT : Distinct T) (c : Cls) (get get' : String → Except E Text) (h : ∀ n ∈ c.fields, (∃ t, T t ∧ get n = .ok t) ∧ ∃ t, T t ∧ get' n = .ok t) :
    repr c get = repr c get' ↔ ∀ n ∈ c.fields, get n = get' n := by
  have all : ∀ (g : String → Except E Text) (names : List String), (∀ n ∈ names, ∃ t, T t ∧ g n = .ok t) → ∃ ts, arguments g names = .ok ts ∧ ∀ t ∈ ts, T t := by
    intro g names
    induction names with
    | nil => exact fun _ => ⟨[], rfl, by simp⟩
    | cons n l ih =>
      intro h
      obtain ⟨t, ht, hg⟩ := h n (by simp)
      obtain ⟨ts, h1, h2⟩ := ih (fun m hm => h m (by simp [hm]))
      exact ⟨t :: ts, by simp [arguments, hg, h1], by simpa using ⟨ht, h2⟩⟩
  obtain ⟨ts, h1, h2⟩ := all get c.fields (fun n hn => (h n hn).1)
  obtain ⟨us, h3, h4⟩ := all get' c.fields (fun n hn => (h n hn).2)
  have e1 := (arguments_ok get _ _).1 h1
  have e2 := (arguments_ok get' _ _).1 h3
  have hmap : (∀ n ∈ c.fields, get n = get' n) ↔ ts = us := by
    rw [← List.map_inj_left, e1, e2]
    exact List.map_inj_right (by intro a b h; injection h)
  rw [hmap]
  unfold repr
  simp only [h1, h3, Except.ok.injEq]
  constructor
  · intro e
    have e := List.append_cancel_right e
    exact join_inj T hT _ _ h2 h4 (List.append_cancel_left e)
  · rintro rfl; rfl

/-! Cases that meet the hypotheses -/

/-- texts without commas can be told apart -/
theorem distinct_example : Distinct (fun t => t ≠ [] ∧ ',' ∉ t) := by
  refine ⟨fun a h => h.1, ?_, ?_⟩
  · intro a
    induction a with
    | nil => intro b x y h; exact absurd rfl h.1
    | cons c a ih =>
      intro b x y ha hb h
      cases b with
      | nil => exact absurd rfl hb.1
      | cons d b =>
        simp only [List.cons_append, List.cons.injEq] at h
        obtain ⟨rfl, h⟩ := h
        by_cases hae : a = []
        · subst hae
          cases b with
          | nil => rfl
          | cons e b =>
            simp only [List.nil_append, List.cons_append, List.cons.injEq] at h
            exact absurd (by rw [h.1]; simp) hb.2
        · by_cases hbe : b = []
          · subst hbe
            cases a with
            | nil => rfl
            | cons e a =>
              simp only [List.nil_append, List.cons_append, List.cons.injEq] at h
              exact absurd (by simp [h.1]) ha.2
          · rw [ih b x y ⟨hae, fun h => ha.2 (by simp [h])⟩ ⟨hbe, fun h => hb.2 (by simp [h])⟩ h]
  · rintro a b x ha hb rfl
    exact ha.2 (by simp)

example : repr (E := Unit) ⟨['m'], ['A', '.', 'T'], ['T'], ["v", "w"], true⟩ (fun n => if n = "v" then .ok ['2'] else .ok ['\'', '3', '\'']) = .ok ['m', '.', 'A', '.', 'T', '(', '2', ',', ' ', '\'', '3', '\'', ')'] := by
  simp [repr, arguments, join]
example : repr (E := Unit) ⟨['m'], ['A', '.', 'T'], ['T'], ["v", "w"], false⟩ (fun n => if n = "v" then .ok ['2'] else .error ()) = .error () := by
  simp [repr, arguments]

end Verif.Reprable
