import Verif.Py.Dict
/-!
# Conditional updates, lengths and membership

`/repo/satella/coding/misc.py:11-60`, `:200-254` and `:387-423`.
-/
namespace Verif.Updates

/-- part of the model of `update_attr_if_none`, /repo/satella/coding/misc.py:200-228 -/
inductive Exc where
  | attributeError | typeError | other (n : Nat)
  deriving Repr, DecidableEq

section
variable {κ ν : Type} [DecidableEq κ]

/-- `update_key_if_true(dictionary, key, value, flag)`, `/repo/satella/coding/misc.py:238-254`; `flag` is `none`
if not given, and `truth` is `bool`. -/
def updateKeyIfTrue (truth : ν → Bool) (d : Dict κ ν) (k : κ) (v : ν) (flag : Option Bool) : Dict κ ν :=
  if flag.getD (truth v) then d.set k v else d

/-- The loop at `/repo/satella/coding/misc.py:418-420`: values that are None are `none`. -/
def updateItems : Dict κ ν → List (κ × Option ν) → Dict κ ν
  | d, [] => d
  | d, (_, none) :: rest => updateItems d rest
  | d, (k, some v) :: rest => updateItems (d.set k v) rest

/-- `update_key_if_not_none(dictionary, key, value)`, `/repo/satella/coding/misc.py:421-423`. -/
def updateKeyIfNotNone (d : Dict κ ν) (k : κ) (v : Option ν) : Dict κ ν :=
  match v with
  | none => d
  | some v => d.set k v

/-- An object as these functions see it: what reading and setting an attribute do.  (Part of the model of `update_attr_if_none`, /repo/satella/coding/misc.py:200-228.) -/
structure Class (S : Type) (ν : Type) where
  getattr : S → Except Exc (Option ν)
  setattr : Option ν → S → Except Exc Unit × S

/-- `update_attr_if_none(obj, attr, value, on_attribute_error, if_value_is_not_none)`,
`/repo/satella/coding/misc.py:216-228`. -/
def updateAttr {S : Type} (c : Class S ν) (v : Option ν) (onError notNone : Bool) (s : S) : Except Exc Unit × S :=
  if notNone then
    if v.isSome then c.setattr v s else (.ok (), s)
  else
    match c.getattr s with
    | .ok none =>
      match c.setattr v s with
      | (.error .attributeError, s1) => if onError then c.setattr v s1 else (.error .attributeError, s1)
      | r => r
    | .ok (some _) => (.ok (), s)
    | .error .attributeError => if onError then c.setattr v s else (.error .attributeError, s)
    | .error e => (.error e, s)

end

/-- `contains(needle, haystack)`, `/repo/satella/coding/misc.py:57-60`: `eq` is `needle == item`, which may raise. -/
def contains {α : Type} (eq : α → Except Exc Bool) : List α → Except Exc Bool
  | [] => .ok false
  | a :: rest =>
    match eq a with
    | .error e => .error e
    | .ok true => .ok true
    | .ok false => contains eq rest

/-- `length(lenable)`, `/repo/satella/coding/misc.py:29-35`: `len` is what `len` gives, `iter` the elements that
iterating gives, or its exception. -/
def length (len : Except Exc Nat) (iter : Except Exc Nat) : Except Exc Nat :=
  match len with
  | .ok n => .ok n
  | .error .typeError => iter
  | .error e => .error e

/-! ## Specification -/

/-- The last value given for a key, if any is not None. -/
def Last {κ ν : Type} (k : κ) (items : List (κ × Option ν)) (v : ν) : Prop :=
  ∃ pre post, items = pre ++ (k, some v) :: post ∧ ∀ w, (k, some w) ∉ post

/-- An attribute that is what was set. -/
structure Plain {S ν : Type} (c : Class S ν) : Prop where
  set : ∀ v s, ∃ s', c.setattr v s = (.ok (), s') ∧ c.getattr s' = .ok v

section
variable {κ ν : Type} [DecidableEq κ]

theorem updateItems_get (items : List (κ × Option ν)) : ∀ (d : Dict κ ν) (k : κ),
    (∀ v, Last k items v → (updateItems d items).get? k = some v) ∧ ((∀ w, (k, some w) ∉ items) → (updateItems d items).get? k = d.get? k) := by
  induction items with
  | nil =>
    intro d k
    refine ⟨?_, fun _ => rfl⟩
    rintro v ⟨pre, post, h, _⟩
    simp at h
  | cons a items ih =>
    intro d k
    obtain ⟨k', v'⟩ := a
    cases v' with
    | none =>
      simp only [updateItems]
      refine ⟨?_, fun h => (ih d k).2 (fun w hw => h w (List.mem_cons_of_mem _ hw))⟩
      rintro v ⟨pre, post, h, hl⟩
      cases pre with
      | nil => simp at h
      | cons x pre => simp at h; exact (ih d k).1 v ⟨pre, post, h.2, hl⟩
    | some v' =>
      simp only [updateItems]
      refine ⟨?_, fun h => ?_⟩
      · rintro v ⟨pre, post, h, hl⟩
        cases pre with
        | nil =>
          simp only [List.nil_append, List.cons.injEq, Prod.mk.injEq, Option.some.injEq] at h
          obtain ⟨⟨rfl, rfl⟩, rfl⟩ := h
          rw [(ih _ k').2 hl]
          simp
        | cons x pre => simp at h; exact (ih _ k).1 v ⟨pre, post, h.2, hl⟩
      · rw [(ih _ k).2 (fun w hw => h w (List.mem_cons_of_mem _ hw)), Dict.get?_set]
        rw [if_neg (by rintro rfl; exact h v' (List.mem_cons_self ..))]

/-- **C197 (dictionaries)** After an update with items, a key has the last value given for it that is
not None, or else what it had; after an update with a value, the key has the value unless it is None;
and after one with a flag, the key has the value if the flag, or else the value, is true. All other
keys have what they had. -/
theorem C197_dictionaries (truth : ν → Bool) (d : Dict κ ν) (k : κ) :
    (∀ items, (∀ v, Last k items v → (updateItems d items).get? k = some v) ∧ ((∀ w, (k, some w) ∉ items) → (updateItems d items).get? k = d.get? k)) ∧
    (∀ v k', (updateKeyIfNotNone d k v).get? k' = if k = k' ∧ v ≠ none then v else d.get? k') ∧
    (∀ v flag k', (updateKeyIfTrue truth d k v flag).get? k' = if k = k' ∧ (flag = some true ∨ (flag = none ∧ truth v = true)) then some v else d.get? k') := by
  refine ⟨fun items => updateItems_get items d k, fun v k' => ?_, fun v flag k' => ?_⟩
  · cases v with
    | none => simp [updateKeyIfNotNone]
    | some v => simp only [updateKeyIfNotNone, Dict.get?_set]; simp
  · unfold updateKeyIfTrue
    cases flag with
    | none => cases ht : truth v <;> simp
    | some b => cases b <;> simp

omit [DecidableEq κ] in
/-- **C197 (attributes)** Of an ordinary attribute: it is set exactly if it was None, or missing and
that is to be ignored; with `if_value_is_not_none` exactly if the value is not None, whatever it was.
When it is not set nothing changes; and a missing attribute that is not to be ignored is an
AttributeError. -/
theorem C197_attributes {S : Type} (c : Class S ν) (hc : Plain c) (v : Option ν) (onError notNone : Bool) (s : S) :
    (updateAttr c v onError notNone s = (.error .attributeError, s) ∧ notNone = false ∧ c.getattr s = .error .attributeError ∧ onError = false) ∨
    (∃ n, updateAttr c v onError notNone s = (.error n, s) ∧ notNone = false ∧ c.getattr s = .error n ∧ n ≠ .attributeError) ∨
    (updateAttr c v onError notNone s = (.ok (), s) ∧ ((notNone = true ∧ v = none) ∨ (notNone = false ∧ ∃ w, c.getattr s = .ok (some w)))) ∨
    ∃ s', updateAttr c v onError notNone s = (.ok (), s') ∧ c.getattr s' = .ok v ∧ c.setattr v s = (.ok (), s') ∧
      ((notNone = true ∧ v ≠ none) ∨ (notNone = false ∧ (c.getattr s = .ok none ∨ (c.getattr s = .error .attributeError ∧ onError = true)))) := by
  obtain ⟨s', h1, h2⟩ := hc.set v s
  cases notNone with
  | true =>
    cases v with
    | none => right; right; left; simp [updateAttr]
    | some v => right; right; right; exact ⟨s', by simp [updateAttr, h1], h2, h1, by simp⟩
  | false =>
    cases hg : c.getattr s with
    | ok w =>
      cases w with
      | none => right; right; right; exact ⟨s', by simp [updateAttr, hg, h1], h2, h1, by simp⟩
      | some w => right; right; left; simp [updateAttr, hg]
    | error e =>
      cases e with
      | attributeError =>
        cases onError with
        | true => right; right; right; exact ⟨s', by simp [updateAttr, hg, h1], h2, h1, by simp⟩
        | false => left; simp [updateAttr, hg]
      | typeError => right; left; exact ⟨.typeError, by simp [updateAttr, hg]⟩
      | other n => right; left; exact ⟨.other n, by simp [updateAttr, hg]⟩
end

/-- **C197 (membership)** `contains` is True exactly if comparing comes, without raising, to an element
that is equal; it is False exactly if no element is equal and none raises; and it raises what the
first comparison raises that does, if no element before was equal. -/
theorem C197_contains {α : Type} (eq : α → Except Exc Bool) (l : List α) :
    (contains eq l = .ok true ↔ ∃ pre a post, l = pre ++ a :: post ∧ eq a = .ok true ∧ ∀ b ∈ pre, eq b = .ok false) ∧
    (contains eq l = .ok false ↔ ∀ a ∈ l, eq a = .ok false) ∧
    (∀ e, contains eq l = .error e ↔ ∃ pre a post, l = pre ++ a :: post ∧ eq a = .error e ∧ ∀ b ∈ pre, eq b = .ok false) := by
  have cons_split : ∀ (x : α) (rest : List α) (P : α → Prop), eq x = .ok false → (¬ P x) →
      ((∃ pre a post, x :: rest = pre ++ a :: post ∧ P a ∧ ∀ b ∈ pre, eq b = .ok false) ↔ ∃ pre a post, rest = pre ++ a :: post ∧ P a ∧ ∀ b ∈ pre, eq b = .ok false) := by
    intro x rest P hx hP
    constructor
    · rintro ⟨pre, a, post, h1, h2, h3⟩
      cases pre with
      | nil => simp at h1; obtain ⟨rfl, rfl⟩ := h1; exact absurd h2 hP
      | cons y pre => simp at h1; exact ⟨pre, a, post, h1.2, h2, fun b hb => h3 b (List.mem_cons_of_mem _ hb)⟩
    · rintro ⟨pre, a, post, h1, h2, h3⟩
      refine ⟨x :: pre, a, post, by simp [h1], h2, fun b hb => ?_⟩
      rcases List.mem_cons.1 hb with rfl | hb
      · exact hx
      · exact h3 b hb
  have cons_stop : ∀ (x : α) (rest : List α) (P : α → Prop), eq x ≠ .ok false →
      ((∃ pre a post, x :: rest = pre ++ a :: post ∧ P a ∧ ∀ b ∈ pre, eq b = .ok false) ↔ P x) := by
    intro x rest P hx
    constructor
    · rintro ⟨pre, a, post, h1, h2, h3⟩
      cases pre with
      | nil => simp at h1; obtain ⟨rfl, rfl⟩ := h1; exact h2
      | cons y pre => simp at h1; exact absurd (h3 x (by rw [h1.1]; simp)) hx
    · intro h; exact ⟨[], x, rest, rfl, h, by simp⟩
  induction l with
  | nil => simp [contains]
  | cons x rest ih =>
    simp only [contains]
    rcases hx : eq x with e | (_ | _)
    · have hne : eq x ≠ .ok false := by rw [hx]; simp
      refine ⟨?_, ?_, fun e' => ?_⟩
      · rw [cons_stop x rest _ hne, hx]
      · simp only [reduceCtorEq, false_iff]; intro h; exact hne (h x (List.mem_cons_self ..))
      · rw [cons_stop x rest _ hne, hx]
    · refine ⟨?_, ?_, fun e' => ?_⟩
      · rw [cons_split x rest _ hx (by rw [hx]; simp)]; exact ih.1
      · simp only [List.mem_cons, forall_eq_or_imp, hx, true_and]; exact ih.2.1
      · rw [cons_split x rest _ hx (by rw [hx]; simp)]; exact ih.2.2 e'
    · have hne : eq x ≠ .ok false := by rw [hx]; simp
      refine ⟨?_, ?_, fun e' => ?_⟩
      · rw [cons_stop x rest _ hne, hx]
      · simp only [Except.ok.injEq, Bool.true_eq_false, false_iff]; intro h; exact hne (h x (List.mem_cons_self ..))
      · rw [cons_stop x rest _ hne, hx]

/-- **C197 (length)** The length is what `len` says, and of what has no length the number of elements
that iterating gives. -/
theorem C197_length (len iter : Except Exc Nat) (n : Nat) : length len iter = .ok n ↔ len = .ok n ∨ (len = .error .typeError ∧ iter = .ok n) := by
  unfold length
  split <;> simp_all

/-! ## Examples -/

example : updateItems [(1, 10), (2, 20)] [(1, none), (2, some 5), (3, some 6), (2, some 7)] = [(1, 10), (2, 7), (3, 6)] := by decide
example : Last 2 [(1, none), (2, some 5), (3, some 6), (2, some 7)] 7 := ⟨[(1, none), (2, some 5), (3, some 6)], [], rfl, by simp⟩
/-- An object with one ordinary attribute, which may be missing. -/
def ordinary : Class (Option (Option Nat)) Nat := ⟨fun s => match s with | none => .error .attributeError | some v => .ok v, fun v _ => (.ok (), some v)⟩
example : Plain ordinary := ⟨fun v _ => ⟨some v, rfl, rfl⟩⟩
example : updateAttr ordinary (some 3) true false none = (.ok (), some (some 3)) := rfl

end Verif.Updates
