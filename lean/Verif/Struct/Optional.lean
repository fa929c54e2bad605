import Verif.Py.Basic

/-!
# Optional

Model of `satella/coding/optionals.py`. What objects of the user do is a parameter: they may change the world and raise.
-/

namespace Verif.Optional

/-- Values: None, an object of the user, an `Optional` of a value (/repo/satella/coding/optionals.py:66-67). -/
inductive V (α : Type) where
  | none
  | obj (a : α)
  | opt (v : V α)
deriving DecidableEq

/-- Operations on a value, those of /repo/satella/coding/optionals.py:69-109 and those inherited from `Proxy`
(/repo/satella/coding/structures/proxy.py:80-201). -/
inductive Act (α : Type) where
  | attr (name : String)
  | call (args : List (V α))
  | getitem (k : V α)
  | setitem (k v : V α)
  | delitem (k : V α)
  | truth
  | contains (x : V α)
  | len
  | eq (x : V α)
  | ne (x : V α)
  | lt (x : V α)
  | setattr (name : String) (v : V α)
  | iter
  | hash

/-- What an operation gives, /repo/satella/coding/optionals.py:69-109. -/
inductive R (α : Type) where
  | val (v : V α)
  | bool (b : Bool)
  | nat (n : Nat)
  | unit
  | seq (l : List (V α))
deriving DecidableEq

/-- Exceptions: those of None, and those of objects of the user; /repo/satella/coding/optionals.py:69-109. -/
inductive E (ε : Type) where
  | typeError
  | attributeError
  | user (e : ε)
deriving DecidableEq

variable {σ α ε : Type}

/-- `None` itself, reached by what /repo/satella/coding/structures/proxy.py:80-201 delegates to. -/
def noneDo : Act α → Except (E ε) (R α)
  | .attr _ => .error .attributeError
  | .setattr _ _ => .error .attributeError
  | .truth => .ok (.bool false)
  | .eq x => match x with | .none => .ok (.bool true) | _ => .ok (.bool false)
  | .ne x => match x with | .none => .ok (.bool false) | _ => .ok (.bool true)
  | .hash => .ok (.nat 0)
  | _ => .error .typeError

/-- /repo/satella/coding/optionals.py:69-109, an operation on a value in a world; `user` is what objects of the user do.
`other == me` (line 79) is taken to be the same as `me == other`. `__hash__` is None since `__eq__` is defined without
it (line 75). -/
def apply (user : σ → α → Act α → σ × Except (E ε) (R α)) (w : σ) : V α → Act α → σ × Except (E ε) (R α)
  | .none, act => (w, noneDo act)
  | .obj a, act => user w a act
  | .opt v, act =>
    match v, act with
    | .none, .attr _ => (w, .ok (.val (.opt .none)))
    | .none, .call _ => (w, .ok (.val (.opt .none)))
    | .none, .getitem _ => (w, .ok (.val (.opt .none)))
    | .none, .setitem _ _ => (w, .ok .unit)
    | .none, .delitem _ => (w, .ok .unit)
    | .none, .truth => (w, .ok (.bool false))
    | .none, .contains _ => (w, .ok (.bool false))
    | .none, .eq _ => (w, .ok (.bool false))
    | .none, .len => (w, .ok (.nat 0))
    | _, .hash => (w, .error .typeError)
    | v, act => apply user w v act

/-- /repo/satella/coding/optionals.py:115-123, `extract_optional`. -/
def extract : V α → V α
  | .opt v => v
  | v => v

/-- /repo/satella/coding/optionals.py:10-19, `iterate_if_nnone`. -/
def iterateIfNnone (user : σ → α → Act α → σ × Except (E ε) (R α)) (w : σ) : V α → σ × Except (E ε) (R α)
  | .none => (w, .ok (.seq []))
  | v => apply user w v .iter

/-- /repo/satella/coding/optionals.py:22-37, `call_if_nnone`. -/
def callIfNnone (user : σ → α → Act α → σ × Except (E ε) (R α)) (w : σ) (f : V α) (args : List (V α)) : σ × Except (E ε) (R α) :=
  match f with
  | .none => (w, .ok (.val .none))
  | f => apply user w f (.call args)

/-! ## Specification -/

/-- The operations that are documented as supported, and give a value. -/
def Chains : Act α → Prop
  | .attr _ => True
  | .call _ => True
  | .getitem _ => True
  | _ => False

/-- The operations that are documented as supported. -/
def Supported : Act α → Prop
  | .attr _ | .call _ | .getitem _ | .setitem _ _ | .delitem _ | .truth | .contains _ | .len | .eq _ => True
  | _ => False

/-- One operation after another, on what the last one gave. -/
def chain (user : σ → α → Act α → σ × Except (E ε) (R α)) (w : σ) (v : V α) : List (Act α) → σ × Except (E ε) (R α)
  | [] => (w, .ok (.val v))
  | a :: rest => match apply user w v a with
    | (w', .ok (.val v')) => chain user w' v' rest
    | r => r

/-! ## Proofs -/

/-- **C174 a missing object does nothing.** Any chain of attributes, calls and items of an Optional of None, however
long, gives an empty Optional and changes nothing. -/
theorem C174_chain (user : σ → α → Act α → σ × Except (E ε) (R α)) (w : σ) (acts : List (Act α)) (h : ∀ a ∈ acts, Chains a) :
    chain user w (.opt .none) acts = (w, .ok (.val (.opt .none))) := by
  induction acts with
  | nil => rfl
  | cons a rest ih =>
    have ha := h a (by simp)
    have ih := ih (fun b hb => h b (by simp [hb]))
    cases a <;> simp [Chains] at ha <;> simp [chain, apply, ih]

/-- **C174 other operations with a missing object.** Setting and deleting items does nothing; it is false, has no
elements, contains nothing and equals nothing, not even None. -/
theorem C174_missing (user : σ → α → Act α → σ × Except (E ε) (R α)) (w : σ) (k v : V α) :
    apply user w (.opt .none) (.setitem k v) = (w, .ok .unit) ∧ apply user w (.opt .none) (.delitem k) = (w, .ok .unit) ∧
    apply user w (.opt .none) .truth = (w, .ok (.bool false)) ∧ apply user w (.opt .none) .len = (w, .ok (.nat 0)) ∧
    apply user w (.opt .none) (.contains v) = (w, .ok (.bool false)) ∧ apply user w (.opt .none) (.eq v) = (w, .ok (.bool false)) :=
  ⟨by simp [apply], by simp [apply], by simp [apply], by simp [apply], by simp [apply], by simp [apply]⟩

/-- **C174 a present object.** Supported operations on an Optional of a value that is not None have the same results,
exceptions and effects as on the value. -/
theorem C174_present (user : σ → α → Act α → σ × Except (E ε) (R α)) (w : σ) (v : V α) (hv : v ≠ .none) (act : Act α) (ha : Supported act) :
    apply user w (.opt v) act = apply user w v act := by
  cases v with
  | none => exact absurd rfl hv
  | obj a => cases act <;> simp [Supported] at ha <;> simp [apply]
  | opt v => cases act <;> simp [Supported] at ha <;> simp [apply]

/-- **C174 extracting.** What was wrapped, or the value itself. -/
theorem C174_extract (v : V α) : extract (.opt v) = v ∧ ((∀ u, v ≠ .opt u) → extract v = v) := by
  refine ⟨rfl, fun h => ?_⟩
  cases v with
  | none => rfl
  | obj a => rfl
  | opt u => exact absurd rfl (h u)

/-- **C174 iterating and calling if not None.** -/
theorem C174_if_not_none (user : σ → α → Act α → σ × Except (E ε) (R α)) (w : σ) (a : α) (args : List (V α)) :
    iterateIfNnone user w .none = (w, .ok (.seq [])) ∧ iterateIfNnone user w (.obj a) = user w a .iter ∧
    callIfNnone user w .none args = (w, .ok (.val .none)) ∧ callIfNnone user w (.obj a) args = user w a (.call args) :=
  ⟨rfl, rfl, rfl, rfl⟩

/-- Objects of an example: calling counts in the world, attributes are None, the length is 3. -/
def counter : Nat → Unit → Act Unit → Nat × Except (E String) (R Unit)
  | w, _, .call _ => (w + 1, .ok (.val (.obj ())))
  | w, _, .attr _ => (w, .ok (.val .none))
  | w, _, .len => (w, .ok (.nat 3))
  | w, _, .hash => (w, .ok (.nat 17))
  | w, _, .setattr _ _ => (w + 10, .ok .unit)
  | w, _, _ => (w, .error .typeError)

/-- A case of C174: `Optional(None).cancel().result()` and `Optional(obj)()`. -/
example : chain counter 0 (.opt .none) [.attr "cancel", .call [], .attr "result", .call []] = (0, .ok (.val (.opt .none))) :=
  C174_chain _ _ _ (by simp [Chains])
example : apply counter 5 (.opt (.obj ())) (.call []) = (6, .ok (.val (.obj ()))) := by
  rw [C174_present counter 5 (.obj ()) (by simp) (.call []) (by simp [Supported])]; simp [apply, counter]

/-- **C175 (violated) comparisons.** Nonexistent elements are documented to compare false always. `!=` gives True for
everything but None, and `<` raises TypeError. -/
theorem C175_compare_violates (user : σ → α → Act α → σ × Except (E ε) (R α)) (w : σ) (x : V α) :
    (x ≠ .none → apply user w (.opt .none) (.ne x) = (w, .ok (.bool true))) ∧ apply user w (.opt .none) (.lt x) = (w, .error .typeError) := by
  refine ⟨fun h => ?_, by simp [apply, noneDo]⟩
  cases x with
  | none => exact absurd rfl h
  | obj a => simp [apply, noneDo]
  | opt v => simp [apply, noneDo]

/-- **C175 (violated) doing nothing.** Setting an attribute of an Optional of None, or iterating it, raises. -/
theorem C175_setattr_violates (user : σ → α → Act α → σ × Except (E ε) (R α)) (w : σ) (n : String) (v : V α) :
    apply user w (.opt .none) (.setattr n v) = (w, .error .attributeError) ∧ apply user w (.opt .none) .iter = (w, .error .typeError) := by
  simp [apply, noneDo]

/-- **C175 (violated) being as the object.** No Optional can be hashed, though the object wrapped can, and every other
`Proxy` can. -/
theorem C175_hash_violates (user : σ → α → Act α → σ × Except (E ε) (R α)) (w : σ) (v : V α) : apply user w (.opt v) .hash = (w, .error .typeError) := by
  cases v <;> simp [apply]

/-- **C175 (partial) everything but hashing for present objects.** Every operation, supported or not, other than
hashing, is the same on an Optional of a value that is not None. Missing: hashing; comparisons, attributes set and
iteration when the object is missing. -/
theorem C175_present_partial (user : σ → α → Act α → σ × Except (E ε) (R α)) (w : σ) (v : V α) (hv : v ≠ .none) (act : Act α) (ha : act ≠ .hash) :
    apply user w (.opt v) act = apply user w v act := by
  cases v with
  | none => exact absurd rfl hv
  | obj a => cases act <;> simp at ha <;> simp [apply]
  | opt v => cases act <;> simp at ha <;> simp [apply]

end Verif.Optional
