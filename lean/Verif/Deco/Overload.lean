/-!
# Overloading (satella/coding/overloading.py), C94

Signatures have positional parameters with no defaults.
-/
namespace Verif.Overload

variable {α : Type}

/-- the annotations of the parameters of a function, by numbers of classes; `none` if there is no annotation, /repo/satella/coding/overloading.py:32-57 -/
abbrev Sig := List (Option Nat)

/-- what a call does: execute one of the functions (by its number), or raise TypeError, /repo/satella/coding/overloading.py:144-158 -/
inductive Out where
  | executes (f : Nat)
  | typeError
deriving DecidableEq

/-- `isinstance(value, annotation)`, where a missing annotation is the class `inspect._empty`, of which nothing is an instance, /repo/satella/coding/overloading.py:90 -/
def fits (inst : α → Nat → Bool) (v : α) : Option Nat → Bool
  | some c => inst v c
  | none => false

/-- `TypeSignature.matches`, /repo/satella/coding/overloading.py:83-92; `none` is the TypeError of `bind` -/
def matches_ (inst : α → Nat → Bool) (s : Sig) (args : List α) : Option Bool :=
  if args.length = s.length then some ((args.zip s).all (fun p => fits inst p.1 p.2)) else none

/-- the loop of `__call__`, /repo/satella/coding/overloading.py:150-153 -/
def collect (inst : α → Nat → Bool) (args : List α) : List (Sig × Nat) → Option (List (Sig × Nat))
  | [] => some []
  | (s, f) :: rest =>
    match matches_ inst s args with
    | none => none
    | some b =>
      match collect inst args rest with
      | none => none
      | some l => some (if b then (s, f) :: l else l)

/-- `matching.sort()`, /repo/satella/coding/overloading.py:154.  Signatures are never equal to `{}`, so `is_more_generic_than` is always True (:67-78), and so is `<` (:80-81) for two different signatures.  list.sort takes a sequence in which every element is
  less than the one before for a descending run, and reverses it. -/
def sort (l : List (Sig × Nat)) : List (Sig × Nat) := l.reverse

/-- `overload.__call__`, /repo/satella/coding/overloading.py:144-158 -/
def call (inst : α → Nat → Bool) (fs : List (Sig × Nat)) (args : List α) : Out :=
  match collect inst args fs with
  | none => .typeError
  | some l =>
    match (sort l).getLast? with
    | none => .typeError
    | some p => .executes p.2

/-- `overload.__init__` and `overload.overload`, one after the other, /repo/satella/coding/overloading.py:123-142: `none` if a signature is there already (TypeError) -/
def register (fs : List (Sig × Nat)) (s : Sig) (f : Nat) : Option (List (Sig × Nat)) :=
  if s ∈ fs.map Prod.fst then none else some (fs ++ [(s, f)])

/-! ## Specification -/

/-- the signature matches the arguments: as many as there are parameters, each an instance of the annotation -/
def Matches (inst : α → Nat → Bool) (s : Sig) (args : List α) : Prop :=
  args.length = s.length ∧ ∀ (i : Nat) v, args[i]? = some v → ∃ c, s[i]? = some (some c) ∧ inst v c = true

/-- the signature `s` is at least as specific as `t`: every class is a subclass of the other's -/
def AtLeast (sub : Nat → Nat → Bool) (s t : Sig) : Prop :=
  s.length = t.length ∧ ∀ (i : Nat) c d, s[i]? = some (some c) → t[i]? = some (some d) → sub c d = true

/-! ## Proofs -/

theorem zip_all (inst : α → Nat → Bool) (s : Sig) (args : List α) (h : args.length = s.length) :
    (args.zip s).all (fun p => fits inst p.1 p.2) = true ↔ ∀ (i : Nat) v, args[i]? = some v → ∃ c, s[i]? = some (some c) ∧ inst v c = true := by
  induction args generalizing s with
  | nil =>
    cases s with
    | nil => simp
    | cons c s => cases h
  | cons a args ih =>
    cases s with
    | nil => cases h
    | cons c s =>
      simp only [List.zip_cons_cons, List.all_cons, Bool.and_eq_true]
      rw [ih s (by simpa using h)]
      constructor
      · rintro ⟨h1, h2⟩ i v hv
        cases i with
        | zero =>
          simp at hv
          subst hv
          cases c with
          | none => cases h1
          | some c => exact ⟨c, rfl, h1⟩
        | succ i => simpa using h2 i v (by simpa using hv)
      · intro hh
        refine ⟨?_, ?_⟩
        · obtain ⟨c', hc, hi⟩ := hh 0 a rfl
          simp at hc
          subst hc
          exact hi
        · intro i v hv
          simpa using hh (i + 1) v (by simpa using hv)

theorem matches_iff (inst : α → Nat → Bool) (s : Sig) (args : List α) : matches_ inst s args = some true ↔ Matches inst s args := by
  unfold matches_ Matches
  split
  · rename_i h
    simp only [Option.some.injEq, h, true_and]
    exact zip_all inst s args h
  · rename_i h
    simp [h]

theorem collect_some (inst : α → Nat → Bool) (args : List α) (fs : List (Sig × Nat)) (h : ∀ p ∈ fs, p.1.length = args.length) :
    ∃ l, collect inst args fs = some l ∧ (∀ p, p ∈ l ↔ p ∈ fs ∧ Matches inst p.1 args) ∧ l.head? = fs.find? (fun p => matches_ inst p.1 args == some true) := by
  induction fs with
  | nil => exact ⟨[], rfl, by simp, rfl⟩
  | cons q fs ih =>
    obtain ⟨s, f⟩ := q
    obtain ⟨l, hl, hm, hh⟩ := ih (fun p hp => h p (by simp [hp]))
    have hlen := h (s, f) (by simp)
    obtain ⟨b, hb⟩ : ∃ b, matches_ inst s args = some b := by unfold matches_; rw [if_pos hlen.symm]; exact ⟨_, rfl⟩
    cases b with
    | true =>
      refine ⟨(s, f) :: l, by simp [collect, hb, hl], ?_, ?_⟩
      · intro p
        simp only [List.mem_cons, hm]
        constructor
        · rintro (rfl | ⟨h1, h2⟩)
          · exact ⟨Or.inl rfl, (matches_iff inst s args).1 hb⟩
          · exact ⟨Or.inr h1, h2⟩
        · rintro ⟨rfl | h1, h2⟩
          · exact Or.inl rfl
          · exact Or.inr ⟨h1, h2⟩
      · simp [List.find?, hb]
    | false =>
      refine ⟨l, by simp [collect, hb, hl], ?_, ?_⟩
      · intro p
        simp only [List.mem_cons, hm]
        constructor
        · rintro ⟨h1, h2⟩; exact ⟨Or.inr h1, h2⟩
        · rintro ⟨rfl | h1, h2⟩
          · rw [← matches_iff, hb] at h2; cases h2
          · exact ⟨h1, h2⟩
      · simp [List.find?, hb, hh]

/-- **C94, the function executed matches**: whichever function is executed, its signature matches the arguments. -/
theorem C94_executes_matching (inst : α → Nat → Bool) (fs : List (Sig × Nat)) (args : List α) (f : Nat) (h : call inst fs args = .executes f) :
    ∃ s, (s, f) ∈ fs ∧ Matches inst s args := by
  have key : ∀ (fs l : List (Sig × Nat)), collect inst args fs = some l → ∀ p ∈ l, p ∈ fs ∧ Matches inst p.1 args := by
    intro fs
    induction fs with
    | nil => intro l hl p hp; simp [collect] at hl; subst hl; cases hp
    | cons q fs ih =>
      intro l hl p hp
      simp only [collect] at hl
      cases hb : matches_ inst q.1 args with
      | none => rw [hb] at hl; cases hl
      | some b =>
        rw [hb] at hl
        cases hc : collect inst args fs with
        | none => rw [hc] at hl; cases hl
        | some l' =>
          rw [hc] at hl
          simp only [Option.some.injEq] at hl
          subst hl
          cases b with
          | true =>
            simp only [if_true, List.mem_cons] at hp
            rcases hp with rfl | hp
            · exact ⟨by simp, (matches_iff _ _ _).1 hb⟩
            · have := ih l' hc p hp; exact ⟨by simp [this.1], this.2⟩
          | false =>
            have := ih l' hc p (by simpa using hp); exact ⟨by simp [this.1], this.2⟩
  unfold call at h
  cases hc : collect inst args fs with
  | none => rw [hc] at h; cases h
  | some l =>
    rw [hc] at h
    cases hl : (sort l).getLast? with
    | none => simp only [hl] at h; cases h
    | some p =>
      simp only [hl] at h
      injection h with h
      have hm : p ∈ l := by
        have := List.mem_of_getLast? hl
        simpa [sort] using this
      obtain ⟨h1, h2⟩ := key fs l hc p hm
      exact ⟨p.1, by rw [← h]; exact h1, h2⟩

/-- **C94** (partial: all functions take as many arguments as are given, and no two match). The function that matches is executed, and TypeError is raised exactly if there is none. -/
theorem C94_overload_partial (inst : α → Nat → Bool) (fs : List (Sig × Nat)) (args : List α) (h : ∀ p ∈ fs, p.1.length = args.length)
    (hu : ∀ p ∈ fs, ∀ q ∈ fs, Matches inst p.1 args → Matches inst q.1 args → p = q) :
    (∀ s f, (s, f) ∈ fs → Matches inst s args → call inst fs args = .executes f) ∧ ((∀ p ∈ fs, ¬ Matches inst p.1 args) → call inst fs args = .typeError) := by
  obtain ⟨l, hl, hm, _⟩ := collect_some inst args fs h
  refine ⟨?_, ?_⟩
  · intro s f hs hmat
    have hall : ∀ p ∈ l, p = (s, f) := fun p hp => hu p ((hm p).1 hp).1 (s, f) hs ((hm p).1 hp).2 hmat
    have hin : (s, f) ∈ l := (hm _).2 ⟨hs, hmat⟩
    unfold call
    simp only [hl]
    cases hg : (sort l).getLast? with
    | none =>
      rw [List.getLast?_eq_none_iff] at hg
      simp [sort] at hg
      subst hg; cases hin
    | some p =>
      have := List.mem_of_getLast? hg
      rw [hall p (by simpa [sort] using this)]
  · intro hn
    have : l = [] := by
      apply List.eq_nil_iff_forall_not_mem.2
      intro p hp
      exact hn p ((hm p).1 hp).1 ((hm p).1 hp).2
    subst this
    simp [call, hl, sort]

/-- **C94, which of several is executed**: of the functions that match it is always the one that was registered first, however specific the others are. -/
theorem C94_first_registered_violates (inst : α → Nat → Bool) (fs : List (Sig × Nat)) (args : List α) (h : ∀ p ∈ fs, p.1.length = args.length) (p : Sig × Nat)
    (hp : fs.find? (fun p => matches_ inst p.1 args == some true) = some p) : call inst fs args = .executes p.2 := by
  obtain ⟨l, hl, _, hh⟩ := collect_some inst args fs h
  unfold call
  simp only [hl, sort, List.getLast?_reverse, hh, hp]

/-- **C94, violated by what is most specific**: with `f(x: object)` registered before `f(x: int)`, a call with an int executes the former. -/
theorem C94_most_specific_violates : ∃ (inst : Nat → Nat → Bool) (sub : Nat → Nat → Bool) (fs : List (Sig × Nat)) (s t : Sig) (f g : Nat),
    fs = [(s, f), (t, g)] ∧ (∀ v c d, inst v c = true → sub c d = true → inst v d = true) ∧ Matches inst s [5] ∧ Matches inst t [5] ∧ AtLeast sub t s ∧ ¬ AtLeast sub s t ∧ call inst fs [5] = .executes f := by
  refine ⟨fun _ _ => true, fun c d => c == d || d == 0, _, [some 0], [some 1], 10, 11, rfl, ?_, ?_, ?_, ?_, ?_, rfl⟩
  · intros; rfl
  · exact (matches_iff _ _ _).1 rfl
  · exact (matches_iff _ _ _).1 rfl
  · refine ⟨rfl, ?_⟩
    intro i c d h1 h2
    cases i with
    | zero => simp at h1 h2; subst h1 h2; rfl
    | succ i => simp at h1
  · intro h
    have := h.2 0 0 1 rfl rfl
    simp at this

/-- **C94, violated by different numbers of parameters**: TypeError is raised although a function matches. -/
theorem C94_arity_violates : ∃ (fs : List (Sig × Nat)) (s : Sig) (f : Nat), (s, f) ∈ fs ∧ Matches (fun (_ _ : Nat) => true) s [5] ∧ call (fun _ _ => true) fs [5] = .typeError :=
  ⟨[([some 1], 10), ([some 1, some 1], 11)], [some 1], 10, by simp, (matches_iff _ _ _).1 rfl, rfl⟩

/-- **C94, violated by missing annotations**: a function with a parameter without annotation is never executed. -/
theorem C94_no_annotation_violates (inst : α → Nat → Bool) (s : Sig) (args : List α) (h : none ∈ s) : ¬ Matches inst s args := by
  rintro ⟨h1, h2⟩
  obtain ⟨i, hi, hs⟩ := List.getElem_of_mem h
  obtain ⟨c, hc, _⟩ := h2 i args[i] (List.getElem?_eq_getElem (by omega))
  rw [List.getElem?_eq_getElem hi, hs] at hc
  cases hc

/-- **C94, registering**: a signature that is there already is refused, another one is added, and the first ones stay. -/
theorem C94_register (fs : List (Sig × Nat)) (s : Sig) (f : Nat) :
    (register fs s f = none ↔ ∃ g, (s, g) ∈ fs) ∧ ∀ fs', register fs s f = some fs' → ∀ p, p ∈ fs' ↔ p ∈ fs ∨ p = (s, f) := by
  have e : s ∈ fs.map Prod.fst ↔ ∃ g, (s, g) ∈ fs := by simp
  unfold register
  constructor
  · constructor
    · intro h; split at h
      · exact e.1 (by assumption)
      · cases h
    · intro h; rw [if_pos (e.2 h)]
  · intro fs' h p
    split at h
    · cases h
    · injection h with h; subst h; simp

/-! Cases that meet the hypotheses: f(x: str), f(x: int), called with an int -/
example : ∀ p ∈ [([some 1], 10), ([some 2], 11)], ∀ q ∈ ([([some 1], 10), ([some 2], 11)] : List (Sig × Nat)),
    Matches (fun v c => v == c) p.1 [2] → Matches (fun v c => v == c) q.1 [2] → p = q := by
  intro p hp q hq h1 h2
  rw [← matches_iff] at h1 h2
  simp at hp hq
  rcases hp with rfl | rfl <;> rcases hq with rfl | rfl <;> first | rfl | exact absurd h1 (by decide) | exact absurd h2 (by decide)
example : call (fun v c => v == c) [([some 1], 10), ([some 2], 11)] [2] = .executes 11 := by decide

end Verif.Overload
