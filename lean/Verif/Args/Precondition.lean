/-!
# Model of precondition and postcondition (satella/coding/decorators/preconditions.py), C84

Arguments are numbers.  A condition is a callable; what it gives is one of the cases that the code tells apart.
-/
namespace Verif.Precondition

/-- what a condition gives: True, False, another value that is true, another that is false (None, 0, an empty list, ...), a TypeError or another exception.  (Part of the model of `precondition`, /repo/satella/coding/decorators/preconditions.py:19-90.) -/
inductive Ans where
  | true_
  | false_
  | truthy
  | falsy
  | typeError
  | raises (e : Nat)
  deriving DecidableEq, Repr

/-- part of the model of `precondition`, /repo/satella/coding/decorators/preconditions.py:19-90 -/
abbrev Cond := Nat → Ans

/-- what a call of the decorated function does.  (Part of the model of `precondition`, /repo/satella/coding/decorators/preconditions.py:19-90.) -/
inductive Out where
  | called
  | precondition
  | assertion
  | typeError
  | raises (e : Nat)
  deriving DecidableEq, Repr

/-- None is always true, /repo/satella/coding/decorators/preconditions.py:51-56, :60-66 -/
def cond : Option Cond → Cond
  | none => fun _ => .true_
  | some c => c

/-- the loop over keyword arguments, /repo/satella/coding/decorators/preconditions.py:75-79; `none` if all is well -/
def kwLoop (kwops : Nat → Option (Option Cond)) : List (Nat × Nat) → Option Out
  | [] => none
  | (k, v) :: rest =>
    match kwops k with
    | none => kwLoop kwops rest
    | some c =>
      match cond c v with
      | .true_ | .truthy => kwLoop kwops rest
      | .false_ | .falsy => some .precondition
      | .typeError => some .typeError
      | .raises e => some (.raises e)

/-- the loop over positional arguments, with `rethrow_as(TypeError, PreconditionError)`, /repo/satella/coding/decorators/preconditions.py:81-85 -/
def posLoop : List Nat → List (Option Cond) → Option Out
  | [], _ => none
  | a :: as, ops =>
    match cond (ops.head?.getD none) a with
    | .false_ => some .precondition
    | .typeError => some .precondition
    | .raises e => some (.raises e)
    | .true_ | .truthy | .falsy => posLoop as ops.tail

/-- the decorated function, /repo/satella/coding/decorators/preconditions.py:72-86 -/
def precondition (ops : List (Option Cond)) (kwops : Nat → Option (Option Cond)) (args : List Nat) (kw : List (Nat × Nat)) : Out :=
  if args.length < ops.length then .assertion
  else
    match kwLoop kwops kw with
    | some o => o
    | none => (posLoop args ops).getD .called

/-- what a function with a postcondition gives: its value, or an exception, /repo/satella/coding/decorators/preconditions.py:104-110 -/
def postcondition (c : Cond) (v : Nat) : Except Out Nat :=
  match c v with
  | .false_ => .error .precondition
  | .typeError => .error .typeError
  | .raises e => .error (.raises e)
  | .true_ | .truthy | .falsy => .ok v

/-! ## Specification -/

/-- the condition holds -/
def Ans.holds : Ans → Bool
  | .true_ | .truthy => true
  | _ => false

/-- the conditions that concern a call: those at the places of positional arguments, and those of the names of keyword arguments, each with its argument -/
inductive Concerns (ops : List (Option Cond)) (kwops : Nat → Option (Option Cond)) (args : List Nat) (kw : List (Nat × Nat)) : Cond → Nat → Prop where
  | pos (i : Nat) (c : Cond) (a : Nat) : ops[i]? = some (some c) → args[i]? = some a → Concerns ops kwops args kw c a
  | kw (k : Nat) (c : Cond) (v : Nat) : (k, v) ∈ kw → kwops k = some (some c) → Concerns ops kwops args kw c v

/-- the condition gives True or False -/
def Ans.bool (a : Ans) : Prop := a = .true_ ∨ a = .false_

/-! ## Proofs -/

theorem kwLoop_spec (kwops : Nat → Option (Option Cond)) (kw : List (Nat × Nat)) (h : ∀ k c v, (k, v) ∈ kw → kwops k = some (some c) → (c v).bool) :
    (kwLoop kwops kw = none ∧ ∀ k c v, (k, v) ∈ kw → kwops k = some (some c) → c v = .true_) ∨
    (kwLoop kwops kw = some .precondition ∧ ∃ k c v, (k, v) ∈ kw ∧ kwops k = some (some c) ∧ c v = .false_) := by
  induction kw with
  | nil => left; exact ⟨rfl, by intro k c v hm; cases hm⟩
  | cons x kw ih =>
    obtain ⟨k, v⟩ := x
    have ih' := ih (fun k' c v' hm => h k' c v' (List.mem_cons_of_mem _ hm))
    have skip : (∀ c, kwops k = some (some c) → c v = .true_) → kwLoop kwops ((k, v) :: kw) = kwLoop kwops kw →
        (kwLoop kwops ((k, v) :: kw) = none ∧ ∀ k' c v', (k', v') ∈ (k, v) :: kw → kwops k' = some (some c) → c v' = .true_) ∨
        (kwLoop kwops ((k, v) :: kw) = some .precondition ∧ ∃ k' c v', (k', v') ∈ (k, v) :: kw ∧ kwops k' = some (some c) ∧ c v' = .false_) := by
      intro hc he
      rw [he]
      rcases ih' with ⟨h1, h2⟩ | ⟨h1, k', c, v', h2, h3⟩
      · left
        refine ⟨h1, ?_⟩
        intro k' c v' hm hk
        rcases List.mem_cons.1 hm with e | hm
        · injection e with e1 e2
          subst e1 e2
          exact hc c hk
        · exact h2 k' c v' hm hk
      · right
        exact ⟨h1, k', c, v', List.mem_cons_of_mem _ h2, h3⟩
    cases hk : kwops k with
    | none => exact skip (fun c hc => by rw [hk] at hc; cases hc) (by rw [kwLoop, hk])
    | some o =>
      cases o with
      | none => exact skip (fun c hc => by rw [hk] at hc; cases hc) (by rw [kwLoop, hk]; rfl)
      | some c =>
        rcases h k c v (List.mem_cons_self ..) hk with ht | hf
        · refine skip (fun c' hc => ?_) (by rw [kwLoop, hk]; simp only [cond, ht])
          rw [hk] at hc
          injection hc with hc
          injection hc with hc
          rw [← hc]; exact ht
        · right
          refine ⟨by rw [kwLoop, hk]; simp only [cond, hf], k, c, v, List.mem_cons_self .., hk, hf⟩

theorem posLoop_spec (args : List Nat) : ∀ (ops : List (Option Cond)), (∀ (i : Nat) c a, ops[i]? = some (some c) → args[i]? = some a → (c a).bool) →
    (posLoop args ops = none ∧ ∀ (i : Nat) c a, ops[i]? = some (some c) → args[i]? = some a → c a = .true_) ∨
    (posLoop args ops = some .precondition ∧ ∃ (i : Nat) (c : Cond) (a : Nat), ops[i]? = some (some c) ∧ args[i]? = some a ∧ c a = .false_) := by
  induction args with
  | nil => intro ops _; left; exact ⟨rfl, by intro i c a _ h; cases h⟩
  | cons a as ih =>
    intro ops h
    have ih' := ih ops.tail (fun i c b h1 h2 => h (i + 1) c b (by rw [List.getElem?_tail] at h1; exact h1) h2)
    have skip : (∀ c, ops[0]? = some (some c) → c a = .true_) → posLoop (a :: as) ops = posLoop as ops.tail →
        (posLoop (a :: as) ops = none ∧ ∀ (i : Nat) c b, ops[i]? = some (some c) → (a :: as)[i]? = some b → c b = .true_) ∨
        (posLoop (a :: as) ops = some .precondition ∧ ∃ (i : Nat) (c : Cond) (b : Nat), ops[i]? = some (some c) ∧ (a :: as)[i]? = some b ∧ c b = .false_) := by
      intro hc he
      rw [he]
      rcases ih' with ⟨h1, h2⟩ | ⟨h1, i, c, b, h2, h3⟩
      · left
        refine ⟨h1, ?_⟩
        intro i c b hi hb
        cases i with
        | zero => injection hb with hb; subst hb; exact hc c hi
        | succ i => exact h2 i c b (by rw [List.getElem?_tail]; exact hi) hb
      · right
        exact ⟨h1, i + 1, c, b, by rw [List.getElem?_tail] at h2; exact h2, h3⟩
    have hhead : ops.head? = ops[0]? := List.head?_eq_getElem? ..
    cases h0 : ops[0]? with
    | none =>
      refine skip (fun c hc => by rw [h0] at hc; cases hc) ?_
      rw [posLoop, hhead, h0]; rfl
    | some o =>
      cases o with
      | none =>
        refine skip (fun c hc => by rw [h0] at hc; cases hc) ?_
        rw [posLoop, hhead, h0]; rfl
      | some c =>
        rcases h 0 c a h0 rfl with ht | hf
        · refine skip (fun c' hc => ?_) ?_
          · rw [h0] at hc
            injection hc with hc
            injection hc with hc
            rw [← hc]; exact ht
          · rw [posLoop, hhead, h0]; simp only [Option.getD_some, cond, ht]
        · right
          refine ⟨?_, 0, c, a, h0, rfl, hf⟩
          rw [posLoop, hhead, h0]; simp only [Option.getD_some, cond, hf]

/-- **C84** (partial: conditions give True or False; no condition by place is for an argument that is not given by position). The function is executed if all conditions hold for their arguments, and otherwise PreconditionError is
  raised and it is not executed. -/
theorem C84_precondition_partial (ops : List (Option Cond)) (kwops : Nat → Option (Option Cond)) (args : List Nat) (kw : List (Nat × Nat))
    (hlen : ops.length ≤ args.length) (hb : ∀ c v, Concerns ops kwops args kw c v → (c v).bool) :
    ((∀ c v, Concerns ops kwops args kw c v → (c v).holds = true) → precondition ops kwops args kw = .called) ∧
    ((∃ c v, Concerns ops kwops args kw c v ∧ (c v).holds = false) → precondition ops kwops args kw = .precondition) := by
  have h1 := kwLoop_spec kwops kw (fun k c v hm hk => hb c v (.kw k c v hm hk))
  have h2 := posLoop_spec args ops (fun i c a hi ha => hb c a (.pos i c a hi ha))
  unfold precondition
  rw [if_neg (by omega)]
  constructor
  · intro hall
    rcases h1 with ⟨h1, _⟩ | ⟨_, k, c, v, hm, hk, hf⟩
    · rcases h2 with ⟨h2, _⟩ | ⟨_, i, c, a, hi, ha, hf⟩
      · rw [h1, h2]; rfl
      · have := hall c a (.pos i c a hi ha)
        rw [hf] at this; cases this
    · have := hall c v (.kw k c v hm hk)
      rw [hf] at this; cases this
  · rintro ⟨c, v, hc, hf⟩
    rcases h1 with ⟨h1, h1'⟩ | ⟨h1, _⟩
    · rw [h1]
      rcases h2 with ⟨h2, h2'⟩ | ⟨h2, _⟩
      · cases hc with
        | pos i c a hi ha => rw [h2' i c _ hi ha] at hf; cases hf
        | kw k c v hm hk => rw [h1' k c _ hm hk] at hf; cases hf
      · rw [h2]; rfl
    · rw [h1]

/-- how the loop over keyword arguments ends, and why -/
def KwOut (kwops : Nat → Option (Option Cond)) (kw : List (Nat × Nat)) : Prop :=
    (kwLoop kwops kw = none ∧ ∀ k c v, (k, v) ∈ kw → kwops k = some (some c) → (c v).holds = true) ∨
    ∃ k c v, (k, v) ∈ kw ∧ kwops k = some (some c) ∧
      ((kwLoop kwops kw = some .precondition ∧ (c v = .false_ ∨ c v = .falsy)) ∨ (kwLoop kwops kw = some .typeError ∧ c v = .typeError) ∨ ∃ e, kwLoop kwops kw = some (.raises e) ∧ c v = .raises e)

theorem kwLoop_some (kwops : Nat → Option (Option Cond)) (kw : List (Nat × Nat)) :
    KwOut kwops kw := by
  induction kw with
  | nil => left; exact ⟨rfl, by intro k c v hm; cases hm⟩
  | cons x kw ih =>
    obtain ⟨k, v⟩ := x
    have skip : (∀ c, kwops k = some (some c) → (c v).holds = true) → kwLoop kwops ((k, v) :: kw) = kwLoop kwops kw → KwOut kwops ((k, v) :: kw) := fun hc he => by
      unfold KwOut
      rw [he]
      rcases ih with ⟨h1, h2⟩ | ⟨k', c, v', h2, h3⟩
      · refine Or.inl ⟨h1, ?_⟩
        intro k' c v' hm hk
        rcases List.mem_cons.1 hm with e | hm
        · injection e with e1 e2
          subst e1 e2
          exact hc c hk
        · exact h2 k' c v' hm hk
      · exact Or.inr ⟨k', c, v', List.mem_cons_of_mem _ h2, h3⟩
    cases hk : kwops k with
    | none => exact skip (fun c hc => by rw [hk] at hc; cases hc) (by rw [kwLoop, hk])
    | some o =>
      cases o with
      | none => exact skip (fun c hc => by rw [hk] at hc; cases hc) (by rw [kwLoop, hk]; rfl)
      | some c =>
        have hcond : cond (some c) v = c v := rfl
        cases hc : c v with
        | true_ => exact skip (fun c' hc' => by rw [hk] at hc'; injection hc' with h; injection h with h; subst h; rw [hc]; rfl) (by rw [kwLoop, hk]; simp only [hcond, hc])
        | truthy => exact skip (fun c' hc' => by rw [hk] at hc'; injection hc' with h; injection h with h; subst h; rw [hc]; rfl) (by rw [kwLoop, hk]; simp only [hcond, hc])
        | false_ => exact Or.inr ⟨k, c, v, List.mem_cons_self .., hk, Or.inl ⟨by rw [kwLoop, hk]; simp only [hcond, hc], Or.inl hc⟩⟩
        | falsy => exact Or.inr ⟨k, c, v, List.mem_cons_self .., hk, Or.inl ⟨by rw [kwLoop, hk]; simp only [hcond, hc], Or.inr hc⟩⟩
        | typeError => exact Or.inr ⟨k, c, v, List.mem_cons_self .., hk, Or.inr (Or.inl ⟨by rw [kwLoop, hk]; simp only [hcond, hc], hc⟩)⟩
        | raises e => exact Or.inr ⟨k, c, v, List.mem_cons_self .., hk, Or.inr (Or.inr ⟨e, by rw [kwLoop, hk]; simp only [hcond, hc], hc⟩)⟩

/-- how the loop over positional arguments ends, and why -/
def PosOut (args : List Nat) (ops : List (Option Cond)) : Prop :=
    (posLoop args ops = none ∧ ∀ (i : Nat) c a, ops[i]? = some (some c) → args[i]? = some a → c a = .true_ ∨ c a = .truthy ∨ c a = .falsy) ∨
    ∃ (i : Nat) (c : Cond) (a : Nat), ops[i]? = some (some c) ∧ args[i]? = some a ∧
      ((posLoop args ops = some .precondition ∧ (c a = .false_ ∨ c a = .typeError)) ∨ ∃ e, posLoop args ops = some (.raises e) ∧ c a = .raises e)

theorem posLoop_some (args : List Nat) : ∀ (ops : List (Option Cond)),
    PosOut args ops := by
  induction args with
  | nil => intro ops; exact Or.inl ⟨rfl, by intro i c a _ h; cases h⟩
  | cons a as ih =>
    intro ops
    have skip : (∀ c, ops[0]? = some (some c) → c a = .true_ ∨ c a = .truthy ∨ c a = .falsy) → posLoop (a :: as) ops = posLoop as ops.tail → PosOut (a :: as) ops := fun hc he => by
      unfold PosOut
      rw [he]
      rcases ih ops.tail with ⟨h1, h2⟩ | ⟨i, c, b, h2, h3⟩
      · refine Or.inl ⟨h1, ?_⟩
        intro i c b hi hb
        cases i with
        | zero => injection hb with hb; subst hb; exact hc c hi
        | succ i => exact h2 i c b (by rw [List.getElem?_tail]; exact hi) hb
      · exact Or.inr ⟨i + 1, c, b, by rw [List.getElem?_tail] at h2; exact h2, h3⟩
    have hhead : ops.head? = ops[0]? := List.head?_eq_getElem? ..
    cases h0 : ops[0]? with
    | none => exact skip (fun c hc => by rw [h0] at hc; cases hc) (by rw [posLoop, hhead, h0]; rfl)
    | some o =>
      cases o with
      | none => exact skip (fun c hc => by rw [h0] at hc; cases hc) (by rw [posLoop, hhead, h0]; rfl)
      | some c =>
        have hcond : cond ((some (some c)).getD none) a = c a := rfl
        have inj : ∀ c', ops[0]? = some (some c') → c' = c := fun c' h => by rw [h0] at h; injection h with h; injection h with h; exact h.symm
        cases hc : c a with
        | true_ => exact skip (fun c' h => by rw [inj c' h, hc]; simp) (by rw [posLoop, hhead, h0]; simp only [hcond, hc])
        | truthy => exact skip (fun c' h => by rw [inj c' h, hc]; simp) (by rw [posLoop, hhead, h0]; simp only [hcond, hc])
        | falsy => exact skip (fun c' h => by rw [inj c' h, hc]; simp) (by rw [posLoop, hhead, h0]; simp only [hcond, hc])
        | false_ => exact Or.inr ⟨0, c, a, h0, rfl, Or.inl ⟨by rw [posLoop, hhead, h0]; simp only [hcond, hc], Or.inl hc⟩⟩
        | typeError => exact Or.inr ⟨0, c, a, h0, rfl, Or.inl ⟨by rw [posLoop, hhead, h0]; simp only [hcond, hc], Or.inr hc⟩⟩
        | raises e => exact Or.inr ⟨0, c, a, h0, rfl, Or.inr ⟨e, by rw [posLoop, hhead, h0]; simp only [hcond, hc], hc⟩⟩

/-- **C84, whatever conditions give** (partial: what is a failure of a condition by place is to be False or a TypeError): the function is executed exactly if no condition that concerns the call fails or raises; PreconditionError is raised only
  if one fails; and any other exception is that of a condition that raised it. -/
theorem C84_outcomes_partial (ops : List (Option Cond)) (kwops : Nat → Option (Option Cond)) (args : List Nat) (kw : List (Nat × Nat)) (hlen : ops.length ≤ args.length) :
    (precondition ops kwops args kw = .called ↔
      (∀ (i : Nat) c a, ops[i]? = some (some c) → args[i]? = some a → c a = .true_ ∨ c a = .truthy ∨ c a = .falsy) ∧
      ∀ k c v, (k, v) ∈ kw → kwops k = some (some c) → c v = .true_ ∨ c v = .truthy) ∧
    (precondition ops kwops args kw = .precondition → ∃ c v, Concerns ops kwops args kw c v ∧ (c v = .false_ ∨ c v = .falsy ∨ c v = .typeError)) ∧
    (precondition ops kwops args kw = .typeError → ∃ k c v, (k, v) ∈ kw ∧ kwops k = some (some c) ∧ c v = .typeError) ∧
    (∀ e, precondition ops kwops args kw = .raises e → ∃ c v, Concerns ops kwops args kw c v ∧ c v = .raises e) ∧
    precondition ops kwops args kw ≠ .assertion := by
  unfold precondition
  rw [if_neg (by omega)]
  have holds_iff : ∀ a : Ans, a.holds = true ↔ a = .true_ ∨ a = .truthy := by intro a; cases a <;> simp [Ans.holds]
  rcases kwLoop_some kwops kw with ⟨h1, h1'⟩ | ⟨k, c, v, hm, hk, h⟩
  · rw [h1]
    have hkw : ∀ k c v, (k, v) ∈ kw → kwops k = some (some c) → c v = .true_ ∨ c v = .truthy := fun k c v hm hk => (holds_iff _).1 (h1' k c v hm hk)
    rcases posLoop_some args ops with ⟨h2, h2'⟩ | ⟨i, c, a, hi, ha, h⟩
    · rw [h2]
      exact ⟨⟨fun _ => ⟨h2', hkw⟩, fun _ => rfl⟩, by simp, by simp, by simp, by simp⟩
    · rcases h with ⟨he, hc⟩ | ⟨e, he, hc⟩ <;> rw [he]
      · refine ⟨⟨by simp, fun h => ?_⟩, fun _ => ⟨c, a, .pos i c a hi ha, by rcases hc with hc | hc <;> simp [hc]⟩, by simp, by simp, by simp⟩
        have := h.1 i c a hi ha
        rcases hc with hc | hc <;> simp [hc] at this
      · refine ⟨⟨by simp, fun h => ?_⟩, by simp, by simp, fun e' he' => ⟨c, a, .pos i c a hi ha, ?_⟩, by simp⟩
        · have := h.1 i c a hi ha
          simp [hc] at this
        · simp only [Option.getD_some, Out.raises.injEq] at he'
          rw [hc, he']
  · have no : ∀ {P : Prop}, ¬ (c v).holds = true → (P ∧ ∀ k c v, (k, v) ∈ kw → kwops k = some (some c) → c v = .true_ ∨ c v = .truthy) → False := fun hn h => hn ((holds_iff _).2 (h.2 k c v hm hk))
    rcases h with ⟨he, hc⟩ | ⟨he, hc⟩ | ⟨e, he, hc⟩ <;> rw [he]
    · refine ⟨⟨by simp, fun h => (no (by rcases hc with hc | hc <;> simp [hc, Ans.holds]) h).elim⟩, fun _ => ⟨c, v, .kw k c v hm hk, by rcases hc with hc | hc <;> simp [hc]⟩, by simp, by simp, by simp⟩
    · exact ⟨⟨by simp, fun h => (no (by simp [hc, Ans.holds]) h).elim⟩, by simp, fun _ => ⟨k, c, v, hm, hk, hc⟩, by simp, by simp⟩
    · refine ⟨⟨by simp, fun h => (no (by simp [hc, Ans.holds]) h).elim⟩, by simp, by simp, fun e' he' => ⟨c, v, .kw k c v hm hk, ?_⟩, by simp⟩
      simp only [Out.raises.injEq] at he'
      rw [hc, he']

/-- **C84, names**: a condition for a name is decided by whether what it gives is true, whatever its type. -/
theorem C84_names (kwops : Nat → Option (Option Cond)) (k v : Nat) (c : Cond) (hk : kwops k = some (some c)) (args : List Nat) :
    ((c v).holds = true → precondition [] kwops args [(k, v)] = .called) ∧ (c v = .falsy ∨ c v = .false_ → precondition [] kwops args [(k, v)] = .precondition) := by
  have hp : ∀ args : List Nat, posLoop args [] = none := by
    intro args
    induction args with
    | nil => rfl
    | cons a as ih => rw [posLoop]; exact ih
  constructor
  · intro h
    have : kwLoop kwops [(k, v)] = none := by
      rw [kwLoop, hk]
      simp only [cond]
      cases hc : c v <;> rw [hc] at h <;> first | rfl | cases h
    simp [precondition, this, hp]
  · intro h
    have : kwLoop kwops [(k, v)] = some .precondition := by
      rw [kwLoop, hk]
      simp only [cond]
      rcases h with h | h <;> rw [h]
    simp [precondition, this]

/-- **C84, violated by a condition that gives another false value**: the function is executed, although the condition gives None. -/
theorem C84_falsy_violates (c : Cond) (x : Nat) (h : c x = .falsy) : precondition [some c] (fun _ => none) [x] [] = .called := by
  simp [precondition, kwLoop, posLoop, cond, h]

/-- **C84, violated for a keyword argument**: if an argument that has a condition by its place is given by keyword, then the function is not executed although the condition holds; and AssertionError is raised, not PreconditionError. -/
theorem C84_by_name_violates (c : Cond) (k x : Nat) : precondition [some c] (fun _ => none) [] [(k, x)] = .assertion := rfl

/-- **C84, violated for a positional argument**: a condition for a name is not checked if the argument is given by position. -/
theorem C84_by_place_violates (c : Cond) (k x : Nat) : precondition [] (fun n => if n = k then some (some c) else none) [x] [] = .called := rfl

/-- **C84, postcondition** (partial: the condition gives True or False). The value is returned if and only if the condition holds for it; otherwise PreconditionError is raised. -/
theorem C84_postcondition_partial (c : Cond) (v : Nat) (hb : (c v).bool) :
    ((c v).holds = true → postcondition c v = .ok v) ∧ ((c v).holds = false → postcondition c v = .error .precondition) := by
  unfold postcondition
  rcases hb with h | h <;> simp [h, Ans.holds]

/-- **C84, exceptions of a postcondition** are raised as they are. -/
theorem C84_postcondition_raises (c : Cond) (v : Nat) : (∀ e, c v = .raises e → postcondition c v = .error (.raises e)) ∧ (c v = .typeError → postcondition c v = .error .typeError) := by
  unfold postcondition
  exact ⟨fun e h => by rw [h], fun h => by rw [h]⟩

/-- **C84, violated by a postcondition that gives another false value**: the value is returned. -/
theorem C84_postcondition_violates (c : Cond) (v : Nat) (h : c v = .falsy) : postcondition c v = .ok v := by
  simp [postcondition, h]

/-! Cases that meet the hypotheses -/

/-- `x < 10` -/
def less : Cond := fun x => if x < 10 then .true_ else .false_

example : ∀ c v, Concerns [none, some less] (fun k => if k = 7 then some (some less) else none) [50, 3] [(7, 20)] c v → (c v).bool := by
  intro c v h
  have key : ∀ v, (less v).bool := by intro v; unfold less; split <;> simp [Ans.bool]
  cases h with
  | pos i c a hi ha =>
    match i, hi with
    | 1, hi => injection hi with hi; injection hi with hi; subst hi; exact key _
  | kw k c v hm hk =>
    split at hk
    · injection hk with hk; injection hk with hk; subst hk; exact key _
    · cases hk
example : precondition [none, some less] (fun k => if k = 7 then some (some less) else none) [50, 3] [(7, 20)] = .precondition := by decide
example : precondition [none, some less] (fun k => if k = 7 then some (some less) else none) [50, 3, 90] [(7, 2), (8, 100)] = .called := by decide
example : precondition [none, some less] (fun _ => none) [50, 13] [] = .precondition := by decide
example : precondition [none, some (fun _ => .raises 4)] (fun _ => none) [50, 13] [] = .raises 4 := by decide
example : postcondition (fun _ => .raises 4) 3 = .error (.raises 4) := rfl

end Verif.Precondition
