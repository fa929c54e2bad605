/-!
# Exceptions with codes (satella/exceptions.py), C147, C148

Classes are numbered in the order of creation, so bases of a class have lower numbers.
-/
namespace Verif.Coded

/-! ## Model -/

/-- classes there are: `bases c` is `c.__bases__`, `cce` is CodedCustomException, `code c` is what `c.code` gives, `none` is Python's None, which the metaclass has; /repo/satella/exceptions.py:60-92 -/
structure World (K : Type) where
  bases : Nat → List Nat
  older : ∀ c b, b ∈ bases c → b < c
  cce : Nat
  code : Nat → Option K

variable {K : Type}

/-- `get_base_of_bases`, /repo/satella/exceptions.py:53-57 -/
def World.basesOf (w : World K) : List Nat → List Nat
  | [] => []
  | c :: l => w.bases c ++ w.basesOf l

/-- the two loops that go up until CodedCustomException is among bases, /repo/satella/exceptions.py:73-79 -/
def World.up (w : World K) : Nat → List Nat → List Nat
  | 0, l => l
  | fuel + 1, l => if w.cce ∉ w.basesOf l ∧ l ≠ [] then w.up fuel (w.basesOf l) else l

/-- `issubclass` of the type itself, as used by `super().__instancecheck__`; /repo/satella/exceptions.py:67 -/
def World.isSub (w : World K) : Nat → Nat → Nat → Bool
  | 0, _, _ => false
  | fuel + 1, c, d => c = d || (w.bases c).any (fun b => w.isSub fuel b d)

/-- an exception: its class, and what `.code` of it gives, `none` is AttributeError and `some none` is None; the metaclass is not looked at for instances.  /repo/satella/exceptions.py:86 -/
structure Inst (K : Type) where
  cls : Nat
  code : Option (Option K)

/-- `__instancecheck__`, /repo/satella/exceptions.py:66-89; `fuel` bounds the loops and the walk over bases -/
def World.isInstance [DecidableEq K] (w : World K) (fuel : Nat) (i : Inst K) (cls : Nat) : Bool :=
  if w.isSub fuel i.cls cls then true
  else if cls = w.cce then w.isSub fuel i.cls cls
  else
    let classBase := w.up fuel [cls]
    let instBase := w.up fuel [i.cls]
    if classBase.any (fun c => instBase.contains c) then
      match i.code with
      | some k => w.code cls = k
      | none => w.isSub fuel i.cls cls
    else false

/-- `str(e)`, given reprs of arguments; `none` is TypeError, raised as the lambda of two arguments is called with one.  /repo/satella/exceptions.py:28-36 -/
def str (name : String) (args : List String) (kwargs : List (String × String)) : Option String :=
  match kwargs with
  | [] => some (name ++ "(" ++ ", ".intercalate args ++ ")")
  | _ :: _ => none

/-- `repr(e)`, given reprs of arguments; /repo/satella/exceptions.py:38-50 -/
def repr (name : String) (args : List String) (kwargs : List (String × String)) : String :=
  name ++ "(" ++ ", ".intercalate args ++ (if kwargs.isEmpty then "" else ", " ++ ", ".intercalate (kwargs.map (fun p => p.1 ++ "=" ++ p.2))) ++ ")"

/-! ## Specification -/

/-- `d` is `c` or is above it -/
inductive Sub (bases : Nat → List Nat) : Nat → Nat → Prop
  | refl (c) : Sub bases c c
  | step (c b d) : b ∈ bases c → Sub bases b d → Sub bases c d

/-- two classes are in one hierarchy: both are below, or are, a class directly below CodedCustomException -/
def SameHierarchy (w : World K) (c d : Nat) : Prop := ∃ t, Sub w.bases c t ∧ Sub w.bases d t ∧ w.cce ∈ w.bases t

/-! ## Proofs -/

theorem Sub.trans {bases : Nat → List Nat} {a b c : Nat} (h : Sub bases a b) (h' : Sub bases b c) : Sub bases a c := by
  induction h with
  | refl => exact h'
  | step a x b hx _ ih => exact .step a x c hx (ih h')

theorem sub_le (w : World K) {c d : Nat} (h : Sub w.bases c d) : d ≤ c := by
  induction h with
  | refl => exact Nat.le_refl _
  | step c b d hb _ ih => have := w.older c b hb; omega

theorem isSub_iff (w : World K) (fuel c d : Nat) (hf : c < fuel) : w.isSub fuel c d = true ↔ Sub w.bases c d := by
  induction fuel generalizing c with
  | zero => omega
  | succ fuel ih =>
    simp only [World.isSub, Bool.or_eq_true, decide_eq_true_eq, List.any_eq_true]
    constructor
    · rintro (rfl | ⟨b, hb, h⟩)
      · exact .refl c
      · have := w.older c b hb
        exact .step c b d hb ((ih b (by omega)).1 h)
    · intro h
      cases h with
      | refl => exact Or.inl rfl
      | step _ b _ hb h =>
        have := w.older c b hb
        exact Or.inr ⟨b, hb, (ih b (by omega)).2 h⟩

theorem mem_basesOf (w : World K) (l : List Nat) (b : Nat) : b ∈ w.basesOf l ↔ ∃ c ∈ l, b ∈ w.bases c := by
  induction l with
  | nil => simp [World.basesOf]
  | cons c l ih => simp [World.basesOf, ih]

/-- classes reached are above -/
theorem up_above (w : World K) (fuel : Nat) (l : List Nat) : ∀ t ∈ w.up fuel l, ∃ c ∈ l, Sub w.bases c t := by
  induction fuel generalizing l with
  | zero => intro t ht; exact ⟨t, ht, .refl t⟩
  | succ fuel ih =>
    intro t ht
    simp only [World.up] at ht
    split at ht
    · obtain ⟨b, hb, h⟩ := ih _ t ht
      obtain ⟨c, hc, hb⟩ := (mem_basesOf w l b).1 hb
      exact ⟨c, hc, .step c b t hb h⟩
    · exact ⟨t, ht, .refl t⟩

/-- nothing is reached from classes that are not below CodedCustomException -/
theorem up_outside (w : World K) (fuel : Nat) (l : List Nat) (hf : ∀ c ∈ l, c < fuel) (hp : 0 < fuel) (h : ∀ c ∈ l, ∀ b ∈ w.bases c, ¬ Sub w.bases b w.cce) : w.up fuel l = [] := by
  induction fuel generalizing l with
  | zero => omega
  | succ fuel ih =>
    have hn : w.cce ∉ w.basesOf l := by
      intro hm
      obtain ⟨c, hc, hb⟩ := (mem_basesOf w l _).1 hm
      exact h c hc _ hb (.refl _)
    simp only [World.up, hn, not_false_eq_true, true_and]
    split
    · by_cases hz : fuel = 0
      · subst hz
        simp only [World.up]
        match hl : w.basesOf l with
        | [] => rfl
        | b :: r =>
          obtain ⟨c, hc, hb⟩ := (mem_basesOf w l b).1 (by rw [hl]; simp)
          have := hf c hc
          have := w.older c b hb
          omega
      · refine ih _ (fun b hb => ?_) (by omega) (fun b hb b' hb' hs => ?_)
        · obtain ⟨c, hc, hb⟩ := (mem_basesOf w l b).1 hb
          have := hf c hc
          have := w.older c b hb
          omega
        · obtain ⟨c, hc, hb⟩ := (mem_basesOf w l b).1 hb
          exact h c hc b hb (.step b b' _ hb' hs)
    · next hl => simpa using hl

/-- with single inheritance, the class directly below CodedCustomException is reached -/
theorem up_single (w : World K) (h1 : ∀ c, Sub w.bases c w.cce → c ≠ w.cce → ∃ b, w.bases c = [b]) (fuel c : Nat) (hf : c < fuel) (hs : Sub w.bases c w.cce) (hc : c ≠ w.cce) :
    ∃ t, w.up fuel [c] = [t] ∧ Sub w.bases c t ∧ w.cce ∈ w.bases t ∧ ∀ t', Sub w.bases c t' → w.cce ∈ w.bases t' → t' = t := by
  induction fuel generalizing c with
  | zero => omega
  | succ fuel ih =>
    obtain ⟨b, hb⟩ := h1 c hs hc
    have hbase : w.basesOf [c] = [b] := by simp [World.basesOf, hb]
    have hlt := w.older c b (by rw [hb]; simp)
    have hsb : Sub w.bases b w.cce := by
      cases hs with
      | refl => exact absurd rfl hc
      | step _ b' _ hb' h => rw [hb] at hb'; simp at hb'; exact hb' ▸ h
    simp only [World.up, hbase]
    by_cases hbc : b = w.cce
    · refine ⟨c, by simp [hbc], .refl c, by rw [hb]; simp [hbc], fun t' ht' hm => ?_⟩
      cases ht' with
      | refl => rfl
      | step _ b' _ hb' h =>
        rw [hb] at hb'
        simp at hb'
        have := sub_le w h
        have := w.older t' _ hm
        omega
    · obtain ⟨t, a1, a2, a3, a4⟩ := ih b (by omega) hsb hbc
      refine ⟨t, ?_, .step c b t (by rw [hb]; simp) a2, a3, fun t' ht' hm => ?_⟩
      · rw [if_pos ⟨by simp; exact fun h => hbc h.symm, by simp⟩]; exact a1
      · cases ht' with
        | refl => rw [hb] at hm; simp at hm; exact absurd hm.symm hbc
        | step _ b' _ hb' h => rw [hb] at hb'; simp at hb'; exact a4 t' (hb' ▸ h) hm

/-- **C147 (isinstance of coded exceptions)**: if exceptions with codes have single bases, an exception is an instance of one of their classes exactly if its class is that or below, or if they belong to one hierarchy and have equal codes. -/
theorem C147_is_instance [DecidableEq K] (w : World K) (h1 : ∀ c, Sub w.bases c w.cce → c ≠ w.cce → ∃ b, w.bases c = [b]) (i : Inst K) (cls : Nat) (hcls : Sub w.bases cls w.cce) (hne : cls ≠ w.cce) (fuel : Nat) (hf : cls < fuel ∧ i.cls < fuel) :
    w.isInstance fuel i cls = true ↔ Sub w.bases i.cls cls ∨ (SameHierarchy w i.cls cls ∧ i.code = some (w.code cls)) := by
  obtain ⟨t, a1, a2, a3, a4⟩ := up_single w h1 fuel cls hf.1 hcls hne
  by_cases hsub : Sub w.bases i.cls cls
  · simp [World.isInstance, (isSub_iff w fuel i.cls cls hf.2).2 hsub, hsub]
  · have hns : w.isSub fuel i.cls cls = false := by
      cases h : w.isSub fuel i.cls cls
      · rfl
      · exact absurd ((isSub_iff w fuel i.cls cls hf.2).1 h) hsub
    simp only [World.isInstance, hns, Bool.false_eq_true, ↓reduceIte, if_neg hne, a1, hsub, false_or, List.any_cons, List.any_nil, Bool.or_false]
    by_cases hi : Sub w.bases i.cls w.cce ∧ i.cls ≠ w.cce
    · obtain ⟨s, b1, b2, b3, b4⟩ := up_single w h1 fuel i.cls hf.2 hi.1 hi.2
      have hsame : SameHierarchy w i.cls cls ↔ t = s := by
        constructor
        · rintro ⟨r, c1, c2, c3⟩
          rw [← a4 r c2 c3, ← b4 r c1 c3]
        · rintro rfl; exact ⟨t, b2, a2, a3⟩
      rw [b1, hsame]
      by_cases hts : t = s
      · subst hts
        simp only [List.contains_cons, BEq.rfl, Bool.true_or, ↓reduceIte, true_and]
        cases hk : i.code with
        | none => simp
        | some k =>
          simp only [decide_eq_true_eq, Option.some.injEq]
          exact ⟨fun h => h.symm, fun h => h.symm⟩
      · simp [hts]
    · have hup : w.up fuel [i.cls] = [] := by
        refine up_outside w fuel _ (by simp [hf.2]) (by omega) (fun c hc b hb hs => ?_)
        simp at hc
        subst hc
        refine hi ⟨.step _ b _ hb hs, fun h => ?_⟩
        have h2 := sub_le w hs
        have h3 := w.older _ b hb
        omega
      have hsame : ¬ SameHierarchy w i.cls cls := by
        rintro ⟨r, c1, _, c3⟩
        refine hi ⟨c1.trans (.step r _ _ c3 (.refl _)), fun h => ?_⟩
        have h2 := sub_le w c1
        have h3 := w.older _ _ c3
        omega
      simp [hup, hsame]

/-- **C147 (CodedCustomException itself, subclasses)**: an exception is an instance of CodedCustomException exactly if its class is below it; and always of its own class and those above it. -/
theorem C147_base [DecidableEq K] (w : World K) (i : Inst K) (fuel : Nat) (hf : i.cls < fuel) :
    (w.isInstance fuel i w.cce = true ↔ Sub w.bases i.cls w.cce) ∧ ∀ cls, Sub w.bases i.cls cls → w.isInstance fuel i cls = true := by
  refine ⟨?_, fun cls h => by simp [World.isInstance, (isSub_iff w fuel i.cls cls hf).2 h]⟩
  rw [← isSub_iff w fuel i.cls w.cce hf]
  cases h : w.isSub fuel i.cls w.cce <;> simp [World.isInstance, h]

/-- classes of the docs: 0 object, 1 CodedCustomException, 2 MyException, 3 MyCode5, 4 DifferentHierarchy, 5 MyCode5Diff -/
def docs : World Nat where
  bases := fun c => match c with | 1 => [0] | 2 => [1] | 3 => [2] | 4 => [1] | 5 => [4] | _ => []
  older := by
    intro c b h
    split at h <;> simp at h <;> omega
  cce := 1
  code := fun c => if c = 3 ∨ c = 5 then some 5 else none

example : docs.isInstance 10 ⟨2, some (some 5)⟩ 3 = true ∧ docs.isInstance 10 ⟨2, some (some 5)⟩ 5 = false ∧ docs.isInstance 10 ⟨2, some (some 6)⟩ 3 = false ∧ docs.isInstance 10 ⟨2, none⟩ 3 = false := by decide

example : ∀ c, Sub docs.bases c docs.cce → c ≠ docs.cce → ∃ b, docs.bases c = [b] := by
  intro c h hc
  match c with
  | 0 => have := sub_le docs h; simp [docs] at this
  | 1 => exact absurd rfl hc
  | 2 => exact ⟨_, rfl⟩
  | 3 => exact ⟨_, rfl⟩
  | 4 => exact ⟨_, rfl⟩
  | 5 => exact ⟨_, rfl⟩
  | n + 6 =>
    cases h with
    | step _ b _ hb => simp [docs] at hb

/-! ## C148 -/

/-- **C148 (violation), the example of the docs**: a CodedCustomException is not an instance of a class below it, whichever code it has. -/
theorem C148_doc_example_violates [DecidableEq K] (w : World K) (i : Inst K) (hi : i.cls = w.cce) (cls : Nat) (hne : cls ≠ w.cce) (hcls : Sub w.bases cls w.cce) (fuel : Nat) (hf : cls < fuel ∧ i.cls < fuel) : w.isInstance fuel i cls = false := by
  have hns : w.isSub fuel i.cls cls = false := by
    cases h : w.isSub fuel i.cls cls
    · rfl
    · have h1 := sub_le w ((isSub_iff w fuel i.cls cls hf.2).1 h)
      have h2 := sub_le w hcls
      omega
  have hup : w.up fuel [i.cls] = [] := by
    refine up_outside w fuel _ (by simp [hf.2]) (by omega) (fun c hc b hb hs => ?_)
    simp at hc
    subst hc
    have h2 := sub_le w hs
    have h3 := w.older _ b hb
    omega
  simp [World.isInstance, hns, hne, hup]

/-- 0 object, 1 CodedCustomException, 2 a mixin, 3 and 4 directly below CodedCustomException, 5 and 6 below them and the mixin; 7 below 3, 8 below 7 and 4 -/
def mixed : World Nat where
  bases := fun c => match c with | 1 => [0] | 2 => [0] | 3 => [1] | 4 => [1] | 5 => [2, 3] | 6 => [2, 4] | 7 => [3] | 8 => [7, 4] | _ => []
  older := by
    intro c b h
    split at h <;> simp at h <;> omega
  cce := 1
  code := fun _ => some 5

/-- **C148 (violation), a shared mixin**: exceptions of different hierarchies are taken for one if they share a class that has nothing to do with codes. -/
theorem C148_mixin_violates : ¬ SameHierarchy mixed 5 6 ∧ ¬ Sub mixed.bases 5 6 ∧ mixed.isInstance 20 ⟨5, some (some 5)⟩ 6 = true := by
  have key : ∀ c t, c = 5 ∨ c = 6 → Sub mixed.bases c t → mixed.cce ∈ mixed.bases t → (c = 5 → t = 3) ∧ (c = 6 → t = 4) := by
    intro c t hc hs ht
    have h : t = 3 ∨ t = 4 := by
      match t with
      | 3 => exact Or.inl rfl
      | 4 => exact Or.inr rfl
      | 0 | 1 | 2 | 5 | 6 | 7 | 8 => simp [mixed] at ht
      | n + 9 => simp [mixed] at ht
    have h5 : mixed.isSub 10 5 4 = false := by decide
    have h6 : mixed.isSub 10 6 3 = false := by decide
    constructor
    · rintro rfl
      rcases h with h | rfl
      · exact h
      · rw [(isSub_iff mixed 10 5 4 (by omega)).2 hs] at h5; simp at h5
    · rintro rfl
      rcases h with rfl | h
      · rw [(isSub_iff mixed 10 6 3 (by omega)).2 hs] at h6; simp at h6
      · exact h
  refine ⟨?_, ?_, by decide⟩
  · rintro ⟨t, h1, h2, h3⟩
    have a := (key 5 t (Or.inl rfl) h1 h3).1 rfl
    have b := (key 6 t (Or.inr rfl) h2 h3).2 rfl
    omega
  · intro h
    have := sub_le mixed h
    omega

/-- **C148 (violation), several bases**: a class that is below two hierarchies is found to be in the one closer only: an exception with the code of the other is not an instance. -/
theorem C148_several_bases_violates : SameHierarchy mixed 3 8 ∧ mixed.code 8 = some 5 ∧ mixed.isInstance 20 ⟨3, some (some 5)⟩ 8 = false := by
  refine ⟨⟨3, .refl 3, .step 8 7 3 (by decide) (.step 7 3 3 (by decide) (.refl 3)), by decide⟩, rfl, by decide⟩

/-- **C148 (violation), str**: str of an exception with any keyword arguments raises TypeError. -/
theorem C148_str_violates (name : String) (args : List String) (p : String × String) (kwargs : List (String × String)) : str name args (p :: kwargs) = none := rfl

/-- **C148 (violation), repr**: with keyword arguments only, a comma stands after the bracket, so it cannot be evaluated. -/
theorem C148_repr_violates (name : String) (p : String × String) (kwargs : List (String × String)) : ∃ rest, repr name [] (p :: kwargs) = name ++ "(, " ++ rest := by
  refine ⟨", ".intercalate ((p :: kwargs).map (fun p => p.1 ++ "=" ++ p.2)) ++ ")", ?_⟩
  have h : ("(, " : String) = "(" ++ ", " := rfl
  have h0 : ", ".intercalate ([] : List String) = "" := rfl
  rw [h]
  simp only [repr, h0, List.isEmpty_cons, Bool.false_eq_true, ↓reduceIte, String.append_assoc, String.empty_append]

/-- **C148 (partial), texts**: without keyword arguments str and repr are both the name, with the reprs of the arguments in brackets. -/
theorem C148_texts_partial (name : String) (args : List String) : str name args [] = some (name ++ "(" ++ ", ".intercalate args ++ ")") ∧ repr name args [] = name ++ "(" ++ ", ".intercalate args ++ ")" := by
  simp [str, repr]

/-- **C148 (partial)**: whichever bases classes have, an exception found to be an instance is of the class or below it, or has its code and a common class above. -/
theorem C148_sound_partial [DecidableEq K] (w : World K) (i : Inst K) (cls fuel : Nat) (hf : i.cls < fuel) (h : w.isInstance fuel i cls = true) :
    Sub w.bases i.cls cls ∨ (i.code = some (w.code cls) ∧ ∃ t, Sub w.bases i.cls t ∧ Sub w.bases cls t) := by
  by_cases hsub : w.isSub fuel i.cls cls = true
  · exact Or.inl ((isSub_iff w fuel i.cls cls hf).1 hsub)
  · simp only [Bool.not_eq_true] at hsub
    simp only [World.isInstance, hsub, Bool.false_eq_true, ↓reduceIte] at h
    split at h
    · simp at h
    · split at h
      · next hany =>
        simp only [List.any_eq_true, List.contains_iff_mem] at hany
        obtain ⟨t, h1, h2⟩ := hany
        obtain ⟨c, hc, hs⟩ := up_above w fuel _ t h1
        obtain ⟨d, hd, hs'⟩ := up_above w fuel _ t h2
        simp at hc hd
        subst hc hd
        refine Or.inr ⟨?_, t, hs', hs⟩
        split at h
        · next k hk => rw [hk]; simp at h; rw [h]
        · simp at h
      · simp at h

end Verif.Coded
