/-!
# Model of intify, time_as_int, time_ms and time_us (C241), and of random_word and random_binary (C242)
-/
namespace Verif.Misc.Numbers

/-! ## intify -/

/-- Exceptions that `int(v)` and `len(v)` raise; OverflowError is that of `int(float('inf'))`.  (Part of the model of `intify`, /repo/satella/coding/transforms/__init__.py:132-156.) -/
inductive Exc where
  | typeError
  | valueError
  | attributeError
  | overflowError
  /-- any other -/
  | other (n : Nat)
  deriving DecidableEq, Repr

/-- An object, by what `int(v)` and `len(v)` do with it.  (Part of the model of `intify`, /repo/satella/coding/transforms/__init__.py:132-156.) -/
structure Obj where
  int : Except Exc Int
  len : Except Exc Nat

/-- `intify(v)`, `none` being None, /repo/satella/coding/transforms/__init__.py:147-156 -/
def intify : Option Obj → Except Exc Int
  | none => .ok 0
  | some v =>
    match v.int with
    | .ok n => .ok n
    | .error e =>
      if e = .typeError ∨ e = .valueError then
        match v.len with
        | .ok n => .ok n
        | .error e' => if e' = .attributeError ∨ e' = .typeError ∨ e' = .valueError then .error .valueError else .error e'
      else .error e

/-- `int(v)` and `len(v)` fail only as the conversions of most objects do. -/
def Usual (v : Obj) : Prop := (∀ e, v.int = .error e → e = .typeError ∨ e = .valueError) ∧
  (∀ e, v.len = .error e → e = .attributeError ∨ e = .typeError ∨ e = .valueError)

/-- **C241, None** is 0, and **whatever int() takes** is what int() makes of it. -/
theorem C241_int : intify none = .ok 0 ∧ ∀ v n, v.int = .ok n → intify (some v) = .ok n := by
  refine ⟨rfl, fun v n h => by simp [intify, h]⟩

/-- **C241**: of an object that int() does not take, the length is taken if there is one, and ValueError raised if there is none; for objects with the usual exceptions. -/
theorem C241_intify_partial (v : Obj) (hu : Usual v) (e : Exc) (hi : v.int = .error e) :
    (∀ n : Nat, v.len = .ok n → intify (some v) = .ok (n : Int)) ∧ (∀ e', v.len = .error e' → intify (some v) = .error .valueError) := by
  have h1 := hu.1 e hi
  refine ⟨fun n hn => by simp [intify, hi, h1, hn], fun e' he => ?_⟩
  have h2 := hu.2 e' he
  simp [intify, hi, h1, he, h2]

/-- **C241, violated by infinity**: int() of an infinite float raises OverflowError; no length is taken, and OverflowError, not ValueError, is raised. -/
theorem C241_infinity_violates (v : Obj) (h : v.int = .error .overflowError) : intify (some v) = .error .overflowError := by simp [intify, h]

example : Usual ⟨.error .typeError, .ok 3⟩ ∧ intify (some ⟨.error .typeError, .ok 3⟩) = .ok 3 := by
  refine ⟨⟨?_, ?_⟩, rfl⟩
  · intro e h; cases h; exact Or.inl rfl
  · intro e h; cases h
example : Usual ⟨.error .valueError, .error .typeError⟩ ∧ intify (some ⟨.error .valueError, .error .typeError⟩) = .error .valueError := by
  refine ⟨⟨?_, ?_⟩, rfl⟩
  · intro e h; cases h; exact Or.inr rfl
  · intro e h; cases h; exact Or.inr (Or.inl rfl)
/-- `float('inf')`, that has no length -/
example : intify (some ⟨.error .overflowError, .error .typeError⟩) = .error .overflowError := rfl

/-! ## Whole units of time -/

/-- `time_as_int()`, /repo/satella/time/misc.py:37-44; the clock is in nanoseconds, `int` rounds towards zero -/
def timeAsInt (ns : Int) : Int := ns.tdiv 1000000000

/-- `time_ms()`, /repo/satella/time/misc.py:56-57 -/
def timeMs (ns : Int) : Int := ns / 1000000

/-- `time_us()`, /repo/satella/time/misc.py:71-72 -/
def timeUs (ns : Int) : Int := ns / 1000

/-- **C241, time**: the whole seconds, milliseconds and microseconds since 1970: the greatest numbers of these that have passed. -/
theorem C241_time (ns : Int) (h : 0 ≤ ns) :
    (timeAsInt ns * 1000000000 ≤ ns ∧ ns < (timeAsInt ns + 1) * 1000000000) ∧
    (timeMs ns * 1000000 ≤ ns ∧ ns < (timeMs ns + 1) * 1000000) ∧
    (timeUs ns * 1000 ≤ ns ∧ ns < (timeUs ns + 1) * 1000) := by
  simp only [timeAsInt, timeMs, timeUs, Int.tdiv_eq_ediv_of_nonneg h]
  omega

/-- **C241, time does not go back** unless the clock does. -/
theorem C241_time_monotone (a b : Int) (h0 : 0 ≤ a) (h : a ≤ b) : timeAsInt a ≤ timeAsInt b ∧ timeMs a ≤ timeMs b ∧ timeUs a ≤ timeUs b := by
  simp only [timeAsInt, timeMs, timeUs, Int.tdiv_eq_ediv_of_nonneg h0, Int.tdiv_eq_ediv_of_nonneg (Int.le_trans h0 h)]
  omega

example : timeMs 1999999 = 1 ∧ timeUs 1999999 = 1999 ∧ timeAsInt 1999999999 = 1 := by decide

/-! ## Random words and bytes -/

/-- The comprehension of `random_word`, /repo/satella/random.py:31: `random.choice` raises IndexError (`none`) if there is nothing to choose from, and otherwise takes
the item at an index below the length; `pick k` is the index taken by the `k`-th call, brought below the length. -/
def choices {α : Type} (choice : List α) (pick : Nat → Nat) : Nat → Nat → List α → Option (List α)
  | 0, _, out => some out
  | n + 1, k, out =>
    match choice[pick k % choice.length]? with
    | none => none
    | some c => choices choice pick n (k + 1) (out ++ [c])

/-- `random_word(length, choice, join_fun)`, /repo/satella/random.py:11-31; `range` of a negative length is empty -/
def randomWord {α β : Type} (length : Int) (choice : List α) (join : List α → β) (pick : Nat → Nat) : Option β :=
  (choices choice pick length.toNat 0 []).map join

/-- `random_binary(length)`, /repo/satella/random.py:42-44: a buffered file reads until it has that many bytes; `chunk k` is what the `k`-th read of /dev/random returns, at least
a byte.  `fuel` bounds the reads (the model's own). -/
def readLoop (chunk : Nat → List UInt8) : Nat → Nat → Nat → List UInt8 → Option (List UInt8)
  | 0, _, length, got => if length ≤ got.length then some (got.take length) else none
  | fuel + 1, k, length, got => if length ≤ got.length then some (got.take length) else readLoop chunk fuel (k + 1) length (got ++ chunk k)

/-- `random_binary(length)` of a non-negative length, /repo/satella/random.py:34-46; `device`: what /dev/random gives, if it exists; `randint`: what `random.randint(0, 255)` gives -/
def randomBinary (length : Nat) (device : Option (Nat → List UInt8)) (randint : Nat → UInt8) : Option (List UInt8) :=
  match device with
  | some chunk => readLoop chunk length 0 length []
  | none => some ((List.range length).map randint)

theorem choices_spec {α : Type} (choice : List α) (pick : Nat → Nat) (hc : choice ≠ []) (n k : Nat) (out : List α) :
    ∃ w, choices choice pick n k out = some (out ++ w) ∧ w.length = n ∧ ∀ x ∈ w, x ∈ choice := by
  induction n generalizing k out with
  | zero => exact ⟨[], by simp [choices]⟩
  | succ n ih =>
    have hlt : pick k % choice.length < choice.length := Nat.mod_lt _ (List.length_pos_iff.2 hc)
    obtain ⟨w, h1, h2, h3⟩ := ih (k + 1) (out ++ [choice[pick k % choice.length]])
    refine ⟨choice[pick k % choice.length] :: w, ?_, by simp [h2], ?_⟩
    · simp only [choices, List.getElem?_eq_getElem hlt, h1]
      simp
    · intro x hx
      rcases List.mem_cons.1 hx with rfl | hx
      · exact List.getElem_mem hlt
      · exact h3 x hx

/-- **C242, random_word**: whatever is picked, join_fun is called with a list of exactly `length` items (none, if it is negative), each of which is one of those to choose from, and what it returns is returned. -/
theorem C242_word {α β : Type} (length : Int) (choice : List α) (join : List α → β) (pick : Nat → Nat) (hc : choice ≠ []) :
    ∃ w : List α, randomWord length choice join pick = some (join w) ∧ w.length = length.toNat ∧ ∀ x ∈ w, x ∈ choice := by
  obtain ⟨w, h1, h2, h3⟩ := choices_spec choice pick hc length.toNat 0 []
  exact ⟨w, by simp [randomWord, h1], h2, h3⟩

/-- **C242, every word can come out**: of every list of items to choose from there are picks that give it. -/
theorem C242_every_word {α β : Type} (w choice : List α) (join : List α → β) (h : ∀ x ∈ w, x ∈ choice) :
    ∃ pick, randomWord w.length choice join pick = some (join w) := by
  have key : ∀ (w : List α) (k : Nat) (out : List α), (∀ x ∈ w, x ∈ choice) →
      ∃ pick, choices choice pick w.length k out = some (out ++ w) := by
    intro w
    induction w with
    | nil => intro k out _; exact ⟨fun _ => 0, by simp [choices]⟩
    | cons x w ih =>
      intro k out h
      obtain ⟨i, hi, hx⟩ := List.mem_iff_getElem.1 (h x (by simp))
      obtain ⟨p, hp⟩ := ih (k + 1) (out ++ [x]) (fun y hy => h y (by simp [hy]))
      refine ⟨fun j => if j = k then i else p j, ?_⟩
      have hcongr : ∀ (n j : Nat) (out : List α), k < j → choices choice (fun j => if j = k then i else p j) n j out = choices choice p n j out := by
        intro n
        induction n with
        | zero => intro j out _; rfl
        | succ n ih' =>
          intro j out hj
          simp only [choices, if_neg (by omega : ¬ j = k)]
          split
          · rfl
          · exact ih' (j + 1) _ (by omega)
      simp only [List.length_cons, choices, if_true, Nat.mod_eq_of_lt hi, List.getElem?_eq_getElem hi, hx]
      rw [hcongr _ _ _ (by omega), hp]
      simp
  obtain ⟨p, hp⟩ := key w 0 [] h
  exact ⟨p, by simp [randomWord, hp]⟩

/-- **C242, nothing to choose from**: IndexError is raised, unless no item is to be chosen. -/
theorem C242_no_choice {α β : Type} (length : Int) (join : List α → β) (pick : Nat → Nat) :
    randomWord length ([] : List α) join pick = if length ≤ 0 then some (join []) else none := by
  unfold randomWord
  by_cases h : length ≤ 0
  · rw [if_pos h, Int.toNat_of_nonpos h]; rfl
  · obtain ⟨n, hn⟩ : ∃ n, length.toNat = n + 1 := ⟨length.toNat - 1, by omega⟩
    rw [if_neg h, hn]; rfl

/-- **C242, random_binary**: exactly `length` bytes are returned, however few of them /dev/random gives at a time; those it gave first. -/
theorem C242_binary (length : Nat) (device : Option (Nat → List UInt8)) (randint : Nat → UInt8)
    (hd : ∀ chunk, device = some chunk → ∀ k, chunk k ≠ []) :
    ∃ b, randomBinary length device randint = some b ∧ b.length = length ∧
      (∀ chunk, device = some chunk → ∃ n, b <+: (List.range n).flatMap chunk) := by
  cases device with
  | none => exact ⟨_, rfl, by simp, by simp⟩
  | some chunk =>
    have hne := hd chunk rfl
    have key : ∀ (fuel k : Nat) (got : List UInt8), length ≤ got.length + fuel → got = (List.range k).flatMap chunk →
        ∃ b, readLoop chunk fuel k length got = some b ∧ b.length = length ∧ ∃ n, b <+: (List.range n).flatMap chunk := by
      intro fuel
      induction fuel with
      | zero =>
        intro k got h hg
        refine ⟨got.take length, by simp [readLoop, show length ≤ got.length by omega], by simp; omega, k, ?_⟩
        rw [← hg]; exact List.take_prefix _ _
      | succ fuel ih =>
        intro k got h hg
        by_cases hl : length ≤ got.length
        · refine ⟨got.take length, by simp [readLoop, hl], by simp; omega, k, ?_⟩
          rw [← hg]; exact List.take_prefix _ _
        · have := List.length_pos_iff.2 (hne k)
          simp only [readLoop, if_neg hl]
          exact ih (k + 1) (got ++ chunk k) (by simp; omega) (by simp [List.range_succ, hg])
    obtain ⟨b, h1, h2, h3⟩ := key length 0 [] (by simp) (by simp)
    exact ⟨b, h1, h2, fun c hc => by cases hc; exact h3⟩

example : randomWord 3 ['a', 'b'] id (fun k => k + 1) = some ['b', 'a', 'b'] := rfl
example : randomWord (-3) ['a', 'b'] id (fun k => k + 1) = some [] := rfl
example : randomBinary 3 (some fun k => [k.toUInt8, 7]) (fun _ => 0) = some [0, 7, 1] := rfl
example : ∀ k : Nat, [k.toUInt8, 7] ≠ [] := by simp

end Verif.Misc.Numbers
