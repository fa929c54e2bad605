import Verif.Py.Basic
/-!
# Model of satella/time/parse.py, and C30

`F` is Python's `float` applied to a text: `none` is ValueError.  What is assumed of it: it accepts no text containing one of the letters s, m, h, d, w (it accepts digits, signs, points, underscores, blanks,
an exponent after `e`, "inf", "infinity" and "nan").  `mul` is multiplication by an integer.
-/
namespace Verif.Time
open Verif

section
variable {ν : Type} (F : List Char → Option ν) (mul : ν → Nat → ν)

/-- TIME_MODIFIERS, /repo/satella/time/parse.py:3-9 -/
def modifiers : List (Char × Nat) := [('s', 1), ('m', 60), ('h', 60 * 60), ('d', 24 * 60 * 60), ('w', 7 * 24 * 60 * 60)]

/-- what is parsed: a number, or a text.  (Part of the model of `parse_time_string`, /repo/satella/time/parse.py:12-36.) -/
inductive Input (ν : Type) where
  | num (x : ν)
  | text (s : List Char)

/-- `s[:s.index(c)]`.  (Part of the model of `parse_time_string`, /repo/satella/time/parse.py:12-36.) -/
def before (c : Char) (s : List Char) : List Char := s.takeWhile (fun d => decide (d ≠ c))

/-- `float(s)` with its exception.  (Part of the model of `parse_time_string`, /repo/satella/time/parse.py:12-36.) -/
def floatOf (s : List Char) : Except Exc ν :=
  match F s with
  | some x => .ok x
  | none => .error .valueError

/-- the loop of /repo/satella/time/parse.py:32-36 -/
def scan (s : List Char) : List (Char × Nat) → Except Exc ν
  | [] => floatOf F s
  | (c, k) :: ms => if c ∈ s then (floatOf F (before c s)).map (fun x => mul x k) else scan s ms

/-- `parse_time_string`, /repo/satella/time/parse.py:12-36 -/
def parse : Input ν → Except Exc ν
  | .num x => .ok x
  | .text s => scan F mul s modifiers

/-! ## C30 -/

/-- what is assumed of `float` -/
def FloatText : Prop := ∀ s x, F s = some x → ∀ c k, (c, k) ∈ modifiers → c ∉ s

/-- seconds in the units, by their letter.  (Part of the model of `parse_time_string`, /repo/satella/time/parse.py:12-36.) -/
def seconds : Char → Option Nat
  | 's' => some 1
  | 'm' => some 60
  | 'h' => some 3600
  | 'd' => some 86400
  | 'w' => some 604800
  | _ => none

theorem before_append {c : Char} {p : List Char} (h : c ∉ p) (r : List Char) : before c (p ++ c :: r) = p := by
  unfold before
  induction p with
  | nil => simp
  | cons d p ih =>
    have hd : d ≠ c := fun e => h (by simp [e])
    have := ih (fun hc => h (by simp [hc]))
    simp [hd]
    simpa using this

/-- **C30, numbers.** A number is returned as it is. -/
theorem C30_number (x : ν) : parse F mul (.num x) = .ok x := rfl

/-- **C30, units.** The text of a number followed by the letter of a unit is that number times the seconds of the unit. -/
theorem C30_unit (hF : FloatText F) (p : List Char) (x : ν) (hp : F p = some x) (u : Char) (k : Nat) (hu : seconds u = some k) :
    parse F mul (.text (p ++ [u])) = .ok (mul x k) := by
  have hs := hF p x hp 's' 1 (by simp [modifiers])
  have hm := hF p x hp 'm' 60 (by simp [modifiers])
  have hh := hF p x hp 'h' 3600 (by simp [modifiers])
  have hd := hF p x hp 'd' 86400 (by simp [modifiers])
  have hw := hF p x hp 'w' 604800 (by simp [modifiers])
  unfold seconds at hu
  split at hu
  all_goals first | cases hu | skip
  all_goals simp [parse, modifiers, scan, hs, hm, hh, hd, hw, before_append, floatOf, hp, Except.map]

/-- **C30, no unit.** The text of a number is that number. -/
theorem C30_plain (hF : FloatText F) (p : List Char) (x : ν) (hp : F p = some x) : parse F mul (.text p) = .ok x := by
  have hs := hF p x hp 's' 1 (by simp [modifiers])
  have hm := hF p x hp 'm' 60 (by simp [modifiers])
  have hh := hF p x hp 'h' 3600 (by simp [modifiers])
  have hd := hF p x hp 'd' 86400 (by simp [modifiers])
  have hw := hF p x hp 'w' 604800 (by simp [modifiers])
  simp [parse, modifiers, scan, hs, hm, hh, hd, hw, floatOf, hp]

/-- **C30, words (partial).** A number followed by a word that begins with the letter of a unit, and contains no letter of a shorter unit, is that number times the unit: '30 min', '2 hour', '30 seconds'.
Missing: words with a letter of a shorter unit in them (see `C30_words_violates`). -/
theorem C30_word_partial (hF : FloatText F) (p : List Char) (x : ν) (hp : F p = some x) (u : Char) (k : Nat) (hu : seconds u = some k) (r : List Char)
    (hr : ∀ c j, seconds c = some j → j < k → c ∉ r) :
    parse F mul (.text (p ++ u :: r)) = .ok (mul x k) := by
  have hs := hF p x hp 's' 1 (by simp [modifiers])
  have hm := hF p x hp 'm' 60 (by simp [modifiers])
  have hh := hF p x hp 'h' 3600 (by simp [modifiers])
  have hd := hF p x hp 'd' 86400 (by simp [modifiers])
  have hw := hF p x hp 'w' 604800 (by simp [modifiers])
  have rs := hr 's' 1 rfl
  have rm := hr 'm' 60 rfl
  have rh := hr 'h' 3600 rfl
  have rd := hr 'd' 86400 rfl
  unfold seconds at hu
  split at hu
  all_goals first | cases hu | skip
  all_goals simp at rs rm rh rd
  all_goals simp [parse, modifiers, scan, before_append, floatOf, Except.map, *]

/-- **C30, no number.** A text that does not begin with the text of a number (and is none) raises ValueError. -/
theorem C30_unparseable (s : List Char) (h : ∀ p r, s = p ++ r → F p = none) : parse F mul (.text s) = .error .valueError := by
  have hb : ∀ c, floatOf F (before c s) = .error .valueError := by
    intro c
    have : s = before c s ++ s.dropWhile (fun d => decide (d ≠ c)) := by simp [before]
    simp [floatOf, h _ _ this]
  have hall : floatOf F s = .error .valueError := by simp [floatOf, h s [] (by simp)]
  have : ∀ ms, scan F mul s ms = .error .valueError := by
    intro ms
    induction ms with
    | nil => exact hall
    | cons m ms ih =>
      obtain ⟨c, k⟩ := m
      simp only [scan]
      split
      · simp [hb, Except.map]
      · exact ih
  exact this _

end

/-- decimal digits, with blanks after them: a part of what `float` accepts, to show that the assumption can be met -/
def digits (s : List Char) : Option Nat :=
  let d := s.takeWhile Char.isDigit
  if d ≠ [] ∧ (s.dropWhile Char.isDigit).all (· = ' ') then some (d.foldl (fun a c => 10 * a + (c.toNat - 48)) 0) else none

theorem digits_text : FloatText digits := by
  intro s x h c k hc hs
  simp only [digits] at h
  split at h
  · rename_i hd
    have hcd : c.isDigit = false ∧ c ≠ ' ' := by
      simp only [modifiers, List.mem_cons, Prod.mk.injEq, List.not_mem_nil, or_false] at hc
      rcases hc with ⟨rfl, _⟩ | ⟨rfl, _⟩ | ⟨rfl, _⟩ | ⟨rfl, _⟩ | ⟨rfl, _⟩ <;> decide
    rw [← List.takeWhile_append_dropWhile (p := Char.isDigit) (l := s)] at hs
    rcases List.mem_append.1 hs with h1 | h1
    · have := List.all_eq_true.1 (List.all_takeWhile (p := Char.isDigit) (l := s)) c h1
      simp [hcd.1] at this
    · have := List.all_eq_true.1 hd.2 c h1
      simp [hcd.2] at this
  · cases h

example : digits "30 ".toList = some 30 ∧ parse digits (· * ·) (.text "30 min".toList) = .ok 1800 ∧ parse digits (· * ·) (.text "30m".toList) = .ok 1800 := by decide +kernel

example : ∀ c j, seconds c = some j → j < 60 → c ∉ "in".toList := by
  intro c j hc hj
  unfold seconds at hc
  split at hc <;> first | (cases hc; first | omega | decide) | cases hc

/-- **C30 is violated** for words: documented as parsing "seconds, minutes, hours, days, weeks", it raises ValueError for '5 minutes', '5 hours', '5 days' and '5 weeks', whatever `float` does, because they end in the letter of seconds. -/
theorem C30_words_violates {ν : Type} (F : List Char → Option ν) (mul : ν → Nat → ν) (hF : FloatText F) :
    parse F mul (.text "5 minutes".toList) = .error .valueError ∧ parse F mul (.text "5 hours".toList) = .error .valueError ∧
      parse F mul (.text "5 days".toList) = .error .valueError ∧ parse F mul (.text "5 weeks".toList) = .error .valueError := by
  have key : ∀ p : List Char, 's' ∉ p → F p = none → parse F mul (.text (p ++ ['s'])) = .error .valueError := by
    intro p hp hn
    simp [parse, modifiers, scan, before_append hp, floatOf, hn, Except.map]
  have bad : ∀ p c k, (c, k) ∈ modifiers → c ∈ p → F p = none := by
    intro p c k hm hc
    cases hx : F p with
    | none => rfl
    | some x => exact absurd hc (hF p x hx c k hm)
  refine ⟨key "5 minute".toList (by decide) (bad _ 'm' 60 (by decide) (by decide)), key "5 hour".toList (by decide) (bad _ 'h' 3600 (by decide) (by decide)),
    key "5 day".toList (by decide) (bad _ 'd' 86400 (by decide) (by decide)), key "5 week".toList (by decide) (bad _ 'w' 604800 (by decide) (by decide))⟩

/-- **C30 is violated** for text that is no time: what follows the letter of the unit is ignored, so that '5m2h' is five minutes. -/
theorem C30_garbage_violates {ν : Type} (F : List Char → Option ν) (mul : ν → Nat → ν) (x : ν) (h : F ['5'] = some x) :
    parse F mul (.text "5m2h".toList) = .ok (mul x 60) := by
  have : before 'm' "5m2h".toList = ['5'] := by decide
  have h2 : ('s' ∈ "5m2h".toList) = False := by decide
  have h3 : ('m' ∈ "5m2h".toList) = True := by decide
  simp only [parse, modifiers, scan, h2, h3, if_false, if_true, this, floatOf, h, Except.map]

end Verif.Time
