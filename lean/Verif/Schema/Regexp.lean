/-!
# Regexp and IPv4 descriptors (satella/configuration/schema/basic.py), C89

Regular expressions have the meaning of Python's `re`: a list of the ways to match, in the order in which the backtracking matcher finds them.  Only concatenation, alternatives, greedy repetition and classes of characters are modelled.
-/
namespace Verif.SchemaRegexp

/-- a regular expression, what is given to `re.compile`, /repo/satella/configuration/schema/basic.py:211 -/
inductive Re where
  | eps
  | chr (p : Char → Bool)
  | seq (a b : Re)
  | alt (a b : Re)
  | star (a : Re)

/-- `a*`, greedily: once more, if that takes at least one character, or stop, /repo/satella/configuration/schema/basic.py:218.  There are at most as many repetitions as characters. -/
def starMatches (f : List Char → List (List Char × List Char)) : Nat → List Char → List (List Char × List Char)
  | 0, s => [([], s)]
  | n + 1, s => ((f s).filter (fun m => m.1 != [])).flatMap (fun m => (starMatches f n m.2).map (fun m' => (m.1 ++ m'.1, m'.2))) ++ [([], s)]

/-- the ways in which a beginning of `s` can be matched, most preferred first: what was matched, and what is left, /repo/satella/configuration/schema/basic.py:218 -/
def matches_ : Re → List Char → List (List Char × List Char)
  | .eps, s => [([], s)]
  | .chr _, [] => []
  | .chr p, c :: s => if p c then [([c], s)] else []
  | .seq a b, s => (matches_ a s).flatMap (fun m => (matches_ b m.2).map (fun m' => (m.1 ++ m'.1, m'.2)))
  | .alt a b, s => matches_ a s ++ matches_ b s
  | .star a, s => starMatches (matches_ a) s.length s

/-- what the call does, /repo/satella/configuration/schema/basic.py:215-223 -/
inductive Out where
  | ok (s : List Char)
  | invalid
  | attributeError
deriving DecidableEq

/-- how REGEXP was given, /repo/satella/configuration/schema/basic.py:210-213 -/
inductive Given where
  | str
  | compiled
deriving DecidableEq

/-- `Regexp.__call__`, on what `str` makes of the value, /repo/satella/configuration/schema/basic.py:215-223.  A string has no attribute `pattern`. -/
def call (g : Given) (e : Re) (s : List Char) : Out :=
  match (matches_ e s).head? with
  | some m => .ok m.1
  | none =>
    match g with
    | .str => .attributeError
    | .compiled => .invalid

/-- `\d{1,3}`, /repo/satella/configuration/schema/basic.py:234; `digit` are the characters for which `\d` stands -/
def oneToThree (digit : Char → Bool) : Re :=
  .seq (.chr digit) (.alt (.seq (.chr digit) (.alt (.chr digit) .eps)) .eps)

/-- `\.`, /repo/satella/configuration/schema/basic.py:234 -/
def dot : Re := .chr (· == '.')

/-- `REGEXP` of IPv4, /repo/satella/configuration/schema/basic.py:234 -/
def ipv4 (digit : Char → Bool) : Re :=
  .seq (oneToThree digit) (.seq dot (.seq (oneToThree digit) (.seq dot (.seq (oneToThree digit) (.seq dot (oneToThree digit))))))

/-! ## Specification -/

/-- the strings that a regular expression stands for -/
inductive Lang : Re → List Char → Prop where
  | eps : Lang .eps []
  | chr {p : Char → Bool} {c : Char} : p c = true → Lang (.chr p) [c]
  | seq {a b : Re} {u w : List Char} : Lang a u → Lang b w → Lang (.seq a b) (u ++ w)
  | left {a b : Re} {u : List Char} : Lang a u → Lang (.alt a b) u
  | right {a b : Re} {u : List Char} : Lang b u → Lang (.alt a b) u
  | none {a : Re} : Lang (.star a) []
  | more {a : Re} {u w : List Char} : Lang a u → Lang (.star a) w → Lang (.star a) (u ++ w)

/-- one to three digits -/
def Octet (digit : Char → Bool) (w : List Char) : Prop := 1 ≤ w.length ∧ w.length ≤ 3 ∧ ∀ c ∈ w, digit c = true

/-- four times one to three digits, with dots between them -/
def Dotted (digit : Char → Bool) (w : List Char) : Prop :=
  ∃ a b c d, Octet digit a ∧ Octet digit b ∧ Octet digit c ∧ Octet digit d ∧ w = a ++ ['.'] ++ b ++ ['.'] ++ c ++ ['.'] ++ d

/-! ## Proofs -/

theorem starMatches_sound (a : Re) (h : ∀ s m, m ∈ matches_ a s → m.1 ++ m.2 = s ∧ Lang a m.1) (n : Nat) (s : List Char) (m : List Char × List Char)
    (hm : m ∈ starMatches (matches_ a) n s) : m.1 ++ m.2 = s ∧ Lang (.star a) m.1 := by
  induction n generalizing s m with
  | zero => simp [starMatches] at hm; subst hm; exact ⟨rfl, .none⟩
  | succ n ih =>
    simp only [starMatches, List.mem_append, List.mem_flatMap, List.mem_filter, List.mem_map, List.mem_singleton] at hm
    rcases hm with ⟨m1, ⟨h1, _⟩, m2, h2, rfl⟩ | rfl
    · obtain ⟨e1, l1⟩ := h s m1 h1
      obtain ⟨e2, l2⟩ := ih m1.2 m2 h2
      exact ⟨by simp [e2, e1], .more l1 l2⟩
    · exact ⟨rfl, .none⟩

theorem matches_sound (e : Re) : ∀ s m, m ∈ matches_ e s → m.1 ++ m.2 = s ∧ Lang e m.1 := by
  induction e with
  | eps => intro s m h; simp [matches_] at h; subst h; exact ⟨rfl, .eps⟩
  | chr p =>
    intro s m h
    cases s with
    | nil => simp [matches_] at h
    | cons c s =>
      simp only [matches_] at h
      split at h
      · simp at h; subst h; exact ⟨rfl, .chr (by assumption)⟩
      · simp at h
  | seq a b iha ihb =>
    intro s m h
    simp only [matches_, List.mem_flatMap, List.mem_map] at h
    obtain ⟨m1, h1, m2, h2, rfl⟩ := h
    obtain ⟨e1, l1⟩ := iha s m1 h1
    obtain ⟨e2, l2⟩ := ihb _ m2 h2
    exact ⟨by simp [e2, e1], .seq l1 l2⟩
  | alt a b iha ihb =>
    intro s m h
    simp only [matches_, List.mem_append] at h
    rcases h with h | h
    · exact ⟨(iha s m h).1, .left (iha s m h).2⟩
    · exact ⟨(ihb s m h).1, .right (ihb s m h).2⟩
  | star a iha =>
    intro s m h
    exact starMatches_sound a iha _ s m h

theorem matches_complete {e : Re} {u : List Char} (h : Lang e u) : ∀ r, (u, r) ∈ matches_ e (u ++ r) ∧
    (∀ a, e = .star a → ∀ n, u.length ≤ n → (u, r) ∈ starMatches (matches_ a) n (u ++ r)) := by
  induction h with
  | eps => intro r; exact ⟨by simp [matches_], by intro a h; cases h⟩
  | chr hp => intro r; exact ⟨by simp [matches_, hp], by intro a h; cases h⟩
  | @seq a b u w _ _ ih1 ih2 =>
    intro r
    refine ⟨?_, by intro a h; cases h⟩
    simp only [matches_, List.mem_flatMap, List.mem_map]
    refine ⟨(u, w ++ r), ?_, (w, r), (ih2 r).1, rfl⟩
    have := (ih1 (w ++ r)).1
    rwa [List.append_assoc]
  | left _ ih => intro r; exact ⟨by simp only [matches_, List.mem_append]; exact Or.inl (ih r).1, by intro a h; cases h⟩
  | right _ ih => intro r; exact ⟨by simp only [matches_, List.mem_append]; exact Or.inr (ih r).1, by intro a h; cases h⟩
  | none =>
    intro r
    have key : ∀ (a : Re) n, (([] : List Char), r) ∈ starMatches (matches_ a) n r := by
      intro a n; cases n <;> simp [starMatches]
    exact ⟨by simp only [matches_, List.nil_append]; exact key _ _, by intro a h n _; exact key a n⟩
  | @more a u w _ _ ih1 ih2 =>
    intro r
    have key : ∀ n, (u ++ w).length ≤ n → (u ++ w, r) ∈ starMatches (matches_ a) n (u ++ w ++ r) := by
      intro n hn
      cases u with
      | nil => simpa using (ih2 r).2 a rfl n (by simpa using hn)
      | cons c u =>
        cases n with
        | zero => simp at hn
        | succ n =>
          simp only [starMatches, List.mem_append, List.mem_flatMap, List.mem_filter, List.mem_map, List.mem_singleton]
          refine Or.inl ⟨(c :: u, w ++ r), ⟨?_, by simp⟩, (w, r), (ih2 r).2 a rfl n (by simp at hn; omega), rfl⟩
          have := (ih1 (w ++ r)).1
          rwa [List.append_assoc]
    refine ⟨?_, ?_⟩
    · simp only [matches_]
      exact key _ (by simp)
    · intro a' ha n hn
      injection ha with ha
      subst ha
      exact key n hn

/-- **C89, what is returned**: for every regular expression, whatever is returned matches it, and is the beginning of the value. -/
theorem C89_returns_a_match (g : Given) (e : Re) (s u : List Char) (h : call g e s = .ok u) : Lang e u ∧ ∃ r, s = u ++ r := by
  unfold call at h
  split at h
  · rename_i m hm
    injection h with h
    subst h
    obtain ⟨h1, h2⟩ := matches_sound e s m (List.mem_of_mem_head? (by simp [hm]))
    exact ⟨h2, m.2, h1.symm⟩
  · split at h <;> cases h

/-- **C89, what is accepted**: exactly the values of which some beginning matches. -/
theorem C89_accepts_iff_beginning (g : Given) (e : Re) (s : List Char) : (∃ u, call g e s = .ok u) ↔ ∃ u r, s = u ++ r ∧ Lang e u := by
  constructor
  · rintro ⟨u, h⟩
    obtain ⟨h1, r, h2⟩ := C89_returns_a_match g e s u h
    exact ⟨u, r, h2, h1⟩
  · rintro ⟨u, r, rfl, h⟩
    have hm := (matches_complete h r).1
    unfold call
    split
    · exact ⟨_, rfl⟩
    · rename_i hn
      rw [List.head?_eq_none_iff] at hn
      rw [hn] at hm; cases hm

/-- **C89** (partial: REGEXP is a compiled pattern, and no proper beginning of the value matches it). Then a value is returned unchanged if it matches the pattern, and refused with ConfigurationValidationError if not. -/
theorem C89_regexp_partial (e : Re) (s : List Char) (h : ∀ u r, s = u ++ r → Lang e u → r = []) :
    (Lang e s → call .compiled e s = .ok s) ∧ (¬ Lang e s → call .compiled e s = .invalid) := by
  constructor
  · intro hl
    obtain ⟨u, hu⟩ := (C89_accepts_iff_beginning .compiled e s).2 ⟨s, [], by simp, hl⟩
    obtain ⟨h1, r, h2⟩ := C89_returns_a_match _ e s u hu
    have := h u r h2 h1
    subst this
    simp at h2
    rw [hu, h2]
  · intro hl
    have hn : ¬ ∃ u, call .compiled e s = .ok u := by
      rw [C89_accepts_iff_beginning]
      rintro ⟨u, r, rfl, hu⟩
      have := h u r rfl hu
      subst this
      simp at hl
      exact hl hu
    unfold call at hn ⊢
    split
    · rename_i m hm
      exact absurd ⟨m.1, by simp [hm]⟩ hn
    · rfl

/-! IPv4 -/

theorem octet_matches (digit : Char → Bool) (w r : List Char) (hw : Octet digit w) (hr : ∀ c t, r = c :: t → digit c = false) :
    (matches_ (oneToThree digit) (w ++ r)).head? = some (w, r) ∧ ∀ m ∈ matches_ (oneToThree digit) (w ++ r), m ≠ (w, r) → ∃ c t, m.2 = c :: t ∧ digit c = true := by
  obtain ⟨h1, h3, hd⟩ := hw
  match w, h1, h3 with
  | [a], _, _ =>
    have ha : digit a = true := hd a (by simp)
    cases r with
    | nil => simp [oneToThree, matches_, ha]
    | cons c t =>
      have hc := hr c t rfl
      simp [oneToThree, matches_, ha, hc]
  | [a, b], _, _ =>
    have ha : digit a = true := hd a (by simp)
    have hb : digit b = true := hd b (by simp)
    cases r with
    | nil => simp [oneToThree, matches_, ha, hb]
    | cons c t =>
      have hc := hr c t rfl
      simp [oneToThree, matches_, ha, hb, hc]
  | [a, b, c], _, _ =>
    have ha : digit a = true := hd a (by simp)
    have hb : digit b = true := hd b (by simp)
    have hc : digit c = true := hd c (by simp)
    simp [oneToThree, matches_, ha, hb, hc]

theorem head?_flatMap_cons {α β : Type} (x : α) (l : List α) (f : α → List β) (y : β) (h : (f x).head? = some y) : ((x :: l).flatMap f).head? = some y := by
  simp only [List.flatMap_cons]
  cases hf : f x with
  | nil => rw [hf] at h; cases h
  | cons a t => rw [hf] at h; simpa using h

theorem seq_head (a b : Re) (s : List Char) (u r w r' : List Char) (h1 : (matches_ a s).head? = some (u, r)) (h2 : (matches_ b r).head? = some (w, r')) :
    (matches_ (.seq a b) s).head? = some (u ++ w, r') := by
  simp only [matches_]
  cases hm : matches_ a s with
  | nil => rw [hm] at h1; cases h1
  | cons m l =>
    rw [hm] at h1
    simp at h1
    subst h1
    apply head?_flatMap_cons
    simp [List.head?_map, h2]

/-- **C89, addresses are returned unchanged**: four times one to three digits with dots between them, followed by the end of the value. -/
theorem C89_ipv4_unchanged (digit : Char → Bool) (hdot : digit '.' = false) (g : Given) (s : List Char) (h : Dotted digit s) : call g (ipv4 digit) s = .ok s := by
  obtain ⟨a, b, c, d, ha, hb, hc, hd, rfl⟩ := h
  have hdt : ∀ t, (matches_ dot ('.' :: t)).head? = some (['.'], t) := by intro t; simp [dot, matches_]
  have hD := (octet_matches digit d [] hd (by simp)).1
  have hC := (octet_matches digit c ('.' :: d) hc (by intro c t h; injection h with h; rw [← h]; exact hdot)).1
  have hB := (octet_matches digit b ('.' :: (c ++ '.' :: d)) hb (by intro c t h; injection h with h; rw [← h]; exact hdot)).1
  have hA := (octet_matches digit a ('.' :: (b ++ '.' :: (c ++ '.' :: d))) ha (by intro c t h; injection h with h; rw [← h]; exact hdot)).1
  simp only [List.append_nil] at hD
  have h6 := seq_head _ _ _ _ _ _ _ (hdt d) hD
  have h5 := seq_head _ _ _ _ _ _ _ hC h6
  have h4 := seq_head _ _ _ _ _ _ _ (hdt (c ++ '.' :: d)) h5
  have h3 := seq_head _ _ _ _ _ _ _ hB h4
  have h2 := seq_head _ _ _ _ _ _ _ (hdt _) h3
  have h1 := seq_head _ _ _ _ _ _ _ hA h2
  have e : a ++ ['.'] ++ b ++ ['.'] ++ c ++ ['.'] ++ d = a ++ '.' :: (b ++ '.' :: (c ++ '.' :: d)) := by simp
  unfold call ipv4
  rw [e, h1]
  simp

theorem lang_octet (digit : Char → Bool) (w : List Char) (h : Lang (oneToThree digit) w) : Octet digit w := by
  unfold oneToThree at h
  cases h with
  | seq h1 h2 =>
    cases h1 with
    | chr p1 =>
      cases h2 with
      | left h =>
        cases h with
        | seq h3 h4 =>
          cases h3 with
          | chr p2 =>
            cases h4 with
            | left h => cases h with | chr p3 => simp [Octet, p1, p2, p3]
            | right h => cases h; simp [Octet, p1, p2]
      | right h => cases h; simp [Octet, p1]

theorem lang_dot (w : List Char) (h : Lang dot w) : w = ['.'] := by
  unfold dot at h
  cases h with
  | chr p => simp at p; rw [p]

/-- **C89, what IPv4 returns** is four times one to three digits with dots between them. -/
theorem C89_ipv4_form (digit : Char → Bool) (g : Given) (s u : List Char) (h : call g (ipv4 digit) s = .ok u) : Dotted digit u := by
  replace h := (C89_returns_a_match g _ s u h).1
  unfold ipv4 at h
  cases h with
  | seq ha h =>
    cases h with
    | seq hd1 h =>
      cases h with
      | seq hb h =>
        cases h with
        | seq hd2 h =>
          cases h with
          | seq hc h =>
            cases h with
            | seq hd3 hd =>
              rw [lang_dot _ hd1, lang_dot _ hd2, lang_dot _ hd3]
              exact ⟨_, _, _, _, lang_octet digit _ ha, lang_octet digit _ hb, lang_octet digit _ hc, lang_octet digit _ hd, by simp⟩

/-- **C89, violated by what follows**: an address followed by anything that does not begin with a digit is accepted, and cut off: `1.2.3.4.5`, `1.2.3.4garbage`. -/
theorem C89_ipv4_garbage_violates (digit : Char → Bool) (hdot : digit '.' = false) (g : Given) (s : List Char) (h : Dotted digit s) (x : Char) (t : List Char) (hx : digit x = false) :
    call g (ipv4 digit) (s ++ x :: t) = .ok s := by
  obtain ⟨a, b, c, d, ha, hb, hc, hd, rfl⟩ := h
  have hdt : ∀ t, (matches_ dot ('.' :: t)).head? = some (['.'], t) := by intro t; simp [dot, matches_]
  have hD := (octet_matches digit d (x :: t) hd (by intro c t h; injection h with h; rw [← h]; exact hx)).1
  have hC := (octet_matches digit c ('.' :: (d ++ x :: t)) hc (by intro c t h; injection h with h; rw [← h]; exact hdot)).1
  have hB := (octet_matches digit b ('.' :: (c ++ '.' :: (d ++ x :: t))) hb (by intro c t h; injection h with h; rw [← h]; exact hdot)).1
  have hA := (octet_matches digit a ('.' :: (b ++ '.' :: (c ++ '.' :: (d ++ x :: t)))) ha (by intro c t h; injection h with h; rw [← h]; exact hdot)).1
  have h6 := seq_head _ _ _ _ _ _ _ (hdt _) hD
  have h5 := seq_head _ _ _ _ _ _ _ hC h6
  have h4 := seq_head _ _ _ _ _ _ _ (hdt _) h5
  have h3 := seq_head _ _ _ _ _ _ _ hB h4
  have h2 := seq_head _ _ _ _ _ _ _ (hdt _) h3
  have h1 := seq_head _ _ _ _ _ _ _ hA h2
  have e : a ++ ['.'] ++ b ++ ['.'] ++ c ++ ['.'] ++ d ++ x :: t = a ++ '.' :: (b ++ '.' :: (c ++ '.' :: (d ++ x :: t))) := by simp
  unfold call ipv4
  rw [e, h1]
  simp

/-- **C89, violated by the numbers**: `999.999.999.999` is not an address, but is accepted. -/
theorem C89_ipv4_numbers_violates (g : Given) : call g (ipv4 Char.isDigit) "999.999.999.999".toList = .ok "999.999.999.999".toList :=
  C89_ipv4_unchanged Char.isDigit (by decide) g _ ⟨"999".toList, "999".toList, "999".toList, "999".toList, by simp [Octet], by simp [Octet], by simp [Octet], by simp [Octet], by decide⟩

/-- **C89, violated by the exception**: when REGEXP is a string, as it is for IPv4 and as documented, a value of which no beginning matches raises AttributeError, not ConfigurationValidationError. -/
theorem C89_attribute_error_violates (e : Re) (s : List Char) (h : ∀ u r, s = u ++ r → ¬ Lang e u) : call .str e s = .attributeError := by
  have hn : ¬ ∃ u, call .str e s = .ok u := by
    rw [C89_accepts_iff_beginning]
    rintro ⟨u, r, hs, hu⟩
    exact h u r hs hu
  unfold call at hn ⊢
  split
  · rename_i m hm
    exact absurd ⟨m.1, by simp [hm]⟩ hn
  · rfl

/-! Cases that meet the hypotheses -/
example : Dotted Char.isDigit "10.2.3.43".toList :=
  ⟨"10".toList, "2".toList, "3".toList, "43".toList, by simp [Octet], by simp [Octet], by simp [Octet], by simp [Octet], by decide⟩
example : call .str (ipv4 Char.isDigit) "1.2.3.4garbage".toList = .ok "1.2.3.4".toList := by decide
example : call .str (ipv4 Char.isDigit) "hostname".toList = .attributeError := by decide
example : call .compiled (.star (.chr Char.isDigit)) "123x".toList = .ok "123".toList := by decide
/-- `a*b`: no proper beginning of `aab` matches it -/
example : ∀ u r, "aab".toList = u ++ r → Lang (.seq (.star (.chr (· == 'a'))) (.chr (· == 'b'))) u → r = [] := by
  intro u r hs hl
  cases hl with
  | seq h1 h2 =>
    cases h2 with
    | chr p =>
      rename_i w c
      have : c = 'b' := by simpa using p
      subst this
      match w with
      | [] => simp at hs
      | [x] => simp at hs
      | [x, y] => simp at hs; exact hs.2.2.symm ▸ rfl
      | x :: y :: z :: t =>
        have := congrArg List.length hs
        simp at this
example : Lang (.seq (.star (.chr (· == 'a'))) (.chr (· == 'b'))) "aab".toList :=
  .seq (u := ['a', 'a']) (.more (u := ['a']) (.chr rfl) (.more (u := ['a']) (.chr rfl) .none)) (.chr rfl)

end Verif.SchemaRegexp
