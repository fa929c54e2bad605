/-!
# Export to Prometheus (satella/instrumentation/metrics/exporters/prometheus.py), C125, C126

Values, label values and timestamps are the strings `str` gives for them.  HTTP is left out.
-/
namespace Verif.Prometheus

/-! ## Model -/

/-- strings as lists of characters; /repo/satella/instrumentation/metrics/exporters/prometheus.py:102-112 -/
abbrev Str := List Char

/-- an entry of a MetricDataCollection, with its values as strings; `ts` is `int(timestamp * 1000)`; /repo/satella/instrumentation/metrics/data.py:14-24, exporters/prometheus.py:97-112 -/
structure MD where
  name : Str
  labels : List (Str × Str)
  value : Str
  ts : Option Str
  internal : Bool

/-- `replace(c, w)` of a character by a string, /repo/satella/instrumentation/metrics/exporters/prometheus.py:102, :106 -/
def replace (c : Char) (w : Str) (s : Str) : Str := s.flatMap (fun x => if x = c then w else [x])

/-- the escaped value of a label, /repo/satella/instrumentation/metrics/exporters/prometheus.py:106 -/
def escape (s : Str) : Str := replace '"' ['\\', '"'] (replace '\\' ['\\', '\\'] s)

/-- `'%s="%s"' % (key, ...)`, /repo/satella/instrumentation/metrics/exporters/prometheus.py:105-107 -/
def renderLabel (p : Str × Str) : Str := p.1 ++ '=' :: '"' :: (escape p.2 ++ ['"'])

/-- `','.join(...)`, /repo/satella/instrumentation/metrics/exporters/prometheus.py:105-107 -/
def joinComma : List Str → Str
  | [] => []
  | [x] => x
  | x :: y :: xs => x ++ ',' :: joinComma (y :: xs)

/-- `render` of one entry that is not internal, /repo/satella/instrumentation/metrics/exporters/prometheus.py:102-112 -/
def renderLine (m : MD) : Str :=
  replace '.' ['_'] m.name ++
  (if m.labels.isEmpty then [] else '{' :: (joinComma (m.labels.map renderLabel) ++ ['}'])) ++
  ' ' :: m.value ++
  (match m.ts with
   | some t => ' ' :: t
   | none => []) ++ ['\n']

/-- `metric_data_collection_to_prometheus`, /repo/satella/instrumentation/metrics/exporters/prometheus.py:115-132, with the test of :99-100 -/
def export_ (ms : List MD) : Str :=
  if ms.isEmpty then ['\n'] else (ms.filter (fun m => !m.internal)).flatMap renderLine

example : export_ [] = ['\n'] := by decide

/-! ## Specification: the text format of Prometheus

A line is `name value`, `name{label="value",...} value`, each perhaps followed by a timestamp.  In the value of a label `\\`, `\"` and `\n` stand for a backslash, a quote and a newline. Empty lines are ignored. -/

/-- what Prometheus reads in a line -/
structure Sample where
  name : Str
  labels : List (Str × Str)
  value : Str
  ts : Option Str
deriving DecidableEq

/-- the lines of a text; what follows the last newline is dropped -/
def lines : Str → Str → List Str
  | _, [] => []
  | acc, c :: cs => if c = '\n' then acc.reverse :: lines [] cs else lines (c :: acc) cs

/-- up to and without `stop`, and the rest after it -/
def upTo (stop : Char) : Str → Option (Str × Str)
  | [] => none
  | c :: cs => if c = stop then some ([], cs) else (upTo stop cs).map (fun p => (c :: p.1, p.2))

/-- the value of a label up to the closing quote, and the rest after it -/
def quoted : Str → Option (Str × Str)
  | [] => none
  | '"' :: cs => some ([], cs)
  | '\\' :: 'n' :: cs => (quoted cs).map (fun p => ('\n' :: p.1, p.2))
  | '\\' :: c :: cs => if c = '\\' ∨ c = '"' then (quoted cs).map (fun p => (c :: p.1, p.2)) else none
  | ['\\'] => none
  | c :: cs => (quoted cs).map (fun p => (c :: p.1, p.2))

/-- labels after the opening brace, and the rest after the closing one; at most `n` of them -/
def labels : Nat → Str → Option (List (Str × Str) × Str)
  | 0, _ => none
  | n + 1, s =>
    match upTo '=' s with
    | some (k, '"' :: s1) =>
      match quoted s1 with
      | some (v, ',' :: s2) => (labels n s2).map (fun p => ((k, v) :: p.1, p.2))
      | some (v, '}' :: s2) => some ([(k, v)], s2)
      | _ => none
    | _ => none

/-- a character of a name of a metric or label -/
def nameChar (c : Char) : Bool := c.isAlphanum || c = '_' || c = ':'

/-- what comes after the name and labels: a value and perhaps a timestamp -/
def tail (name : Str) (ls : List (Str × Str)) : Str → Option Sample
  | ' ' :: s =>
    match upTo ' ' s with
    | none => some ⟨name, ls, s, none⟩
    | some (v, t) => some ⟨name, ls, v, some t⟩
  | _ => none

/-- what comes after the name; at most `n` labels -/
def afterName (n : Nat) (name : Str) : Str → Option Sample
  | '{' :: r =>
    match labels n r with
    | some (ls, r') => tail name ls r'
    | none => none
  | r => tail name [] r

/-- a line -/
def line (s : Str) : Option Sample := afterName s.length (s.takeWhile nameChar) (s.dropWhile nameChar)

/-- a text -/
def text (s : Str) : Option (List Sample) := ((lines [] s).filter (fun l => !l.isEmpty)).mapM line

/-- what should be read for an entry: dots in names become underscores -/
def sample (m : MD) : Sample := ⟨m.name.map (fun c => if c = '.' then '_' else c), m.labels, m.value, m.ts⟩

/-- the entries considered: names of metrics have characters allowed by getMetric, names of labels are identifiers, numbers have neither spaces nor newlines; values of labels are any strings without newlines -/
structure Fine (m : MD) : Prop where
  name : m.name ≠ [] ∧ ∀ c ∈ m.name, nameChar c = true ∨ c = '.'
  keys : ∀ p ∈ m.labels, ∀ c ∈ p.1, nameChar c = true
  values : ∀ p ∈ m.labels, '\n' ∉ p.2
  value : ' ' ∉ m.value ∧ '\n' ∉ m.value
  ts : ∀ t, m.ts = some t → ' ' ∉ t ∧ '\n' ∉ t

/-! ## Proofs -/

theorem replace_nil (c : Char) (w : Str) : replace c w [] = [] := rfl

theorem replace_cons (c : Char) (w : Str) (x : Char) (s : Str) : replace c w (x :: s) = (if x = c then w else [x]) ++ replace c w s := by
  simp [replace]

theorem replace_append (c : Char) (w s t : Str) : replace c w (s ++ t) = replace c w s ++ replace c w t := by
  simp [replace]

theorem escape_cons (x : Char) (s : Str) : escape (x :: s) = (if x = '\\' then ['\\', '\\'] else if x = '"' then ['\\', '"'] else [x]) ++ escape s := by
  simp only [escape, replace_cons, replace_append]
  congr 1
  by_cases h1 : x = '\\'
  · subst h1; decide
  · by_cases h2 : x = '"'
    · subst h2; decide
    · simp [h1, h2, replace]

theorem quoted_escape (v : Str) (hv : '\n' ∉ v) (r : Str) : quoted (escape v ++ '"' :: r) = some (v, r) := by
  induction v with
  | nil => simp [escape, replace, quoted]
  | cons c v ih =>
    have ih := ih (fun h => hv (by simp [h]))
    rw [escape_cons]
    by_cases h1 : c = '\\'
    · subst h1
      simp [quoted, ih]
    · by_cases h2 : c = '"'
      · subst h2
        simp [quoted, ih]
      · simp only [if_neg h1, if_neg h2, List.cons_append, List.nil_append]
        rw [quoted]
        · simp [ih]
        · exact h2
        · intro cs e _; exact h1 e
        · intro c' cs e _; exact h1 e
        · intro e; exact absurd e h1

theorem upTo_append (stop : Char) (k r : Str) (h : stop ∉ k) : upTo stop (k ++ stop :: r) = some (k, r) := by
  induction k with
  | nil => simp [upTo]
  | cons c k ih =>
    have hc : c ≠ stop := fun e => h (by simp [e])
    simp [upTo, hc, ih (fun hm => h (by simp [hm]))]

theorem upTo_none (stop : Char) (s : Str) (h : stop ∉ s) : upTo stop s = none := by
  induction s with
  | nil => rfl
  | cons c s ih =>
    have hc : c ≠ stop := fun e => h (by simp [e])
    simp [upTo, hc, ih (fun hm => h (by simp [hm]))]

theorem nameChar_ne {c : Char} (h : nameChar c = true) : c ≠ '=' ∧ c ≠ '\n' ∧ c ≠ ' ' ∧ c ≠ '{' := by
  refine ⟨?_, ?_, ?_, ?_⟩ <;> (rintro rfl; revert h; decide)

theorem labels_join (ls : List (Str × Str)) (hk : ∀ p ∈ ls, ∀ c ∈ p.1, nameChar c = true) (hv : ∀ p ∈ ls, '\n' ∉ p.2) (hne : ls ≠ []) (r : Str) :
    ∀ n, ls.length ≤ n → labels n (joinComma (ls.map renderLabel) ++ '}' :: r) = some (ls, r) := by
  induction ls with
  | nil => exact absurd rfl hne
  | cons p ls ih =>
    intro n hn
    obtain ⟨k, v⟩ := p
    have hk1 : '=' ∉ k := fun h => (nameChar_ne (hk (k, v) (by simp) _ h)).1 rfl
    cases n with
    | zero => simp at hn
    | succ n =>
      cases ls with
      | nil =>
        have e : joinComma ([(k, v)].map renderLabel) ++ '}' :: r = k ++ '=' :: ('"' :: (escape v ++ '"' :: ('}' :: r))) := by
          simp [joinComma, renderLabel]
        rw [e]
        simp only [labels, upTo_append _ _ _ hk1, quoted_escape v (hv (k, v) (by simp))]
      | cons q ls =>
        have e : joinComma (((k, v) :: q :: ls).map renderLabel) ++ '}' :: r = k ++ '=' :: ('"' :: (escape v ++ '"' :: (',' :: (joinComma ((q :: ls).map renderLabel) ++ '}' :: r)))) := by
          simp [joinComma, renderLabel]
        rw [e]
        have := ih (fun p hp => hk p (by simp [hp])) (fun p hp => hv p (by simp [hp])) (by simp) n (by simpa using hn)
        simp only [labels, upTo_append _ _ _ hk1, quoted_escape v (hv (k, v) (by simp)), this, Option.map_some]

theorem lines_append (l : Str) (h : '\n' ∉ l) : ∀ acc r, lines acc (l ++ '\n' :: r) = (acc.reverse ++ l) :: lines [] r := by
  induction l with
  | nil => intro acc r; simp [lines]
  | cons c l ih =>
    intro acc r
    have hc : c ≠ '\n' := fun e => h (by simp [e])
    simp only [List.cons_append, lines, if_neg hc]
    rw [ih (fun hm => h (by simp [hm]))]
    simp

theorem takeWhile_name (n : Str) (hn : ∀ c ∈ n, nameChar c = true) (c : Char) (r : Str) (hc : nameChar c = false) :
    (n ++ c :: r).takeWhile nameChar = n ∧ (n ++ c :: r).dropWhile nameChar = c :: r := by
  induction n with
  | nil => simp [hc]
  | cons x n ih =>
    have hx := hn x (by simp)
    obtain ⟨a, b⟩ := ih (fun y hy => hn y (by simp [hy]))
    simp [hx, a, b]

theorem replace_dot (n : Str) : replace '.' ['_'] n = n.map (fun c => if c = '.' then '_' else c) := by
  induction n with
  | nil => rfl
  | cons c n ih => rw [replace_cons, ih]; by_cases h : c = '.' <;> simp [h]

/-- the line without the newline -/
def body (m : MD) : Str :=
  replace '.' ['_'] m.name ++ ((if m.labels.isEmpty then [] else '{' :: (joinComma (m.labels.map renderLabel) ++ ['}'])) ++ (' ' :: (m.value ++ (match m.ts with | some t => ' ' :: t | none => []))))

theorem renderLine_eq (m : MD) : renderLine m = body m ++ ['\n'] := by simp [renderLine, body]

theorem tail_spec {m : MD} (h : Fine m) (name : Str) (ls : List (Str × Str)) : tail name ls (' ' :: (m.value ++ (match m.ts with | some t => ' ' :: t | none => []))) = some ⟨name, ls, m.value, m.ts⟩ := by
  simp only [tail]
  cases ht : m.ts with
  | none => simp [upTo_none _ _ h.value.1]
  | some t => simp [upTo_append _ _ t h.value.1]

theorem length_join (ls : List (Str × Str)) : ls.length ≤ (joinComma (ls.map renderLabel)).length := by
  induction ls with
  | nil => simp
  | cons p ls ih =>
    cases ls with
    | nil => simp [joinComma, renderLabel]; omega
    | cons q ls =>
      simp only [List.map_cons, joinComma, List.length_append, List.length_cons, renderLabel] at ih ⊢
      omega

theorem line_body {m : MD} (h : Fine m) : line (body m) = some (sample m) := by
  have hn : ∀ c ∈ replace '.' ['_'] m.name, nameChar c = true := by
    rw [replace_dot]
    intro c hc
    obtain ⟨d, hd, rfl⟩ := List.mem_map.1 hc
    rcases h.name.2 d hd with h' | h'
    · by_cases hdot : d = '.'
      · subst hdot; decide
      · simpa [hdot] using h'
    · subst h'; decide
  unfold line body
  cases hl : m.labels with
  | nil =>
    obtain ⟨a, b⟩ := takeWhile_name _ hn ' ' (m.value ++ (match m.ts with | some t => ' ' :: t | none => [])) (by decide)
    simp only [List.isEmpty_nil, ↓reduceIte, List.nil_append]
    rw [a, b, afterName, tail_spec h]
    · simp [sample, hl, replace_dot]
    · intro r e; exact absurd (List.cons.inj e).1 (by decide)
  | cons p ls =>
    simp only [List.isEmpty_cons, Bool.false_eq_true, ↓reduceIte, List.cons_append, List.append_assoc, List.nil_append]
    obtain ⟨a, b⟩ := takeWhile_name _ hn '{' (joinComma ((p :: ls).map renderLabel) ++ '}' :: ' ' :: (m.value ++ (match m.ts with | some t => ' ' :: t | none => []))) (by decide)
    rw [a, b, afterName, labels_join (p :: ls) (by rw [← hl]; exact h.keys) (by rw [← hl]; exact h.values) (by simp)]
    · simp only [tail_spec h]
      simp [sample, hl, replace_dot]
    · have := length_join (p :: ls)
      simp only [List.length_append, List.length_cons] at this ⊢
      omega

theorem mem_escape {c : Char} {s : Str} (h : c ∈ escape s) : c ∈ s ∨ c = '\\' ∨ c = '"' := by
  induction s with
  | nil => simp [escape, replace] at h
  | cons x s ih =>
    rw [escape_cons, List.mem_append] at h
    rcases h with h | h
    · split at h
      · simp at h; exact Or.inr (Or.inl h)
      · split at h
        · simp at h; exact Or.inr h
        · simp at h; exact Or.inl (by simp [h])
    · rcases ih h with h | h
      · exact Or.inl (by simp [h])
      · exact Or.inr h

theorem mem_join {c : Char} {ls : List Str} (h : c ∈ joinComma ls) : c = ',' ∨ ∃ l ∈ ls, c ∈ l := by
  induction ls with
  | nil => simp [joinComma] at h
  | cons x ls ih =>
    cases ls with
    | nil => exact Or.inr ⟨x, by simp, by simpa [joinComma] using h⟩
    | cons y ls =>
      simp only [joinComma, List.mem_append, List.mem_cons] at h
      rcases h with h | h | h
      · exact Or.inr ⟨x, by simp, h⟩
      · exact Or.inl h
      · rcases ih h with h | ⟨l, hl, hc⟩
        · exact Or.inl h
        · exact Or.inr ⟨l, by simp at hl ⊢; exact Or.inr hl, hc⟩

theorem body_no_newline {m : MD} (h : Fine m) : '\n' ∉ body m := by
  intro hc
  simp only [body, List.mem_append] at hc
  rcases hc with hc | hc | hc
  · rw [replace_dot] at hc
    obtain ⟨d, hd, e⟩ := List.mem_map.1 hc
    by_cases hdot : d = '.'
    · subst hdot; revert e; decide
    · rw [if_neg hdot] at e
      rcases h.name.2 d hd with h' | h'
      · exact (nameChar_ne h').2.1 e
      · exact hdot h'
  · split at hc
    · simp at hc
    · simp only [List.mem_cons, List.mem_append] at hc
      rcases hc with hc | hc | hc
      · exact absurd hc (by decide)
      · rcases mem_join hc with hc | ⟨l, hl, hc⟩
        · exact absurd hc (by decide)
        · obtain ⟨p, hp, rfl⟩ := List.mem_map.1 hl
          simp only [renderLabel, List.mem_append, List.mem_cons] at hc
          rcases hc with hc | hc | hc | hc | hc
          · exact (nameChar_ne (h.keys p hp _ hc)).2.1 rfl
          · exact absurd hc (by decide)
          · exact absurd hc (by decide)
          · rcases mem_escape hc with hc | hc | hc
            · exact h.values p hp hc
            · exact absurd hc (by decide)
            · exact absurd hc (by decide)
          · rcases hc with hc | hc
            · exact absurd hc (by decide)
            · simp at hc
      · rcases hc with hc | hc
        · exact absurd hc (by decide)
        · simp at hc
  · simp only [List.mem_cons, List.mem_append] at hc
    rcases hc with hc | hc | hc
    · exact absurd hc (by decide)
    · exact h.value.2 hc
    · cases ht : m.ts with
      | none => rw [ht] at hc; simp at hc
      | some t =>
        rw [ht] at hc
        simp only [List.mem_cons] at hc
        rcases hc with hc | hc
        · exact absurd hc (by decide)
        · exact (h.ts t ht).2 hc

theorem body_ne (m : MD) : body m ≠ [] := by
  intro e
  have h1 := congrArg List.length e
  simp [body] at h1

/-- **C125**: what Prometheus reads in the exported text is, in order, exactly one sample for each entry that is not internal: its name with dots turned into underscores, all its labels with their values, its value and its timestamp. -/
theorem C125_export_read_back (ms : List MD) (h : ∀ m ∈ ms, m.internal = false → Fine m) :
    text (export_ ms) = some ((ms.filter (fun m => !m.internal)).map sample) := by
  unfold export_
  cases ms with
  | nil => rfl
  | cons m0 ms0 =>
    simp only [List.isEmpty_cons, Bool.false_eq_true, ↓reduceIte]
    have hf : ∀ m ∈ (m0 :: ms0).filter (fun m => !m.internal), Fine m := by
      intro m hm
      obtain ⟨a, b⟩ := List.mem_filter.1 hm
      exact h m a (by simpa using b)
    generalize (m0 :: ms0).filter (fun m => !m.internal) = l at hf
    clear h
    unfold text
    have key : lines [] (l.flatMap renderLine) = l.map body := by
      induction l with
      | nil => rfl
      | cons m l ih =>
        rw [List.flatMap_cons, renderLine_eq, List.append_assoc, List.singleton_append, lines_append _ (body_no_newline (hf m (by simp)))]
        rw [ih (fun m hm => hf m (by simp [hm]))]
        simp
    rw [key]
    have hfil : (l.map body).filter (fun l => !l.isEmpty) = l.map body := by
      rw [List.filter_eq_self]
      intro b hb
      obtain ⟨m, hm, rfl⟩ := List.mem_map.1 hb
      have := body_ne m
      cases hbb : body m with
      | nil => exact absurd hbb this
      | cons _ _ => rfl
    rw [hfil]
    clear key hfil
    induction l with
    | nil => rfl
    | cons m l ih =>
      rw [List.map_cons, List.mapM_cons, line_body (hf m (by simp)), ih (fun m hm => hf m (by simp [hm]))]
      rfl

/-- a metric with a label whose value has both kinds of characters to escape, and an internal one -/
def some_ : List MD := [⟨['a', '.', 'b'], [(['k'], ['x', '"', '\\', ',', '}']), (['l'], [])], ['1'], some ['7'], false⟩, ⟨['c'], [], ['2'], none, true⟩, ⟨['d'], [], ['3'], none, false⟩]
example : ∀ m ∈ some_, m.internal = false → Fine m := by
  intro m hm _
  simp only [some_, List.mem_cons, List.not_mem_nil, or_false] at hm
  rcases hm with rfl | rfl | rfl <;> exact ⟨by decide, by decide, by decide, by decide, by intro t ht; cases ht <;> decide⟩
example : text (export_ some_) = some [⟨['a', '_', 'b'], [(['k'], ['x', '"', '\\', ',', '}']), (['l'], [])], ['1'], some ['7']⟩, ⟨['d'], [], ['3'], none⟩] := by decide

/-! ## C126 -/

/-- **C126 (violation), newlines**: the value of a label with a newline makes the text unreadable, as newlines are not escaped. -/
theorem C126_newline_violates : ∃ m : MD, m.internal = false ∧ text (export_ [m]) = none :=
  ⟨⟨['a'], [(['k'], ['x', '\n', 'y'])], ['1'], none, false⟩, rfl, by decide⟩

/-- **C126 (violation), names**: two metrics of different names are exported as the same sample. -/
theorem C126_names_violates : ∃ m m' : MD, m.name ≠ m'.name ∧ m.labels = m'.labels ∧ Fine m ∧ Fine m' ∧ ∃ s, text (export_ [m, m']) = some [s, s] :=
  ⟨⟨['a', '.', 'b'], [], ['1'], none, false⟩, ⟨['a', '_', 'b'], [], ['1'], none, false⟩, by decide, rfl,
    ⟨by decide, by decide, by decide, by decide, by intro t ht; cases ht⟩, ⟨by decide, by decide, by decide, by decide, by intro t ht; cases ht⟩, ⟨['a', '_', 'b'], [], ['1'], none⟩, by decide⟩

/-- **C126 (partial)**: without underscores in names and newlines in values of labels, the entries that are not internal can be told from the text. -/
theorem C126_injective_partial (ms ms' : List MD) (h : ∀ m ∈ ms ++ ms', m.internal = false ∧ Fine m ∧ '_' ∉ m.name) (he : export_ ms = export_ ms') : ms = ms' := by
  have h1 := C125_export_read_back ms (fun m hm _ => (h m (by simp [hm])).2.1)
  have h2 := C125_export_read_back ms' (fun m hm _ => (h m (by simp [hm])).2.1)
  rw [he, h2] at h1
  have hfil : ∀ l : List MD, (∀ m ∈ l, m.internal = false) → l.filter (fun m => !m.internal) = l := by
    intro l hl
    rw [List.filter_eq_self]
    intro m hm
    simp [hl m hm]
  rw [hfil ms (fun m hm => (h m (by simp [hm])).1), hfil ms' (fun m hm => (h m (by simp [hm])).1), Option.some.injEq] at h1
  have hinj : ∀ m m', m ∈ ms ++ ms' → m' ∈ ms ++ ms' → sample m = sample m' → m = m' := by
    intro m m' hm hm' e
    obtain ⟨n, ls, v, t, i⟩ := m
    obtain ⟨n', ls', v', t', i'⟩ := m'
    obtain ⟨a1, _, a3⟩ := h _ hm
    obtain ⟨b1, _, b3⟩ := h _ hm'
    simp only [sample, Sample.mk.injEq] at e
    simp only at a1 b1 a3 b3
    obtain ⟨e1, e2, e3, e4⟩ := e
    have hn : ∀ n n' : Str, '_' ∉ n → '_' ∉ n' → n.map (fun c => if c = '.' then '_' else c) = n'.map (fun c => if c = '.' then '_' else c) → n = n' := by
      intro n
      induction n with
      | nil => intro n' _ _ e; simpa using e.symm
      | cons c n ih =>
        intro n' hn hn' e
        cases n' with
        | nil => simp at e
        | cons c' n' =>
          simp only [List.map_cons, List.cons.injEq] at e
          rw [ih n' (fun hm => hn (by simp [hm])) (fun hm => hn' (by simp [hm])) e.2]
          have hc : c ≠ '_' := fun x => hn (by simp [x])
          have hc' : c' ≠ '_' := fun x => hn' (by simp [x])
          have : c = c' := by
            have e1 := e.1
            by_cases h1 : c = '.' <;> by_cases h2 : c' = '.'
            · rw [h1, h2]
            · rw [if_pos h1, if_neg h2] at e1; exact absurd e1.symm hc'
            · rw [if_neg h1, if_pos h2] at e1; exact absurd e1 hc
            · rwa [if_neg h1, if_neg h2] at e1
          rw [this]
    rw [hn n n' a3 b3 e1, e2, e3, e4, a1, b1]
  have key : ∀ l l' : List MD, (∀ m ∈ l, m ∈ ms ++ ms') → (∀ m ∈ l', m ∈ ms ++ ms') → l'.map sample = l.map sample → l = l' := by
    intro l
    induction l with
    | nil => intro l' _ _ e; simpa using e
    | cons m l ih =>
      intro l' hl hl' e
      cases l' with
      | nil => simp at e
      | cons m' l' =>
        simp only [List.map_cons, List.cons.injEq] at e
        rw [ih l' (fun x hx => hl x (by simp [hx])) (fun x hx => hl' x (by simp [hx])) e.2, hinj m' m (hl' m' (by simp)) (hl m (by simp)) e.1]
  exact key ms ms' (fun m hm => by simp [hm]) (fun m hm => by simp [hm]) h1

end Verif.Prometheus
