import Verif.Py.Dict
/-!
# Model of satella/instrumentation/metrics/data.py (MetricData, MetricDataCollection), and C42

A collection keeps its entries in a set.  A set keeps the hash an element had when it was put in; looking for an element compares hashes first.  The hash is any function of name and labels.
The names of entries can be changed while they are in a set.
Simplification: a collection has its own copies of the entries, while the code shares them between collections made from each other.
-/
namespace Verif.Metrics
open Verif

/-- names; labels are of any type with equality.  (Part of the model of `join_metric_data_name`, /repo/satella/instrumentation/metrics/data.py:7-11.) -/
abbrev Name := List Char

/-- `join_metric_data_name`, /repo/satella/instrumentation/metrics/data.py:7-11 -/
def joinName (pre name : Name) : Name := if pre = [] then name else pre ++ '.' :: name

/-- `MetricData`, /repo/satella/instrumentation/metrics/data.py:14-24 -/
structure MD (Λ ν : Type) where
  name : Name
  value : ν
  labels : Λ
  ts : Option Int := none
  internal : Bool := false
  deriving DecidableEq, Repr

variable {Λ ν : Type} [DecidableEq Λ]

/-- what `__eq__` compares and `__hash__` hashes, /repo/satella/instrumentation/metrics/data.py:31-32, :40-41 -/
def MD.key (m : MD Λ ν) : Name × Λ := (m.name, m.labels)

/-- an element of a set, with the hash it had when added.  (Part of the model of `MetricDataCollection`, /repo/satella/instrumentation/metrics/data.py:71-198.) -/
structure Slot (Λ ν : Type) where
  hash : Nat
  md : MD Λ ν
  deriving DecidableEq, Repr

/-- `values`, /repo/satella/instrumentation/metrics/data.py:75, in the order of iteration -/
abbrev Coll (Λ ν : Type) := List (Slot Λ ν)

section
variable (H : Name × Λ → Nat)

/-- does a slot answer to an element.  (Part of the model of `MetricDataCollection`, /repo/satella/instrumentation/metrics/data.py:71-198.) -/
def Slot.is (e : Slot Λ ν) (m : MD Λ ν) : Bool := decide (e.hash = H m.key) && decide (e.md.key = m.key)

/-- `m in values`.  (Part of the model of `MetricDataCollection`, /repo/satella/instrumentation/metrics/data.py:71-198.) -/
def contains (s : Coll Λ ν) (m : MD Λ ν) : Bool := s.any (fun e => e.is H m)

/-- `values.add(m)`.  (Part of the model of `MetricDataCollection`, /repo/satella/instrumentation/metrics/data.py:71-198.) -/
def Coll.add (s : Coll Λ ν) (m : MD Λ ν) : Coll Λ ν := if contains H s m then s else s ++ [⟨H m.key, m⟩]

/-- `values.remove(m)`.  (Part of the model of `MetricDataCollection`, /repo/satella/instrumentation/metrics/data.py:71-198.) -/
def Coll.remove (s : Coll Λ ν) (m : MD Λ ν) : Coll Λ ν := s.eraseP (fun e => e.is H m)

/-- `MetricDataCollection(iterable)`, /repo/satella/instrumentation/metrics/data.py:87-98 -/
def Coll.ofList (l : List (MD Λ ν)) : Coll Λ ν := l.foldl (Coll.add H) []

/-- `__add_metric_data`, /repo/satella/instrumentation/metrics/data.py:141-146; also `__iadd_metric_data`, :166-170 -/
def Coll.addOne (s : Coll Λ ν) (m : MD Λ ν) : Coll Λ ν := Coll.add H (if contains H s m then Coll.remove H s m else s) m

/-- `__add_metric_data_collection`, /repo/satella/instrumentation/metrics/data.py:148-155; also `__iadd_metric_data_collection`, :157-164 -/
def Coll.addColl (a b : Coll Λ ν) : Coll Λ ν := a.foldl (fun b e => if contains H b e.md then b else Coll.add H b e.md) b

/-- `prefix_with`, /repo/satella/instrumentation/metrics/data.py:130-133, :34-35 -/
def Coll.prefixWith (p : Name) (s : Coll Λ ν) : Coll Λ ν := s.map (fun e => { e with md := { e.md with name := joinName p e.md.name } })

/-- `postfix_with`, /repo/satella/instrumentation/metrics/data.py:135-139, :37-38 -/
def Coll.postfixWith (p : Name) (s : Coll Λ ν) : Coll Λ ν := s.map (fun e => { e with md := { e.md with name := joinName e.md.name p } })

/-- `add_labels`, /repo/satella/instrumentation/metrics/data.py:77-82; `upd` adds the labels to those there -/
def Coll.addLabels (upd : Λ → Λ) (s : Coll Λ ν) : Coll Λ ν := Coll.ofList H (s.map (fun e => { e.md with labels := upd e.md.labels }))

/-- `set_value`, /repo/satella/instrumentation/metrics/data.py:188-192 -/
def Coll.setValue (v : ν) (s : Coll Λ ν) : Coll Λ ν := s.map (fun e => { e with md := { e.md with value := v } })

/-- `set_timestamp`, /repo/satella/instrumentation/metrics/data.py:179-183 -/
def Coll.setTimestamp (t : Option Int) (s : Coll Λ ν) : Coll Λ ν := s.map (fun e => { e with md := { e.md with ts := t } })

/-- `remove_internals`, /repo/satella/instrumentation/metrics/data.py:194-198 -/
def Coll.removeInternals (s : Coll Λ ν) : Coll Λ ν := Coll.ofList H ((s.filter (fun e => !e.md.internal)).map (·.md))

end

variable [DecidableEq ν]

/-- the outer loop of `strict_eq`, /repo/satella/instrumentation/metrics/data.py:108-117: `found` is values_found -/
def strictLoop (b : Coll Λ ν) : List (Slot Λ ν) → Nat → Bool
  | [], found => decide (found = b.length)
  | e :: a, found =>
    match b.find? (fun e2 => decide (e.md.key = e2.md.key)) with
    | none => false
    | some e2 => if e.md.value ≠ e2.md.value then false else strictLoop b a (found + 1)

/-- `strict_eq`, /repo/satella/instrumentation/metrics/data.py:103-117 -/
def strictEq (a b : Coll Λ ν) : Bool := strictLoop b a 0

/-! ## Specification -/

/-- the collection has this entry -/
def Has (s : Coll Λ ν) (m : MD Λ ν) : Prop := ∃ e ∈ s, e.md = m

/-- it has an entry with this name and these labels -/
def HasKey (s : Coll Λ ν) (k : Name × Λ) : Prop := ∃ m, Has s m ∧ m.key = k

/-- at most one entry for a name and labels: no two places hold entries of the same key -/
def OnePerKey (s : Coll Λ ν) : Prop := s.Pairwise (fun e e' => e.md.key ≠ e'.md.key)

/-- made by operations that do not change names in place -/
inductive Built (H : Name × Λ → Nat) : Coll Λ ν → Prop
  | ofList (l : List (MD Λ ν)) : Built H (Coll.ofList H l)
  | addOne {s : Coll Λ ν} (m : MD Λ ν) : Built H s → Built H (Coll.addOne H s m)
  | addColl {a b : Coll Λ ν} : Built H a → Built H b → Built H (Coll.addColl H a b)
  | addLabels {s : Coll Λ ν} (upd : Λ → Λ) : Built H s → Built H (Coll.addLabels H upd s)
  | setValue {s : Coll Λ ν} (v : ν) : Built H s → Built H (s.setValue v)
  | setTimestamp {s : Coll Λ ν} (t : Option Int) : Built H s → Built H (s.setTimestamp t)
  | removeInternals {s : Coll Λ ν} : Built H s → Built H (Coll.removeInternals H s)

/-! ## C42 -/

section
omit [DecidableEq ν]
variable {H : Name × Λ → Nat}

/-- every stored hash is that of the entry as it is now -/
def Fresh (H : Name × Λ → Nat) (s : Coll Λ ν) : Prop := ∀ e ∈ s, e.hash = H e.md.key

theorem contains_iff {s : Coll Λ ν} (h : Fresh H s) (m : MD Λ ν) : contains H s m = true ↔ HasKey s m.key := by
  simp only [contains, List.any_eq_true, Slot.is, Bool.and_eq_true, decide_eq_true_eq]
  constructor
  · rintro ⟨e, he, _, hk⟩; exact ⟨e.md, ⟨e, he, rfl⟩, hk⟩
  · rintro ⟨m', ⟨e, he, rfl⟩, hk⟩
    exact ⟨e, he, by rw [h e he, hk], hk⟩

theorem fresh_add {s : Coll Λ ν} (h : Fresh H s) (m : MD Λ ν) : Fresh H (Coll.add H s m) := by
  unfold Coll.add
  split
  · exact h
  · intro e he
    rcases List.mem_append.1 he with he | he
    · exact h e he
    · simp only [List.mem_singleton] at he; subst he; rfl

theorem one_add {s : Coll Λ ν} (hf : Fresh H s) (h : OnePerKey s) (m : MD Λ ν) : OnePerKey (Coll.add H s m) := by
  unfold Coll.add
  split
  · exact h
  · rename_i hc
    rw [contains_iff hf] at hc
    refine List.pairwise_append.2 ⟨h, List.pairwise_singleton _ _, fun e he e' he' hk => ?_⟩
    simp only [List.mem_singleton] at he'
    subst he'
    exact hc ⟨e.md, ⟨e, he, rfl⟩, hk⟩

theorem has_add {s : Coll Λ ν} (hf : Fresh H s) (m x : MD Λ ν) : Has (Coll.add H s m) x ↔ Has s x ∨ (x = m ∧ ¬ HasKey s m.key) := by
  unfold Coll.add
  by_cases hc : contains H s m = true
  · rw [if_pos hc]
    rw [contains_iff hf] at hc
    simp [hc]
  · rw [if_neg hc]
    rw [contains_iff hf] at hc
    simp only [hc, not_false_eq_true, and_true, Has, List.mem_append, List.mem_singleton]
    constructor
    · rintro ⟨e, he | rfl, rfl⟩
      · exact Or.inl ⟨e, he, rfl⟩
      · exact Or.inr rfl
    · rintro (⟨e, he, rfl⟩ | rfl)
      · exact ⟨e, Or.inl he, rfl⟩
      · exact ⟨_, Or.inr rfl, rfl⟩

theorem good_ofList (l : List (MD Λ ν)) : Fresh H (Coll.ofList H l) ∧ OnePerKey (Coll.ofList H l) := by
  suffices ∀ s : Coll Λ ν, Fresh H s → OnePerKey s → Fresh H (l.foldl (Coll.add H) s) ∧ OnePerKey (l.foldl (Coll.add H) s) from
    this [] (fun e he => by cases he) List.Pairwise.nil
  induction l with
  | nil => exact fun s h1 h2 => ⟨h1, h2⟩
  | cons m l ih => exact fun s h1 h2 => ih _ (fresh_add h1 m) (one_add h1 h2 m)

theorem fresh_remove {s : Coll Λ ν} (h : Fresh H s) (m : MD Λ ν) : Fresh H (Coll.remove H s m) := fun e he => h e (List.mem_of_mem_eraseP he)

theorem one_remove {s : Coll Λ ν} (h : OnePerKey s) (m : MD Λ ν) : OnePerKey (Coll.remove H s m) := h.sublist List.eraseP_sublist

theorem has_remove {s : Coll Λ ν} (hf : Fresh H s) (h : OnePerKey s) (m x : MD Λ ν) : Has (Coll.remove H s m) x ↔ Has s x ∧ x.key ≠ m.key := by
  unfold Coll.remove
  induction s with
  | nil => simp [Has]
  | cons e s ih =>
    have hf' : Fresh H s := fun e' he' => hf e' (List.mem_cons_of_mem _ he')
    have h' := List.pairwise_cons.1 h
    have his : e.is H m = true ↔ e.md.key = m.key := by
      simp only [Slot.is, Bool.and_eq_true, decide_eq_true_eq]
      constructor
      · exact fun h => h.2
      · exact fun hk => ⟨by rw [hf e (List.mem_cons_self ..), hk], hk⟩
    by_cases he : e.is H m = true
    · rw [List.eraseP_cons_of_pos (p := fun e : Slot Λ ν => e.is H m) he]
      rw [his] at he
      constructor
      · rintro ⟨e', he', rfl⟩
        exact ⟨⟨e', List.mem_cons_of_mem _ he', rfl⟩, fun hk => h'.1 e' he' (he.trans hk.symm)⟩
      · rintro ⟨⟨e', he', rfl⟩, hk⟩
        rcases List.mem_cons.1 he' with rfl | he'
        · exact absurd he hk
        · exact ⟨e', he', rfl⟩
    · rw [List.eraseP_cons_of_neg (p := fun e : Slot Λ ν => e.is H m) he]
      have ih := ih hf' h'.2
      constructor
      · rintro ⟨e', he', rfl⟩
        rcases List.mem_cons.1 he' with rfl | he'
        · exact ⟨⟨e', List.mem_cons_self .., rfl⟩, fun hk => he (his.2 hk)⟩
        · obtain ⟨⟨e2, h2, h3⟩, h4⟩ := ih.1 ⟨e', he', rfl⟩
          exact ⟨⟨e2, List.mem_cons_of_mem _ h2, h3⟩, h4⟩
      · rintro ⟨⟨e', he', rfl⟩, hk⟩
        rcases List.mem_cons.1 he' with rfl | he'
        · exact ⟨e', List.mem_cons_self .., rfl⟩
        · obtain ⟨e2, h2, h3⟩ := ih.2 ⟨⟨e', he', rfl⟩, hk⟩
          exact ⟨e2, List.mem_cons_of_mem _ h2, h3⟩

theorem good_addOne {s : Coll Λ ν} (hf : Fresh H s) (h : OnePerKey s) (m : MD Λ ν) : Fresh H (Coll.addOne H s m) ∧ OnePerKey (Coll.addOne H s m) := by
  unfold Coll.addOne
  split
  · exact ⟨fresh_add (fresh_remove hf m) m, one_add (fresh_remove hf m) (one_remove h m) m⟩
  · exact ⟨fresh_add hf m, one_add hf h m⟩

theorem addColl_cons (e : Slot Λ ν) (a b : Coll Λ ν) : Coll.addColl H (e :: a) b = Coll.addColl H a (Coll.add H b e.md) := by
  simp only [Coll.addColl, List.foldl_cons]
  congr 1
  unfold Coll.add
  split <;> simp_all

theorem good_addColl (a : Coll Λ ν) : ∀ {b : Coll Λ ν}, Fresh H b → OnePerKey b → Fresh H (Coll.addColl H a b) ∧ OnePerKey (Coll.addColl H a b) := by
  induction a with
  | nil => exact fun h1 h2 => ⟨h1, h2⟩
  | cons e a ih =>
    intro b h1 h2
    rw [addColl_cons]
    exact ih (fresh_add h1 _) (one_add h1 h2 _)

theorem has_addColl (a : Coll Λ ν) (ha : OnePerKey a) : ∀ {b : Coll Λ ν}, Fresh H b → ∀ x, Has (Coll.addColl H a b) x ↔ Has b x ∨ (Has a x ∧ ¬ HasKey b x.key) := by
  induction a with
  | nil => intro b _ x; simp [Coll.addColl, Has]
  | cons e a ih =>
    intro b hb x
    rw [addColl_cons, ih (List.pairwise_cons.1 ha).2 (fresh_add hb _), has_add hb]
    have hk : HasKey (Coll.add H b e.md) x.key ↔ HasKey b x.key ∨ (e.md.key = x.key ∧ ¬ HasKey b e.md.key) := by
      constructor
      · rintro ⟨m, hm, hmk⟩
        rcases (has_add hb _ _).1 hm with hm | ⟨rfl, hn⟩
        · exact Or.inl ⟨m, hm, hmk⟩
        · exact Or.inr ⟨hmk, hn⟩
      · rintro (⟨m, hm, hmk⟩ | ⟨hmk, hn⟩)
        · exact ⟨m, (has_add hb _ _).2 (Or.inl hm), hmk⟩
        · exact ⟨e.md, (has_add hb _ _).2 (Or.inr ⟨rfl, hn⟩), hmk⟩
    rw [hk]
    have hcons : Has (e :: a) x ↔ x = e.md ∨ Has a x := by
      constructor
      · rintro ⟨e', he', rfl⟩
        rcases List.mem_cons.1 he' with rfl | he'
        · exact Or.inl rfl
        · exact Or.inr ⟨e', he', rfl⟩
      · rintro (rfl | ⟨e', he', rfl⟩)
        · exact ⟨e, List.mem_cons_self .., rfl⟩
        · exact ⟨e', List.mem_cons_of_mem _ he', rfl⟩
    rw [hcons]
    have hne : Has a x → ¬ e.md.key = x.key := by
      rintro ⟨e', he', rfl⟩; exact (List.pairwise_cons.1 ha).1 e' he'
    constructor
    · rintro ((h | ⟨rfl, hn⟩) | ⟨h, hn⟩)
      · exact Or.inl h
      · exact Or.inr ⟨Or.inl rfl, hn⟩
      · exact Or.inr ⟨Or.inr h, fun h' => hn (Or.inl h')⟩
    · rintro (h | ⟨rfl | h, hn⟩)
      · exact Or.inl (Or.inl h)
      · exact Or.inl (Or.inr ⟨rfl, hn⟩)
      · exact Or.inr ⟨h, fun h' => h'.elim hn (fun h' => hne h h'.1)⟩

theorem built_good {s : Coll Λ ν} (h : Built H s) : Fresh H s ∧ OnePerKey s := by
  induction h with
  | ofList l => exact good_ofList l
  | addOne m _ ih => exact good_addOne ih.1 ih.2 m
  | addColl _ _ _ ihb => exact good_addColl _ ihb.1 ihb.2
  | addLabels upd _ _ => exact good_ofList _
  | setValue v _ ih =>
    refine ⟨fun e he => ?_, ?_⟩
    · obtain ⟨e', he', rfl⟩ := List.mem_map.1 he
      exact ih.1 e' he'
    · exact List.pairwise_map.2 ih.2
  | setTimestamp t _ ih =>
    refine ⟨fun e he => ?_, ?_⟩
    · obtain ⟨e', he', rfl⟩ := List.mem_map.1 he
      exact ih.1 e' he'
    · exact List.pairwise_map.2 ih.2
  | removeInternals _ _ => exact good_ofList _

/-- **C42, one entry per name and labels** (partial: as long as no names are changed in place). -/
theorem C42_one_per_key_partial {s : Coll Λ ν} (h : Built H s) : OnePerKey s := (built_good h).2

/-- **C42, adding an entry** (partial: as long as no names are changed in place): the entry is there, the others are kept except that with the same name and labels, and nothing else is there. -/
theorem C42_add_entry_partial {s : Coll Λ ν} (h : Built H s) (m x : MD Λ ν) : Has (Coll.addOne H s m) x ↔ x = m ∨ (Has s x ∧ x.key ≠ m.key) := by
  obtain ⟨hf, ho⟩ := built_good h
  unfold Coll.addOne
  by_cases hc : contains H s m = true
  · rw [if_pos hc, has_add (fresh_remove hf m), has_remove hf ho]
    have : ¬ HasKey (Coll.remove H s m) m.key := by
      rintro ⟨m', hm', hk⟩
      exact ((has_remove hf ho m m').1 hm').2 hk
    simp only [this, not_false_eq_true, and_true]
    exact Or.comm
  · rw [if_neg hc, has_add hf]
    rw [contains_iff hf] at hc
    constructor
    · rintro (h | ⟨rfl, _⟩)
      · exact Or.inr ⟨h, fun hk => hc ⟨x, h, hk⟩⟩
      · exact Or.inl rfl
    · rintro (rfl | ⟨h, _⟩)
      · exact Or.inr ⟨rfl, hc⟩
      · exact Or.inl h

/-- **C42, adding a collection** (partial: as long as no names are changed in place): all entries of the right operand, and those of the left one whose name and labels the right one does not have. -/
theorem C42_add_partial {a b : Coll Λ ν} (ha : Built H a) (hb : Built H b) (x : MD Λ ν) : Has (Coll.addColl H a b) x ↔ Has b x ∨ (Has a x ∧ ¬ HasKey b x.key) :=
  has_addColl a (built_good ha).2 (built_good hb).1 x

theorem ofList_mem (l : List (MD Λ ν)) (hd : l.Pairwise (fun a b => a.key ≠ b.key)) (x : MD Λ ν) : Has (Coll.ofList H l) x ↔ x ∈ l := by
  have gen : ∀ (l : List (MD Λ ν)) (s : Coll Λ ν), Fresh H s → l.Pairwise (fun a b => a.key ≠ b.key) → (∀ m ∈ l, ¬ HasKey s m.key) → (Has (l.foldl (Coll.add H) s) x ↔ Has s x ∨ x ∈ l) := by
    intro l
    induction l with
    | nil => intro s _ _ _; simp
    | cons m l ih =>
      intro s hs hp hk
      obtain ⟨h1, h2⟩ := List.pairwise_cons.1 hp
      have hm := hk m (List.mem_cons_self ..)
      rw [List.foldl_cons, ih _ (fresh_add hs m) h2 ?_, has_add hs, List.mem_cons]
      · constructor
        · rintro ((h | ⟨h, _⟩) | h)
          · exact Or.inl h
          · exact Or.inr (Or.inl h)
          · exact Or.inr (Or.inr h)
        · rintro (h | h | h)
          · exact Or.inl (Or.inl h)
          · exact Or.inl (Or.inr ⟨h, hm⟩)
          · exact Or.inr h
      · rintro m' hm' ⟨y, hy, hyk⟩
        rcases (has_add hs m y).1 hy with hy | ⟨rfl, _⟩
        · exact hk m' (List.mem_cons_of_mem _ hm') ⟨y, hy, hyk⟩
        · exact h1 m' hm' hyk
  have := gen l [] (by intro e he; cases he) hd (by rintro m _ ⟨y, ⟨e, he, _⟩, _⟩; cases he)
  rw [Coll.ofList, this]
  constructor
  · rintro (⟨e, he, _⟩ | h)
    · cases he
    · exact h
  · exact Or.inr

/-- **C42, adding labels**: if the entries can be told apart by name and labels afterwards, each is there with the new labels and is otherwise as it was, and nothing else is there. -/
theorem C42_labels (H : Name × Λ → Nat) (s : Coll Λ ν) (upd : Λ → Λ) (hd : s.Pairwise (fun a b => (a.md.name, upd a.md.labels) ≠ (b.md.name, upd b.md.labels))) (x : MD Λ ν) :
    Has (Coll.addLabels H upd s) x ↔ ∃ m, Has s m ∧ x = { m with labels := upd m.labels } := by
  rw [Coll.addLabels, ofList_mem _ (List.pairwise_map.2 hd), List.mem_map]
  constructor
  · rintro ⟨e, he, rfl⟩; exact ⟨e.md, ⟨e, he, rfl⟩, rfl⟩
  · rintro ⟨_, ⟨e, he, rfl⟩, rfl⟩; exact ⟨e, he, rfl⟩

/-- **C42, removing internals**: the entries that are not internal are there as they were, and nothing else. -/
theorem C42_internals (H : Name × Λ → Nat) {s : Coll Λ ν} (h : OnePerKey s) (x : MD Λ ν) : Has (Coll.removeInternals H s) x ↔ Has s x ∧ x.internal = false := by
  have hd : ((s.filter (fun e => !e.md.internal)).map (·.md)).Pairwise (fun a b => a.key ≠ b.key) := List.pairwise_map.2 (h.sublist List.filter_sublist)
  rw [Coll.removeInternals, ofList_mem _ hd, List.mem_map]
  constructor
  · rintro ⟨e, he, rfl⟩
    simp only [List.mem_filter, Bool.not_eq_true'] at he
    exact ⟨⟨e, he.1, rfl⟩, he.2⟩
  · rintro ⟨⟨e, he, rfl⟩, hi⟩
    exact ⟨e, by simp [List.mem_filter, he, hi], rfl⟩

/-- **C42, setting values and timestamps**: each entry is there with the new value (timestamp) and is otherwise as it was, and nothing else is there. -/
theorem C42_set (s : Coll Λ ν) (v : ν) (t : Option Int) (x : MD Λ ν) :
    (Has (s.setValue v) x ↔ ∃ m, Has s m ∧ x = { m with value := v }) ∧ (Has (s.setTimestamp t) x ↔ ∃ m, Has s m ∧ x = { m with ts := t }) := by
  constructor <;> simp only [Has, Coll.setValue, Coll.setTimestamp, List.mem_map]
  all_goals
    constructor
    · rintro ⟨_, ⟨e, he, rfl⟩, rfl⟩; exact ⟨_, ⟨e, he, rfl⟩, rfl⟩
    · rintro ⟨_, ⟨e, he, rfl⟩, rfl⟩; exact ⟨_, ⟨e, he, rfl⟩, rfl⟩

/-- renaming in place keeps at most one entry per name and labels, for the moment -/
theorem C42_prefix {s : Coll Λ ν} (h : OnePerKey s) (p : Name) : OnePerKey (s.prefixWith p) ∧ ∀ x, Has (s.prefixWith p) x ↔ ∃ m, Has s m ∧ x = { m with name := joinName p m.name } := by
  constructor
  · refine List.pairwise_map.2 (h.imp (fun {a b} hab hk => hab ?_))
    simp only [MD.key, Prod.mk.injEq] at hk ⊢
    refine ⟨?_, hk.2⟩
    have hk := hk.1
    unfold joinName at hk
    split at hk
    · exact hk
    · have := List.append_cancel_left hk
      exact (List.cons.inj this).2
  · intro x
    constructor
    · rintro ⟨e, he, rfl⟩
      obtain ⟨e', he', rfl⟩ := List.mem_map.1 he
      exact ⟨e'.md, ⟨e', he', rfl⟩, rfl⟩
    · rintro ⟨m, ⟨e, he, rfl⟩, rfl⟩
      exact ⟨_, List.mem_map.2 ⟨e, he, rfl⟩, rfl⟩
end

theorem strictLoop_iff (b : Coll Λ ν) : ∀ (a : List (Slot Λ ν)) (n : Nat),
    strictLoop b a n = true ↔ (∀ e ∈ a, ∃ e2, b.find? (fun e2 => decide (e.md.key = e2.md.key)) = some e2 ∧ e.md.value = e2.md.value) ∧ n + a.length = b.length := by
  intro a
  induction a with
  | nil => intro n; simp [strictLoop]
  | cons e a ih =>
    intro n
    rw [strictLoop]
    cases hf : b.find? (fun e2 => decide (e.md.key = e2.md.key)) with
    | none => simp [hf]
    | some e2 =>
      by_cases hv : e.md.value = e2.md.value
      · simp only [hv, ne_eq, not_true_eq_false, if_false, ih, List.forall_mem_cons, hf, Option.some.injEq, exists_eq_left', true_and, List.length_cons]
        constructor
        · rintro ⟨h1, h2⟩; exact ⟨h1, by omega⟩
        · rintro ⟨h1, h2⟩; exact ⟨h1, by omega⟩
      · simp [hv, hf]

theorem find_key {b : Coll Λ ν} (hb : OnePerKey b) {k : Name × Λ} {e2 : Slot Λ ν} :
    b.find? (fun e2 => decide (k = e2.md.key)) = some e2 ↔ e2 ∈ b ∧ e2.md.key = k := by
  constructor
  · intro h
    have h1 := List.find?_some h
    simp only [decide_eq_true_eq] at h1
    exact ⟨List.mem_of_find?_eq_some h, h1.symm⟩
  · rintro ⟨h, rfl⟩
    induction b with
    | nil => cases h
    | cons e b ih =>
      rw [List.find?_cons]
      rcases List.mem_cons.1 h with rfl | h
      · simp
      · have := (List.pairwise_cons.1 hb).1 e2 h
        simp only [decide_eq_false (fun hk => this (Eq.symm hk))]
        exact ih (List.pairwise_cons.1 hb).2 h

theorem inj_length {α : Type} [DecidableEq α] : ∀ {a b : List α}, a.Nodup → (∀ x ∈ a, x ∈ b) → a.length ≤ b.length ∧ (a.length = b.length → b.Nodup → ∀ x ∈ b, x ∈ a) := by
  intro a
  induction a with
  | nil =>
    intro b _ _
    refine ⟨Nat.zero_le _, fun hl _ x hx => ?_⟩
    rw [List.eq_nil_of_length_eq_zero hl.symm] at hx
    exact hx
  | cons y a ih =>
    intro b hn hs
    have hn' := List.nodup_cons.1 hn
    have hyb := hs y (List.mem_cons_self ..)
    have hs' : ∀ x ∈ a, x ∈ b.erase y := by
      intro x hx
      have : x ≠ y := fun hxy => hn'.1 (hxy ▸ hx)
      exact (List.mem_erase_of_ne this).2 (hs x (List.mem_cons_of_mem _ hx))
    have hlen := List.length_erase_of_mem hyb
    have hpos : 0 < b.length := List.length_pos_of_mem hyb
    obtain ⟨h1, h2⟩ := ih hn'.2 hs'
    simp only [List.length_cons]
    refine ⟨by omega, fun hl hbn x hx => ?_⟩
    by_cases hxy : x = y
    · exact hxy ▸ List.mem_cons_self ..
    · exact List.mem_cons_of_mem _ (h2 (by omega) (hbn.erase y) x ((List.mem_erase_of_ne hxy).2 hx))

theorem keys_nodup {s : Coll Λ ν} (h : OnePerKey s) : (s.map (fun e => e.md.key)).Nodup := List.pairwise_map.2 h

/-- **C42, strict_eq.** True exactly if both have entries of the same names and labels, with the same values. -/
theorem C42_strict_eq {a b : Coll Λ ν} (ha : OnePerKey a) (hb : OnePerKey b) :
    strictEq a b = true ↔ ∀ k v, (∃ m, Has a m ∧ m.key = k ∧ m.value = v) ↔ (∃ m, Has b m ∧ m.key = k ∧ m.value = v) := by
  have key_inj : ∀ {s : Coll Λ ν}, OnePerKey s → ∀ e ∈ s, ∀ e' ∈ s, e.md.key = e'.md.key → e = e' := by
    intro s hs e he e' he' hk
    have h1 := (find_key hs (k := e.md.key)).2 ⟨he, rfl⟩
    have h2 := (find_key hs (k := e.md.key)).2 ⟨he', hk.symm⟩
    rw [h1] at h2
    exact Option.some.inj h2
  rw [strictEq, strictLoop_iff, Nat.zero_add]
  constructor
  · rintro ⟨h1, h2⟩
    have hfwd : ∀ e ∈ a, ∃ e2 ∈ b, e2.md.key = e.md.key ∧ e.md.value = e2.md.value := by
      intro e he
      obtain ⟨e2, hf, hv⟩ := h1 e he
      obtain ⟨h3, h4⟩ := (find_key hb).1 hf
      exact ⟨e2, h3, h4, hv⟩
    have hsub : ∀ k ∈ a.map (fun e => e.md.key), k ∈ b.map (fun e => e.md.key) := by
      intro k hk
      obtain ⟨e, he, rfl⟩ := List.mem_map.1 hk
      obtain ⟨e2, h3, h4, _⟩ := hfwd e he
      exact List.mem_map.2 ⟨e2, h3, h4⟩
    have hback := (inj_length (keys_nodup ha) hsub).2 (by simpa using h2) (keys_nodup hb)
    intro k v
    constructor
    · rintro ⟨m, ⟨e, he, rfl⟩, rfl, rfl⟩
      obtain ⟨e2, h3, h4, h5⟩ := hfwd e he
      exact ⟨e2.md, ⟨e2, h3, rfl⟩, h4, h5.symm⟩
    · rintro ⟨m, ⟨e2, he2, rfl⟩, rfl, rfl⟩
      obtain ⟨e, he, hk⟩ := List.mem_map.1 (hback _ (List.mem_map.2 ⟨e2, he2, rfl⟩))
      obtain ⟨e3, h3, h4, h5⟩ := hfwd e he
      have := key_inj hb e3 h3 e2 he2 (h4.trans hk)
      subst this
      exact ⟨e.md, ⟨e, he, rfl⟩, hk, h5⟩
  · intro h
    have hfwd : ∀ e ∈ a, ∃ e2 ∈ b, e2.md.key = e.md.key ∧ e2.md.value = e.md.value := by
      intro e he
      obtain ⟨m, ⟨e2, h2, rfl⟩, h3, h4⟩ := (h e.md.key e.md.value).1 ⟨e.md, ⟨e, he, rfl⟩, rfl, rfl⟩
      exact ⟨e2, h2, h3, h4⟩
    have hbwd : ∀ e ∈ b, ∃ e2 ∈ a, e2.md.key = e.md.key ∧ e2.md.value = e.md.value := by
      intro e he
      obtain ⟨m, ⟨e2, h2, rfl⟩, h3, h4⟩ := (h e.md.key e.md.value).2 ⟨e.md, ⟨e, he, rfl⟩, rfl, rfl⟩
      exact ⟨e2, h2, h3, h4⟩
    refine ⟨fun e he => ?_, ?_⟩
    · obtain ⟨e2, h2, h3, h4⟩ := hfwd e he
      exact ⟨e2, (find_key hb).2 ⟨h2, h3⟩, h4.symm⟩
    · have h1 : ∀ k ∈ a.map (fun e => e.md.key), k ∈ b.map (fun e => e.md.key) := by
        intro k hk
        obtain ⟨e, he, rfl⟩ := List.mem_map.1 hk
        obtain ⟨e2, h3, h4, _⟩ := hfwd e he
        exact List.mem_map.2 ⟨e2, h3, h4⟩
      have h2 : ∀ k ∈ b.map (fun e => e.md.key), k ∈ a.map (fun e => e.md.key) := by
        intro k hk
        obtain ⟨e, he, rfl⟩ := List.mem_map.1 hk
        obtain ⟨e2, h3, h4, _⟩ := hbwd e he
        exact List.mem_map.2 ⟨e2, h3, h4⟩
      have l1 := (inj_length (keys_nodup ha) h1).1
      have l2 := (inj_length (keys_nodup hb) h2).1
      simp only [List.length_map] at l1 l2
      omega

/-- **C42, violated** after prefix_with: whatever the hash function, if only it tells the two names apart, the entry added does not override the one of the same name and labels: there are two. -/
theorem C42_prefix_violates (H : Name × Unit → Nat) (hH : H ("r.a".toList, ()) ≠ H ("a".toList, ())) :
    (Coll.addOne H ((Coll.ofList H [⟨"a".toList, 1, (), none, false⟩]).prefixWith "r".toList) ⟨"r.a".toList, 2, (), none, false⟩).map (fun e => (e.md.key, e.md.value)) =
      [(("r.a".toList, ()), 1), (("r.a".toList, ()), 2)] := by
  have h1 : ("r.a".toList : Name) = ['r', '.', 'a'] := rfl
  have h2 : ("a".toList : Name) = ['a'] := rfl
  have h3 : ("r".toList : Name) = ['r'] := rfl
  rw [h1, h2] at hH
  rw [h1, h2, h3]
  have hH' : ¬ H (['a'], ()) = H (['r', '.', 'a'], ()) := fun h => hH h.symm
  simp [Coll.ofList, Coll.add, Coll.addOne, contains, Coll.prefixWith, joinName, Slot.is, MD.key, hH']

/-! Concrete cases. -/

/-- a hash for examples -/
def hash0 : Name × Nat → Nat := fun k => k.1.length + k.2
/-- an entry -/
def mdA (v : Int) : MD Nat Int := ⟨"a".toList, v, 0, none, false⟩
/-- another entry -/
def mdB (v : Int) : MD Nat Int := ⟨"b".toList, v, 0, none, true⟩

example : Built hash0 (Coll.addColl hash0 (Coll.ofList hash0 [mdA 1, mdB 2]) (Coll.addOne hash0 (Coll.ofList hash0 []) (mdA 5))) := .addColl (.ofList _) (.addOne _ (.ofList _))
example : (Coll.addColl hash0 (Coll.ofList hash0 [mdA 1, mdB 2]) (Coll.addOne hash0 (Coll.ofList hash0 []) (mdA 5))).map (·.md) = [mdA 5, mdB 2] := by decide
example : (Coll.ofList hash0 [mdA 1, mdB 2]).Pairwise (fun a b => (a.md.name, id a.md.labels) ≠ (b.md.name, id b.md.labels)) := by
  simp [Coll.ofList, Coll.add, contains, Slot.is, mdA, mdB, MD.key]
example : strictEq (Coll.ofList hash0 [mdA 1, mdB 2]) (Coll.ofList hash0 [mdB 2, mdA 1]) = true := by decide
example : strictEq (Coll.ofList hash0 [mdA 1]) (Coll.ofList hash0 [mdB 2, mdA 1]) = false := by decide
example : OnePerKey (Coll.ofList hash0 [mdA 1, mdB 2]) := by simp [OnePerKey, Coll.ofList, Coll.add, contains, Slot.is, mdA, mdB, MD.key]

end Verif.Metrics
