/-!
# Model of dump_memory_on (satella/instrumentation/memory/dump_frames_on.py), C243

An object is its text (`repr`), its type, and its size; the objects are those that `gc.get_objects()` gives.  The text of the lines is left as their parts.
-/
namespace Verif.Memory.Dump

/-- An object: its text, or the exception its `__repr__` raises; its type; its size, `none` if `sys.getsizeof` raises TypeError.
(Part of the model of `dump_memory_on`, /repo/satella/instrumentation/memory/dump_frames_on.py:7-42.) -/
structure Obj where
  text : Except Nat Nat
  typ : Nat
  size : Option Nat

/-- A line written.  (Part of the model of `dump_memory_on`, /repo/satella/instrumentation/memory/dump_frames_on.py:7-42.) -/
inductive Line where
  /-- `object %s type %s size %s bytes` -/
  | object (text typ size : Nat)
  /-- the three lines of the heading -/
  | heading
  /-- `%s: %s bytes %s instances` -/
  | score (typ bytes instances : Nat)
  deriving DecidableEq, Repr

/-- `top_scores` and `instances`: two dicts with the same keys, kept as one, in the order of insertion.  (Part of the model of `dump_memory_on`, /repo/satella/instrumentation/memory/dump_frames_on.py:20-21.) -/
abbrev Scores := List (Nat × Nat × Nat)

/-- the size printed and added, /repo/satella/instrumentation/memory/dump_frames_on.py:24-27 -/
def Obj.bytes (o : Obj) : Nat := o.size.getD 0

/-- the two dicts after an object, /repo/satella/instrumentation/memory/dump_frames_on.py:28-33 -/
def addScore (typ size : Nat) : Scores → Scores
  | [] => [(typ, size, 1)]
  | (t, b, n) :: rest => if t = typ then (t, b + size, n + 1) :: rest else (t, b, n) :: addScore typ size rest

/-- the loop, /repo/satella/instrumentation/memory/dump_frames_on.py:22-34: the lines written, the dicts, and the exception of a `__repr__` -/
def loop : List Obj → Scores → List Line × Scores × Option Nat
  | [], sc => ([], sc, none)
  | o :: os, sc =>
    let sc' := addScore o.typ o.bytes sc
    match o.text with
    | .error e => ([], sc', some e)
    | .ok t =>
      let r := loop os sc'
      (.object t o.typ o.bytes :: r.1, r.2)

/-- an entry put at its place among entries sorted by descending size, behind those that are equal: `items.sort(key=lambda y: -y[1])` is stable.
/repo/satella/instrumentation/memory/dump_frames_on.py:39-40 -/
def insert (x : Nat × Nat × Nat) : Scores → Scores
  | [] => [x]
  | y :: ys => if x.2.1 > y.2.1 then x :: y :: ys else y :: insert x ys

/-- the sorted items, /repo/satella/instrumentation/memory/dump_frames_on.py:39-40 -/
def sorted (l : Scores) : Scores := l.foldl (fun acc x => insert x acc) []

/-- `dump_memory_on(output)`: what is written, and what is raised.  /repo/satella/instrumentation/memory/dump_frames_on.py:20-42 -/
def dump (os : List Obj) : List Line × Option Nat :=
  match loop os [] with
  | (ls, _, some e) => (ls, some e)
  | (ls, sc, none) => (ls ++ .heading :: (sorted sc).map (fun x => .score x.1 x.2.1 x.2.2), none)

/-! ## Specification -/

/-- how many bytes the objects of a type take -/
def bytesOf (os : List Obj) (t : Nat) : Nat := ((os.filter (fun o => o.typ == t)).map (fun o => o.size.getD 0)).sum

/-- how many objects of a type there are -/
def countOf (os : List Obj) (t : Nat) : Nat := (os.filter (fun o => o.typ == t)).length

/-- The breakdown: each type that occurs, once, with its bytes and its number of objects, the largest first. -/
def Breakdown (os : List Obj) (l : Scores) : Prop :=
  (∀ t b n, (t, b, n) ∈ l ↔ (∃ o ∈ os, o.typ = t) ∧ b = bytesOf os t ∧ n = countOf os t) ∧ (l.map (·.1)).Nodup ∧ l.Pairwise (fun x y => x.2.1 ≥ y.2.1)

/-! ## Proofs -/

theorem keys_addScore (t s : Nat) (sc : Scores) : (addScore t s sc).map (·.1) = if t ∈ sc.map (·.1) then sc.map (·.1) else sc.map (·.1) ++ [t] := by
  induction sc with
  | nil => rfl
  | cons x xs ih =>
    obtain ⟨a, b, n⟩ := x
    simp only [addScore]
    by_cases h : a = t
    · simp [h]
    · simp only [if_neg h, List.map_cons, ih, List.mem_cons]
      by_cases h2 : t ∈ xs.map (·.1)
      · simp [h2]
      · simp [h2, show ¬ t = a from fun e => h e.symm]

theorem mem_addScore (t s : Nat) (sc : Scores) (hn : (sc.map (·.1)).Nodup) (u b n : Nat) :
    (u, b, n) ∈ addScore t s sc ↔ if u = t then (∃ b' n', (t, b', n') ∈ sc ∧ b = b' + s ∧ n = n' + 1) ∨ (t ∉ sc.map (·.1) ∧ b = s ∧ n = 1) else (u, b, n) ∈ sc := by
  induction sc with
  | nil =>
    by_cases h : u = t
    · simp [addScore, h]
    · simp [addScore, h]
  | cons x xs ih =>
    obtain ⟨a, c, m⟩ := x
    simp only [List.map_cons, List.nodup_cons] at hn
    have ih := ih hn.2
    simp only [addScore]
    by_cases hat : a = t
    · subst hat
      simp only [List.mem_cons]
      by_cases hu : u = a
      · subst hu
        have : ∀ b n, (u, b, n) ∉ xs := fun b n h => hn.1 (List.mem_map.2 ⟨_, h, rfl⟩)
        simp [this]
        grind
      · simp [hu]
    · simp only [if_neg hat, List.mem_cons, ih]
      by_cases hu : u = t
      · subst hu
        simp [show ¬ u = a from fun e => hat e.symm]
      · simp [hu]

theorem bytesOf_append (os : List Obj) (o : Obj) (t : Nat) : bytesOf (os ++ [o]) t = bytesOf os t + if o.typ = t then o.bytes else 0 := by
  by_cases h : o.typ = t
  · simp [bytesOf, List.filter_append, h, Obj.bytes]
  · simp [bytesOf, List.filter_append, h]

theorem countOf_append (os : List Obj) (o : Obj) (t : Nat) : countOf (os ++ [o]) t = countOf os t + if o.typ = t then 1 else 0 := by
  by_cases h : o.typ = t
  · simp [countOf, List.filter_append, h]
  · simp [countOf, List.filter_append, h]

/-- the dicts are right for the objects seen -/
def Right (os : List Obj) (sc : Scores) : Prop :=
  (∀ t b n, (t, b, n) ∈ sc ↔ (∃ o ∈ os, o.typ = t) ∧ b = bytesOf os t ∧ n = countOf os t) ∧ (sc.map (·.1)).Nodup

theorem right_add {os : List Obj} {sc : Scores} (h : Right os sc) (o : Obj) : Right (os ++ [o]) (addScore o.typ o.bytes sc) := by
  have hk : ∀ t, t ∈ sc.map (·.1) ↔ ∃ p ∈ os, p.typ = t := by
    intro t
    constructor
    · intro hm
      obtain ⟨⟨a, b, n⟩, hm', rfl⟩ := List.mem_map.1 hm
      exact ((h.1 _ _ _).1 hm').1
    · intro hm
      exact List.mem_map.2 ⟨(t, bytesOf os t, countOf os t), (h.1 _ _ _).2 ⟨hm, rfl, rfl⟩, rfl⟩
  constructor
  · intro t b n
    rw [mem_addScore _ _ _ h.2, bytesOf_append, countOf_append]
    by_cases ht : t = o.typ
    · subst ht
      simp only [if_true]
      have hex : ∃ p ∈ os ++ [o], p.typ = o.typ := ⟨o, by simp, rfl⟩
      by_cases hm : o.typ ∈ sc.map (·.1)
      · have h' := (hk _).1 hm
        simp only [hm, not_true, false_and, or_false, hex, true_and]
        constructor
        · rintro ⟨b', n', hmem, rfl, rfl⟩
          have := ((h.1 _ _ _).1 hmem).2
          simp [this.1, this.2]
        · rintro ⟨rfl, rfl⟩
          exact ⟨_, _, (h.1 _ _ _).2 ⟨h', rfl, rfl⟩, rfl, rfl⟩
      · have h0 : ∀ p ∈ os, ¬ p.typ = o.typ := fun p hp e => hm ((hk _).2 ⟨p, hp, e⟩)
        have hf : os.filter (fun p => p.typ == o.typ) = [] := by
          rw [List.filter_eq_nil_iff]; intro p hp; simpa using h0 p hp
        have hno : ¬ ∃ b' n', (o.typ, b', n') ∈ sc ∧ b = b' + o.bytes ∧ n = n' + 1 := by
          rintro ⟨b', n', hmem, _⟩
          exact hm (List.mem_map.2 ⟨_, hmem, rfl⟩)
        simp only [hno, false_or, hm, not_false_iff, true_and, hex]
        simp [bytesOf, countOf, hf]
    · simp only [if_neg ht, h.1, if_neg (fun e => ht e.symm : ¬ o.typ = t), Nat.add_zero]
      have : (∃ p ∈ os ++ [o], p.typ = t) ↔ ∃ p ∈ os, p.typ = t := by
        constructor
        · rintro ⟨p, hp, e⟩
          rcases List.mem_append.1 hp with hp | hp
          · exact ⟨p, hp, e⟩
          · simp only [List.mem_singleton] at hp; subst hp; exact absurd e.symm ht
        · rintro ⟨p, hp, e⟩
          exact ⟨p, List.mem_append_left _ hp, e⟩
      rw [this]
  · rw [keys_addScore]
    by_cases hm : o.typ ∈ sc.map (·.1)
    · rw [if_pos hm]; exact h.2
    · rw [if_neg hm]
      exact List.nodup_append.2 ⟨h.2, by simp, by
        intro a ha b hb
        simp only [List.mem_singleton] at hb
        subst hb
        exact fun e => hm (e ▸ ha)⟩

theorem insert_perm (x : Nat × Nat × Nat) (l : Scores) : (insert x l).Perm (x :: l) := by
  induction l with
  | nil => exact .refl _
  | cons y ys ih =>
    simp only [insert]
    split
    · exact .refl _
    · exact (ih.cons y).trans (.swap x y ys)

theorem insert_pairwise (x : Nat × Nat × Nat) (l : Scores) (h : l.Pairwise (fun x y => x.2.1 ≥ y.2.1)) :
    (insert x l).Pairwise (fun x y => x.2.1 ≥ y.2.1) := by
  induction l with
  | nil => simp [insert]
  | cons y ys ih =>
    simp only [insert]
    have hc := List.pairwise_cons.1 h
    split
    · refine List.pairwise_cons.2 ⟨fun z hz => ?_, h⟩
      rcases List.mem_cons.1 hz with rfl | hz
      · omega
      · have := hc.1 z hz; omega
    · refine List.pairwise_cons.2 ⟨fun z hz => ?_, ih hc.2⟩
      rcases List.mem_cons.1 ((insert_perm x ys).mem_iff.1 hz) with rfl | hz
      · omega
      · exact hc.1 z hz

theorem sorted_perm (l : Scores) : (sorted l).Perm l := by
  have key : ∀ (l acc : Scores), (l.foldl (fun acc x => insert x acc) acc).Perm (acc ++ l) := by
    intro l
    induction l with
    | nil => intro acc; simp
    | cons x xs ih =>
      intro acc
      refine (ih _).trans ?_
      refine ((insert_perm x acc).append_right xs).trans ?_
      exact (List.perm_middle (a := x) (l₁ := acc) (l₂ := xs)).symm
  simpa [sorted] using key l []

theorem sorted_pairwise (l : Scores) : (sorted l).Pairwise (fun x y => x.2.1 ≥ y.2.1) := by
  have key : ∀ (l acc : Scores), acc.Pairwise (fun x y => x.2.1 ≥ y.2.1) → (l.foldl (fun acc x => insert x acc) acc).Pairwise (fun x y => x.2.1 ≥ y.2.1) := by
    intro l
    induction l with
    | nil => intro acc h; exact h
    | cons x xs ih => intro acc h; exact ih _ (insert_pairwise x acc h)
  exact key l [] List.Pairwise.nil

theorem loop_ok (os : List Obj) (text : Obj → Nat) (h : ∀ o ∈ os, o.text = .ok (text o)) (seen : List Obj) (sc : Scores) (hr : Right seen sc) :
    ∃ sc', loop os sc = (os.map (fun o => .object (text o) o.typ (o.size.getD 0)), sc', none) ∧ Right (seen ++ os) sc' := by
  induction os generalizing seen sc with
  | nil => exact ⟨sc, rfl, by simpa using hr⟩
  | cons o os ih =>
    obtain ⟨sc', h1, h2⟩ := ih (fun p hp => h p (by simp [hp])) (seen ++ [o]) _ (right_add hr o)
    refine ⟨sc', ?_, by simpa using h2⟩
    simp only [loop, h o (by simp), h1, List.map_cons]
    rfl

/-- **C243**: if every object has a text, one line is written for each object, in their order, with its type and size; then the heading; then the breakdown: for each type that
occurs, once, the bytes its objects take in total and how many they are, the largest first.  An object whose size cannot be told counts 0 bytes. -/
theorem C243_dump_partial (os : List Obj) (text : Obj → Nat) (h : ∀ o ∈ os, o.text = .ok (text o)) :
    ∃ l, dump os = (os.map (fun o => .object (text o) o.typ (o.size.getD 0)) ++ .heading :: l.map (fun x => .score x.1 x.2.1 x.2.2), none) ∧ Breakdown os l := by
  obtain ⟨sc, h1, h2⟩ := loop_ok os text h [] [] ⟨by simp, by simp⟩
  simp only [List.nil_append] at h2
  refine ⟨sorted sc, by simp [dump, h1], ?_, ?_, sorted_pairwise sc⟩
  · intro t b n
    rw [(sorted_perm sc).mem_iff]
    exact h2.1 t b n
  · exact ((sorted_perm sc).map (·.1)).nodup_iff.2 h2.2

/-- **C243, the totals**: the bytes of the breakdown are together those of all objects, and so are the numbers of objects. -/
theorem C243_total_partial (os : List Obj) (l : Scores) (h : Breakdown os l) :
    (l.map (fun x => x.2.2)).sum = os.length ∧ (l.map (fun x => x.2.1)).sum = (os.map (fun o => o.size.getD 0)).sum := by
  have hl : ∀ x ∈ l, x.2.1 = bytesOf os x.1 ∧ x.2.2 = countOf os x.1 := fun x hx => ((h.1 x.1 x.2.1 x.2.2).1 hx).2
  have hk : ∀ o ∈ os, o.typ ∈ l.map (·.1) := fun o ho =>
    List.mem_map.2 ⟨(o.typ, bytesOf os o.typ, countOf os o.typ), (h.1 _ _ _).2 ⟨⟨o, ho, rfl⟩, rfl, rfl⟩, rfl⟩
  have e1 : l.map (fun x => x.2.2) = (l.map (·.1)).map (countOf os) := by
    rw [List.map_map]; exact List.map_congr_left (fun x hx => (hl x hx).2)
  have e2 : l.map (fun x => x.2.1) = (l.map (·.1)).map (bytesOf os) := by
    rw [List.map_map]; exact List.map_congr_left (fun x hx => (hl x hx).1)
  rw [e1, e2]
  have ho : ∀ (ks : List Nat) (o : Obj) (v : Nat), ks.Nodup → o.typ ∈ ks → (ks.map (fun t => if o.typ = t then v else 0)).sum = v := by
    intro ks o v
    induction ks with
    | nil => intro _ hm; simp at hm
    | cons k ks ih =>
      intro hn hm
      have hn := List.nodup_cons.1 hn
      by_cases hk : o.typ = k
      · have : ks.map (fun t => if o.typ = t then v else 0) = ks.map (fun _ => 0) := by
          apply List.map_congr_left
          intro t ht
          rw [if_neg]; intro e; exact hn.1 (hk ▸ e ▸ ht)
        have z : ∀ l : List Nat, (l.map (fun _ => 0)).sum = 0 := by
          intro l; induction l with
          | nil => rfl
          | cons _ _ ih => simpa using ih
        simp only [List.map_cons, if_pos hk, this, List.sum_cons]
        rw [z]; omega
      · simp only [List.map_cons, if_neg hk, List.sum_cons]
        rw [ih hn.2 (by simpa [hk] using hm)]; omega
  have add : ∀ (ks : List Nat) (f g : Nat → Nat), (ks.map (fun t => f t + g t)).sum = (ks.map f).sum + (ks.map g).sum := by
    intro ks f g
    induction ks with
    | nil => rfl
    | cons k ks ih => simp only [List.map_cons, List.sum_cons, ih]; omega
  have key : ∀ (ks : List Nat), ks.Nodup → ∀ ps : List Obj, (∀ o ∈ ps, o.typ ∈ ks) →
      (ks.map (countOf ps)).sum = ps.length ∧ (ks.map (bytesOf ps)).sum = (ps.map (fun o => o.size.getD 0)).sum := by
    intro ks hn ps
    induction ps with
    | nil =>
      intro _
      have z : ∀ (l : List Nat), (l.map (countOf [])).sum = 0 ∧ (l.map (bytesOf [])).sum = 0 := by
        intro l; induction l with
        | nil => simp
        | cons _ _ ih => simp [ih, countOf, bytesOf]
      exact z ks
    | cons o ps ih =>
      intro hm
      have ih := ih (fun p hp => hm p (by simp [hp]))
      have c : countOf (o :: ps) = fun t => (if o.typ = t then 1 else 0) + countOf ps t := by
        funext t; by_cases e : o.typ = t <;> simp [countOf, e]; omega
      have d : bytesOf (o :: ps) = fun t => (if o.typ = t then o.size.getD 0 else 0) + bytesOf ps t := by
        funext t; by_cases e : o.typ = t <;> simp [bytesOf, e]
      rw [c, d, add, add, ih.1, ih.2, ho ks o _ hn (hm o (by simp)), ho ks o _ hn (hm o (by simp))]
      simp; omega
  exact key _ h.2.1 os hk

/-- **C243, violated by an object without a text**: if the `__repr__` of an object raises, the objects before it are written, the exception is raised, and there is no breakdown. -/
theorem C243_repr_violates (xs : List Obj) (o : Obj) (ys : List Obj) (text : Obj → Nat) (e : Nat) (h : ∀ p ∈ xs, p.text = .ok (text p)) (ho : o.text = .error e) :
    dump (xs ++ o :: ys) = (xs.map (fun p => .object (text p) p.typ (p.size.getD 0)), some e) := by
  have key : ∀ (xs : List Obj) (sc : Scores), (∀ p ∈ xs, p.text = .ok (text p)) →
      ∃ sc', loop (xs ++ o :: ys) sc = (xs.map (fun p => .object (text p) p.typ (p.size.getD 0)), sc', some e) := by
    intro xs
    induction xs with
    | nil => intro sc _; exact ⟨addScore o.typ o.bytes sc, by simp only [List.nil_append, loop, ho, List.map_nil]⟩
    | cons p xs ih =>
      intro sc h
      obtain ⟨sc', h'⟩ := ih (addScore p.typ p.bytes sc) (fun q hq => h q (by simp [hq]))
      refine ⟨sc', ?_⟩
      simp only [List.cons_append, loop, h p (by simp), h', List.map_cons]
      rfl
  obtain ⟨sc', h'⟩ := key xs [] h
  simp [dump, h']

/-! A concrete case: two objects of type 1, one of type 2 that is larger, and one whose size cannot be told. -/
private def objs : List Obj := [⟨.ok 10, 1, some 3⟩, ⟨.ok 11, 2, some 9⟩, ⟨.ok 12, 1, some 4⟩, ⟨.ok 13, 3, none⟩]
example : dump objs = ([.object 10 1 3, .object 11 2 9, .object 12 1 4, .object 13 3 0, .heading, .score 2 9 1, .score 1 7 2, .score 3 0 1], none) := rfl
example : ∀ o ∈ objs, o.text = .ok (match o.text with | .ok t => t | .error _ => 0) := by
  intro o ho
  simp only [objs, List.mem_cons, List.not_mem_nil, or_false] at ho
  rcases ho with rfl | rfl | rfl | rfl <;> rfl
example : dump (objs ++ [⟨.error 5, 1, some 3⟩]) = ([.object 10 1 3, .object 11 2 9, .object 12 1 4, .object 13 3 0], some 5) := rfl

end Verif.Memory.Dump
