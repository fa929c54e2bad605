import Verif.Seq.Chunks
import Verif.Py.Run
/-!
# Model of unique and AlreadySeen (satella/coding/sequences/iterators.py), C34 and C58

Equality of elements is decidable equality; `hashable` says which elements have a hash.  (That equal elements have equal hashes, as Python demands, is why a set works like a list here.)
-/
namespace Verif.Seq
open Verif

variable {α : Type} [DecidableEq α] (hashable : α → Bool)

/-- the loop of unique, /repo/satella/coding/sequences/iterators.py:265-269; looking up something unhashable in a set raises TypeError -/
def uniqueLoop (seen : List α) : List α → Gen α
  | [] => { out := [], exc := none }
  | x :: l =>
    if hashable x = false then { out := [], exc := some .typeError }
    else if x ∈ seen then uniqueLoop seen l
    else let r := uniqueLoop (x :: seen) l; { out := x :: r.out, exc := r.exc }

/-- `unique`, /repo/satella/coding/sequences/iterators.py:253-269 -/
def unique (s : List α) : Gen α := uniqueLoop hashable [] s

/-- `AlreadySeen.set`: None, a set, or a list; /repo/satella/coding/sequences/iterators.py:221-224 -/
inductive Seen (α : Type) where
  | none_
  | set (l : List α)
  | list (l : List α)
  deriving DecidableEq, Repr

/-- `AlreadySeen.is_unique`, /repo/satella/coding/sequences/iterators.py:225-250.
Of a hashable key: a list has no method `add`.  Of one that is not: looking it up in a set raises TypeError, here in the `except` clause. -/
def isUnique (s : Seen α) (k : α) : Seen α × Except Exc Bool :=
  if hashable k then
    match s with
    | .none_ => (.set [k], .ok true)
    | .set l => if k ∈ l then (.set l, .ok false) else (.set (k :: l), .ok true)
    | .list l => if k ∈ l then (.list l, .ok false) else (.list l, .error .attributeError)
  else
    match s with
    | .none_ => (.list [k], .ok true)
    | .set l => (.set l, .error .typeError)
    | .list l => if k ∈ l then (.list l, .ok false) else (.list (l ++ [k]), .ok true)

/-! ## Specification -/

/-- the elements of `s` that are not among those before them, in order -/
def firsts (s : List α) : List α := (List.range s.length).filterMap (fun i => if s[i]? ∈ (s.take i).map some then none else s[i]?)

/-- Has the element been seen before? -/
def SeenSpec (before : List α) (k : α) (r : Except Exc Bool) (after : List α) : Prop :=
  after = k :: before ∧ ∃ b, r = .ok b ∧ (b = true ↔ k ∉ before)

/-! ## C34 -/

/-- as `firsts`, having seen `pre` -/
def firstsFrom (pre s : List α) : List α := (List.range s.length).filterMap (fun i => if s[i]? ∈ (pre ++ s.take i).map some then none else s[i]?)

theorem firstsFrom_cons (pre : List α) (x : α) (l : List α) : firstsFrom pre (x :: l) = (if x ∈ pre then [] else [x]) ++ firstsFrom (pre ++ [x]) l := by
  unfold firstsFrom
  rw [List.length_cons, List.range_succ_eq_map, List.filterMap_cons, List.filterMap_map]
  have h : ((fun i => if (x :: l)[i]? ∈ (pre ++ (x :: l).take i).map some then none else (x :: l)[i]?) ∘ Nat.succ)
      = (fun i => if l[i]? ∈ (pre ++ [x] ++ l.take i).map some then none else l[i]?) := by
    funext i; simp
  rw [h]
  by_cases hx : x ∈ pre <;> simp [hx]

theorem uniqueLoop_eq (s : List α) : ∀ pre seen : List α, (∀ x, x ∈ seen ↔ x ∈ pre) → (∀ x ∈ s, hashable x = true) →
    uniqueLoop hashable seen s = { out := firstsFrom pre s, exc := none } := by
  induction s with
  | nil => intro pre seen _ _; rfl
  | cons x l ih =>
    intro pre seen h hs
    have h1 : ¬ hashable x = false := by simp [hs x (by simp)]
    have hl : ∀ x ∈ l, hashable x = true := fun y hy => hs y (by simp [hy])
    rw [uniqueLoop, if_neg h1, firstsFrom_cons]
    by_cases hx : x ∈ seen
    · rw [if_pos hx, if_pos ((h x).1 hx), ih (pre ++ [x]) seen ?_ hl]; rfl
      intro y
      simp only [List.mem_append, List.mem_singleton, h]
      constructor
      · exact Or.inl
      · rintro (h | rfl)
        · exact h
        · exact (h _).1 hx
    · rw [if_neg hx, if_neg (fun h' => hx ((h x).2 h')), ih (pre ++ [x]) (x :: seen) (fun y => by simp [h, or_comm]) hl]; rfl

/-- **C34, unique.** Of every sequence of hashable elements, unique gives those that do not occur before, in order. -/
theorem C34_unique (s : List α) (h : ∀ x ∈ s, hashable x = true) : unique hashable s = { out := firsts s, exc := none } := by
  have := uniqueLoop_eq hashable s [] [] (by simp) h
  simpa [unique, firsts, firstsFrom] using this

theorem firstsFrom_mem (pre s : List α) (x : α) : x ∈ firstsFrom pre s ↔ x ∈ s ∧ x ∉ pre := by
  induction s generalizing pre with
  | nil => simp [firstsFrom]
  | cons y l ih =>
    rw [firstsFrom_cons, List.mem_append, ih]
    by_cases hy : y ∈ pre
    · rw [if_pos hy]
      simp only [List.mem_append, List.not_mem_nil, false_or, or_false, List.mem_cons, not_or]
      constructor
      · rintro ⟨h1, h2, h3⟩; exact ⟨Or.inr h1, h2⟩
      · rintro ⟨rfl | h1, h2⟩
        · exact absurd hy h2
        · exact ⟨h1, h2, fun h => h2 (by rw [h]; exact hy)⟩
    · rw [if_neg hy]
      simp only [List.mem_append, List.not_mem_nil, or_false, List.mem_cons, not_or]
      constructor
      · rintro (rfl | ⟨h1, h2, h3⟩)
        · exact ⟨Or.inl rfl, hy⟩
        · exact ⟨Or.inr h1, h2⟩
      · rintro ⟨rfl | h1, h2⟩
        · exact Or.inl rfl
        · by_cases e : x = y
          · exact Or.inl e
          · exact Or.inr ⟨h1, h2, e⟩

theorem firstsFrom_nodup (pre s : List α) : (firstsFrom pre s).Nodup := by
  induction s generalizing pre with
  | nil => simp [firstsFrom]
  | cons y l ih =>
    rw [firstsFrom_cons]
    split
    · exact ih _
    · refine List.nodup_cons.2 ⟨fun h => ?_, ih _⟩
      have := (firstsFrom_mem (pre ++ [y]) l y).1 h
      simp at this

theorem firstsFrom_sublist (pre s : List α) : (firstsFrom pre s).Sublist s := by
  induction s generalizing pre with
  | nil => simp [firstsFrom]
  | cons y l ih =>
    rw [firstsFrom_cons]
    split
    · exact (ih _).cons _
    · exact (ih _).cons_cons _

/-- **C34, consequences.** Nothing comes twice, everything in the sequence comes, nothing else does, and the order is kept. -/
theorem C34_distinct (s : List α) (h : ∀ x ∈ s, hashable x = true) :
    (unique hashable s).out.Nodup ∧ (∀ x, x ∈ (unique hashable s).out ↔ x ∈ s) ∧ (unique hashable s).out.Sublist s := by
  have h0 : firsts s = firstsFrom [] s := by simp [firsts, firstsFrom]
  rw [C34_unique hashable s h, h0]
  exact ⟨firstsFrom_nodup [] s, fun x => by simp [firstsFrom_mem], firstsFrom_sublist [] s⟩

/-- **C34, without hash.** unique raises TypeError at the first element that has no hash (the documentation says so). -/
theorem C34_unhashable (s t : List α) (x : α) (h : ∀ y ∈ s, hashable y = true) (hx : hashable x = false) :
    unique hashable (s ++ x :: t) = { out := firsts s, exc := some .typeError } := by
  have key : ∀ (s seen pre : List α), (∀ x, x ∈ seen ↔ x ∈ pre) → (∀ x ∈ s, hashable x = true) →
      uniqueLoop hashable seen (s ++ x :: t) = { out := firstsFrom pre s, exc := some .typeError } := by
    intro s
    induction s with
    | nil => intro seen pre _ _; simp [uniqueLoop, hx, firstsFrom]
    | cons y l ih =>
      intro seen pre h hs
      have h1 : ¬ hashable y = false := by simp [hs y (by simp)]
      have hl : ∀ x ∈ l, hashable x = true := fun z hz => hs z (by simp [hz])
      rw [List.cons_append, uniqueLoop, if_neg h1, firstsFrom_cons]
      by_cases hy : y ∈ seen
      · rw [if_pos hy, if_pos ((h y).1 hy), ih seen (pre ++ [y]) ?_ hl]; rfl
        intro z
        simp only [List.mem_append, List.mem_singleton, h]
        constructor
        · exact Or.inl
        · rintro (h | rfl)
          · exact h
          · exact (h _).1 hy
      · rw [if_neg hy, if_neg (fun h' => hy ((h y).2 h')), ih (y :: seen) (pre ++ [y]) (fun z => by simp [h, or_comm]) hl]; rfl
  have := key s [] [] (by simp) h
  simpa [unique, firsts, firstsFrom] using this

/-- what has been seen -/
def SRep (hb : Bool) (s : Seen α) (before : List α) : Prop :=
  match s with
  | .none_ => before = []
  | .set l => hb = true ∧ ∀ x, x ∈ l ↔ x ∈ before
  | .list l => hb = false ∧ ∀ x, x ∈ l ↔ x ∈ before

/-- **C58, AlreadySeen.** If either all keys have a hash, or none has, is_unique tells for every one whether it is the first time. -/
theorem C58_already_seen_partial (hb : Bool) (ks : List α) (h : ∀ k ∈ ks, hashable k = hb) :
    ∃ after, History SeenSpec [] ks (runOps (isUnique hashable) .none_ ks).2 after := by
  have sim : ∀ (s : Seen α) (b : List α) (k : α), hashable k = hb → SRep hb s b →
      ∃ b', SeenSpec b k (isUnique hashable s k).2 b' ∧ SRep hb (isUnique hashable s k).1 b' := by
    intro s b k hk hr
    refine ⟨k :: b, ⟨rfl, ?_⟩, ?_⟩
    · cases s <;> cases hb <;> simp [SRep] at hr <;> simp [isUnique, hk, hr] <;> split <;> simp_all
    · cases s <;> cases hb <;> simp [SRep] at hr <;> simp [isUnique, hk, hr, SRep]
      · rename_i l
        by_cases hm : k ∈ b
        · rw [if_pos hm]; simp only [true_and]; intro x; rw [hr]
          exact ⟨fun h => by simp [h], fun h => by rcases h with rfl | h <;> assumption⟩
        · rw [if_neg hm]; simp [hr]
      · rename_i l
        by_cases hm : k ∈ b
        · rw [if_pos hm]; simp only [true_and]; intro x; rw [hr]
          exact ⟨fun h => by simp [h], fun h => by rcases h with rfl | h <;> assumption⟩
        · rw [if_neg hm]; simp [hr, or_comm]
  obtain ⟨b', h1, _⟩ := history_of_sim (SRep hb) (fun k => hashable k = hb) sim .none_ [] ks h rfl
  exact ⟨b', h1⟩

/-- **C58, AlreadySeen, the violation.** A key with no hash after one that has one raises TypeError; a new key that has one after one that has none raises AttributeError. -/
theorem C58_mixed_violates (a b : α) (ha : hashable a = true) (hb : hashable b = false) :
    (runOps (isUnique hashable) .none_ [a, b]).2 = [.ok true, .error .typeError] ∧
    (runOps (isUnique hashable) .none_ [b, a]).2 = [.ok true, .error .attributeError] := by
  have : a ≠ b := by rintro rfl; rw [ha] at hb; cases hb
  simp [runOps, isUnique, ha, hb, this]

/-! Concrete cases. -/

example : unique (fun _ => true) [3, 1, 3, 2, 1] = { out := [3, 1, 2], exc := none } ∧ firsts [3, 1, 3, 2, 1] = [3, 1, 2] := by decide
example : (runOps (isUnique (fun _ => true)) .none_ [3, 1, 3]).2 = [.ok true, .ok true, .ok false] := by decide
example : (runOps (isUnique (fun _ => false)) .none_ [3, 1, 3]).2 = [.ok true, .ok true, .ok false] := by decide
example : ∃ hashable : Nat → Bool, hashable 1 = true ∧ hashable 2 = false := ⟨(· == 1), rfl, rfl⟩

end Verif.Seq
