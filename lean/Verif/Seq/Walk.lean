import Verif.Seq.Chunks
/-!
# Model of walk and ConstruableIterator (satella/coding/sequences/iterators.py), and C35

The structure walked is a finite tree; its nodes are given as subtrees.
-/
namespace Verif.Seq
open Verif

/-- a finite tree.  (Part of the model of `ConstruableIterator`, /repo/satella/coding/sequences/iterators.py:146-204.) -/
inductive Tree (α : Type) where
  | node (label : α) (kids : List (Tree α))

variable {α : Type}

/-- part of the model of `ConstruableIterator`, /repo/satella/coding/sequences/iterators.py:146-204 -/
def Tree.kids : Tree α → List (Tree α)
  | .node _ ks => ks

/-- What child_getter may return: the children; or None, of a node that has none.  (It may also return something without `len`, of a node that has none, which is treated the same.) -/
def Getter (g : Tree α → Option (List (Tree α))) : Prop := ∀ t, g t = some t.kids ∨ (t.kids = [] ∧ g t = none)

/-- `deque.insert`.  (Part of the model of `ConstruableIterator`, /repo/satella/coding/sequences/iterators.py:146-204.) -/
def insertAt {β : Type} (q : List β) (i : Nat) (x : β) : List β := q.take i ++ x :: q.drop i

/-- `add_many_immediate`, /repo/satella/coding/sequences/iterators.py:171-178, from index `i` on -/
def addManyImmediate {β : Type} (q : List β) : Nat → List β → List β
  | _, [] => q
  | i, x :: l => addManyImmediate (insertAt q i x) (i + 1) l

/-- `add_many`, /repo/satella/coding/sequences/iterators.py:188-194 -/
def addMany {β : Type} (q l : List β) : List β := q ++ l

/-- The loop of walk, /repo/satella/coding/sequences/iterators.py:128-143, on the entries of the deque; `__next__` is :199-201.  `fuel` bounds the turns (the model's own: `none` when it is too small). -/
def walkLoop (g : Tree α → Option (List (Tree α))) (deep leavesOnly : Bool) : Nat → List (Tree α) → Option (List (Tree α))
  | 0, _ => none
  | _ + 1, [] => some []
  | fuel + 1, o :: q =>
    match g o with
    | some (c :: cs) =>
      let q' := if deep then addManyImmediate q 0 (c :: cs) else addMany q (c :: cs)
      if leavesOnly then walkLoop g deep leavesOnly fuel q' else (walkLoop g deep leavesOnly fuel q').map (o :: ·)
    | _ => (walkLoop g deep leavesOnly fuel q).map (o :: ·)

/-- `walk`, /repo/satella/coding/sequences/iterators.py:114-143.  Constructing a deque from None raises TypeError. -/
def walk (g : Tree α → Option (List (Tree α))) (deep leavesOnly : Bool) (fuel : Nat) (root : Tree α) : Except Exc (Option (List (Tree α))) :=
  match g root with
  | none => .error .typeError
  | some ks => .ok (walkLoop g deep leavesOnly fuel ks)

/-! ## Specification -/

mutual
/-- all nodes of a tree in pre-order: a node before its descendants, children in order -/
def Tree.pre : Tree α → List (Tree α)
  | .node a ks => .node a ks :: preL ks
/-- of several trees, one after another -/
def preL : List (Tree α) → List (Tree α)
  | [] => []
  | t :: ts => t.pre ++ preL ts
end

/-- the nodes at a depth, from left to right -/
def Tree.level : Nat → Tree α → List (Tree α)
  | 0, t => [t]
  | n + 1, t => t.kids.flatMap (Tree.level n)

/-- has no children -/
def Tree.isLeaf (t : Tree α) : Bool := t.kids.isEmpty

/-! ## C35 -/

mutual
def Tree.size : Tree α → Nat
  | .node _ ks => 1 + sizeL ks
def sizeL : List (Tree α) → Nat
  | [] => 0
  | t :: ts => t.size + sizeL ts
end

theorem sizeL_append (a b : List (Tree α)) : sizeL (a ++ b) = sizeL a + sizeL b := by
  induction a with
  | nil => simp [sizeL]
  | cons t ts ih => simp [sizeL, ih]; omega

theorem preL_append (a b : List (Tree α)) : preL (a ++ b) = preL a ++ preL b := by
  induction a with
  | nil => simp [preL]
  | cons t ts ih => simp [preL, ih]

theorem size_kids (t : Tree α) : t.size = 1 + sizeL t.kids := by cases t; simp [Tree.size, Tree.kids]
theorem pre_kids (t : Tree α) : t.pre = t :: preL t.kids := by cases t; simp [Tree.pre, Tree.kids]

theorem addManyImmediate_eq {β : Type} (l : List β) : ∀ (p q : List β), addManyImmediate (p ++ q) p.length l = p ++ l ++ q := by
  induction l with
  | nil => intro p q; simp [addManyImmediate]
  | cons x l ih =>
    intro p q
    have := ih (p ++ [x]) q
    simp only [List.append_assoc, List.cons_append, List.nil_append, List.length_append, List.length_cons, List.length_nil, Nat.zero_add] at this ⊢
    simp [addManyImmediate, insertAt, this]

theorem loop_cons {g : Tree α → Option (List (Tree α))} (hg : Getter g) (deep : Bool) (fuel : Nat) (o : Tree α) (q : List (Tree α)) :
    walkLoop g deep false (fuel + 1) (o :: q) = (walkLoop g deep false fuel (if deep then o.kids ++ q else q ++ o.kids)).map (o :: ·) := by
  rw [walkLoop]
  rcases hg o with h | ⟨h, h'⟩
  · rw [h]
    cases hk : o.kids with
    | nil => simp
    | cons c cs =>
      have := addManyImmediate_eq (c :: cs) [] q
      simp only [List.nil_append, List.length_nil] at this
      simp only [this, addMany, Bool.false_eq_true, if_false]
  · rw [h', h]; simp

theorem loop_leaves {g : Tree α → Option (List (Tree α))} (hg : Getter g) (deep : Bool) (fuel : Nat) : ∀ q : List (Tree α),
    walkLoop g deep true fuel q = (walkLoop g deep false fuel q).map (List.filter Tree.isLeaf) := by
  induction fuel with
  | zero => intro q; rfl
  | succ fuel ih =>
    intro q
    cases q with
    | nil => rfl
    | cons o q =>
      rw [walkLoop, walkLoop]
      have hcase : (∃ c cs, g o = some (c :: cs) ∧ o.isLeaf = false) ∨ ((g o = some [] ∨ g o = none) ∧ o.isLeaf = true) := by
        rcases hg o with h | ⟨h, h'⟩
        · cases hk : o.kids with
          | nil => right; simp [h, hk, Tree.isLeaf]
          | cons c cs => left; exact ⟨c, cs, by rw [h, hk], by simp [Tree.isLeaf, hk]⟩
        · right; simp [h', Tree.isLeaf, h]
      rcases hcase with ⟨c, cs, h, hl⟩ | ⟨h | h, hl⟩
      · simp only [h, if_true, Bool.false_eq_true, if_false, ih, Option.map_map]
        congr 1
        funext l
        simp [hl]
      · simp only [h, ih, Option.map_map]
        congr 1
        funext l
        simp [hl]
      · simp only [h, ih, Option.map_map]
        congr 1
        funext l
        simp [hl]

theorem loop_deep {g : Tree α → Option (List (Tree α))} (hg : Getter g) (fuel : Nat) : ∀ q : List (Tree α), sizeL q < fuel →
    walkLoop g true false fuel q = some (preL q) := by
  induction fuel with
  | zero => intro q h; omega
  | succ fuel ih =>
    intro q h
    cases q with
    | nil => rfl
    | cons o q =>
      have h1 : sizeL (o.kids ++ q) < fuel := by
        rw [sizeL_append]; rw [sizeL, size_kids] at h; omega
      rw [loop_cons hg, if_pos rfl, ih _ h1, preL_append]
      simp [preL, pre_kids]

/-- children of all -/
def kidsF (q : List (Tree α)) : List (Tree α) := q.flatMap Tree.kids

theorem sizeL_kidsF (q : List (Tree α)) : sizeL q = q.length + sizeL (kidsF q) := by
  induction q with
  | nil => rfl
  | cons t ts ih => simp only [sizeL, size_kids, ih, kidsF, List.flatMap_cons, sizeL_append, List.length_cons]; omega

theorem loop_broad_row {g : Tree α → Option (List (Tree α))} (hg : Getter g) (a : List (Tree α)) : ∀ (fuel : Nat) (b : List (Tree α)),
    walkLoop g false false (fuel + a.length) (a ++ b) = (walkLoop g false false fuel (b ++ kidsF a)).map (a ++ ·) := by
  induction a with
  | nil => intro fuel b; simp [kidsF]
  | cons o a ih =>
    intro fuel b
    rw [List.length_cons, ← Nat.add_assoc, List.cons_append, loop_cons hg]
    simp only [Bool.false_eq_true, if_false, List.append_assoc]
    rw [ih]
    simp only [Option.map_map, List.append_assoc]
    congr 1

/-- all levels of a forest, `n` of them -/
def levels (n : Nat) (q : List (Tree α)) : List (Tree α) := (List.range n).flatMap (fun i => q.flatMap (Tree.level i))

theorem flatMap_level_succ (q : List (Tree α)) (i : Nat) : q.flatMap (Tree.level (i + 1)) = (kidsF q).flatMap (Tree.level i) := by
  unfold kidsF
  rw [List.flatMap_assoc]
  rfl

theorem levels_succ (n : Nat) (q : List (Tree α)) : levels (n + 1) q = q ++ levels n (kidsF q) := by
  unfold levels
  rw [List.range_succ_eq_map, List.flatMap_cons, List.flatMap_map]
  congr 1
  · have : (Tree.level 0 : Tree α → List (Tree α)) = fun t => [t] := rfl
    rw [this]
    simp
  · congr 1
    funext i
    exact flatMap_level_succ q i

theorem loop_broad {g : Tree α → Option (List (Tree α))} (hg : Getter g) (n : Nat) : ∀ q : List (Tree α), sizeL q ≤ n →
    ∃ h, q.flatMap (Tree.level h) = [] ∧ (∀ fuel, sizeL q < fuel → walkLoop g false false fuel q = some (levels h q)) ∧ (levels h q).Perm (preL q) := by
  induction n with
  | zero =>
    intro q h
    cases q with
    | nil =>
      refine ⟨0, rfl, fun fuel hf => ?_, List.Perm.refl _⟩
      obtain ⟨f, rfl⟩ : ∃ f, fuel = f + 1 := ⟨fuel - 1, by omega⟩
      rfl
    | cons t ts => rw [sizeL, size_kids] at h; omega
  | succ n ih =>
    intro q h
    by_cases hq : q = []
    · subst hq
      refine ⟨0, rfl, fun fuel hf => ?_, List.Perm.refl _⟩
      obtain ⟨f, rfl⟩ : ∃ f, fuel = f + 1 := ⟨fuel - 1, by omega⟩
      rfl
    · have hl : 0 < q.length := List.length_pos_iff.2 hq
      have hs := sizeL_kidsF q
      obtain ⟨k, h1, h2, h3⟩ := ih (kidsF q) (by omega)
      refine ⟨k + 1, by rw [flatMap_level_succ, h1], fun fuel hf => ?_, ?_⟩
      · obtain ⟨f, rfl⟩ : ∃ f, fuel = f + q.length := ⟨fuel - q.length, by omega⟩
        have := loop_broad_row hg q f []
        rw [List.append_nil, List.nil_append] at this
        rw [this, h2 f (by omega), levels_succ]
        rfl
      · rw [levels_succ]
        refine ((List.Perm.append_left q h3)).trans ?_
        clear h1 h2 h3 hs hl hq h ih
        induction q with
        | nil => exact List.Perm.refl _
        | cons t ts ih =>
          rw [preL, pre_kids, List.cons_append, List.cons_append]
          refine List.Perm.cons _ ?_
          rw [kidsF, List.flatMap_cons, preL_append]
          refine List.Perm.trans ?_ (List.Perm.append_left _ ih)
          rw [← List.append_assoc, ← List.append_assoc]
          exact List.Perm.append_right _ List.perm_append_comm

/-- **C35, depth first.** Of every finite tree, walk gives all nodes but the root, in pre-order. -/
theorem C35_deep_partial {g : Tree α → Option (List (Tree α))} (hg : Getter g) (root : Tree α) (h : g root ≠ none) :
    ∃ n, ∀ fuel, n ≤ fuel → walk g true false fuel root = .ok (some root.pre.tail) := by
  refine ⟨root.size, fun fuel hf => ?_⟩
  have hr : g root = some root.kids := (hg root).resolve_right (fun h' => h h'.2)
  rw [walk, hr, pre_kids]
  simp only [List.tail_cons]
  rw [loop_deep hg fuel _ (by rw [size_kids] at hf; omega)]

/-- **C35, breadth first.** Of every finite tree, walk gives all nodes but the root, level by level, until there is no further level. -/
theorem C35_broad_partial {g : Tree α → Option (List (Tree α))} (hg : Getter g) (root : Tree α) (h : g root ≠ none) :
    ∃ n depth, root.level (depth + 1) = [] ∧
      ∀ fuel, n ≤ fuel → walk g false false fuel root = .ok (some ((List.range depth).flatMap (fun i => root.level (i + 1)))) := by
  obtain ⟨d, h1, h2, _⟩ := loop_broad hg _ root.kids (Nat.le_refl _)
  refine ⟨root.size, d, h1, fun fuel hf => ?_⟩
  have hr : g root = some root.kids := (hg root).resolve_right (fun h' => h h'.2)
  rw [walk, hr]
  simp only
  rw [h2 fuel (by rw [size_kids] at hf; omega)]
  rfl

/-- **C35, the same nodes.** Both orders give the same nodes, each the same number of times. -/
theorem C35_same {g : Tree α → Option (List (Tree α))} (hg : Getter g) (root : Tree α) (h : g root ≠ none) :
    ∃ n a b, (∀ fuel, n ≤ fuel → walk g true false fuel root = .ok (some a) ∧ walk g false false fuel root = .ok (some b)) ∧ a.Perm b ∧ (root :: a) = root.pre := by
  obtain ⟨d, h1, h2, h3⟩ := loop_broad hg _ root.kids (Nat.le_refl _)
  have hr : g root = some root.kids := (hg root).resolve_right (fun h' => h h'.2)
  refine ⟨root.size, _, _, fun fuel hf => ?_, h3.symm, (pre_kids root).symm⟩
  have hf' : sizeL root.kids < fuel := by rw [size_kids] at hf; omega
  simp only [walk, hr]
  rw [h2 fuel hf', loop_deep hg fuel _ hf']
  simp

/-- **C35, leaves only.** With `leaves_only`, walk gives of the same nodes those that have no children, in the same order. -/
theorem C35_leaves {g : Tree α → Option (List (Tree α))} (hg : Getter g) (deep : Bool) (root : Tree α) (fuel : Nat) :
    walk g deep true fuel root = (walk g deep false fuel root).map (Option.map (List.filter Tree.isLeaf)) := by
  rw [walk, walk]
  cases g root with
  | none => rfl
  | some ks => simp only [loop_leaves hg, Except.map]

/-- **C35, the violation.** If child_getter returns None of the root (which the documentation allows of a node that has no children), walk raises TypeError. -/
theorem C35_root_violates : ∃ (g : Tree Nat → Option (List (Tree Nat))) (root : Tree Nat), Getter g ∧ ∀ deep leaves fuel, walk g deep leaves fuel root = .error .typeError := by
  refine ⟨fun t => if t.kids.isEmpty then none else some t.kids, .node 1 [], fun t => ?_, fun _ _ _ => rfl⟩
  cases h : t.kids with
  | nil => simp [h]
  | cons c cs => simp [h]

/-! Concrete cases. -/

/-- a tree of three levels -/
def sample : Tree Nat := .node 0 [.node 1 [.node 2 [], .node 3 []], .node 4 [], .node 5 [.node 6 []]]

def Tree.label : Tree α → α
  | .node a _ => a

example : Getter (fun t : Tree Nat => some t.kids) ∧ (fun t : Tree Nat => some t.kids) sample ≠ none := ⟨fun _ => Or.inl rfl, by simp⟩
example : (walk (fun t : Tree Nat => some t.kids) true false 20 sample).map (Option.map (List.map Tree.label)) = .ok (some [1, 2, 3, 4, 5, 6]) := by decide
example : (walk (fun t : Tree Nat => some t.kids) false false 20 sample).map (Option.map (List.map Tree.label)) = .ok (some [1, 4, 5, 2, 3, 6]) := by decide
example : (walk (fun t : Tree Nat => some t.kids) true true 20 sample).map (Option.map (List.map Tree.label)) = .ok (some [2, 3, 4, 6]) := by decide

end Verif.Seq
