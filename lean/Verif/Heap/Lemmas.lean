import Verif.Heap.Spec
import Verif.Heap.HeapqCorrect
/-! # Helper lemmas for the heaps -/
namespace Verif.Heap
open Verif

theorem removeFirst_none {α : Type _} {p : α → Bool} {l : List α} (h : removeFirst p l = none) :
    ∀ x ∈ l, p x = false := by
  induction l with
  | nil => simp
  | cons a l ih =>
    simp only [removeFirst] at h
    split at h
    · simp at h
    · rename_i hp
      simp only [Option.map_eq_none_iff] at h
      intro x hx
      rcases List.mem_cons.1 hx with rfl | hx
      · simpa using hp
      · exact ih h x hx

theorem removeFirst_some {α : Type _} {p : α → Bool} {l : List α} {x : α} {r : List α}
    (h : removeFirst p l = some (x, r)) : p x = true ∧ l.Perm (x :: r) := by
  induction l generalizing x r with
  | nil => simp [removeFirst] at h
  | cons a l ih =>
    simp only [removeFirst] at h
    split at h
    · rename_i hp
      simp only [Option.some.injEq, Prod.mk.injEq] at h
      obtain ⟨rfl, rfl⟩ := h
      exact ⟨hp, .refl _⟩
    · simp only [Option.map_eq_some_iff] at h
      obtain ⟨⟨y, q⟩, hq, he⟩ := h
      simp only [Prod.mk.injEq] at he
      obtain ⟨rfl, rfl⟩ := he
      obtain ⟨h1, h2⟩ := ih hq
      exact ⟨h1, (h2.cons a).trans (.swap _ _ _)⟩

section
variable {α : Type _} [PyOrd α] (H : Heapq α)

theorem pop_least {l : List α} (hl : IsHeap l) {x : α} {r : List α}
    (h : H.heappop l = some (x, r)) : Least x l ∧ l.Perm (x :: r) ∧ IsHeap r := by
  have hp := H.pop_perm l x r h
  exact ⟨⟨hp.mem_iff.2 (by simp), isHeap_head_min hl (H.pop_head l x r h)⟩, hp, H.pop_heap l x r hl h⟩

theorem drain_spec (n : Nat) (l : List α) (hl : IsHeap l) (hn : l.length ≤ n) :
    Sorted (drain H n l) ∧ (drain H n l).Perm l := by
  induction n generalizing l with
  | zero =>
    have : l = [] := List.eq_nil_of_length_eq_zero (by omega)
    subst this
    exact ⟨List.Pairwise.nil, .nil⟩
  | succ n ih =>
    simp only [drain]
    split
    · rename_i h
      have : l = [] := by
        by_cases e : l = []
        · exact e
        · exact absurd h (H.pop_some l e)
      subst this
      exact ⟨List.Pairwise.nil, .nil⟩
    · rename_i x r h
      obtain ⟨h1, h2, h3⟩ := pop_least H hl h
      have hlen : r.length ≤ n := by
        have := h2.length_eq
        simp at this; omega
      obtain ⟨h4, h5⟩ := ih r h3 hlen
      refine ⟨List.Pairwise.cons ?_ h4, (h5.cons x).trans h2.symm⟩
      intro y hy
      exact h1.2 y (h2.mem_iff.2 (by simp [h5.mem_iff.1 hy]))

theorem iterAscending_spec {l : List α} (hl : IsHeap l) :
    Sorted (iterAscending H l) ∧ (iterAscending H l).Perm l :=
  drain_spec H _ l hl (Nat.le_refl _)

theorem Least.of_perm {x : α} {a b : List α} (h : a.Perm b) (hx : Least x a) : Least x b :=
  ⟨h.mem_iff.1 hx.1, fun y hy => hx.2 y (h.mem_iff.2 hy)⟩

omit [PyOrd α] in
theorem optMap_optFilter (f : Option (α → Bool)) (g : Option (α → α)) (l : List α) :
    optMap g (optFilter f l) = (l.filter (f.getD fun _ => true)).map (g.getD id) := by
  cases f <;> cases g <;> simp [optMap, optFilter, List.filter_eq_self.2]

theorem heappop_none {l : List α} (h : H.heappop l = none) : l = [] := by
  by_cases e : l = []
  · exact e
  · exact absurd h (H.pop_some l e)

theorem heappop_singleton (a : α) : H.heappop [a] = some (a, []) := by
  cases hp : H.heappop [a] with
  | none => exact absurd hp (H.pop_some [a] (by simp))
  | some q =>
    obtain ⟨x, r⟩ := q
    have := H.pop_perm _ _ _ hp
    have := List.perm_singleton.1 this.symm
    simp at this
    obtain ⟨rfl, rfl⟩ := this
    rfl

theorem heappop_pair (a : α) : H.heappop [a, a] = some (a, [a]) := by
  cases hp : H.heappop [a, a] with
  | none => exact absurd hp (H.pop_some [a, a] (by simp))
  | some q =>
    obtain ⟨x, r⟩ := q
    have h := H.pop_perm _ _ _ hp
    have h : (x :: r).Perm (List.replicate 2 a) := h.symm
    have := List.perm_replicate.1 h
    simp only [List.replicate, List.cons.injEq] at this
    obtain ⟨rfl, rfl⟩ := this
    rfl

theorem heapify_replicate (n : Nat) (a : α) : H.heapify (List.replicate n a) = List.replicate n a :=
  List.perm_replicate.1 (H.heapify_perm _)

variable [DecidableEq α]

/-- A heap-ordered list representing the bag `b`. -/
def RepBag (data b : List α) : Prop := IsHeap data ∧ data.Perm b

theorem heap_step_sim (data b : List α) (o : Op α) (h : RepBag data b) :
    ∃ b', BagSpec b o (Heap.step H data o).2 b' ∧ RepBag (Heap.step H data o).1 b' := by
  obtain ⟨hh, hp⟩ := h
  cases o with
  | push x =>
    exact ⟨x :: b, ⟨rfl, rfl⟩, H.push_heap _ _ hh, (H.push_perm _ _).trans (hp.cons x)⟩
  | pushMany xs =>
    refine ⟨xs ++ b, ⟨rfl, rfl⟩, H.heapify_heap _, (H.heapify_perm _).trans ?_⟩
    exact List.perm_append_comm.trans (hp.append_left xs)
  | pop =>
    simp only [Heap.step, Heap.pop]
    split
    · rename_i h
      have := heappop_none H h
      subst this
      have := List.Perm.nil_eq hp
      subst this
      exact ⟨[], Or.inl ⟨rfl, rfl, rfl⟩, hh, .nil⟩
    · rename_i x r h
      obtain ⟨h1, h2, h3⟩ := pop_least H hh h
      exact ⟨r, Or.inr ⟨x, rfl, h1.of_perm hp, hp.symm.trans h2⟩, h3, .refl _⟩
  | popItem x =>
    simp only [Heap.step, Heap.popItem]
    split
    · rename_i h
      have hn := removeFirst_none h
      refine ⟨b, Or.inl ⟨?_, rfl, rfl⟩, hh, hp⟩
      intro hx
      have := hn x (hp.mem_iff.2 hx)
      simp at this
    · rename_i y r h
      obtain ⟨h1, h2⟩ := removeFirst_some h
      simp at h1; subst h1
      refine ⟨r, Or.inr ⟨?_, rfl, hp.symm.trans h2⟩, H.heapify_heap _, H.heapify_perm _⟩
      exact hp.mem_iff.1 (h2.mem_iff.2 (by simp))
  | filterMap f g =>
    refine ⟨_, ⟨rfl, rfl⟩, H.heapify_heap _, (H.heapify_perm _).trans ?_⟩
    rw [optMap_optFilter]
    exact (hp.filter _).map _
  | contains x =>
    exact ⟨b, ⟨rfl, _, rfl, by simp [hp.mem_iff]⟩, hh, hp⟩
  | len => exact ⟨b, ⟨rfl, by simp [Heap.step, hp.length_eq]⟩, hh, hp⟩
  | truth =>
    refine ⟨b, ⟨rfl, _, rfl, ?_⟩, hh, hp⟩
    rw [hp.length_eq]
    simp [List.length_pos_iff]
  | iterAscending =>
    obtain ⟨h1, h2⟩ := iterAscending_spec H hh
    exact ⟨b, ⟨rfl, _, rfl, h1, h2.trans hp⟩, hh, hp⟩
  | iterDescending =>
    obtain ⟨h1, h2⟩ := iterAscending_spec H hh
    refine ⟨b, ⟨rfl, _, rfl, ?_, (List.reverse_perm _).trans (h2.trans hp)⟩, hh, hp⟩
    simpa [iterDescending] using h1
  | copy => exact ⟨b, ⟨rfl, rfl⟩, H.heapify_heap _, (H.heapify_perm _).trans hp⟩

/-! ## SetHeap -/

/-- The invariant of histories that build no duplicates: the list is a heap without duplicates,
all of it in the companion set. -/
def SetHeap.Weak (s : SetHeap α) : Prop :=
  IsHeap s.data ∧ s.data.Nodup ∧ s.set.Nodup ∧ ∀ x ∈ s.data, x ∈ s.set

/-- ... and the companion set holds nothing else. -/
def SetHeap.Rep (s : SetHeap α) (S : α → Prop) : Prop :=
  s.Weak ∧ (∀ x ∈ s.set, x ∈ s.data) ∧ ∀ x, S x ↔ x ∈ s.data

/-- calls that cannot map two elements to the same one -/
def Op.Injective : Op α → Prop
  | .filterMap _ (some g) => ∀ x y, g x = g y → x = y
  | _ => True

omit [DecidableEq α] in
theorem filterMap_nodup {data : List α} (h : data.Nodup) {f : Option (α → Bool)} {g : Option (α → α)}
    (hg : Op.Injective (.filterMap f g)) : (Heap.filterMap H data f g).Nodup := by
  unfold Heap.filterMap
  rw [(H.heapify_perm _).nodup_iff]
  have h' : (optFilter f data).Nodup := by
    cases f with
    | none => exact h
    | some f => exact h.sublist List.filter_sublist
  cases g with
  | none => exact h'
  | some g =>
    simp only [optMap]
    exact List.Pairwise.map g (fun a b hab e => hab (hg a b e)) h'

theorem SetHeap.weak_push {s : SetHeap α} (h : s.Weak) (x : α) : (SetHeap.push H s x).Weak := by
  obtain ⟨h1, h2, h3, h4⟩ := h
  unfold SetHeap.push
  split
  · exact ⟨h1, h2, h3, h4⟩
  · rename_i hx
    refine ⟨H.push_heap _ _ h1, ?_, nodup_setAdd h3, ?_⟩
    · rw [(H.push_perm _ _).nodup_iff, List.nodup_cons]
      exact ⟨fun hd => hx (h4 x hd), h2⟩
    · intro y hy
      rw [mem_setAdd]
      rcases List.mem_cons.1 ((H.push_perm _ _).mem_iff.1 hy) with rfl | hy
      · exact Or.inl rfl
      · exact Or.inr (h4 y hy)

theorem SetHeap.weak_pushMany {s : SetHeap α} (h : s.Weak) (xs : List α) :
    (xs.foldl (SetHeap.push H) s).Weak := by
  induction xs generalizing s with
  | nil => exact h
  | cons x xs ih => exact ih (weak_push H h x)

theorem SetHeap.weak_init {l : List α} (h : l.Nodup) : (SetHeap.init H l).Weak := by
  refine ⟨H.heapify_heap _, ?_, nodup_setOf _, fun x hx => mem_setOf.2 hx⟩
  exact (H.heapify_perm l).nodup_iff.2 h

theorem SetHeap.weak_step {s : SetHeap α} (h : s.Weak) (o : Op α) (ho : o.Injective) :
    (SetHeap.step H s o).1.Weak := by
  have hw := h
  obtain ⟨h1, h2, h3, h4⟩ := h
  cases o with
  | push x => exact weak_push H hw x
  | pushMany xs => exact weak_pushMany H hw xs
  | pop =>
    simp only [SetHeap.step, SetHeap.pop, Heap.pop]
    cases hp : H.heappop s.data with
    | none => exact hw
    | some q =>
      obtain ⟨x, r⟩ := q
      obtain ⟨_, p2, p3⟩ := pop_least H h1 hp
      have hn := p2.nodup_iff.1 h2
      rw [List.nodup_cons] at hn
      have hx : x ∈ s.set := h4 x (p2.mem_iff.2 (by simp))
      simp only [hx, ↓reduceIte]
      refine ⟨p3, hn.2, h3.sublist List.filter_sublist, ?_⟩
      intro y hy
      simp only [List.mem_filter, decide_eq_true_eq]
      refine ⟨h4 y (p2.mem_iff.2 (by simp [hy])), ?_⟩
      rintro rfl
      exact hn.1 hy
  | popItem x =>
    simp only [SetHeap.step, Heap.popItem]
    split
    · exact hw
    · rename_i y r hr
      obtain ⟨_, p2⟩ := removeFirst_some hr
      have hn := p2.nodup_iff.1 h2
      rw [List.nodup_cons] at hn
      refine ⟨H.heapify_heap _, (H.heapify_perm _).nodup_iff.2 hn.2, h3, ?_⟩
      intro z hz
      exact h4 z (p2.mem_iff.2 (by simp [(H.heapify_perm _).mem_iff.1 hz]))
  | filterMap f g =>
    exact ⟨H.heapify_heap _, filterMap_nodup H h2 ho, nodup_setOf _, fun x hx => mem_setOf.2 hx⟩
  | contains x => exact hw
  | len => exact hw
  | truth => exact hw
  | iterAscending => exact hw
  | iterDescending => exact hw
  | copy => exact weak_init H h2

theorem SetHeap.rep_push {s : SetHeap α} {S : α → Prop} (h : s.Rep S) (x : α) :
    (SetHeap.push H s x).Rep (fun y => y = x ∨ S y) := by
  refine ⟨weak_push H h.1 x, ?_, ?_⟩
  · unfold SetHeap.push
    split
    · exact h.2.1
    · intro y hy
      rw [mem_setAdd] at hy
      refine (H.push_perm _ _).mem_iff.2 ?_
      rcases hy with rfl | hy
      · simp
      · simp [h.2.1 y hy]
  · intro y
    dsimp only
    unfold SetHeap.push
    split
    · rename_i hx
      rw [h.2.2]
      constructor
      · rintro (rfl | hy)
        · exact h.2.1 _ hx
        · exact hy
      · exact Or.inr
    · rw [(H.push_perm _ _).mem_iff, List.mem_cons, h.2.2]

theorem SetHeap.rep_pushMany {s : SetHeap α} {S : α → Prop} (h : s.Rep S) (xs : List α) :
    (xs.foldl (SetHeap.push H) s).Rep (fun y => y ∈ xs ∨ S y) := by
  induction xs generalizing s S with
  | nil => simpa using h
  | cons x xs ih =>
    have := ih (rep_push H h x)
    refine ⟨this.1, this.2.1, ?_⟩
    intro y
    rw [List.foldl_cons, ← this.2.2]; dsimp only; rw [List.mem_cons]
    constructor
    · rintro ((h | h) | h) <;> simp [h]
    · rintro (h | h | h) <;> simp [h]

theorem SetHeap.rep_of_setOf {data : List α} (hh : IsHeap data) (hn : data.Nodup) :
    SetHeap.Rep { data := data, set := setOf data } (fun y => y ∈ data) :=
  ⟨⟨hh, hn, nodup_setOf _, fun _ hx => mem_setOf.2 hx⟩, fun _ hx => mem_setOf.1 hx, fun _ => Iff.rfl⟩

/-- calls covered by the refinement: everything but `pop_item`, maps being injective -/
def Op.SetSafe : Op α → Prop
  | .popItem _ => False
  | o => o.Injective

theorem SetHeap.step_sim (s : SetHeap α) (S : α → Prop) (o : Op α) (ho : o.SetSafe) (h : s.Rep S) :
    ∃ S', SetSpec S o (SetHeap.step H s o).2 S' ∧ (SetHeap.step H s o).1.Rep S' := by
  have hR := h
  obtain ⟨⟨h1, h2, h3, h4⟩, h5, h6⟩ := h
  cases o with
  | push x => exact ⟨_, ⟨rfl, fun _ => Iff.rfl⟩, rep_push H hR x⟩
  | pushMany xs => exact ⟨_, ⟨rfl, fun _ => Iff.rfl⟩, rep_pushMany H hR xs⟩
  | pop =>
    simp only [SetHeap.step, SetHeap.pop, Heap.pop]
    cases hp : H.heappop s.data with
    | none =>
      have hd := heappop_none H hp
      exact ⟨S, Or.inl ⟨fun y hy => by simpa [hd] using (h6 y).1 hy, rfl, rfl⟩, hR⟩
    | some q =>
      obtain ⟨x, r⟩ := q
      obtain ⟨p1, p2, p3⟩ := pop_least H h1 hp
      have hn := p2.nodup_iff.1 h2
      rw [List.nodup_cons] at hn
      have hx : x ∈ s.set := h4 x (p2.mem_iff.2 (by simp))
      simp only [hx, ↓reduceIte]
      have hr : ∀ y, y ∈ r ↔ y ∈ s.data ∧ y ≠ x := by
        intro y
        rw [p2.mem_iff, List.mem_cons]
        constructor
        · intro hy
          exact ⟨Or.inr hy, by rintro rfl; exact hn.1 hy⟩
        · rintro ⟨rfl | hy, hne⟩
          · exact absurd rfl hne
          · exact hy
      refine ⟨fun y => S y ∧ y ≠ x, Or.inr ⟨x, (h6 x).2 p1.1, rfl, ?_, fun _ => Iff.rfl⟩, ⟨p3, hn.2, ?_, ?_⟩, ?_, ?_⟩
      · intro y hy
        exact p1.2 y ((h6 y).1 hy)
      · exact h3.sublist List.filter_sublist
      · intro y hy
        simp only [List.mem_filter, decide_eq_true_eq]
        exact ⟨h4 y ((hr y).1 hy).1, ((hr y).1 hy).2⟩
      · intro y hy
        simp only [List.mem_filter, decide_eq_true_eq] at hy
        exact (hr y).2 ⟨h5 y hy.1, hy.2⟩
      · intro y
        dsimp only
        rw [hr, h6]
  | popItem x => exact ho.elim
  | filterMap f g =>
    refine ⟨_, ⟨rfl, fun _ => Iff.rfl⟩, ?_⟩
    have := rep_of_setOf (H.heapify_heap _) (filterMap_nodup (H := H) h2 (f := f) (g := g) ho)
    refine ⟨this.1, this.2.1, ?_⟩
    intro y
    simp only [SetHeap.step, Heap.filterMap]
    rw [(H.heapify_perm _).mem_iff, optMap_optFilter]
    simp only [List.mem_map, List.mem_filter, h6]
    constructor
    · rintro ⟨x, a, b, c⟩; exact ⟨x, ⟨a, b⟩, c⟩
    · rintro ⟨x, ⟨a, b⟩, c⟩; exact ⟨x, a, b, c⟩
  | contains x =>
    refine ⟨S, ⟨rfl, _, rfl, ?_⟩, hR⟩
    rw [h6]; simp only [decide_eq_true_eq]
    exact ⟨h5 x, h4 x⟩
  | len => exact ⟨S, ⟨rfl, s.data, h2, fun y => (h6 y).symm, rfl⟩, hR⟩
  | truth =>
    refine ⟨S, ⟨rfl, _, rfl, ?_⟩, hR⟩
    simp only [decide_eq_true_eq, List.length_pos_iff_exists_mem, h6]
  | iterAscending =>
    obtain ⟨a, b⟩ := iterAscending_spec H h1
    exact ⟨S, ⟨rfl, _, rfl, a, b.nodup_iff.2 h2, fun y => by rw [h6, b.mem_iff]⟩, hR⟩
  | iterDescending =>
    obtain ⟨a, b⟩ := iterAscending_spec H h1
    refine ⟨S, ⟨rfl, _, rfl, ?_, ?_, ?_⟩, hR⟩
    · simpa [iterDescending] using a
    · exact ((List.reverse_perm _).trans b).nodup_iff.2 h2
    · intro y
      rw [h6]; simp [iterDescending, b.mem_iff]
  | copy =>
    refine ⟨S, ⟨rfl, rfl⟩, ?_⟩
    have hp := H.heapify_perm s.data
    have := rep_of_setOf (H.heapify_heap s.data) (hp.nodup_iff.2 h2)
    refine ⟨this.1, this.2.1, ?_⟩
    intro y
    simp only [SetHeap.step, SetHeap.init, Heap.init]
    rw [h6, hp.mem_iff]

end
end Verif.Heap
