import Verif.Heap.Heapq
/-! Helper file: CPython's heapq meets the contract `Heapq`. -/
namespace Verif.Heap
open Verif PyOrd
variable {α : Type _} [PyOrd α]

omit [PyOrd α] in
theorem set_move_perm (l : List α) (i j : Nat) (x y : α) (hi : i < l.length)
    (hj : l[j]? = some y) (hne : i ≠ j) :
    ((l.set i y).set j x).Perm (l.set i x) := by
  rw [List.getElem?_eq_some_iff] at hj
  obtain ⟨hjl, hy⟩ := hj
  have := List.set_set_perm (as := l.set i x) (i := i) (j := j) (by simpa) (by simpa)
  simpa [List.getElem_set, hne, hy] using this

theorem siftdown_length (x : α) (s : Nat) (l : List α) (pos : Nat) :
    (siftdown x s l pos).length = l.length := by
  fun_induction siftdown x s l pos <;> simp_all

theorem siftdown_perm (x : α) (s : Nat) (l : List α) (pos : Nat) (h : pos < l.length) :
    (siftdown x s l pos).Perm (l.set pos x) := by
  fun_induction siftdown x s l pos with
  | case1 l pos hs hn =>
    simp at hn; omega
  | case2 l pos hs p hp hlt ih =>
    have := ih (by simp; omega)
    exact this.trans (set_move_perm l pos _ x p h hp (by omega))
  | case3 => exact List.Perm.refl _
  | case4 => exact List.Perm.refl _

/-- Heap property for all parents from `s` on. -/
def HeapFrom (s : Nat) (l : List α) : Prop :=
  ∀ i j x y, s ≤ i → Child i j → l[i]? = some x → l[j]? = some y → PyOrd.lt y x = false

/-- `pos` is `s` or a descendant of `s`. -/
inductive Desc (s : Nat) : Nat → Prop where
  | refl : Desc s s
  | child {i j} : Desc s i → Child i j → Desc s j

theorem Desc.le {s p : Nat} (h : Desc s p) : s ≤ p := by
  induction h with
  | refl => omega
  | child _ hc ih => unfold Child at hc; omega

theorem Desc.parent {s p : Nat} (h : Desc s p) (hp : s < p) : Desc s ((p - 1) / 2) := by
  cases h with
  | refl => omega
  | child h hc =>
    rename_i i
    have : (p - 1) / 2 = i := by unfold Child at hc; omega
    rw [this]; exact h

theorem child_parent (p : Nat) (hp : 0 < p) : Child ((p - 1) / 2) p := by
  unfold Child; omega

theorem child_inj {i i' j : Nat} (h : Child i j) (h' : Child i' j) : i = i' := by
  unfold Child at *; omega

omit [PyOrd α] in
theorem getElem?_set_eq' (l : List α) (i : Nat) (x : α) (j : Nat) (h : i < l.length) :
    (l.set i x)[j]? = if j = i then some x else l[j]? := by
  rw [List.getElem?_set]
  by_cases e : i = j
  · subst e; simp [h]
  · simp [e, Ne.symm e]

/-- Precondition of `siftdown`: with `x` written at `pos`, the only possibly violated pair is
(parent of pos, pos); and the children of `pos` respect the parent of `pos`. -/
def DownOK (s : Nat) (l : List α) (pos : Nat) (x : α) : Prop :=
  (∀ i j a b, s ≤ i → Child i j → j ≠ pos →
    (l.set pos x)[i]? = some a → (l.set pos x)[j]? = some b → PyOrd.lt b a = false) ∧
  (∀ p j a b, s ≤ p → Child p pos → Child pos j →
    (l.set pos x)[p]? = some a → (l.set pos x)[j]? = some b → PyOrd.lt b a = false)

theorem siftdown_heap (x : α) (s : Nat) (l : List α) (pos : Nat) (h : pos < l.length)
    (hd : Desc s pos) (hok : DownOK s l pos x) : HeapFrom s (siftdown x s l pos) := by
  fun_induction siftdown x s l pos with
  | case1 l pos hs hn =>
    simp at hn; omega
  | case2 l pos hs p hp hlt ih =>
    apply ih (by simp; omega) (hd.parent hs)
    obtain ⟨h1, h2⟩ := hok
    have hpar := child_parent pos (by omega)
    have hps : s ≤ (pos - 1) / 2 := (hd.parent hs).le
    have hne : (pos - 1) / 2 ≠ pos := by omega
    have hxp : PyOrd.lt p x = false := PyOrd.asymm _ _ hlt
    generalize hq : (pos - 1) / 2 = q at *
    have hql : q < l.length := by omega
    simp only [getElem?_set_eq' _ _ _ _ h] at h1 h2
    constructor
    · intro i j a b hi hc hj ha hb
      rw [getElem?_set_eq' _ _ _ _ (by simpa)] at ha hb
      rw [getElem?_set_eq' _ _ _ _ h] at ha hb
      rw [if_neg hj] at hb
      by_cases ei : i = q
      · subst ei
        simp at ha; subst ha
        by_cases ej : j = pos
        · simp [ej] at hb; subst hb; exact hxp
        · rw [if_neg ej] at hb
          have := h1 i j p b hi hc ej (by simp [hne, hp]) (by simp [ej, hb])
          exact PyOrd.le_trans _ _ _ hxp this
      · rw [if_neg ei] at ha
        by_cases ej : j = pos
        · subst ej
          exact absurd (child_inj hc hpar) ei
        · rw [if_neg ej] at hb
          by_cases eip : i = pos
          · subst eip
            simp at ha; subst ha
            exact h2 q j p b hps hpar hc (by simp [hne, hp]) (by simp [ej, hb])
          · rw [if_neg eip] at ha
            exact h1 i j a b hi hc ej (by simp [eip, ha]) (by simp [ej, hb])
    · intro g j a b hg hcg hcj ha hb
      have hgq : g ≠ q := by unfold Child at hcg; omega
      have hjq : j ≠ q := by unfold Child at hcj; omega
      have hgp : g ≠ pos := by unfold Child at hcg hpar; omega
      rw [getElem?_set_eq' _ _ _ _ (by simpa)] at ha hb
      rw [getElem?_set_eq' _ _ _ _ h] at ha hb
      rw [if_neg hgq, if_neg hgp] at ha
      rw [if_neg hjq] at hb
      have hpg : PyOrd.lt p a = false :=
        h1 g q a p hg hcg hne (by simp [hgp, ha]) (by simp [hne, hp])
      by_cases ej : j = pos
      · subst ej; simp at hb; subst hb; exact hpg
      · rw [if_neg ej] at hb
        have := h1 q j p b hps hcj ej (by simp [hne, hp]) (by simp [ej, hb])
        exact PyOrd.le_trans _ _ _ hpg this
  | case3 l pos hs p hp hlt =>
    intro i j a b hi hc ha hb
    by_cases ej : j = pos
    · have hpar := child_parent pos (by omega)
      subst ej
      have := child_inj hc hpar
      subst this
      rw [getElem?_set_eq' _ _ _ _ h] at ha hb
      have hne : (j - 1) / 2 ≠ j := by omega
      simp [hne, hp] at ha
      simp at hb
      subst ha hb
      simpa using hlt
    · exact hok.1 i j a b hi hc ej ha hb
  | case4 l pos hs =>
    have := hd.le
    have e : pos = s := by omega
    subst e
    intro i j a b hi hc ha hb
    exact hok.1 i j a b hi hc (by unfold Child at hc; omega) ha hb

/-- Invariant of the `_siftup` loop (list with a hole at `pos`). -/
def HoleOK (s : Nat) (l : List α) (pos : Nat) : Prop :=
  (∀ i j a b, s ≤ i → Child i j → i ≠ pos → j ≠ pos →
    l[i]? = some a → l[j]? = some b → PyOrd.lt b a = false) ∧
  (∀ p j a b, s ≤ p → Child p pos → Child pos j →
    l[p]? = some a → l[j]? = some b → PyOrd.lt b a = false)

theorem smallerChild_spec (l : List α) (c : Nat) (hc : c < l.length) :
    smallerChild l c < l.length ∧ (smallerChild l c = c ∨ smallerChild l c = c + 1) ∧
    ∀ x y j, (j = c ∨ j = c + 1) → l[smallerChild l c]? = some x → l[j]? = some y →
      PyOrd.lt y x = false := by
  unfold smallerChild
  have hl : l[c]? = some l[c] := by simp [hc]
  rw [hl]
  cases hr : l[c + 1]? with
  | none =>
    simp only
    refine ⟨hc, Or.inl trivial, ?_⟩
    intro x y j hj hx hy
    rcases hj with rfl | rfl
    · rw [hx] at hy; cases hy; exact PyOrd.irrefl _
    · rw [hr] at hy; cases hy
  | some r =>
    have hrl : c + 1 < l.length := by
      rw [List.getElem?_eq_some_iff] at hr; exact hr.1
    simp only
    split
    · rename_i hlt
      refine ⟨hc, Or.inl rfl, ?_⟩
      intro x y j hj hx hy
      rw [hl] at hx; cases hx
      rcases hj with rfl | rfl
      · rw [hl] at hy; cases hy; exact PyOrd.irrefl _
      · rw [hr] at hy; cases hy; exact PyOrd.asymm _ _ hlt
    · rename_i hlt
      refine ⟨hrl, Or.inr rfl, ?_⟩
      intro x y j hj hx hy
      rw [hr] at hx; cases hx
      rcases hj with rfl | rfl
      · rw [hl] at hy; cases hy; simpa using hlt
      · rw [hr] at hy; cases hy; exact PyOrd.irrefl _

theorem siftupLoop_length (l : List α) (pos : Nat) : (siftupLoop l pos).1.length = l.length := by
  fun_induction siftupLoop l pos <;> simp_all

theorem siftupLoop_spec (s : Nat) (l : List α) (pos : Nat) (h : pos < l.length) (hd : Desc s pos)
    (hok : HoleOK s l pos) :
    (siftupLoop l pos).2 < l.length ∧ Desc s (siftupLoop l pos).2 ∧
    l.length ≤ 2 * (siftupLoop l pos).2 + 1 ∧
    HoleOK s (siftupLoop l pos).1 (siftupLoop l pos).2 := by
  fun_induction siftupLoop l pos with
  | case1 l pos hlt hn =>
    have := (smallerChild_spec l _ hlt).1
    simp at hn; omega
  | case2 l pos hlt c hc ih =>
    obtain ⟨hsl, hs01, hmin⟩ := smallerChild_spec l _ hlt
    have hch : Child pos (smallerChild l (2 * pos + 1)) := by unfold Child; omega
    generalize smallerChild l (2 * pos + 1) = q at *
    have hds : s ≤ pos := hd.le
    have := ih (by simpa using hsl) (hd.child hch) (by
      obtain ⟨h1, h2⟩ := hok
      constructor
      · intro i j a b hi hcij hiq hjq ha hb
        rw [getElem?_set_eq' _ _ _ _ h] at ha hb
        by_cases ei : i = pos
        · subst ei
          have hji : j ≠ i := by unfold Child at hcij; omega
          simp at ha; subst ha
          rw [if_neg hji] at hb
          exact hmin c b j (by unfold Child at hcij; omega) hc hb
        · rw [if_neg ei] at ha
          by_cases ej : j = pos
          · subst ej
            simp at hb; subst hb
            exact h2 i q a c hi hcij hch ha hc
          · rw [if_neg ej] at hb
            exact h1 i j a b hi hcij ei ej ha hb
      · intro p j a b hp hcp hcj ha hb
        have := child_inj hcp hch; subst this
        have hjp : j ≠ p := by unfold Child at *; omega
        have hqp : q ≠ p := by unfold Child at *; omega
        rw [getElem?_set_eq' _ _ _ _ h] at ha hb
        simp at ha; subst ha
        rw [if_neg hjp] at hb
        exact h1 q j c b (by unfold Child at hch; omega) hcj hqp hjp hc hb)
    simpa using this
  | case3 l pos hlt => exact ⟨h, hd, by omega, hok⟩

theorem siftupLoop_perm (l : List α) (pos : Nat) (x : α) (h : pos < l.length) :
    ((siftupLoop l pos).1.set (siftupLoop l pos).2 x).Perm (l.set pos x) := by
  fun_induction siftupLoop l pos with
  | case1 => exact List.Perm.refl _
  | case2 l pos hlt c hc ih =>
    obtain ⟨hsl, hs01, hmin⟩ := smallerChild_spec l _ hlt
    have := ih (by simpa using hsl)
    exact this.trans (set_move_perm l pos _ x c h hc (by omega))
  | case3 => exact List.Perm.refl _

theorem siftup_length (l : List α) (pos : Nat) : (siftup l pos).length = l.length := by
  unfold siftup
  split
  · rfl
  · rw [siftdown_length, siftupLoop_length]

theorem siftup_perm (l : List α) (pos : Nat) : (siftup l pos).Perm l := by
  unfold siftup
  split
  · exact List.Perm.refl _
  · rename_i x hx
    have hpos : pos < l.length := by rw [List.getElem?_eq_some_iff] at hx; exact hx.1
    have h2 : (siftupLoop l pos).2 < (siftupLoop l pos).1.length := by
      rw [siftupLoop_length]
      clear hx
      fun_induction siftupLoop l pos with
      | case1 => exact hpos
      | case2 l pos hlt c hc ih =>
        have := ih (by simpa using (smallerChild_spec l _ hlt).1)
        simpa using this
      | case3 => exact hpos
    refine (siftdown_perm _ _ _ _ h2).trans ((siftupLoop_perm l pos x hpos).trans ?_)
    rw [List.getElem?_eq_some_iff] at hx
    obtain ⟨h, rfl⟩ := hx
    simp

theorem siftup_heap (s : Nat) (l : List α) (hs : s < l.length) (hf : HeapFrom (s + 1) l) :
    HeapFrom s (siftup l s) := by
  unfold siftup
  have hx : l[s]? = some l[s] := by simp [hs]
  rw [hx]
  simp only
  have hole : HoleOK s l s := by
    constructor
    · intro i j a b hi hc hi' hj ha hb
      exact hf i j a b (by omega) hc ha hb
    · intro p j a b hp hc hc' ha hb
      unfold Child at hc; omega
  obtain ⟨h1, h2, h3, h4⟩ := siftupLoop_spec s l s hs Desc.refl hole
  have hlen := siftupLoop_length l s
  apply siftdown_heap
  · omega
  · exact h2
  · obtain ⟨h5, h6⟩ := h4
    constructor
    · intro i j a b hi hc hj ha hb
      rw [getElem?_set_eq' _ _ _ _ (by omega)] at ha hb
      rw [if_neg hj] at hb
      have hi' : i ≠ (siftupLoop l s).2 := by
        intro e
        have hjl : j < (siftupLoop l s).1.length := by
          rw [List.getElem?_eq_some_iff] at hb; exact hb.1
        unfold Child at hc; omega
      rw [if_neg hi'] at ha
      exact h5 i j a b hi hc hi' hj ha hb
    · intro p j a b hp hc hc' ha hb
      rw [getElem?_set_eq' _ _ _ _ (by omega)] at hb
      have hjl : j < (siftupLoop l s).1.length := by
        have : j ≠ (siftupLoop l s).2 := by unfold Child at hc'; omega
        rw [if_neg this, List.getElem?_eq_some_iff] at hb; exact hb.1
      unfold Child at hc'; omega

theorem heapifyFrom_perm (n : Nat) : ∀ l : List α, (heapifyFrom l n).Perm l := by
  induction n with
  | zero => intro l; exact List.Perm.refl _
  | succ n ih => intro l; exact (ih _).trans (siftup_perm l n)

theorem heapifyFrom_heap (n : Nat) : ∀ l : List α, n ≤ l.length → HeapFrom n l →
    HeapFrom 0 (heapifyFrom l n) := by
  induction n with
  | zero => intro l _ h; exact h
  | succ n ih =>
    intro l hn h
    exact ih _ (by rw [siftup_length]; omega) (siftup_heap n l (by omega) h)

theorem heapFrom_zero {l : List α} : HeapFrom 0 l ↔ IsHeap l := by
  unfold HeapFrom IsHeap; simp

theorem isHeap_prefix {l r : List α} (h : IsHeap (l ++ r)) : IsHeap l := by
  intro i j x y hc hx hy
  have e1 := List.getElem?_append_left (l₁ := l) (l₂ := r) (i := i)
    (by rw [List.getElem?_eq_some_iff] at hx; exact hx.1)
  have e2 := List.getElem?_append_left (l₁ := l) (l₂ := r) (i := j)
    (by rw [List.getElem?_eq_some_iff] at hy; exact hy.1)
  exact h i j x y hc (e1.trans hx) (e2.trans hy)

theorem cpHeapify_heap (l : List α) : IsHeap (cpHeapify l) := by
  rw [← heapFrom_zero]
  apply heapifyFrom_heap
  · omega
  · intro i j x y hi hc hx hy
    rw [List.getElem?_eq_some_iff] at hy
    obtain ⟨hj, _⟩ := hy
    unfold Child at hc; omega

theorem cpHeappush_heap (l : List α) (x : α) (h : IsHeap l) : IsHeap (cpHeappush l x) := by
  rw [← heapFrom_zero]
  have hd : ∀ p, Desc 0 p := by
    intro p
    induction p using Nat.strongRecOn with
    | ind p ih =>
      by_cases hp : p = 0
      · subst hp; exact Desc.refl
      · exact (ih ((p - 1) / 2) (by omega)).child (child_parent p (by omega))
  apply siftdown_heap _ _ _ _ (by simp) (hd _)
  constructor
  · intro i j a b hi hc hj ha hb
    simp at ha hb
    have hjl : j < l.length := by
      have : j < (l ++ [x]).length := by rw [List.getElem?_eq_some_iff] at hb; exact hb.1
      simp at this; omega
    have hil : i < l.length := by unfold Child at hc; omega
    rw [List.getElem?_append_left hil] at ha
    rw [List.getElem?_append_left hjl] at hb
    exact h i j a b hc ha hb
  · intro p j a b hp hc hc' ha hb
    have hjl : j < ((l ++ [x]).set l.length x).length := by
      rw [List.getElem?_eq_some_iff] at hb; exact hb.1
    simp at hjl
    unfold Child at hc'; omega

omit [PyOrd α] in
theorem dropLast_append_getLast? {l : List α} {x : α} (h : l.getLast? = some x) :
    l.dropLast ++ [x] = l := by
  have hne : l ≠ [] := by rintro rfl; simp at h
  rw [List.getLast?_eq_some_getLast hne] at h
  cases h
  exact List.dropLast_concat_getLast hne

theorem cpHeappop_heap (l : List α) (x : α) (r : List α) (h : IsHeap l)
    (hp : cpHeappop l = some (x, r)) : IsHeap r := by
  unfold cpHeappop at hp
  split at hp
  · cases hp
  · rename_i last hl
    have hl' := dropLast_append_getLast? hl
    split at hp
    · cases hp; intro i j x y _ hx; simp at hx
    · rename_i ret rest hr
      cases hp
      rw [← heapFrom_zero]
      apply siftup_heap _ _ (by simp)
      rw [← hl', hr] at h
      have h' := isHeap_prefix h
      intro i j a b hi hc ha hb
      apply h' i j a b hc
      · cases i with
        | zero => omega
        | succ i => simpa using ha
      · cases j with
        | zero => unfold Child at hc; omega
        | succ j => simpa using hb

/-- CPython's heapq meets the contract. -/
def cpython (α : Type _) [PyOrd α] : Heapq α where
  heapify := cpHeapify
  heappush := cpHeappush
  heappop := cpHeappop
  heapify_perm l := heapifyFrom_perm _ l
  heapify_heap := cpHeapify_heap
  push_perm l x := by
    refine (siftdown_perm _ _ _ _ (by simp)).trans ?_
    simp
  push_heap := cpHeappush_heap
  pop_nil := rfl
  pop_perm l x r hp := by
    unfold cpHeappop at hp
    split at hp
    · cases hp
    · rename_i last hl
      have hl' := dropLast_append_getLast? hl
      split at hp
      · rename_i hr; cases hp; rw [hr] at hl'; rw [← hl']; exact List.Perm.refl _
      · rename_i ret rest hr
        cases hp
        rw [← hl', hr]
        have := siftup_perm (last :: rest) 0
        refine List.Perm.trans ?_ (this.symm.cons _)
        simp
  pop_some l hne h := by
    unfold cpHeappop at h
    split at h
    · rename_i e; simp at e; exact hne e
    · split at h <;> cases h
  pop_heap := cpHeappop_heap
  pop_head l x r hp := by
    unfold cpHeappop at hp
    split at hp
    · cases hp
    · rename_i last hl
      have hl' := dropLast_append_getLast? hl
      split at hp
      · rename_i hr; cases hp; rw [hr] at hl'; rw [← hl']; rfl
      · rename_i ret rest hr
        cases hp
        rw [← hl', hr]; rfl

/-- In a heap no element is smaller than the one at index 0. -/
theorem isHeap_head_min {l : List α} (h : IsHeap l) {x : α} (hx : l.head? = some x) :
    ∀ y ∈ l, PyOrd.lt y x = false := by
  have hx0 : l[0]? = some x := by rw [← List.head?_eq_getElem?]; exact hx
  have : ∀ (n : Nat) (y : α), l[n]? = some y → PyOrd.lt y x = false := by
    intro n
    induction n using Nat.strongRecOn with
    | ind n ih =>
      intro y hy
      by_cases hn : n = 0
      · subst hn; rw [hx0] at hy; cases hy; exact PyOrd.irrefl _
      · have hlt : (n - 1) / 2 < l.length := by
          rw [List.getElem?_eq_some_iff] at hy
          obtain ⟨hy, _⟩ := hy
          omega
        have hp : l[(n - 1) / 2]? = some l[(n - 1) / 2] := by simp [hlt]
        have h1 := ih ((n - 1) / 2) (by omega) _ hp
        have h2 := h _ _ _ _ (child_parent n (by omega)) hp hy
        exact PyOrd.le_trans _ _ _ h1 h2
  intro y hy
  obtain ⟨n, hn⟩ := List.mem_iff_getElem?.1 hy
  exact this n y hn

end Verif.Heap
