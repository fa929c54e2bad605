import Verif.MergeList.Model
import Verif.Heap.Lemmas
/-!
# C27: merge_list
-/
namespace Verif.MergeList
open Verif Heap

section
variable {K V : Type} [DecidableEq K]

/-- the values under a key, in order -/
def valuesFor (k : K) (l : List (K × V)) : List V := (l.filter (fun x => decide (x.1 = k))).map (·.2)

/-- one value per run of equal keys, the first run having begun with `(k, v)` -/
def groups (f : V → V → V) (k : K) (v : V) : List (K × V) → List (K × V)
  | [] => [(k, v)]
  | (k2, v2) :: l => if k2 = k then groups f k (f v v2) l else (k, v) :: groups f k2 v2 l

end

section
variable {K V : Type} [DecidableEq K] [PyLinOrd K]

theorem ne_of_lt {a b : K} (h : PyOrd.lt a b = true) : a ≠ b := by
  rintro rfl
  rw [PyOrd.irrefl] at h; cases h

theorem lt_of_le_ne {a b : K} (h : PyOrd.lt b a = false) (hn : b ≠ a) : PyOrd.lt a b = true := by
  cases h2 : PyOrd.lt a b with
  | true => rfl
  | false => exact absurd (PyLinOrd.antisymm b a h h2) hn

theorem groups_keys (f : V → V → V) : ∀ (l : List (K × V)) (k : K) (v : V), (∀ x ∈ l, PyOrd.lt x.1 k = false) → (l.map (·.1)).Pairwise PyOrd.le →
    ((groups f k v l).map (·.1)).Pairwise (fun a b => PyOrd.lt a b = true) ∧ (∀ k', k' ∈ (groups f k v l).map (·.1) ↔ k' = k ∨ k' ∈ l.map (·.1)) := by
  intro l
  induction l with
  | nil => intro k v _ _; simp [groups]
  | cons x l ih =>
    intro k v hk hs
    obtain ⟨k2, v2⟩ := x
    simp only [List.map_cons, List.pairwise_cons] at hs
    simp only [groups]
    by_cases h : k2 = k
    · subst h
      simp only [if_true]
      obtain ⟨i1, i2⟩ := ih k2 (f v v2) (fun x hx => hk x (by simp [hx])) hs.2
      refine ⟨i1, fun k' => ?_⟩
      rw [i2]; simp
    · simp only [h, if_false]
      have hk2 : ∀ x ∈ l, PyOrd.lt x.1 k2 = false := fun x hx => hs.1 x.1 (List.mem_map.2 ⟨x, hx, rfl⟩)
      obtain ⟨i1, i2⟩ := ih k2 v2 hk2 hs.2
      have h1 : PyOrd.lt k k2 = true := lt_of_le_ne (hk (k2, v2) (by simp)) h
      refine ⟨?_, fun k' => ?_⟩
      · simp only [List.map_cons, List.pairwise_cons]
        refine ⟨?_, i1⟩
        intro k' hk'
        rcases (i2 k').1 hk' with rfl | hm
        · exact h1
        · obtain ⟨x, hx, rfl⟩ := List.mem_map.1 hm
          cases hlt : PyOrd.lt k x.1 with
          | true => rfl
          | false =>
            have : PyOrd.lt k k2 = false := PyOrd.le_trans k2 x.1 k (hk2 x hx) hlt
            rw [h1] at this; cases this
      · simp only [List.map_cons, List.mem_cons, i2]

theorem valuesFor_none (k : K) (l : List (K × V)) (h : ∀ x ∈ l, x.1 ≠ k) : valuesFor k l = [] := by
  simp only [valuesFor, List.map_eq_nil_iff, List.filter_eq_nil_iff, decide_eq_true_eq]
  exact h

theorem groups_values (f : V → V → V) : ∀ (l : List (K × V)) (k : K) (v : V), (∀ x ∈ l, PyOrd.lt x.1 k = false) → (l.map (·.1)).Pairwise PyOrd.le →
    ∀ k' v', (k', v') ∈ groups f k v l → (k' = k ∧ v' = (valuesFor k l).foldl f v) ∨ (k' ≠ k ∧ ∃ x xs, valuesFor k' l = x :: xs ∧ v' = xs.foldl f x) := by
  intro l
  induction l with
  | nil => intro k v _ _ k' v' h; simp [groups] at h; left; simp [h, valuesFor]
  | cons x l ih =>
    intro k v hk hs k' v' hm
    obtain ⟨k2, v2⟩ := x
    simp only [List.map_cons, List.pairwise_cons] at hs
    simp only [groups] at hm
    have hk2 : ∀ x ∈ l, PyOrd.lt x.1 k2 = false := fun x hx => hs.1 x.1 (List.mem_map.2 ⟨x, hx, rfl⟩)
    by_cases h : k2 = k
    · subst h
      simp only [if_true] at hm
      rcases ih k2 (f v v2) hk2 hs.2 k' v' hm with ⟨rfl, rfl⟩ | ⟨h1, x, xs, h2, h3⟩
      · left; simp [valuesFor]
      · right
        refine ⟨h1, x, xs, ?_, h3⟩
        have : ¬ k2 = k' := fun e => h1 e.symm
        simpa [valuesFor, this] using h2
    · simp only [h, if_false] at hm
      have hkk : PyOrd.lt k k2 = true := lt_of_le_ne (hk (k2, v2) (by simp)) h
      rcases List.mem_cons.1 hm with he | hm
      · injection he with e1 e2
        subst e1; subst e2
        left
        refine ⟨rfl, ?_⟩
        rw [valuesFor_none]; rfl
        intro x hx
        rcases List.mem_cons.1 hx with rfl | hx
        · exact h
        · rintro rfl
          have := hk2 x hx
          rw [hkk] at this; cases this
      · right
        rcases ih k2 v2 hk2 hs.2 k' v' hm with ⟨rfl, rfl⟩ | ⟨h1, x, xs, h2, h3⟩
        · exact ⟨h, v2, valuesFor k' l, by simp [valuesFor], rfl⟩
        · refine ⟨?_, x, xs, ?_, h3⟩
          · rintro rfl
            have : valuesFor k' l = [] := valuesFor_none _ _ (fun y hy => by
              intro e
              have := hk2 y hy
              rw [e, hkk] at this
              cases this)
            rw [this] at h2; cases h2
          · have : ¬ k2 = k' := fun e => h1 e.symm
            simpa [valuesFor, this] using h2

end

section
variable {K V : Type} [DecidableEq K] [DecidableEq V] [PyLinOrd K] [PyLinOrd V]
variable (H : Heapq (K × V × Nat)) (f : V → V → V)

/-- what is left to be popped -/
def St.rest (s : St K V) : List (K × V) := s.heap.map (fun x => (x.1, x.2.1)) ++ s.its.flatten

/-- the entries popped one after another -/
def pops : Nat → St K V → List (K × V)
  | 0, _ => []
  | n + 1, s =>
    match s.pop H with
    | none => []
    | some (x, s') => (x.1, x.2.1) :: pops n s'

structure Inv (s : St K V) : Prop where
  heap : IsHeap s.heap
  /-- what is left of a list is sorted, and an entry of that list which is not greater waits in the heap -/
  lists : ∀ i l, s.its[i]? = some l → (l.map (·.1)).Pairwise PyOrd.le ∧ (l ≠ [] → i ∈ s.avail ∧ ∃ y ∈ s.heap, y.2.2 = i ∧ ∀ z ∈ l, PyOrd.lt z.1 y.1 = false)

theorem flatten_set (its : List (List (K × V))) (i : Nat) (a : K × V) (l : List (K × V)) (h : its[i]? = some (a :: l)) : its.flatten.Perm (a :: (its.set i l).flatten) := by
  induction its generalizing i with
  | nil => simp at h
  | cons x its ih =>
    cases i with
    | zero => simp at h; subst h; simp
    | succ i =>
      simp at h
      simp only [List.flatten_cons, List.set_cons_succ]
      exact (List.Perm.append_left x (ih i h)).trans List.perm_middle

theorem lt_fst {a b : K × V × Nat} (h : PyOrd.lt a b = false) : PyOrd.lt a.1 b.1 = false := by
  change (if a.1 = b.1 then PyOrd.lt a.2 b.2 else PyOrd.lt a.1 b.1) = false at h
  split at h
  · rename_i e; rw [e]; exact PyOrd.irrefl _
  · exact h

theorem pop_ok (s : St K V) (hi : Inv s) :
    (s.pop H = none ∧ s.rest = []) ∨
    ∃ x s', s.pop H = some (x, s') ∧ s.rest.Perm ((x.1, x.2.1) :: s'.rest) ∧ Inv s' ∧ (∀ z ∈ s'.rest, PyOrd.lt z.1 x.1 = false) ∧ s'.cur = s.cur ∧ s'.closed = s.closed := by
  cases hp : H.heappop s.heap with
  | none =>
    left
    have he := heappop_none H hp
    refine ⟨by simp [St.pop, hp], ?_⟩
    have : s.its.flatten = [] := by
      rw [List.flatten_eq_nil_iff]
      intro l hl
      obtain ⟨i, hi'⟩ := List.mem_iff_getElem?.1 hl
      by_cases hn : l = []
      · exact hn
      · obtain ⟨_, y, hy, _⟩ := (hi.lists i l hi').2 hn
        rw [he] at hy; cases hy
    simp [St.rest, he, this]
  | some r =>
    right
    obtain ⟨x, h⟩ := r
    obtain ⟨hl, hperm, hh⟩ := pop_least H hi.heap hp
    have hmin : ∀ z ∈ s.rest, PyOrd.lt z.1 x.1 = false := by
      intro z hz
      simp only [St.rest, List.mem_append, List.mem_map, List.mem_flatten] at hz
      rcases hz with ⟨y, hy, rfl⟩ | ⟨l, hl', hz⟩
      · exact lt_fst (hl.2 y hy)
      · obtain ⟨i, hi'⟩ := List.mem_iff_getElem?.1 hl'
        obtain ⟨_, y, hy, _, hyz⟩ := (hi.lists i l hi').2 (by rintro rfl; cases hz)
        exact PyOrd.le_trans x.1 y.1 z.1 (lt_fst (hl.2 y hy)) (hyz z hz)
    have hheap : (s.heap.map (fun x => (x.1, x.2.1))).Perm ((x.1, x.2.1) :: h.map (fun x => (x.1, x.2.1))) := hperm.map _
    have hmem : ∀ y ∈ s.heap, y.2.2 ≠ x.2.2 → y ∈ h := by
      intro y hy hne
      rcases List.mem_cons.1 (hperm.mem_iff.1 hy) with rfl | hy
      · exact absurd rfl hne
      · exact hy
    have hrest : ∀ s' : St K V, s.rest.Perm ((x.1, x.2.1) :: s'.rest) → ∀ z ∈ s'.rest, PyOrd.lt z.1 x.1 = false := fun s' hs' z hz => hmin z (hs'.mem_iff.2 (by simp [hz]))
    by_cases ha : x.2.2 ∈ s.avail
    · cases hx : s.its[x.2.2]? with
      | none =>
        have e : s.pop H = some (x, { s with heap := h, avail := s.avail.filter (fun j => decide (j ≠ x.2.2)) }) := by simp only [St.pop, hp, ha, if_true, hx]
        have hp1 : s.rest.Perm ((x.1, x.2.1) :: ({ s with heap := h, avail := s.avail.filter (fun j => decide (j ≠ x.2.2)) } : St K V).rest) := by
          simp only [St.rest]; exact hheap.append_right _
        refine ⟨x, _, e, hp1, ⟨hh, ?_⟩, hrest _ hp1, rfl, rfl⟩
        intro i l hi'
        refine ⟨(hi.lists i l hi').1, fun hn => ?_⟩
        obtain ⟨h1, y, hy, h2, h3⟩ := (hi.lists i l hi').2 hn
        have hne : i ≠ x.2.2 := by intro e; simp only [e] at hi'; rw [hx] at hi'; cases hi'
        exact ⟨by simp [h1, hne], y, hmem y hy (by rw [h2]; exact hne), h2, h3⟩
      | some l0 =>
        cases l0 with
        | nil =>
          have e : s.pop H = some (x, { s with heap := h, avail := s.avail.filter (fun j => decide (j ≠ x.2.2)) }) := by simp only [St.pop, hp, ha, if_true, hx]
          have hp1 : s.rest.Perm ((x.1, x.2.1) :: ({ s with heap := h, avail := s.avail.filter (fun j => decide (j ≠ x.2.2)) } : St K V).rest) := by
            simp only [St.rest]; exact hheap.append_right _
          refine ⟨x, _, e, hp1, ⟨hh, ?_⟩, hrest _ hp1, rfl, rfl⟩
          intro i l hi'
          refine ⟨(hi.lists i l hi').1, fun hn => ?_⟩
          obtain ⟨h1, y, hy, h2, h3⟩ := (hi.lists i l hi').2 hn
          have hne : i ≠ x.2.2 := by intro e; simp only [e] at hi'; rw [hx] at hi'; injection hi' with hi'; exact hn hi'.symm
          exact ⟨by simp [h1, hne], y, hmem y hy (by rw [h2]; exact hne), h2, h3⟩
        | cons a l0 =>
          obtain ⟨k2, v2⟩ := a
          have e : s.pop H = some (x, { s with heap := H.heappush h (k2, v2, x.2.2), its := s.its.set x.2.2 l0 }) := by simp only [St.pop, hp, ha, if_true, hx]
          have hpush := H.push_perm h (k2, v2, x.2.2)
          have hp1 : s.rest.Perm ((x.1, x.2.1) :: ({ s with heap := H.heappush h (k2, v2, x.2.2), its := s.its.set x.2.2 l0 } : St K V).rest) := by
            simp only [St.rest]
            have q1 : ((H.heappush h (k2, v2, x.2.2)).map (fun x => (x.1, x.2.1))).Perm ((k2, v2) :: h.map (fun x => (x.1, x.2.1))) := hpush.map _
            have q2 := flatten_set s.its x.2.2 (k2, v2) l0 hx
            refine (hheap.append q2).trans ?_
            simp only [List.cons_append]
            refine List.Perm.cons _ ?_
            refine List.perm_middle.trans ?_
            exact (List.Perm.append_right _ q1).symm
          refine ⟨x, _, e, hp1, ⟨H.push_heap h _ hh, ?_⟩, hrest _ hp1, rfl, rfl⟩
          intro i l hi'
          dsimp only at hi' ⊢
          by_cases hne : i = x.2.2
          · subst hne
            have hlt : x.2.2 < s.its.length := by
              rcases List.getElem?_eq_some_iff.1 hx with ⟨h, _⟩; exact h
            rw [List.getElem?_set_self hlt] at hi'
            injection hi' with hi'
            subst hi'
            have hs := (hi.lists x.2.2 _ hx).1
            simp only [List.map_cons, List.pairwise_cons] at hs
            refine ⟨hs.2, fun _ => ⟨ha, (k2, v2, x.2.2), hpush.mem_iff.2 (by simp), rfl, ?_⟩⟩
            intro z hz
            exact hs.1 z.1 (List.mem_map.2 ⟨z, hz, rfl⟩)
          · rw [List.getElem?_set_ne (Ne.symm hne)] at hi'
            refine ⟨(hi.lists i l hi').1, fun hn => ?_⟩
            obtain ⟨h1, y, hy, h2, h3⟩ := (hi.lists i l hi').2 hn
            exact ⟨h1, y, hpush.mem_iff.2 (by simp [hmem y hy (by rw [h2]; exact hne)]), h2, h3⟩
    · have e : s.pop H = some (x, { s with heap := h }) := by simp only [St.pop, hp, ha, if_false]
      have hp1 : s.rest.Perm ((x.1, x.2.1) :: ({ s with heap := h } : St K V).rest) := by
        simp only [St.rest]; exact hheap.append_right _
      refine ⟨x, _, e, hp1, ⟨hh, ?_⟩, hrest _ hp1, rfl, rfl⟩
      intro i l hi'
      refine ⟨(hi.lists i l hi').1, fun hn => ?_⟩
      obtain ⟨h1, y, hy, h2, h3⟩ := (hi.lists i l hi').2 hn
      have hne : i ≠ x.2.2 := by rintro rfl; exact ha h1
      exact ⟨h1, y, hmem y hy (by rw [h2]; exact hne), h2, h3⟩

theorem pops_ok (n : Nat) : ∀ (s : St K V), Inv s → s.rest.length ≤ n → (pops H n s).Perm s.rest ∧ ((pops H n s).map (·.1)).Pairwise PyOrd.le := by
  induction n with
  | zero =>
    intro s _ hl
    have : s.rest = [] := List.eq_nil_of_length_eq_zero (by omega)
    simp [pops, this]
  | succ n ih =>
    intro s hi hl
    rcases pop_ok H s hi with ⟨h1, h2⟩ | ⟨x, s', h1, h2, h3, h4, _⟩
    · simp [pops, h1, h2]
    · have hlen := h2.length_eq
      simp only [List.length_cons] at hlen
      obtain ⟨i1, i2⟩ := ih s' h3 (by omega)
      simp only [pops, h1]
      refine ⟨(i1.cons _).trans h2.symm, ?_⟩
      simp only [List.map_cons, List.pairwise_cons]
      refine ⟨?_, i2⟩
      intro k hk
      obtain ⟨z, hz, rfl⟩ := List.mem_map.1 hk
      exact h4 z (i1.mem_iff.1 hz)

theorem pops_cur (n : Nat) : ∀ (its : List (List (K × V))) (av : List Nat) (hp : List (K × V × Nat)) (c c' : Option (K × V)) (cl : Bool),
    pops H n ⟨its, av, hp, c, cl⟩ = pops H n ⟨its, av, hp, c', cl⟩ := by
  induction n with
  | zero => intros; rfl
  | succ n ih =>
    intro its av hp c c' cl
    simp only [pops, St.pop]
    cases H.heappop hp with
    | none => rfl
    | some r =>
      obtain ⟨x, h⟩ := r
      dsimp only
      by_cases ha : x.2.2 ∈ av
      · simp only [ha, if_true]
        cases its[x.2.2]? with
        | none => exact congrArg _ (ih _ _ _ c c' cl)
        | some l => cases l with
          | nil => exact congrArg _ (ih _ _ _ c c' cl)
          | cons a l => exact congrArg _ (ih _ _ _ c c' cl)
      · simp only [ha, if_false]
        exact congrArg _ (ih _ _ _ c c' cl)

/-- one call of `next()` yields the first group -/
theorem next_ok (d : Nat) : ∀ (s : St K V) (k : K) (v : V), Inv s → s.closed = false → s.cur = some (k, v) → s.rest.length < d →
    ∃ s' v', s.next H f d = (s', .yield k v') ∧
      ((s'.closed = true ∧ groups f k v (pops H s.rest.length s) = [(k, v')]) ∨
       (∃ k2 v2, s'.closed = false ∧ s'.cur = some (k2, v2) ∧ Inv s' ∧ s'.rest.length < s.rest.length ∧
        groups f k v (pops H s.rest.length s) = (k, v') :: groups f k2 v2 (pops H s'.rest.length s'))) := by
  induction d with
  | zero => intro s k v _ _ _ h; omega
  | succ d ih =>
    intro s k v hi hc hcur hd
    rcases pop_ok H s hi with ⟨h1, h2⟩ | ⟨⟨k2, v2, i2⟩, s', h1, h2, h3, h4, h5, h6⟩
    · refine ⟨{ s with closed := true }, v, by simp [St.next, hc, hcur, h1], Or.inl ⟨rfl, by simp [h2, pops, groups]⟩⟩
    · have hlen := h2.length_eq
      simp only [List.length_cons] at hlen
      have hpops : pops H s.rest.length s = (k2, v2) :: pops H s'.rest.length s' := by rw [hlen]; simp only [pops, h1]
      by_cases hk : k2 = k
      · subst hk
        have hrest : ∀ c, ({ s' with cur := c } : St K V).rest = s'.rest := fun _ => rfl
        obtain ⟨s2, v', e1, e2⟩ := ih { s' with cur := some (k2, f v v2) } k2 (f v v2) ⟨h3.heap, h3.lists⟩ (by rw [← hc]; exact h6) rfl (by rw [hrest]; omega)
        have hpeq : ∀ n c (s : St K V), pops H n { s with cur := c } = pops H n s := by
          intro n c s; exact pops_cur H n _ _ _ _ _ _
        refine ⟨s2, v', ?_, ?_⟩
        · rw [← e1]; simp [St.next, hc, hcur, h1]
        · rw [hrest, hpeq] at e2
          rw [hpops]
          simp only [groups, if_true]
          rcases e2 with ⟨q1, q2⟩ | ⟨k3, v3, q1, q2, q3, q4, q5⟩
          · exact Or.inl ⟨q1, q2⟩
          · exact Or.inr ⟨k3, v3, q1, q2, q3, by omega, q5⟩
      · have hpeq : ∀ n c (s : St K V), pops H n { s with cur := c } = pops H n s := by
          intro n c s; exact pops_cur H n _ _ _ _ _ _
        refine ⟨{ s' with cur := some (k2, v2) }, v, by simp [St.next, hc, hcur, h1, hk], Or.inr ⟨k2, v2, by rw [← hc]; exact h6, rfl, ⟨h3.heap, h3.lists⟩, ?_, ?_⟩⟩
        · show s'.rest.length < s.rest.length; omega
        · rw [hpops]
          simp only [groups, if_neg hk]
          rw [show ({ s' with cur := some (k2, v2) } : St K V).rest = s'.rest from rfl]; exact congrArg (fun l => (k, v) :: groups f k2 v2 l) (hpeq _ _ s').symm

theorem consume_ok (lim : Nat) : ∀ (n : Nat) (s : St K V) (k : K) (v : V), Inv s → s.closed = false → s.cur = some (k, v) → s.rest.length < lim → s.rest.length + 1 < n →
    consume H f lim n s = some (groups f k v (pops H s.rest.length s)) := by
  intro n
  induction n with
  | zero => intro s k v _ _ _ _ h; omega
  | succ n ih =>
    intro s k v hi hc hcur hl hn
    obtain ⟨s', v', e1, e2⟩ := next_ok H f lim s k v hi hc hcur hl
    simp only [consume, e1]
    rcases e2 with ⟨q1, q2⟩ | ⟨k3, v3, q1, q2, q3, q4, q5⟩
    · obtain ⟨n, rfl⟩ : ∃ m, n = m + 1 := ⟨n - 1, by omega⟩
      obtain ⟨l, rfl⟩ : ∃ m, lim = m + 1 := ⟨lim - 1, by omega⟩
      simp [consume, St.next, q1, q2]
    · rw [ih s' k3 v3 q3 q1 q2 (by omega) (by omega), q5]; rfl

theorem fill_ok : ∀ (lists : List (List (K × V))) (s : St K V), Inv s → (∀ l ∈ lists, (l.map (·.1)).Pairwise PyOrd.le) →
    Inv (fill H s.its.length s lists) ∧ (fill H s.its.length s lists).rest.Perm (s.rest ++ lists.flatten) ∧
    (fill H s.its.length s lists).closed = s.closed ∧ (fill H s.its.length s lists).cur = s.cur := by
  intro lists
  induction lists with
  | nil => intro s hi _; simp [fill, hi]
  | cons l ls ih =>
    intro s hi hs
    cases l with
    | nil =>
      simp only [fill]
      have := ih { s with its := s.its ++ [[]] } ⟨hi.heap, by
        intro i l hi'
        dsimp only at hi' ⊢
        rw [List.getElem?_append] at hi'
        split at hi'
        · exact hi.lists i l hi'
        · rw [List.getElem?_singleton] at hi'
          split at hi'
          · injection hi' with hi'; subst hi'; simp
          · cases hi'⟩ (fun l hl => hs l (by simp [hl]))
      simp only [List.length_append, List.length_singleton] at this
      obtain ⟨t1, t2, t3, t4⟩ := this
      refine ⟨t1, t2.trans ?_, t3, t4⟩
      simp [St.rest]
    | cons a l =>
      obtain ⟨k, v⟩ := a
      simp only [fill]
      have hsl := hs ((k, v) :: l) (by simp)
      simp only [List.map_cons, List.pairwise_cons] at hsl
      have hpush := H.push_perm s.heap (k, v, s.its.length)
      have := ih { s with heap := H.heappush s.heap (k, v, s.its.length), avail := setAdd s.avail s.its.length, its := s.its ++ [l] } ⟨H.push_heap _ _ hi.heap, by
        intro i l' hi'
        dsimp only at hi' ⊢
        rw [List.getElem?_append] at hi'
        split at hi'
        · refine ⟨(hi.lists i l' hi').1, fun hn => ?_⟩
          obtain ⟨h1, y, hy, h2, h3⟩ := (hi.lists i l' hi').2 hn
          exact ⟨mem_setAdd.2 (Or.inr h1), y, hpush.mem_iff.2 (by simp [hy]), h2, h3⟩
        · rw [List.getElem?_singleton] at hi'
          split at hi'
          · rename_i h1 h2
            have : i = s.its.length := by omega
            injection hi' with hi'; subst hi'; subst this
            refine ⟨hsl.2, fun _ => ⟨mem_setAdd.2 (Or.inl rfl), (k, v, s.its.length), hpush.mem_iff.2 (by simp), rfl, ?_⟩⟩
            intro z hz
            exact hsl.1 z.1 (List.mem_map.2 ⟨z, hz, rfl⟩)
          · cases hi'⟩ (fun l hl => hs l (by simp [hl]))
      simp only [List.length_append, List.length_singleton] at this
      obtain ⟨t1, t2, t3, t4⟩ := this
      refine ⟨t1, t2.trans ?_, t3, t4⟩
      simp only [St.rest, List.flatten_append, List.flatten_cons, List.flatten_nil, List.append_nil, List.append_assoc, List.cons_append]
      have q1 : ((H.heappush s.heap (k, v, s.its.length)).map (fun x => (x.1, x.2.1))).Perm ((k, v) :: s.heap.map (fun x => (x.1, x.2.1))) := hpush.map _
      refine (List.Perm.append_right _ q1).trans ?_
      simp only [List.cons_append]
      refine (List.Perm.symm ?_)
      rw [← List.append_assoc]
      refine List.perm_middle.trans ?_
      simp

/-- **C27 (partial).** Given lists sorted by key (and a recursion limit beyond the number of entries), `list(merge_list(*lists))` has strictly increasing keys, which are the keys of the input, and under each key the merge function folded
over the values of the input under that key, in some order.  Missing: more entries than the recursion limit (see `C27_recursion_violates`), and values that cannot be compared. -/
theorem C27_merge_partial (lists : List (List (K × V))) (lim n : Nat) (hs : ∀ l ∈ lists, (l.map (·.1)).Pairwise PyOrd.le) (hlim : lists.flatten.length < lim) (hn : lists.flatten.length + 1 < n) :
    ∃ out, consume H f lim n (St.init H lists) = some out ∧
      (out.map (·.1)).Pairwise (fun a b => PyOrd.lt a b = true) ∧
      (∀ k, k ∈ out.map (·.1) ↔ ∃ l ∈ lists, k ∈ l.map (·.1)) ∧
      (∀ k v, (k, v) ∈ out → ∃ x xs, (x :: xs).Perm (valuesFor k lists.flatten) ∧ v = xs.foldl f x) := by
  have hfill := fill_ok H lists { its := [], avail := [], heap := Heap.init H [], cur := none, closed := false } ⟨H.heapify_heap [], by simp⟩ hs
  simp only [List.length_nil] at hfill
  obtain ⟨f1, f2, f3, f4⟩ := hfill
  have hnil : Heap.init H ([] : List (K × V × Nat)) = [] := List.Perm.eq_nil (H.heapify_perm [])
  simp only [St.rest, hnil, List.map_nil, List.flatten_nil, List.nil_append] at f2
  rw [hnil] at f1 f3 f4
  simp only [St.init, hnil]
  generalize fill H 0 { its := [], avail := [], heap := [], cur := none, closed := false } lists = s at *
  have f2 : s.rest.Perm lists.flatten := f2
  rcases pop_ok H s f1 with ⟨h1, h2⟩ | ⟨⟨k, v, i⟩, s', h1, h2, h3, h4, h5, h6⟩
  · have hfl : lists.flatten = [] := by rw [h2] at f2; exact List.Perm.eq_nil f2.symm
    refine ⟨[], ?_, by simp, ?_, by simp⟩
    · obtain ⟨n, rfl⟩ : ∃ m, n = m + 1 := ⟨n - 1, by omega⟩
      obtain ⟨l, rfl⟩ : ∃ m, lim = m + 1 := ⟨lim - 1, by omega⟩
      simp [h1, consume, St.next]
    · intro k
      simp only [List.map_nil, List.not_mem_nil, false_iff]
      rintro ⟨l, hl, hk⟩
      rw [List.flatten_eq_nil_iff.1 hfl l hl] at hk
      cases hk
  · have hlen := h2.length_eq
    have hlen2 := f2.length_eq
    simp only [List.length_cons] at hlen
    have hr : ∀ c, ({ s' with cur := c } : St K V).rest = s'.rest := fun _ => rfl
    have hc := consume_ok H f lim n { s' with cur := some (k, v) } k v ⟨h3.heap, h3.lists⟩ (by show s'.closed = false; rw [h6, f3]) rfl (by rw [hr]; omega) (by rw [hr]; omega)
    obtain ⟨p1, p2⟩ := pops_ok H s'.rest.length { s' with cur := some (k, v) } ⟨h3.heap, h3.lists⟩ (Nat.le_refl _)
    rw [hr] at hc p1
    refine ⟨_, by simp only [h1]; exact hc, ?_⟩
    generalize pops H s'.rest.length { s' with cur := some (k, v) } = ps at p1 p2
    have hk : ∀ x ∈ ps, PyOrd.lt x.1 k = false := fun x hx => h4 x (p1.mem_iff.1 hx)
    have hall : lists.flatten.Perm ((k, v) :: ps) := f2.symm.trans (h2.trans (p1.symm.cons _))
    obtain ⟨g1, g2⟩ := groups_keys f ps k v hk p2
    refine ⟨g1, ?_, ?_⟩
    · intro k'
      rw [g2]
      have : k' ∈ lists.flatten.map (·.1) ↔ k' ∈ ((k, v) :: ps).map (·.1) := (hall.map _).mem_iff
      simp only [List.map_cons, List.mem_cons] at this
      rw [← this]
      simp only [List.mem_map, List.mem_flatten]
      constructor
      · rintro ⟨x, ⟨l, hl, hx⟩, rfl⟩; exact ⟨l, hl, x, hx, rfl⟩
      · rintro ⟨l, hl, x, hx, rfl⟩; exact ⟨x, ⟨l, hl, hx⟩, rfl⟩
    · intro k' v' hm
      have hv : (valuesFor k' lists.flatten).Perm (valuesFor k' ((k, v) :: ps)) := (hall.filter _).map _
      rcases groups_values f ps k v hk p2 k' v' hm with ⟨rfl, rfl⟩ | ⟨hne, x, xs, e1, rfl⟩
      · refine ⟨v, valuesFor k' ps, (List.Perm.of_eq ?_).trans hv.symm, rfl⟩
        simp [valuesFor]
      · refine ⟨x, xs, (List.Perm.of_eq ?_).trans hv.symm, rfl⟩
        have : ¬ k = k' := fun e => hne e.symm
        rw [← e1]; simp [valuesFor, this]

/-- **C27, commutative merge functions (partial as above).** If the order does not matter, the values are merged as if in the order of the lists given. -/
theorem C27_commutative_partial (lists : List (List (K × V))) (lim n : Nat) (hs : ∀ l ∈ lists, (l.map (·.1)).Pairwise PyOrd.le) (hlim : lists.flatten.length < lim) (hn : lists.flatten.length + 1 < n)
    (hcomm : ∀ a b, f a b = f b a) (hassoc : ∀ a b c, f (f a b) c = f a (f b c)) (k : K) (v : V) (out : List (K × V)) (hout : consume H f lim n (St.init H lists) = some out) :
    (k, v) ∈ out ↔ ∃ x xs, valuesFor k lists.flatten = x :: xs ∧ v = xs.foldl f x := by
  have hperm : ∀ (a b : List V), a.Perm b → ∀ x xs, a = x :: xs → ∀ y ys, b = y :: ys → xs.foldl f x = ys.foldl f y := by
    have hfold : ∀ (a b : List V), a.Perm b → ∀ z, a.foldl f z = b.foldl f z := by
      intro a b h
      induction h with
      | nil => intro z; rfl
      | cons x _ ih => intro z; simp [ih]
      | swap x y l => intro z; simp only [List.foldl_cons]; congr 1; rw [hassoc, hassoc, hcomm y x]
      | trans _ _ ih1 ih2 => intro z; rw [ih1, ih2]
    have hcons : ∀ (l : List V) (x y : V), f y (l.foldl f x) = l.foldl f (f y x) := by
      intro l
      induction l with
      | nil => intro x y; rfl
      | cons a l ih => intro x y; simp only [List.foldl_cons]; rw [ih, hassoc]
    have hswap : ∀ (l : List V) (x y : V), l.foldl f (f x y) = l.foldl f (f y x) := by intro l x y; rw [hcomm]
    intro a b h
    induction h with
    | nil => intro x xs h; cases h
    | cons x h _ =>
      rintro x' xs h1 y ys h2
      cases h1; cases h2
      exact hfold _ _ h _
    | swap x y l =>
      rintro x' xs h1 y' ys h2
      cases h1; cases h2
      simp only [List.foldl_cons]
      exact hswap _ _ _
    | trans h1 h2 ih1 ih2 =>
      rename_i a b c
      rintro x xs e1 y ys e2
      cases b with
      | nil => subst e1; have := h1.length_eq; simp at this
      | cons z zs => rw [ih1 x xs e1 z zs rfl, ih2 z zs rfl y ys e2]
  obtain ⟨out', h1, h2, h3, h4⟩ := C27_merge_partial H f lists lim n hs hlim hn
  rw [h1] at hout
  injection hout with hout
  subst hout
  have fwd : ∀ v, (k, v) ∈ out' → ∃ x xs, valuesFor k lists.flatten = x :: xs ∧ v = xs.foldl f x := by
    intro v hm
    obtain ⟨x, xs, e1, e2⟩ := h4 k v hm
    cases hv : valuesFor k lists.flatten with
    | nil => rw [hv] at e1; have := e1.length_eq; simp at this
    | cons y ys => exact ⟨y, ys, rfl, by rw [e2]; exact hperm _ _ e1 x xs rfl y ys hv⟩
  refine ⟨fwd v, ?_⟩
  rintro ⟨x, xs, e1, e2⟩
  have hk : k ∈ out'.map (·.1) := by
    rw [h3]
    have : x ∈ valuesFor k lists.flatten := by rw [e1]; simp
    simp only [valuesFor, List.mem_map, List.mem_filter, decide_eq_true_eq, List.mem_flatten] at this
    obtain ⟨y, ⟨⟨l, hl, hy⟩, hk⟩, _⟩ := this
    exact ⟨l, hl, List.mem_map.2 ⟨y, hy, hk⟩⟩
  obtain ⟨⟨k', v'⟩, hm, rfl⟩ := List.mem_map.1 hk
  obtain ⟨y, ys, e3, e4⟩ := fwd v' hm
  rw [e1] at e3
  injection e3 with e3 e5
  subst e3; subst e5
  dsimp only at *
  rw [e2, ← e4]; exact hm

end

example : (∀ l ∈ [[(1, 10), (3, 30)], [(1, 5), (2, 7)], []], ((l : List (Int × Int)).map (·.1)).Pairwise PyOrd.le) ∧ [[(1, 10), (3, 30)], [(1, 5), (2, 7)], ([] : List (Int × Int))].flatten.length < 1000 := by
  refine ⟨?_, by decide⟩
  intro l hl
  simp only [List.mem_cons, List.not_mem_nil, or_false] at hl
  rcases hl with rfl | rfl | rfl <;> decide

theorem pop_single (H : Heapq (Int × Int × Nat)) (its : List (List (Int × Int))) (av : List Nat) (x : Int × Int × Nat) (c : Option (Int × Int)) (cl : Bool) (l : List (Int × Int)) (a : Int × Int)
    (hx : x.2.2 ∈ av) (hi : its[x.2.2]? = some (a :: l)) :
    St.pop H ⟨its, av, [x], c, cl⟩ = some (x, ⟨its.set x.2.2 l, av, [(a.1, a.2, x.2.2)], c, cl⟩) := by
  have : H.heappush [] (a.1, a.2, x.2.2) = [(a.1, a.2, x.2.2)] := List.perm_singleton.1 (H.push_perm [] _)
  simp only [St.pop, heappop_singleton, hx, if_true, hi, this]

/-- **C27 violated.** Many entries with the same key make merge_list fail: whatever the recursion limit, a list with that many entries under one key (plus two) raises RecursionError, because every merged entry is one more nested
call of `__next__`. -/
theorem C27_recursion_violates (H : Heapq (Int × Int × Nat)) (lim : Nat) (n : Nat) : consume H (· + ·) lim n (St.init H [List.replicate (lim + 2) (0, 1)]) = none := by
  have key : ∀ (d m : Nat) (v : Int), d ≤ m → ∃ s, St.next H (· + ·) d ⟨[List.replicate m (0, 1)], [0], [(0, 1, 0)], some (0, v), false⟩ = (s, .recursion) := by
    intro d
    induction d with
    | zero => intro m v _; exact ⟨_, rfl⟩
    | succ d ih =>
      intro m v hm
      obtain ⟨m, rfl⟩ : ∃ k, m = k + 1 := ⟨m - 1, by omega⟩
      obtain ⟨s, hs⟩ := ih m (v + 1) (by omega)
      refine ⟨s, ?_⟩
      rw [← hs]
      have hp := pop_single H [List.replicate (m + 1) (0, 1)] [0] (0, 1, 0) (some (0, v)) false (List.replicate m (0, 1)) (0, 1) (by simp) (by simp [List.replicate_succ])
      simp only [St.next, hp]
      simp
  have hnil : Heap.init H ([] : List (Int × Int × Nat)) = [] := List.Perm.eq_nil (H.heapify_perm [])
  have hpush : H.heappush [] (0, 1, 0) = [(0, 1, 0)] := List.perm_singleton.1 (H.push_perm [] _)
  cases n with
  | zero => rfl
  | succ n =>
    have hinit : ∀ m, St.init H [List.replicate (m + 2) (0, 1)] = ⟨[List.replicate m (0, 1)], [0], [(0, 1, 0)], some (0, 1), false⟩ := by
      intro m
      simp only [St.init, hnil, List.replicate_succ, fill, hpush]
      have hp := pop_single H [List.replicate (m + 1) (0, 1)] [0] (0, 1, 0) none false (List.replicate m (0, 1)) (0, 1) (by simp) (by simp [List.replicate_succ])
      simp only [List.replicate_succ] at hp
      have hs : setAdd [] 0 = [0] := rfl
      simp only [List.nil_append, hs, hp]
      simp
    rw [hinit]
    obtain ⟨s, hs⟩ := key lim lim 1 (Nat.le_refl _)
    simp only [consume, hs]

end Verif.MergeList
