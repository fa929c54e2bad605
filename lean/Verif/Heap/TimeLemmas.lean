import Verif.Heap.Lemmas
/-! # Helper lemmas for the time based heaps -/
namespace Verif.Heap
open Verif

section
variable {ι : Type _} [PyLinOrd ι] (H : Heapq (Int × ι))

/-- timestamps follow the order of pairs -/
theorem le_fst {a b : Int × ι} (h : PyOrd.le a b) : a.1 ≤ b.1 := by
  unfold PyOrd.le at h
  simp only [PyOrd.lt] at h
  split at h
  · omega
  · simp at h; omega

theorem popLessThan_spec (t : Int) (n : Nat) (data : List (Int × ι)) (hh : IsHeap data) :
    IsHeap (popLessThan H t n data).2 ∧
    data.Perm ((popLessThan H t n data).1 ++ (popLessThan H t n data).2) ∧
    Sorted (popLessThan H t n data).1 ∧
    (∀ e ∈ (popLessThan H t n data).1, e.1 < t) ∧
    (popLessThan H t n data).1.length ≤ n ∧
    (∀ e ∈ (popLessThan H t n data).1, ∀ e' ∈ (popLessThan H t n data).2, PyOrd.le e e') ∧
    ((popLessThan H t n data).1.length = n ∨ ∀ e ∈ (popLessThan H t n data).2, ¬ e.1 < t) := by
  induction n generalizing data with
  | zero => simp [popLessThan, hh, Sorted]
  | succ n ih =>
    simp only [popLessThan]
    split
    · rename_i h
      have : data = [] := by simpa using h
      subst this
      simp [hh, Sorted]
    · rename_i top htop
      have hmin := isHeap_head_min hh htop
      split
      · rename_i hge
        refine ⟨hh, .refl _, List.Pairwise.nil, by simp, by simp, by simp, Or.inr ?_⟩
        intro e he
        have := le_fst (hmin e he)
        omega
      · rename_i hlt
        split
        · rename_i h
          have := heappop_none H h
          subst this
          simp at htop
        · rename_i x rest h
          obtain ⟨h1, h2, h3⟩ := pop_least H hh h
          have hx : x = top := by
            have := H.pop_head _ _ _ h
            rw [htop] at this
            exact (Option.some.inj this).symm
          obtain ⟨i1, i2, i3, i4, i5, i6, i7⟩ := ih rest h3
          have hxle : ∀ y ∈ rest, PyOrd.le x y := fun y hy => h1.2 y (h2.mem_iff.2 (by simp [hy]))
          refine ⟨i1, h2.trans (i2.cons x), List.Pairwise.cons ?_ i3, ?_, ?_, ?_, ?_⟩
          · intro y hy
            exact hxle y (i2.mem_iff.2 (by simp [hy]))
          · intro e he
            rcases List.mem_cons.1 he with rfl | he
            · rw [hx]; omega
            · exact i4 e he
          · simp; omega
          · intro e he e' he'
            rcases List.mem_cons.1 he with rfl | he
            · exact hxle e' (i2.mem_iff.2 (by simp [he']))
            · exact i6 e he e' he'
          · rcases i7 with i7 | i7
            · left; simp [i7]
            · exact Or.inr i7

variable [DecidableEq ι]

theorem time_step_sim (data b : List (Int × ι)) (o : TOp ι) (h : RepBag data b) :
    ∃ b', TimeBagSpec b o (TimeHeap.step H data o).2 b' ∧ RepBag (TimeHeap.step H data o).1 b' := by
  have hR := h
  obtain ⟨hh, hp⟩ := h
  cases o with
  | put ts x =>
    exact ⟨(ts, x) :: b, ⟨rfl, rfl⟩, H.push_heap _ _ hh, (H.push_perm _ _).trans (hp.cons _)⟩
  | pop =>
    simp only [TimeHeap.step]
    split
    · rename_i h
      have := heappop_none H h
      subst this
      have := List.Perm.nil_eq hp
      subst this
      exact ⟨[], Or.inl ⟨rfl, rfl, rfl⟩, hh, .nil⟩
    · rename_i x r h
      obtain ⟨h1, h2, h3⟩ := pop_least H hh h
      exact ⟨r, Or.inr ⟨x.1, x.2, rfl, h1.of_perm hp, hp.symm.trans h2⟩, h3, .refl _⟩
  | popTimestamp ts =>
    simp only [TimeHeap.step]
    split
    · rename_i h
      have hn := removeFirst_none h
      refine ⟨b, Or.inl ⟨?_, rfl, rfl⟩, hh, hp⟩
      intro x hx
      have := hn _ (hp.mem_iff.2 hx)
      simp at this
    · rename_i e r h
      obtain ⟨h1, h2⟩ := removeFirst_some h
      simp at h1; subst h1
      exact ⟨r, Or.inr ⟨e.2, rfl, hp.symm.trans h2⟩, H.heapify_heap _, H.heapify_perm _⟩
  | popItem x =>
    simp only [TimeHeap.step]
    split
    · rename_i h
      have hn := removeFirst_none h
      refine ⟨b, Or.inl ⟨?_, rfl, rfl⟩, hh, hp⟩
      intro x hx
      have := hn _ (hp.mem_iff.2 hx)
      simp at this
    · rename_i e r h
      obtain ⟨h1, h2⟩ := removeFirst_some h
      simp at h1; subst h1
      exact ⟨r, Or.inr ⟨e.1, rfl, hp.symm.trans h2⟩, H.heapify_heap _, H.heapify_perm _⟩
  | getTimestamp x => exact ⟨b, rfl, hR⟩
  | peekClosest =>
    simp only [TimeHeap.step]
    split
    · rename_i h
      have : data = [] := by simpa using h
      subst this
      have := List.Perm.nil_eq hp
      subst this
      exact ⟨[], ⟨rfl, Or.inl ⟨rfl, rfl⟩⟩, hR⟩
    · rename_i e h
      refine ⟨b, ⟨rfl, Or.inr ⟨e.1, e.2, rfl, ?_⟩⟩, hR⟩
      exact Least.of_perm hp ⟨List.mem_of_mem_head? h, isHeap_head_min hh h⟩
  | popLessThan t n =>
    obtain ⟨h1, h2, h3, h4, h5, h6, h7⟩ := popLessThan_spec H t n data hh
    exact ⟨_, ⟨_, rfl, hp.symm.trans h2, h3, h4, h5, h6, h7⟩, h1, .refl _⟩
  | remove x =>
    exact ⟨_, ⟨rfl, rfl⟩, H.heapify_heap _, (H.heapify_perm _).trans (hp.filter _)⟩
  | items => exact ⟨b, ⟨rfl, _, rfl, hp.map _⟩, hR⟩

/-- list and index agree, and represent the partial map `m` -/
def TSHeap.Rep (s : TSHeap ι) (m : ι → Option Int) : Prop :=
  IsHeap s.data ∧ (s.data.map Prod.snd).Nodup ∧
  (∀ e : Int × ι, e ∈ s.data ↔ Dict.get? s.stamps e.2 = some e.1) ∧
  m = fun x => Dict.get? s.stamps x

theorem TSHeap.rep_remove {s : TSHeap ι} {m : ι → Option Int} (h : s.Rep m) {e : Int × ι}
    {rest d' : List (Int × ι)} (hp : s.data.Perm (e :: rest)) (hh : IsHeap d') (hd : d'.Perm rest) :
    m e.2 = some e.1 ∧ Dict.has s.stamps e.2 = true ∧
    TSHeap.Rep { data := d', stamps := Dict.del s.stamps e.2 } (upd m e.2 none) := by
  obtain ⟨h1, h2, h3, h4⟩ := h
  have he : Dict.get? s.stamps e.2 = some e.1 := (h3 e).1 (hp.mem_iff.2 (by simp))
  have hn := (hp.map Prod.snd).nodup_iff.1 h2
  rw [List.map_cons, List.nodup_cons] at hn
  refine ⟨by rw [h4]; exact he, by simp [Dict.has, he], hh, (hd.map _).nodup_iff.2 hn.2, ?_, ?_⟩
  · intro e'
    dsimp only
    rw [hd.mem_iff, Dict.get?_del]
    split
    · rename_i heq
      simp only [reduceCtorEq, iff_false]
      intro hm
      exact hn.1 (heq ▸ List.mem_map_of_mem (f := Prod.snd) hm)
    · rename_i hne
      rw [← h3, hp.mem_iff, List.mem_cons]
      constructor
      · exact Or.inr
      · rintro (rfl | h)
        · exact absurd rfl hne
        · exact h
  · funext x
    simp only [upd, h4, Dict.get?_del, eq_comm (a := x)]

theorem TSHeap.rep_push {s : TSHeap ι} {m : ι → Option Int} (h : s.Rep m) (ts : Int) {x : ι}
    (hx : m x = none) :
    TSHeap.Rep { data := H.heappush s.data (ts, x), stamps := Dict.set s.stamps x ts }
      (upd m x (some ts)) := by
  obtain ⟨h1, h2, h3, h4⟩ := h
  have hx' : Dict.get? s.stamps x = none := by rw [h4] at hx; exact hx
  have hpp := H.push_perm s.data (ts, x)
  have hnot : x ∉ s.data.map Prod.snd := by
    intro hm
    rw [List.mem_map] at hm
    obtain ⟨e, he, rfl⟩ := hm
    rw [h3, hx'] at he
    simp at he
  refine ⟨H.push_heap _ _ h1, ?_, ?_, ?_⟩
  · rw [(hpp.map _).nodup_iff, List.map_cons, List.nodup_cons]
    exact ⟨hnot, h2⟩
  · intro e
    dsimp only
    rw [hpp.mem_iff, Dict.get?_set, List.mem_cons, h3]
    constructor
    · rintro (rfl | h)
      · simp
      · rw [if_neg]
        · exact h
        · rintro rfl; rw [hx'] at h; simp at h
    · intro h
      split at h
      · rename_i heq
        left
        simp only [Option.some.injEq] at h
        exact Prod.ext h.symm heq.symm
      · exact Or.inr h
  · funext y
    simp only [upd, h4, Dict.get?_set, eq_comm (a := y)]

omit [PyLinOrd ι] in
theorem upd_upd (m : ι → Option Int) (x : ι) (a b : Option Int) : upd (upd m x a) x b = upd m x b := by
  funext y
  simp only [upd]
  split <;> simp_all

theorem TSHeap.pop_sim {s : TSHeap ι} {m : ι → Option Int} (h : s.Rep m) :
    (s.data = [] ∧ (∀ x, m x = none) ∧ TSHeap.pop H s = (s, .exc .indexError)) ∨
    ∃ e rest s', H.heappop s.data = some (e, rest) ∧ TSHeap.pop H s = (s', .entry e.1 e.2) ∧
      m e.2 = some e.1 ∧ (∀ y ty, m y = some ty → PyOrd.le e (ty, y)) ∧ s'.data = rest ∧
      s'.Rep (upd m e.2 none) := by
  have hR := h
  obtain ⟨h1, h2, h3, h4⟩ := h
  unfold TSHeap.pop
  cases hp : H.heappop s.data with
  | none =>
    left
    have hd := heappop_none H hp
    refine ⟨hd, ?_, rfl⟩
    intro x
    cases hx : m x with
    | none => rfl
    | some ts =>
      rw [h4] at hx
      have := (h3 (ts, x)).2 hx
      simp [hd] at this
  | some q =>
    obtain ⟨e, rest⟩ := q
    right
    obtain ⟨p1, p2, p3⟩ := pop_least H h1 hp
    obtain ⟨q1, q2, q3⟩ := rep_remove hR p2 p3 (.refl _)
    refine ⟨e, rest, _, rfl, by simp only [q2]; rfl, q1, ?_, rfl, q3⟩
    intro y ty hy
    rw [h4] at hy
    exact p1.2 (ty, y) ((h3 (ty, y)).2 hy)

theorem TSHeap.popLessThan_sim (t : Int) (n : Nat) {s : TSHeap ι} {m : ι → Option Int} (h : s.Rep m) :
    ∃ s' l m', TSHeap.popLessThan H t n s = (s', none, l) ∧ s'.Rep m' ∧
      Sorted l ∧ (l.map Prod.snd).Nodup ∧ l.length ≤ n ∧
      (∀ e ∈ l, m e.2 = some e.1 ∧ e.1 < t) ∧
      (∀ y, m' y = if y ∈ l.map Prod.snd then none else m y) ∧
      (∀ e ∈ l, ∀ y ty, m' y = some ty → PyOrd.le e (ty, y)) ∧
      (l.length = n ∨ ∀ y ty, m' y = some ty → ¬ ty < t) := by
  induction n generalizing s m with
  | zero => exact ⟨s, [], m, rfl, h, List.Pairwise.nil, by simp, by simp, by simp, by simp, by simp, by simp⟩
  | succ n ih =>
    simp only [TSHeap.popLessThan]
    obtain ⟨h1, h2, h3, h4⟩ := id h
    cases ht : s.data.head? with
    | none =>
      have hd : s.data = [] := by simpa using ht
      refine ⟨s, [], m, rfl, h, List.Pairwise.nil, by simp, by simp, by simp, by simp, by simp, Or.inr ?_⟩
      intro y ty hy
      rw [h4] at hy
      have := (h3 (ty, y)).2 hy
      simp [hd] at this
    | some top =>
      dsimp only
      have hmin := isHeap_head_min h1 ht
      split
      · rename_i hge
        refine ⟨s, [], m, rfl, h, List.Pairwise.nil, by simp, by simp, by simp, by simp, by simp, Or.inr ?_⟩
        intro y ty hy
        rw [h4] at hy
        have := le_fst (hmin _ ((h3 (ty, y)).2 hy))
        simp at this; omega
      · rename_i hlt
        rcases pop_sim H h with ⟨hd, _, _⟩ | ⟨e, rest, s', hpop, hps, he, hle, hrest, hrep⟩
        · simp [hd] at ht
        · rw [hps]
          obtain ⟨s'', l, m', i1, i2, i3, i4, i5, i6, i7, i8, i9⟩ := ih hrep
          have het : e = top := by
            have := H.pop_head _ _ _ hpop
            rw [ht] at this
            exact (Option.some.inj this).symm
          have hel : e.2 ∉ l.map Prod.snd := by
            intro hm
            rw [List.mem_map] at hm
            obtain ⟨e', he', heq⟩ := hm
            have := (i6 e' he').1
            simp [upd, heq] at this
          refine ⟨s'', e :: l, m', by simp [i1], i2, List.Pairwise.cons ?_ i3, ?_, by simp; omega, ?_, ?_, ?_, ?_⟩
          · intro e' he'
            have := (i6 e' he').1
            simp only [upd] at this
            split at this
            · simp at this
            · exact hle _ _ this
          · rw [List.map_cons, List.nodup_cons]
            exact ⟨hel, i4⟩
          · intro e' he'
            rcases List.mem_cons.1 he' with rfl | he'
            · exact ⟨he, by rw [het]; omega⟩
            · have := i6 e' he'
              refine ⟨?_, this.2⟩
              have := this.1
              simp only [upd] at this
              split at this
              · simp at this
              · exact this
          · intro y
            rw [i7, List.map_cons]
            simp only [upd, List.mem_cons]
            by_cases hy : y = e.2
            · simp [hy]
            · simp only [hy, ↓reduceIte, false_or]
          · intro e' he' y ty hy
            rcases List.mem_cons.1 he' with rfl | he'
            · rw [i7] at hy
              split at hy
              · simp at hy
              · simp only [upd] at hy
                split at hy
                · simp at hy
                · exact hle _ _ hy
            · exact i8 e' he' y ty hy
          · rcases i9 with i9 | i9
            · left; simp [i9]
            · exact Or.inr i9

/-- every call but `remove` -/
def TOp.NoRemove : TOp ι → Prop
  | .remove _ => False
  | _ => True

theorem TSHeap.popItem_sim {s : TSHeap ι} {m : ι → Option Int} (h : s.Rep m) (x : ι) :
    (m x = none ∧ TSHeap.popItem H s x = (s, .exc .valueError)) ∨
    ∃ ts s', m x = some ts ∧ TSHeap.popItem H s x = (s', .entry ts x) ∧ s'.Rep (upd m x none) := by
  have hR := h
  obtain ⟨h1, h2, h3, h4⟩ := h
  unfold TSHeap.popItem
  cases hr : removeFirst (fun e : Int × ι => decide (e.2 = x)) s.data with
  | none =>
    left
    refine ⟨?_, rfl⟩
    cases hx : m x with
    | none => rfl
    | some ts =>
      rw [h4] at hx
      have := removeFirst_none hr _ ((h3 (ts, x)).2 hx)
      simp at this
  | some q =>
    obtain ⟨e, rest⟩ := q
    right
    obtain ⟨p1, p2⟩ := removeFirst_some hr
    obtain ⟨q1, q2, q3⟩ := rep_remove hR p2 (H.heapify_heap rest) (H.heapify_perm rest)
    simp at p1; subst p1
    exact ⟨e.1, _, q1, by simp only [q2]; rfl, q3⟩

theorem TSHeap.step_sim (s : TSHeap ι) (m : ι → Option Int) (o : TOp ι) (ho : o.NoRemove)
    (h : s.Rep m) :
    ∃ m', TimeMapSpec m o (TSHeap.step H s o).2 m' ∧ (TSHeap.step H s o).1.Rep m' := by
  have hR := h
  obtain ⟨h1, h2, h3, h4⟩ := h
  cases o with
  | put ts x =>
    refine ⟨upd m x (some ts), ?_⟩
    simp only [TSHeap.step, TSHeap.push]
    split
    · rename_i hx
      rcases popItem_sim H hR x with ⟨hm, _⟩ | ⟨ts', s', hm, he, hrep⟩
      · rw [h4] at hm
        simp [Dict.has, hm] at hx
      · rw [he]
        have := rep_push H hrep ts (x := x) (by simp [upd])
        rw [upd_upd] at this
        exact ⟨⟨rfl, rfl⟩, this⟩
    · rename_i hx
      refine ⟨⟨rfl, rfl⟩, rep_push H hR ts ?_⟩
      rw [h4]
      simpa [Dict.has] using hx
  | pop =>
    rcases pop_sim H hR with ⟨_, hm, he⟩ | ⟨e, rest, s', hp, he, hm, hle, _, hrep⟩
    · simp only [TSHeap.step, he]
      exact ⟨m, Or.inl ⟨hm, rfl, rfl⟩, hR⟩
    · simp only [TSHeap.step, he]
      exact ⟨_, Or.inr ⟨e.1, e.2, rfl, hm, rfl, hle⟩, hrep⟩
  | popTimestamp ts =>
    simp only [TSHeap.step]
    cases hr : removeFirst (fun e : Int × ι => decide (e.1 = ts)) s.data with
    | none =>
      refine ⟨m, Or.inl ⟨?_, rfl, rfl⟩, hR⟩
      intro x hx
      rw [h4] at hx
      have := removeFirst_none hr _ ((h3 (ts, x)).2 hx)
      simp at this
    | some q =>
      obtain ⟨e, rest⟩ := q
      obtain ⟨p1, p2⟩ := removeFirst_some hr
      obtain ⟨q1, q2, q3⟩ := rep_remove hR p2 (H.heapify_heap rest) (H.heapify_perm rest)
      simp at p1; subst p1
      simp only [q2, ↓reduceIte]
      exact ⟨_, Or.inr ⟨e.2, q1, rfl, rfl⟩, q3⟩
  | popItem x =>
    rcases popItem_sim H hR x with ⟨hm, he⟩ | ⟨ts', s', hm, he, hrep⟩
    · simp only [TSHeap.step, he]
      exact ⟨m, Or.inl ⟨hm, rfl, rfl⟩, hR⟩
    · simp only [TSHeap.step, he]
      exact ⟨_, Or.inr ⟨ts', hm, rfl, rfl⟩, hrep⟩
  | getTimestamp x =>
    refine ⟨m, ?_⟩
    simp only [TSHeap.step]
    cases hx : Dict.get? s.stamps x with
    | none => exact ⟨⟨rfl, Or.inl ⟨by rw [h4]; exact hx, rfl⟩⟩, hR⟩
    | some ts => exact ⟨⟨rfl, Or.inr ⟨ts, by rw [h4]; exact hx, rfl⟩⟩, hR⟩
  | peekClosest => exact ⟨m, ⟨rfl, rfl⟩, hR⟩
  | popLessThan t n =>
    obtain ⟨s', l, m', i1, i2, i3⟩ := popLessThan_sim H t n hR
    simp only [TSHeap.step, i1]
    exact ⟨m', ⟨l, rfl, i3⟩, i2⟩
  | remove x => exact ho.elim
  | items =>
    refine ⟨m, ⟨rfl, _, rfl, h2, ?_⟩, hR⟩
    intro x
    rw [List.mem_map, h4]
    constructor
    · rintro ⟨e, he, rfl⟩
      simp [(h3 e).1 he]
    · intro hx
      cases hg : Dict.get? s.stamps x with
      | none => exact absurd hg hx
      | some ts => exact ⟨(ts, x), (h3 (ts, x)).2 hg, rfl⟩

end
end Verif.Heap
