import Verif.Sorted.Spec
/-! # Helper lemmas for SortedList and Ranking -/
namespace Verif.SortedL
open Verif

theorem insertIdx_append {α : Type _} (pre post : List α) (x : α) :
    (pre ++ post).insertIdx pre.length x = pre ++ x :: post := by
  induction pre with
  | nil => simp
  | cons a pre ih => simp [List.insertIdx_succ_cons, ih]

theorem eraseIdx_append {α : Type _} (pre post : List α) (x : α) :
    (pre ++ x :: post).eraseIdx pre.length = pre ++ post := by
  induction pre with
  | nil => simp
  | cons a pre ih => simp [ih]

theorem findIdx?_decomp {α : Type _} {p : α → Bool} {l : List α} {i : Nat}
    (h : l.findIdx? p = some i) :
    ∃ pre y post, l = pre ++ y :: post ∧ p y = true ∧ (∀ z ∈ pre, p z = false) ∧ pre.length = i := by
  induction l generalizing i with
  | nil => simp at h
  | cons a l ih =>
    rw [List.findIdx?_cons] at h
    split at h
    · rename_i hp
      cases h
      exact ⟨[], a, l, rfl, hp, by simp, rfl⟩
    · rename_i hp
      rw [Option.map_eq_some_iff] at h
      obtain ⟨j, hj, rfl⟩ := h
      obtain ⟨pre, y, post, rfl, h2, h3, rfl⟩ := ih hj
      refine ⟨a :: pre, y, post, rfl, h2, ?_, rfl⟩
      intro z hz
      rcases List.mem_cons.1 hz with rfl | hz
      · simpa using hp
      · exact h3 z hz

section
variable {ι κ : Type _} [PyLinOrd κ] (E : Env ι κ)

/-- the concrete list represents the sequence `l` -/
def Rep (s : SL ι κ) (l : List ι) : Prop := s.items = l ∧ s.keys = l.map E.key ∧ KeySorted E l

theorem add_decomp (k : κ) {l : List ι} (h : KeySorted E l) :
    ∃ pre post, l = pre ++ post ∧ addIndex k (l.map E.key) = pre.length ∧
      (∀ y ∈ pre, PyOrd.lt (E.key y) k = true) ∧ (∀ y ∈ post, PyOrd.lt (E.key y) k = false) := by
  induction l with
  | nil => exact ⟨[], [], rfl, rfl, by simp, by simp⟩
  | cons a l ih =>
    unfold KeySorted at h
    rw [List.pairwise_cons] at h
    simp only [List.map_cons, addIndex]
    cases hk : PyOrd.lt (E.key a) k with
    | true =>
      obtain ⟨pre, post, rfl, h2, h3, h4⟩ := ih h.2
      refine ⟨a :: pre, post, rfl, by simp only [↓reduceIte, h2, List.length_cons], ?_, h4⟩
      intro y hy
      rcases List.mem_cons.1 hy with rfl | hy
      · exact hk
      · exact h3 y hy
    | false =>
      refine ⟨[], a :: l, rfl, by simp, by simp, ?_⟩
      intro y hy
      rcases List.mem_cons.1 hy with rfl | hy
      · exact hk
      · exact PyOrd.le_trans _ _ _ hk (h.1 y hy)

theorem add_sim {s : SL ι κ} {l : List ι} (h : Rep E s l) (x : ι) :
    ∃ pre post, l = pre ++ post ∧ (SL.add E s x).2 = pre.length ∧
      (∀ y ∈ pre, PyOrd.lt (E.key y) (E.key x) = true) ∧
      (∀ y ∈ post, PyOrd.lt (E.key y) (E.key x) = false) ∧
      Rep E (SL.add E s x).1 (pre ++ x :: post) := by
  obtain ⟨h1, h2, h3⟩ := h
  obtain ⟨pre, post, rfl, h5, h6, h7⟩ := add_decomp E (E.key x) h3
  refine ⟨pre, post, rfl, by simp only [SL.add, h2, h5], h6, h7, ?_, ?_, ?_⟩
  · simp only [SL.add, h1, h2, h5]
    exact insertIdx_append pre post x
  · simp only [SL.add, h2, h5]
    rw [List.map_append, ← List.length_map E.key, insertIdx_append]
    simp
  · unfold KeySorted at h3 ⊢
    rw [List.pairwise_append] at h3 ⊢
    refine ⟨h3.1, List.Pairwise.cons h7 h3.2.1, ?_⟩
    intro a ha b hb
    rcases List.mem_cons.1 hb with rfl | hb
    · exact PyOrd.le_of_lt (h6 a ha)
    · exact h3.2.2 a ha b hb

theorem extend_sim (xs : List ι) {s : SL ι κ} {l : List ι} (h : Rep E s l) :
    ∃ l', l'.Perm (xs ++ l) ∧ Rep E (xs.foldl (fun s x => (SL.add E s x).1) s) l' := by
  induction xs generalizing s l with
  | nil => exact ⟨l, .refl _, h⟩
  | cons x xs ih =>
    obtain ⟨pre, post, rfl, _, _, _, hr⟩ := add_sim E h x
    obtain ⟨l', h1, h2⟩ := ih hr
    refine ⟨l', h1.trans ?_, h2⟩
    refine (List.Perm.append_left xs List.perm_middle).trans ?_
    exact List.perm_middle

theorem keySorted_sublist {l l' : List ι} (h : KeySorted E l) (hs : l'.Sublist l) : KeySorted E l' :=
  List.Pairwise.sublist hs h

theorem index_sim {s : SL ι κ} {l : List ι} (h : Rep E s l) (x : ι) :
    ((∀ y ∈ l, E.eqv y x = false) ∧ SL.index E s x = none) ∨
    ∃ pre y post, l = pre ++ y :: post ∧ E.eqv y x = true ∧ (∀ z ∈ pre, E.eqv z x = false) ∧
      SL.index E s x = some pre.length := by
  obtain ⟨h1, h2, h3⟩ := h
  unfold SL.index
  rw [h1]
  cases hi : l.findIdx? (fun y => E.eqv y x) with
  | none =>
    left
    rw [List.findIdx?_eq_none_iff] at hi
    exact ⟨hi, rfl⟩
  | some i =>
    right
    obtain ⟨pre, y, post, h1, h2, h3, h4⟩ := findIdx?_decomp hi
    exact ⟨pre, y, post, h1, h2, h3, by rw [h4]⟩

theorem remove_sim {s : SL ι κ} {l : List ι} (h : Rep E s l) (x : ι) :
    ((∀ y ∈ l, E.eqv y x = false) ∧ SL.remove E s x = (s, some .valueError)) ∨
    ∃ pre y post s', l = pre ++ y :: post ∧ E.eqv y x = true ∧ (∀ z ∈ pre, E.eqv z x = false) ∧
      SL.index E s x = some pre.length ∧
      SL.remove E s x = (s', none) ∧ Rep E s' (pre ++ post) := by
  rcases index_sim E h x with ⟨h1, h2⟩ | ⟨pre, y, post, rfl, h2, h3, h4⟩
  · exact Or.inl ⟨h1, by simp [SL.remove, h2]⟩
  · obtain ⟨q1, q2, q3⟩ := h
    refine Or.inr ⟨pre, y, post, ⟨s.items.eraseIdx pre.length, s.keys.eraseIdx pre.length⟩, rfl, h2, h3, h4,
      by simp only [SL.remove, h4], ?_, ?_, ?_⟩
    · rw [q1]; exact eraseIdx_append pre post y
    · dsimp only
      rw [q2, List.map_append, List.map_cons, ← List.length_map E.key, eraseIdx_append]
      simp
    · exact keySorted_sublist E q3 (List.Sublist.append_left (List.sublist_cons_self y post) pre)

theorem pyGet_spec {α : Type _} (l : List α) (i : Int) :
    ((i < -l.length ∨ (l.length : Int) ≤ i) ∧ pyGet l i = none) ∨
    ∃ (n : Nat) (x : α), l[n]? = some x ∧ pyGet l i = some x ∧ (i = n ∨ i = (n : Int) - l.length) := by
  unfold pyGet
  split
  · rename_i h
    by_cases hl : i.toNat < l.length
    · right
      exact ⟨i.toNat, l[i.toNat], by simp [hl], by simp [hl], Or.inl (by omega)⟩
    · left
      exact ⟨Or.inr (by omega), by rw [List.getElem?_eq_none_iff]; omega⟩
  · split
    · rename_i h h'
      right
      have hl : (i + l.length).toNat < l.length := by omega
      exact ⟨(i + l.length).toNat, l[(i + l.length).toNat], by simp [hl], by simp [hl], Or.inr (by omega)⟩
    · exact Or.inl ⟨Or.inl (by omega), rfl⟩

theorem step_sim (s : SL ι κ) (l : List ι) (o : Op ι) (h : Rep E s l) :
    ∃ l', SeqSpec E l o (SL.step E s o).2 l' ∧ Rep E (SL.step E s o).1 l' := by
  have hR := h
  obtain ⟨h1, h2, h3⟩ := h
  cases o with
  | add x =>
    obtain ⟨pre, post, rfl, q1, q2, q3, q4⟩ := add_sim E hR x
    exact ⟨_, ⟨q4.2.2, pre, post, rfl, rfl, by simp [SL.step, q1], q2, q3⟩, q4⟩
  | extend xs =>
    obtain ⟨l', q1, q2⟩ := extend_sim E xs hR
    exact ⟨l', ⟨rfl, q2.2.2, q1⟩, q2⟩
  | remove x =>
    rcases remove_sim E hR x with ⟨q1, q2⟩ | ⟨pre, y, post, s', rfl, q2, q3, _, q4, q5⟩
    · simp only [SL.step, q2]
      exact ⟨l, Or.inl ⟨q1, rfl, rfl⟩, hR⟩
    · simp only [SL.step, q4]
      exact ⟨_, Or.inr ⟨pre, y, post, rfl, q2, q3, rfl, rfl⟩, q5⟩
  | pop =>
    rcases List.eq_nil_or_concat l with rfl | ⟨l', x, rfl⟩
    · simp only [SL.step, SL.pop, h2, List.map_nil, List.getLast?_nil]
      exact ⟨[], Or.inl ⟨rfl, rfl, rfl⟩, hR⟩
    · rw [List.concat_eq_append] at *
      simp only [SL.step, SL.pop, h1, h2, List.map_append, List.map_cons, List.map_nil,
        List.getLast?_concat, List.dropLast_concat]
      refine ⟨l', Or.inr ⟨x, by simp, rfl, ?_⟩, rfl, rfl, keySorted_sublist E h3 (by simp)⟩
      intro y hy
      unfold KeySorted at h3
      rw [List.pairwise_append] at h3
      rcases List.mem_append.1 hy with hy | hy
      · exact h3.2.2 y hy x (by simp)
      · simp at hy; subst hy; exact PyOrd.irrefl _
  | popleft =>
    cases l with
    | nil =>
      simp only [SL.step, SL.popleft, h2, List.map_nil]
      exact ⟨[], Or.inl ⟨rfl, rfl, rfl⟩, hR⟩
    | cons x l' =>
      simp only [SL.step, SL.popleft, h1, h2, List.map_cons]
      unfold KeySorted at h3
      rw [List.pairwise_cons] at h3
      refine ⟨l', Or.inr ⟨x, rfl, rfl, ?_⟩, rfl, rfl, h3.2⟩
      intro y hy
      rcases List.mem_cons.1 hy with rfl | hy
      · exact PyOrd.irrefl _
      · exact h3.1 y hy
  | index x =>
    rcases index_sim E hR x with ⟨q1, q2⟩ | ⟨pre, y, post, rfl, q2, q3, q4⟩
    · simp only [SL.step, q2]
      exact ⟨l, ⟨rfl, Or.inl ⟨q1, rfl⟩⟩, hR⟩
    · simp only [SL.step, q4]
      exact ⟨_, ⟨rfl, Or.inr ⟨pre, y, post, rfl, q2, q3, rfl⟩⟩, hR⟩
  | get i =>
    subst h1
    rcases pyGet_spec s.items i with ⟨q1, q2⟩ | ⟨n, x, q1, q2, q3⟩
    · simp only [SL.step, q2]
      exact ⟨_, ⟨rfl, Or.inl ⟨q1, rfl⟩⟩, hR⟩
    · simp only [SL.step, q2]
      exact ⟨_, ⟨rfl, Or.inr ⟨n, x, q1, rfl, q3⟩⟩, hR⟩
  | contains x => exact ⟨l, ⟨rfl, _, rfl, by rw [h1, List.any_eq_true]⟩, hR⟩
  | len => exact ⟨l, ⟨rfl, by simp [SL.step, h1]⟩, hR⟩
  | iter => exact ⟨l, ⟨rfl, by simp [SL.step, h1], h3⟩, hR⟩

end

section
variable {ι κ : Type _} [PyOrd ι] [PyLinOrd κ] [DecidableEq κ] (E : Env ι κ)

theorem pairLe_key {a b : κ × ι} (h : pairLe a b = true) : PyOrd.lt b.1 a.1 = false := by
  unfold pairLe at h
  split at h
  · rename_i e; rw [e]; exact PyOrd.irrefl _
  · simpa using h

theorem pairLe_trans (a b c : κ × ι) (h1 : pairLe a b = true) (h2 : pairLe b c = true) :
    pairLe a c = true := by
  have k1 := pairLe_key h1
  have k2 := pairLe_key h2
  unfold pairLe at h1 h2 ⊢
  split
  · rename_i e
    have e1 : a.1 = b.1 := by rw [e] at k1; exact PyLinOrd.antisymm _ _ (by rw [e]; exact k2) (by rw [e]; exact k1)
    have e2 : b.1 = c.1 := by rw [← e1, e]
    rw [if_pos e1] at h1
    rw [if_pos e2] at h2
    simp only [Bool.not_eq_true'] at h1 h2 ⊢
    exact PyOrd.le_trans _ _ _ h1 h2
  · have := PyOrd.le_trans _ _ _ k1 k2
    simp [this]

theorem pairLe_total (a b : κ × ι) : (pairLe a b || pairLe b a) = true := by
  unfold pairLe
  by_cases e : a.1 = b.1
  · rw [if_pos e, if_pos e.symm]
    rcases PyOrd.le_total a.2 b.2 with h | h
    · simp only [PyOrd.le] at h; simp [h]
    · simp only [PyOrd.le] at h; simp [h]
  · rw [if_neg e, if_neg (Ne.symm e)]
    rcases PyOrd.le_total a.1 b.1 with h | h
    · simp only [PyOrd.le] at h; simp [h]
    · simp only [PyOrd.le] at h; simp [h]

theorem init_rep (items : List ι) :
    ∃ l, l.Perm items ∧ Rep E (SL.init E items) l := by
  refine ⟨(SL.init E items).items, ?_, rfl, ?_, ?_⟩
  · unfold SL.init
    dsimp only
    refine ((List.mergeSort_perm _ _).map Prod.snd).trans ?_
    simp [Function.comp_def]
  · unfold SL.init
    dsimp only
    rw [List.map_map]
    refine List.map_congr_left ?_
    intro p hp
    have := (List.mergeSort_perm _ _).mem_iff.1 hp
    rw [List.mem_map] at this
    obtain ⟨i, _, rfl⟩ := this
    rfl
  · unfold SL.init KeySorted
    dsimp only
    rw [List.pairwise_map]
    have hs := List.pairwise_mergeSort (le := pairLe (ι := ι) (κ := κ)) pairLe_trans pairLe_total
      (items.map fun i => (E.key i, i))
    refine List.Pairwise.imp_of_mem ?_ hs
    intro a b ha hb hab
    have ha := (List.mergeSort_perm _ _).mem_iff.1 ha
    have hb := (List.mergeSort_perm _ _).mem_iff.1 hb
    rw [List.mem_map] at ha hb
    obtain ⟨i, _, rfl⟩ := ha
    obtain ⟨j, _, rfl⟩ := hb
    exact pairLe_key hab

end
end Verif.SortedL
