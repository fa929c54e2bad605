import Verif.Sorted.Lemmas
/-! # Helper lemmas for Ranking -/
namespace Verif.SortedL
open Verif

section
variable {ι : Type _} [DecidableEq ι]

theorem enumPos_not_mem (p : Nat) (xs : List ι) (d : Dict ι Nat) {x : ι} (h : x ∉ xs) :
    Dict.get? (enumPos p xs d) x = Dict.get? d x := by
  induction xs generalizing p d with
  | nil => rfl
  | cons a xs ih =>
    simp only [List.mem_cons, not_or] at h
    simp only [enumPos]
    rw [ih _ _ h.2, Dict.get?_set, if_neg (fun e => h.1 e.symm)]

theorem enumPos_last (p : Nat) (xs : List ι) (d : Dict ι Nat) {x : ι} {i : Nat}
    (h : LastAt xs x i) : Dict.get? (enumPos p xs d) x = some (p + i) := by
  induction xs generalizing p d i with
  | nil => simp [LastAt] at h
  | cons a xs ih =>
    obtain ⟨h1, h2⟩ := h
    simp only [enumPos]
    cases i with
    | zero =>
      have hx : x ∉ xs := by
        intro hm
        obtain ⟨j, hj⟩ := List.mem_iff_getElem?.1 hm
        exact h2 (j + 1) (by omega) (by simpa using hj)
      simp at h1; subst h1
      rw [enumPos_not_mem _ _ _ hx]
      simp
    | succ i =>
      rw [ih (p + 1) _ (i := i) ⟨by simpa using h1, fun q hq => by
        have := h2 (q + 1) (by omega); simpa using this⟩]
      congr 1
      omega

/-- the position map is right for every object held -/
def PosOk (pos : Dict ι Nat) (l : List ι) : Prop :=
  ∀ x p, LastAt l x p → Dict.get? pos x = some p

theorem posOk_enum {pos : Dict ι Nat} {pre l post : List ι}
    (h : ∀ x p, p < pre.length → LastAt (pre ++ post) x p → Dict.get? pos x = some p)
    (hl : l = pre ++ post) :
    PosOk (enumPos pre.length (l.drop pre.length) pos) (pre ++ post) := by
  subst hl
  rw [List.drop_left]
  intro x p hx
  by_cases hp : p < pre.length
  · rw [enumPos_not_mem]
    · exact h x p hp hx
    · intro hm
      obtain ⟨j, hj⟩ := List.mem_iff_getElem?.1 hm
      refine hx.2 (pre.length + j) (by omega) ?_
      rw [List.getElem?_append_right (by omega)]
      simpa using hj
  · obtain ⟨h1, h2⟩ := hx
    rw [List.getElem?_append_right (by omega)] at h1
    rw [enumPos_last (i := p - pre.length)]
    · congr 1; omega
    · refine ⟨h1, ?_⟩
      intro q hq hc
      refine h2 (pre.length + q) (by omega) ?_
      rw [List.getElem?_append_right (by omega)]
      simpa using hc

end

section
variable {ι κ : Type _} [PyLinOrd κ] [DecidableEq ι] (E : Env ι κ)

def RepRk (s : Rk ι κ) (l : List ι) : Prop := Rep E s.ranking l ∧ PosOk s.pos l

theorem rank_step_sim (s : Rk ι κ) (l : List ι) (o : RkOp ι) (h : RepRk E s l) :
    ∃ l', RankSpec E l o (Rk.step E s o).2 l' ∧ RepRk E (Rk.step E s o).1 l' := by
  have hR := h
  obtain ⟨h1, h2⟩ := h
  cases o with
  | add x =>
    obtain ⟨pre, post, rfl, q1, q2, q3, q4⟩ := add_sim E h1 x
    refine ⟨pre ++ x :: post, ⟨rfl, q4.2.2, pre, post, rfl, rfl, q2⟩, q4, ?_⟩
    simp only [Rk.step, Rk.add, q1]
    refine posOk_enum (post := x :: post) ?_ q4.1
    intro y p hp hy
    refine h2 y p ⟨?_, ?_⟩
    · have := hy.1
      rw [List.getElem?_append_left hp] at this ⊢
      exact this
    · intro q hq hc
      by_cases hqp : q < pre.length
      · refine hy.2 q hq ?_
        rw [List.getElem?_append_left hqp] at hc ⊢
        exact hc
      · refine hy.2 (q + 1) (by omega) ?_
        rw [List.getElem?_append_right (by omega)] at hc ⊢
        rw [show q + 1 - pre.length = (q - pre.length) + 1 by omega, List.getElem?_cons_succ]
        exact hc
  | remove x =>
    rcases remove_sim E h1 x with ⟨q1, q2⟩ | ⟨pre, y, post, s', rfl, q2, q3, q4, q5, q6⟩
    · refine ⟨l, Or.inl ⟨q1, ?_, rfl⟩, ?_⟩
      · simp only [Rk.step, Rk.remove, q2]
        cases SL.index E s.ranking x <;> rfl
      · simp only [Rk.step, Rk.remove, q2]
        cases SL.index E s.ranking x <;> exact hR
    · refine ⟨pre ++ post, Or.inr ⟨pre, y, post, rfl, q2, q3, rfl, ?_⟩, ?_⟩
      · simp only [Rk.step, Rk.remove, q4, q5]
      · simp only [Rk.step, Rk.remove, q4, q5]
        refine ⟨q6, posOk_enum (post := post) ?_ q6.1⟩
        intro z p hp hz
        refine h2 z p ⟨?_, ?_⟩
        · have := hz.1
          rw [List.getElem?_append_left hp] at this ⊢
          exact this
        · intro q hq hc
          by_cases hqp : q < pre.length
          · refine hz.2 q hq ?_
            rw [List.getElem?_append_left hqp] at hc ⊢
            exact hc
          · by_cases hqe : q = pre.length
            · subst hqe
              rw [List.getElem?_append_right (by omega)] at hc
              simp at hc
              subst hc
              have hmem : y ∈ pre := by
                have := hz.1
                rw [List.getElem?_append_left hp] at this
                exact List.mem_of_getElem? this
              have := q3 y hmem
              simp [q2] at this
            · refine hz.2 (q - 1) (by omega) ?_
              rw [List.getElem?_append_right (by omega)] at hc ⊢
              rw [show q - pre.length = (q - 1 - pre.length) + 1 by omega, List.getElem?_cons_succ] at hc
              exact hc
  | positionOf x =>
    rcases index_sim E h1 x with ⟨q1, q2⟩ | ⟨pre, y, post, rfl, q2, q3, q4⟩
    · simp only [Rk.step, q2]
      exact ⟨l, ⟨rfl, Or.inl ⟨q1, rfl⟩⟩, hR⟩
    · simp only [Rk.step, q4]
      refine ⟨_, ⟨rfl, Or.inr ⟨pre.length, y, rfl, by simp, q2, ?_⟩⟩, hR⟩
      intro q z hq hz
      rw [List.getElem?_append_left hq] at hz
      exact q3 z (List.mem_of_getElem? hz)
  | rankingFor x =>
    refine ⟨l, ⟨?_, ?_⟩, ?_⟩
    · rfl
    · intro p hp
      simp only [Rk.step, h2 x p hp]
    · simp only [Rk.step]
      cases Dict.get? s.pos x <;> exact hR
  | get i =>
    obtain ⟨l', q1, q2⟩ := step_sim E s.ranking l (.get i) h1
    obtain rfl : l' = l := q1.1
    refine ⟨l', ?_, ?_⟩
    · have : (Rk.step E s (.get i)).2 = (SL.step E s.ranking (.get i)).2 := by
        simp only [Rk.step, SL.step]
        cases pyGet s.ranking.items i <;> rfl
      rw [this]; exact q1
    · simp only [Rk.step]
      cases pyGet s.ranking.items i <;> exact hR
  | sorted => exact ⟨l, ⟨rfl, by simp [Rk.step, h1.1], h1.2.2⟩, hR⟩

end
end Verif.SortedL
