import Verif.Sorted.RankLemmas
/-! # C06, C07: SortedList and Ranking -/
namespace Verif.SortedL
open Verif

section
variable {ι κ : Type _} [PyOrd ι] [PyLinOrd κ] [DecidableEq κ] (E : Env ι κ)

/-- **C06** Starting from any iterable, any history of calls behaves as on a sequence kept in
non-decreasing key order (`SeqSpec`): construction sorts a permutation of the items, `add` inserts exactly the
element and returns its index, `remove` removes exactly one, `pop`/`popleft` return a greatest/least
element; and after the history the list is sorted. -/
theorem C06_sorted_list_refines_sequence (items : List ι) (ops : List (Op ι)) :
    ∃ l0 l, l0.Perm items ∧ KeySorted E l0 ∧
      History (SeqSpec E) l0 ops (runOps (SL.step E) (SL.init E items) ops).2 l ∧
      KeySorted E l ∧ SL.step E (runOps (SL.step E) (SL.init E items) ops).1 .iter =
        ((runOps (SL.step E) (SL.init E items) ops).1, .vals l) := by
  obtain ⟨l0, h1, h2⟩ := init_rep E items
  obtain ⟨l, h3, h4⟩ := history_of_sim (step := SL.step E) (Rep E) (fun _ => True)
    (fun s b o _ h => step_sim E s b o h) _ _ ops (by simp) h2
  exact ⟨l0, l, h1, h2.2.2, h3, h4.2.2, by simp [SL.step, h4.1]⟩

/-- the elements added minus those removed, as a bag -/
def bagAfter (items : List ι) : List (Op ι) → List (Res ι) → List ι → Prop :=
  fun ops rs l => ∃ removed : List ι, (l ++ removed).Perm
    (items ++ ops.flatMap fun | .add x => [x] | .extend xs => xs | _ => []) ∧
    removed.length = ((ops.zip rs).filter fun
      | (.remove _, .unit) => true | (.pop, .val _) => true | (.popleft, .val _) => true | _ => false).length

/-- **C06** conservation: what is held plus what was removed is what was put in; every successful
`remove`, `pop`, `popleft` removed exactly one element and nothing else ever disappears. -/
theorem C06_conservation (items : List ι) (ops : List (Op ι)) :
    ∃ l, (SL.step E (runOps (SL.step E) (SL.init E items) ops).1 .iter).2 = .vals l ∧
      bagAfter items ops (runOps (SL.step E) (SL.init E items) ops).2 l := by
  obtain ⟨l0, h1, h2⟩ := init_rep E items
  suffices h : ∀ ops (s : SL ι κ) (l : List ι), Rep E s l → ∃ l', Rep E (runOps (SL.step E) s ops).1 l' ∧
      bagAfter l ops (runOps (SL.step E) s ops).2 l' by
    obtain ⟨l, h3, rem, h4, h5⟩ := h ops _ _ h2
    exact ⟨l, by simp [SL.step, h3.1], rem, h4.trans (h1.append_right _), h5⟩
  intro ops
  induction ops with
  | nil => intro s l h; exact ⟨l, h, [], by simp, by simp⟩
  | cons o os ih =>
    intro s l h
    obtain ⟨m, q1, q2⟩ := step_sim E s l o h
    obtain ⟨l', r1, rem, r2, r3⟩ := ih _ _ q2
    refine ⟨l', r1, ?_⟩
    generalize hr : (SL.step E s o).2 = r at q1
    unfold bagAfter
    simp only [runOps, hr, List.zip_cons_cons, List.flatMap_cons]
    -- each step removes either nothing or one element
    have keep : ∀ added : List ι, m.Perm (l ++ added) →
        (l' ++ rem).Perm (l ++ (added ++ os.flatMap fun | .add x => [x] | .extend xs => xs | _ => [])) := by
      intro added hm
      refine r2.trans ?_
      rw [← List.append_assoc]
      exact hm.append_right _
    have drop : ∀ y, l.Perm (y :: m) →
        (l' ++ (y :: rem)).Perm (l ++ ([] ++ os.flatMap fun | .add x => [x] | .extend xs => xs | _ => [])) := by
      intro y hm
      refine List.perm_middle.trans ((r2.cons y).trans ?_)
      exact (hm.symm.append_right (os.flatMap _))
    cases o with
    | add x =>
      obtain ⟨_, pre, post, rfl, rfl, rfl, _⟩ := q1
      refine ⟨rem, keep [x] ?_, by simp [r3]⟩
      exact List.perm_middle.trans (List.perm_append_comm (l₁ := [x]))
    | extend xs =>
      obtain ⟨rfl, _, hp⟩ := q1
      exact ⟨rem, keep xs (hp.trans List.perm_append_comm), by simp [r3]⟩
    | remove x =>
      rcases q1 with ⟨_, rfl, rfl⟩ | ⟨pre, y, post, rfl, _, _, rfl, rfl⟩
      · exact ⟨rem, keep [] (by simp), by simp [r3]⟩
      · exact ⟨y :: rem, drop y List.perm_middle, by simp [r3]⟩
    | pop =>
      rcases q1 with ⟨rfl, rfl, rfl⟩ | ⟨y, rfl, rfl, _⟩
      · exact ⟨rem, keep [] (by simp), by simp [r3]⟩
      · exact ⟨y :: rem, drop y List.perm_append_comm, by simp [r3]⟩
    | popleft =>
      rcases q1 with ⟨rfl, rfl, rfl⟩ | ⟨y, rfl, rfl, _⟩
      · exact ⟨rem, keep [] (by simp), by simp [r3]⟩
      · exact ⟨y :: rem, drop y (.refl _), by simp [r3]⟩
    | index x => obtain rfl := q1.1; exact ⟨rem, keep [] (by simp), by simp [r3]⟩
    | get i => obtain rfl := q1.1; exact ⟨rem, keep [] (by simp), by simp [r3]⟩
    | contains x => obtain rfl := q1.1; exact ⟨rem, keep [] (by simp), by simp [r3]⟩
    | len => obtain rfl := q1.1; exact ⟨rem, keep [] (by simp), by simp [r3]⟩
    | iter => obtain rfl := q1.1; exact ⟨rem, keep [] (by simp), by simp [r3]⟩

/-- a concrete environment: integers ranked by their negation -/
def negEnv : Env Int Int := { key := fun x => -x, eqv := fun a b => decide (a = b), eqv_refl := by simp }

example : ∃ l0 l, l0.Perm [1, 5, 3] ∧ KeySorted negEnv l0 ∧
    History (SeqSpec negEnv) l0 [.add 4, .pop, .remove 9]
      (runOps (SL.step negEnv) (SL.init negEnv [1, 5, 3]) [.add 4, .pop, .remove 9]).2 l := by
  obtain ⟨l0, l, h1, h2, h3, _⟩ := C06_sorted_list_refines_sequence negEnv [1, 5, 3] [.add 4, .pop, .remove 9]
  exact ⟨l0, l, h1, h2, h3⟩

variable [DecidableEq ι]

/-- **C07** Any history of calls on a Ranking behaves as on a key-ordered sequence in which
`get_position_of(x)` is the first position holding an element equal to `x` (ValueError exactly when there is none) and
`calculate_ranking_for(x)` the position of the object `x` (`RankSpec`). -/
theorem C07_ranking_refines_sequence (items : List ι) (ops : List (RkOp ι)) :
    ∃ l0 l, l0.Perm items ∧ KeySorted E l0 ∧
      History (RankSpec E) l0 ops (runOps (Rk.step E) (Rk.init E items) ops).2 l ∧ KeySorted E l := by
  obtain ⟨l0, h1, h2⟩ := init_rep E items
  have h0 : RepRk E (Rk.init E items) l0 := by
    refine ⟨h2, ?_⟩
    obtain ⟨rfl, _, _⟩ := id h2
    exact posOk_enum (pre := []) (post := (SL.init E items).items) (by simp) rfl
  obtain ⟨l, h3, h4⟩ := history_of_sim (step := Rk.step E) (RepRk E) (fun _ => True)
    (fun s b o _ h => rank_step_sim E s b o h) _ _ ops (by simp) h0
  exact ⟨l0, l, h1, h2.2.2, h3, h4.1.2.2⟩

example := C07_ranking_refines_sequence negEnv [1, 5, 3] [.add 4, .positionOf 4, .remove 5, .rankingFor 1]

/-- **C07** positions are a bijection: if the elements held are pairwise not equal, then after any history
`get_position_of` and `[...]` are inverse to each other: position of the element at `p` is `p`. -/
theorem C07_positions_bijective (items : List ι) (ops : List (RkOp ι)) (p : Nat) (x : ι) :
    let s := (runOps (Rk.step E) (Rk.init E items) ops).1
    ∀ l, (Rk.step E s .sorted).2 = .vals l →
    l.Pairwise (fun a b => E.eqv a b = false) →
    (l[p]? = some x → (Rk.step E s (.positionOf x)).2 = .nat p ∧ (Rk.step E s (.rankingFor x)).2 = .nat p ∧
        (Rk.step E s (.get p)).2 = .val x) ∧
    (p < l.length ↔ ∃ y, (Rk.step E s (.get p)).2 = .val y) := by
  intro s l hl hpw
  obtain ⟨l0, h1, h2⟩ := init_rep E items
  have h0 : RepRk E (Rk.init E items) l0 := by
    refine ⟨h2, ?_⟩
    obtain ⟨rfl, _, _⟩ := id h2
    exact posOk_enum (pre := []) (post := (SL.init E items).items) (by simp) rfl
  obtain ⟨l', _, h4⟩ := history_of_sim (step := Rk.step E) (RepRk E) (fun _ => True)
    (fun s b o _ h => rank_step_sim E s b o h) _ _ ops (by simp) h0
  have hs : RepRk E s l' := h4
  have : l' = l := by
    simp only [Rk.step, Res.vals.injEq] at hl
    rw [← hl]; exact hs.1.1.symm
  subst this
  have hget : (Rk.step E s (.get p)).2 = match l'[p]? with | some y => .val y | none => .exc .indexError := by
    simp only [Rk.step, hs.1.1, pyGet]
    simp only [Int.toNat_natCast, Int.natCast_nonneg, ↓reduceIte]
    cases l'[p]? <;> rfl
  refine ⟨?_, ?_⟩
  · intro hp
    have hplt : p < l'.length := by
      rcases Nat.lt_or_ge p l'.length with h | h
      · exact h
      · rw [List.getElem?_eq_none h] at hp; simp at hp
    have hxp : l'[p] = x := by rw [List.getElem?_eq_getElem hplt] at hp; exact Option.some.inj hp
    have huniq : ∀ q, l'[q]? = some x → q ≤ p := by
      intro q hq
      apply Classical.byContradiction
      intro hc
      have hq' : q < l'.length := by
        rcases Nat.lt_or_ge q l'.length with h | h
        · exact h
        · rw [List.getElem?_eq_none h] at hq; simp at hq
      have hxq : l'[q] = x := by rw [List.getElem?_eq_getElem hq'] at hq; exact Option.some.inj hq
      have := List.pairwise_iff_getElem.1 hpw p q hplt hq' (by omega)
      rw [hxp, hxq, E.eqv_refl] at this
      simp at this
    refine ⟨?_, ?_, by rw [hget, hp]⟩
    · obtain ⟨_, ⟨_, q1⟩, _⟩ := rank_step_sim E s l' (.positionOf x) hs
      rcases q1 with ⟨q1, _⟩ | ⟨p', y, q1, q2, q3, q4⟩
      · have := q1 x (List.mem_of_getElem? hp)
        rw [E.eqv_refl] at this; simp at this
      · rw [q1]
        congr 1
        rcases Nat.lt_trichotomy p' p with h | h | h
        · have hp'lt : p' < l'.length := by omega
          have hy : l'[p'] = y := by rw [List.getElem?_eq_getElem hp'lt] at q2; exact Option.some.inj q2
          have := List.pairwise_iff_getElem.1 hpw p' p hp'lt hplt h
          rw [hxp, hy, q3] at this; simp at this
        · exact h
        · have := q4 p x h hp
          rw [E.eqv_refl] at this; simp at this
    · obtain ⟨_, ⟨_, q1⟩, _⟩ := rank_step_sim E s l' (.rankingFor x) hs
      refine q1 p ⟨hp, ?_⟩
      intro q hq hc
      have := huniq q hc
      omega
  · rw [hget]
    constructor
    · intro h
      exact ⟨l'[p], by rw [List.getElem?_eq_getElem h]⟩
    · rintro ⟨y, hy⟩
      rcases Nat.lt_or_ge p l'.length with h | h
      · exact h
      · rw [List.getElem?_eq_none h] at hy; simp at hy

example : (Rk.step negEnv (runOps (Rk.step negEnv) (Rk.init negEnv []) [.add 1, .add 5, .add 3]).1 .sorted).2
      = .vals [5, 3, 1] ∧
    [5, 3, 1].Pairwise (fun a b => negEnv.eqv a b = false) := by
  constructor
  · simp [runOps, Rk.step, Rk.init, Rk.add, SL.init, SL.add, addIndex, negEnv, PyOrd.lt]
  · decide

/-- An element that was removed keeps its old rank in `calculate_ranking_for` instead of raising KeyError. -/
theorem C07_removed_element_keeps_rank_violates (x : ι) :
    (runOps (Rk.step E) (Rk.init E [x]) [.remove x, .sorted, .positionOf x, .rankingFor x]).2 =
      [.unit, .vals [], .exc .valueError, .nat 0] := by
  simp [runOps, Rk.step, Rk.init, Rk.remove, SL.init, SL.index, SL.remove, E.eqv_refl, enumPos, Dict.get?, Dict.set]

end
end Verif.SortedL
