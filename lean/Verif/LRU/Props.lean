import Verif.LRU.Spec
/-! # C08: LRU -/
namespace Verif.LRU
open Verif
variable {ι : Type _} [DecidableEq ι]

/-- the list holds exactly the elements with a last use, oldest first -/
def Rep (od : List ι) (u : Uses ι) : Prop :=
  (∀ x, x ∈ od ↔ u.last x ≠ none) ∧ (∀ x t, u.last x = some t → t < u.now) ∧
  od.Pairwise (fun a b => ∀ ta tb, u.last a = some ta → u.last b = some tb → ta < tb)

omit [DecidableEq ι] in
theorem Rep.tick {od : List ι} {u : Uses ι} (h : Rep od u) : Rep od u.tick :=
  ⟨h.1, fun x t hx => Nat.lt_succ_of_lt (h.2.1 x t hx), h.2.2⟩

omit [DecidableEq ι] in
theorem Rep.nodup {od : List ι} {u : Uses ι} (h : Rep od u) : od.Nodup := by
  refine List.Pairwise.imp_of_mem ?_ h.2.2
  rintro a b ha _ hab rfl
  cases ht : u.last a with
  | none => exact (h.1 a).1 ha ht
  | some t => exact Nat.lt_irrefl t (hab t t ht ht)

theorem Rep.use {od od' : List ι} {u : Uses ι} (h : Rep od u) (x : ι) (hs : od'.Sublist od)
    (hm : ∀ y, y ∈ od' ↔ y ∈ od ∧ y ≠ x) : Rep (od' ++ [x]) (u.upd x (some u.now)) := by
  refine ⟨?_, ?_, ?_⟩
  · intro y
    simp only [List.mem_append, List.mem_singleton, hm, h.1, Uses.upd]
    by_cases hy : y = x <;> simp [hy]
  · intro y t hy
    simp only [Uses.upd] at hy ⊢
    split at hy
    · cases hy; omega
    · have := h.2.1 y t hy; omega
  · rw [List.pairwise_append]
    refine ⟨?_, by simp, ?_⟩
    · refine List.Pairwise.imp_of_mem ?_ (h.2.2.sublist hs)
      intro a b ha hb hab ta tb h1 h2
      have hax := ((hm a).1 ha).2
      have hbx := ((hm b).1 hb).2
      simp only [Uses.upd, if_neg hax] at h1
      simp only [Uses.upd, if_neg hbx] at h2
      exact hab ta tb h1 h2
    · intro a ha b hb ta tb h1 h2
      simp at hb; subst hb
      have hax := ((hm a).1 ha).2
      simp only [Uses.upd, if_neg hax] at h1
      simp only [Uses.upd, ↓reduceIte, Option.some.injEq] at h2
      subst h2
      exact h.2.1 a ta h1

theorem Rep.drop {od od' : List ι} {u : Uses ι} (h : Rep od u) (x : ι) (hs : od'.Sublist od)
    (hm : ∀ y, y ∈ od' ↔ y ∈ od ∧ y ≠ x) : Rep od' (u.upd x none) := by
  refine ⟨?_, ?_, ?_⟩
  · intro y
    simp only [hm, h.1, Uses.upd]
    by_cases hy : y = x <;> simp [hy]
  · intro y t hy
    simp only [Uses.upd] at hy ⊢
    split at hy
    · simp at hy
    · have := h.2.1 y t hy; omega
  · refine List.Pairwise.imp_of_mem ?_ (h.2.2.sublist hs)
    intro a b ha hb hab ta tb h1 h2
    have hax := ((hm a).1 ha).2
    have hbx := ((hm b).1 hb).2
    simp only [Uses.upd, if_neg hax] at h1
    simp only [Uses.upd, if_neg hbx] at h2
    exact hab ta tb h1 h2

theorem erase_mem {od : List ι} (x y : ι) : y ∈ erase od x ↔ y ∈ od ∧ y ≠ x := by
  simp [erase]

theorem step_sim (od : List ι) (u : Uses ι) (o : Op ι) (h : Rep od u) :
    ∃ u', UseSpec u o (step od o).2 u' ∧ Rep (step od o).1 u' := by
  cases o with
  | add x =>
    refine ⟨_, ⟨rfl, rfl⟩, ?_⟩
    simp only [step, add]
    by_cases hx : x ∈ od
    · rw [if_pos hx, if_neg ((h.1 x).1 hx)]
      exact h.tick
    · have : u.last x = none := by
        cases hl : u.last x with
        | none => rfl
        | some t => exact absurd ((h.1 x).2 (by simp [hl])) hx
      rw [if_neg hx, if_pos this]
      refine h.use x (List.Sublist.refl _) ?_
      intro y
      constructor
      · intro hy; exact ⟨hy, by rintro rfl; exact hx hy⟩
      · exact And.left
  | markAsUsed x =>
    refine ⟨_, ⟨rfl, rfl⟩, ?_⟩
    simp only [step, markAsUsed]
    split
    · rename_i hx
      refine h.use x (List.Sublist.refl _) ?_
      intro y
      constructor
      · intro hy; exact ⟨hy, by rintro rfl; exact hx hy⟩
      · exact And.left
    · exact h.use x List.filter_sublist (erase_mem x)
  | remove x =>
    simp only [step]
    split
    · rename_i hx
      exact ⟨_, Or.inr ⟨(h.1 x).1 hx, rfl, rfl⟩, h.drop x List.filter_sublist (erase_mem x)⟩
    · rename_i hx
      refine ⟨_, Or.inl ⟨?_, rfl, rfl⟩, h.tick⟩
      cases hl : u.last x with
      | none => rfl
      | some t => exact absurd ((h.1 x).2 (by simp [hl])) hx
  | evict =>
    cases od with
    | nil =>
      refine ⟨_, Or.inl ⟨?_, rfl, rfl⟩, h.tick⟩
      intro x
      cases hl : u.last x with
      | none => rfl
      | some t => exact absurd ((h.1 x).2 (by simp [hl])) (by simp)
    | cons x od =>
      simp only [step, evict]
      have hn := h.nodup
      rw [List.nodup_cons] at hn
      cases hl : u.last x with
      | none => exact absurd hl ((h.1 x).1 (by simp))
      | some t =>
        refine ⟨_, Or.inr ⟨x, t, hl, rfl, rfl, ?_⟩, h.drop x (List.sublist_cons_self x od) ?_⟩
        · intro y t' hy hne
          have hm : y ∈ x :: od := (h.1 y).2 (by simp [hy])
          rcases List.mem_cons.1 hm with rfl | hm
          · exact absurd rfl hne
          · exact (List.pairwise_cons.1 h.2.2).1 y hm t t' hl hy
        · intro y
          rw [List.mem_cons]
          constructor
          · intro hy; exact ⟨Or.inr hy, by rintro rfl; exact hn.1 hy⟩
          · rintro ⟨rfl | hy, hne⟩
            · exact absurd rfl hne
            · exact hy
  | contains x => exact ⟨_, ⟨rfl, _, rfl, by simp [h.1]⟩, h.tick⟩
  | len => exact ⟨_, ⟨rfl, od, h.nodup, h.1, rfl⟩, h.tick⟩

/-- **C08** Any history of calls on an LRU behaves as the record of last uses says (`UseSpec`): eviction
returns and removes the held element whose last use is the oldest, KeyError exactly when
nothing is held. -/
theorem C08_lru_evicts_least_recently_used (ops : List (Op ι)) :
    ∃ u, History UseSpec { now := 0, last := fun _ => none } ops (runOps step ([] : List ι) ops).2 u := by
  obtain ⟨u, h1, _⟩ := history_of_sim (step := step (ι := ι)) Rep (fun _ => True)
    (fun s b o _ h => step_sim s b o h) [] { now := 0, last := fun _ => none } ops (by simp)
    ⟨by simp, by simp, List.Pairwise.nil⟩
  exact ⟨u, h1⟩

example : (runOps step ([] : List Nat) [.add 1, .add 2, .add 1, .markAsUsed 1, .evict, .evict, .evict]).2
    = [.unit, .unit, .unit, .unit, .val 2, .val 1, .exc .keyError] := by decide

end Verif.LRU
