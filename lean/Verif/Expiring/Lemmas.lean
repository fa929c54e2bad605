import Verif.Expiring.Spec
import Verif.Heap.TimeLemmas
/-! # Helper lemmas for ExpiringEntryDict -/
namespace Verif.Expiring
open Verif Verif.Heap

section
variable {K V : Type _} [PyLinOrd K] [DecidableEq K] (H : Heapq (Int × K)) (timeout : Int)

/-- dictionary and heap represent `m` at time `T`: everything alive is in both, nothing else than entries of `m` is in
the heap, nothing is in the dictionary without being in the heap -/
structure Rep (T : Int) (s : St K V) (m : Life K V) (hm : K → Option Int) : Prop where
  heap : s.heap.Rep hm
  wf : Dict.WF s.data
  alive : ∀ k v e, m k = some (v, e) → T ≤ e → hm k = some e ∧ Dict.get? s.data k = some v
  heap_le : ∀ k e, hm k = some e → ∃ v, m k = some (v, e)
  data_le : ∀ k v, Dict.get? s.data k = some v → ∃ e, m k = some (v, e) ∧ hm k = some e

/-- every heap entry is in the dictionary (broken by looking up a dead entry) -/
def Clean (s : St K V) (hm : K → Option Int) : Prop := ∀ k e, hm k = some e → Dict.has s.data k = true

omit [DecidableEq K] in
theorem stamps_eq [DecidableEq K] {h : TSHeap K} {hm : K → Option Int} (hr : h.Rep hm) (k : K) :
    Dict.get? h.stamps k = hm k := by rw [hr.2.2.2]

theorem Rep.later {T T' : Int} {s : St K V} {m : Life K V} {hm : K → Option Int} (h : Rep T s m hm)
    (hT : T ≤ T') : Rep T' s m hm :=
  { h with alive := fun k v e h1 h2 => h.alive k v e h1 (by omega) }

/-- dropping a dead entry from heap and dictionary -/
theorem Rep.drop {T : Int} {s : St K V} {m : Life K V} {hm : K → Option Int} (h : Rep T s m hm)
    {k : K} {e : Int} (hk : hm k = some e) (hd : e < T) {h' : TSHeap K} (hr : h'.Rep (upd hm k none)) :
    Rep T { data := Dict.del s.data k, heap := h' } m (upd hm k none) where
  heap := hr
  wf := Dict.wf_del h.wf k
  alive := by
    intro x v e' hx he'
    have hne : x ≠ k := by
      rintro rfl
      obtain ⟨v', hv'⟩ := h.heap_le x e hk
      rw [hx] at hv'; cases hv'; omega
    have hne' : ¬ k = x := fun hc => hne hc.symm
    obtain ⟨h1, h2⟩ := h.alive x v e' hx he'
    simp [upd, hne, hne', h1, h2]
  heap_le := by
    intro x e' hx
    simp only [upd] at hx
    split at hx
    · simp at hx
    · exact h.heap_le x e' hx
  data_le := by
    intro x v hx
    simp only [Dict.get?_del] at hx
    split at hx
    · simp at hx
    · next hne =>
      obtain ⟨e', h1, h2⟩ := h.data_le x v hx
      have hne' : ¬ x = k := fun hc => hne hc.symm
      exact ⟨e', h1, by simp [upd, hne', h2]⟩

omit [PyLinOrd K] in
theorem drop_absent {d : Dict K V} {k : K} (h : Dict.has d k = false) : Dict.del d k = d := by
  have hk : k ∉ Dict.keys d := by
    intro hc
    have := (Dict.get?_isSome_iff d k).2 hc
    simp [Dict.has] at h
    simp [h] at this
  simp only [Dict.del]
  rw [List.filter_eq_self]
  intro a ha
  have : a.1 ≠ k := fun hc => hk (hc ▸ List.mem_map_of_mem ha)
  simpa using this

/-- the cleanup loop with enough fuel -/
theorem cleanup_sim (now : Int) (n : Nat) : ∀ (s : St K V) (m : Life K V) (hm : K → Option Int),
    Rep now s m hm → s.heap.data.length ≤ n →
    ∃ s' hm', Rep now s' m hm' ∧
      ((cleanupLoop H now n s = (s', none) ∧ (∀ k e, hm' k = some e → now ≤ e) ∧
          (Clean s hm → Clean s' hm')) ∨
       (cleanupLoop H now n s = (s', some .keyError) ∧ ¬ Clean s hm ∧
          ∃ k v e, m k = some (v, e) ∧ e < now)) := by
  induction n with
  | zero =>
    intro s m hm h hl
    refine ⟨s, hm, h, Or.inl ⟨rfl, ?_, id⟩⟩
    intro k e hk
    have : s.heap.data = [] := List.length_eq_zero_iff.1 (by omega)
    have := (h.heap.2.2.1 (e, k)).2 (by rw [stamps_eq h.heap]; exact hk)
    simp_all
  | succ n ih =>
    intro s m hm h hl
    simp only [cleanupLoop]
    cases ht : s.heap.data.head? with
    | none =>
      refine ⟨s, hm, h, Or.inl ⟨rfl, ?_, id⟩⟩
      intro k e hk
      have : s.heap.data = [] := by simpa using ht
      have := (h.heap.2.2.1 (e, k)).2 (by rw [stamps_eq h.heap]; exact hk)
      simp_all
    | some top =>
      rcases TSHeap.pop_sim H h.heap with ⟨hd, _⟩ | ⟨e, rest, h', hp, he, hme, hle, hrest, hrep⟩
      · simp [hd] at ht
      · have htop : top = e := by
          have := H.pop_head _ _ _ hp
          rw [ht] at this; cases this; rfl
        subst htop
        by_cases hge : top.1 ≥ now
        · refine ⟨s, hm, h, Or.inl ⟨by simp [hge], ?_, id⟩⟩
          intro k e' hk
          have := le_fst (hle k e' hk)
          simp only at this; omega
        · have hlt : top.1 < now := by omega
          have hlen : h'.data.length ≤ n := by
            have := (H.pop_perm _ _ _ hp).length_eq
            simp only [List.length_cons] at this
            rw [hrest]; omega
          have hdrop := h.drop hme hlt hrep
          simp only [hge, ↓reduceIte, he]
          by_cases hh : Dict.has s.data top.2 = true
          · simp only [hh, ↓reduceIte]
            obtain ⟨s', hm', i1, i2⟩ := ih _ m _ hdrop hlen
            have hclean : Clean s hm → Clean { data := Dict.del s.data top.2, heap := h' } (upd hm top.2 none) := by
              intro hc x ex hx
              simp only [upd] at hx
              split at hx
              · simp at hx
              · next hne =>
                have hne' : ¬ top.2 = x := fun hc => hne hc.symm
                have := hc x ex hx
                simp only [Dict.has, Dict.get?_del, hne', ↓reduceIte] at this ⊢
                exact this
            refine ⟨s', hm', i1, ?_⟩
            rcases i2 with ⟨j1, j2, j3⟩ | ⟨j1, j2, j3⟩
            · exact Or.inl ⟨j1, j2, fun hc => j3 (hclean hc)⟩
            · exact Or.inr ⟨j1, fun hc => j2 (hclean hc), j3⟩
          · have hh' : Dict.has s.data top.2 = false := by simpa using hh
            simp only [hh', Bool.false_eq_true, ↓reduceIte]
            rw [drop_absent hh'] at hdrop
            refine ⟨_, _, hdrop, Or.inr ⟨rfl, ?_, ?_⟩⟩
            · intro hc; exact hh (hc _ _ hme)
            · obtain ⟨v, hv⟩ := h.heap_le _ _ hme
              exact ⟨top.2, v, top.1, hv, hlt⟩

/-- after a successful cleanup the dictionary holds exactly what is alive -/
theorem data_exact {now : Int} {s : St K V} {m : Life K V} {hm : K → Option Int} (h : Rep now s m hm)
    (hc : ∀ k e, hm k = some e → now ≤ e) (k : K) : k ∈ Dict.keys s.data ↔ ∃ v, Alive m now k v := by
  rw [← Dict.get?_isSome_iff]
  constructor
  · intro hk
    obtain ⟨v, hv⟩ := Option.isSome_iff_exists.1 hk
    obtain ⟨e, h1, h2⟩ := h.data_le k v hv
    exact ⟨v, e, h1, hc k e h2⟩
  · rintro ⟨v, e, h1, h2⟩
    rw [(h.alive k v e h1 h2).2]; rfl

/-- the deletion -/
theorem del_sim {T : Int} {s : St K V} {m : Life K V} {hm : K → Option Int} (h : Rep T s m hm) (k : K) :
    (hm k = none ∧ St.del H s k = (s, some .valueError)) ∨
    ∃ e s', hm k = some e ∧ Rep T s' (m.upd k none) (upd hm k none) ∧
      (e < T → Rep T s' m (upd hm k none)) ∧ (Clean s hm → Clean s' (upd hm k none)) ∧
      ((Dict.has s.data k = true ∧ St.del H s k = (s', none)) ∨
       (Dict.has s.data k = false ∧ St.del H s k = (s', some .keyError))) := by
  rcases TSHeap.popItem_sim H h.heap k with ⟨hn, he⟩ | ⟨e, h', hme, he, hrep⟩
  · left
    refine ⟨hn, ?_⟩
    simp only [St.del, he]
  · right
    refine ⟨e, { data := Dict.del s.data k, heap := h' }, hme, ?_, fun hlt => h.drop hme hlt hrep, ?_, ?_⟩
    · refine ⟨hrep, Dict.wf_del h.wf k, ?_, ?_, ?_⟩
      · intro x v ex hx hT
        simp only [Life.upd] at hx
        split at hx
        · simp at hx
        · next hne =>
          have hne' : ¬ k = x := fun hc => hne hc.symm
          obtain ⟨h1, h2⟩ := h.alive x v ex hx hT
          simp [upd, hne, hne', h1, h2]
      · intro x ex hx
        simp only [upd] at hx
        split at hx
        · simp at hx
        · next hne =>
          simp only [Life.upd, if_neg hne]
          exact h.heap_le x ex hx
      · intro x v hx
        simp only [Dict.get?_del] at hx
        split at hx
        · simp at hx
        · next hne =>
          have hne' : ¬ x = k := fun hc => hne hc.symm
          obtain ⟨ex, h1, h2⟩ := h.data_le x v hx
          exact ⟨ex, by simp [Life.upd, hne', h1], by simp [upd, hne', h2]⟩
    · intro hc x ex hx
      simp only [upd] at hx
      split at hx
      · simp at hx
      · next hne =>
        have hne' : ¬ k = x := fun hc => hne hc.symm
        have := hc x ex hx
        simp only [Dict.has, Dict.get?_del, hne', ↓reduceIte] at this ⊢
        exact this
    · cases hh : Dict.has s.data k with
      | true => left; refine ⟨rfl, ?_⟩; simp only [St.del, he, hh, ↓reduceIte]
      | false =>
        right; refine ⟨rfl, ?_⟩
        simp only [St.del, he, hh, Bool.false_eq_true, ↓reduceIte, drop_absent hh]

/-- which calls the code gets right whatever happened before: no lookup of a dead entry that is still known, no
deletion of what is not there or dead -/
def Guard (s : St K V) : Op K V × Int → Prop
  | (.get k, now) => ∀ ts, Dict.get? s.heap.stamps k = some ts → now ≤ ts
  | (.del k, now) => ∃ ts, Dict.get? s.heap.stamps k = some ts ∧ now ≤ ts
  | _ => True

theorem step_sim {T : Int} {s : St K V} {m : Life K V} {hm : K → Option Int} (h0 : Rep T s m hm)
    (o : Op K V × Int) (hT : T ≤ o.2) :
    ∃ m' hm', Rep o.2 (step H timeout s o).1 m' hm' ∧
      (Spec timeout m o (step H timeout s o).2 m' ∨ Defect m o (step H timeout s o).2 m') ∧
      (Clean s hm → Guard s o → Spec timeout m o (step H timeout s o).2 m' ∧
        Clean (step H timeout s o).1 hm') := by
  obtain ⟨o, now⟩ := o
  simp only at hT
  have h := h0.later hT
  have hcl := cleanup_sim H now _ s m hm h (Nat.le_refl _)
  cases o with
  | set k v =>
    have hpush : ∃ h', TSHeap.push H s.heap (now + timeout) k = (h', .unit) ∧
        h'.Rep (upd hm k (some (now + timeout))) := by
      have := TSHeap.step_sim H s.heap hm (.put (now + timeout) k) trivial h.heap
      obtain ⟨m1, ⟨hs1, hs2⟩, hs3⟩ := this
      simp only [TSHeap.step] at hs1 hs3
      refine ⟨(TSHeap.push H s.heap (now + timeout) k).1, ?_, by rw [← hs2]; exact hs3⟩
      rw [← hs1]
    obtain ⟨h', hp, hr⟩ := hpush
    refine ⟨m.upd k (some (v, now + timeout)), upd hm k (some (now + timeout)), ?_, Or.inl ?_, ?_⟩
    · simp only [step, hp]
      refine ⟨hr, Dict.wf_set h.wf k v, ?_, ?_, ?_⟩
      · intro x v' e hx he
        simp only [Life.upd] at hx
        split at hx
        · next hk => cases hx; subst hk; simp [upd]
        · next hne =>
          have hne' : ¬ k = x := fun hc => hne hc.symm
          obtain ⟨h1, h2⟩ := h.alive x v' e hx he
          simp [upd, hne, hne', h1, h2]
      · intro x e hx
        simp only [upd] at hx
        split at hx
        · next hk => cases hx; subst hk; simp [Life.upd]
        · next hne =>
          simp only [Life.upd, if_neg hne]
          exact h.heap_le x e hx
      · intro x v' hx
        simp only [Dict.get?_set] at hx
        split at hx
        · next hk => cases hx; subst hk; simp [Life.upd, upd]
        · next hne =>
          have hne' : ¬ x = k := fun hc => hne hc.symm
          obtain ⟨e, h1, h2⟩ := h.data_le x v' hx
          exact ⟨e, by simp [Life.upd, hne', h1], by simp [upd, hne', h2]⟩
    · simp only [step, hp]; exact ⟨rfl, rfl⟩
    · intro hc _
      simp only [step, hp]
      refine ⟨⟨rfl, rfl⟩, ?_⟩
      intro x e hx
      simp only [Dict.has, Dict.get?_set]
      split
      · rfl
      · next hne =>
        have hne' : ¬ x = k := fun hc => hne hc.symm
        simp only [upd, if_neg hne'] at hx
        exact hc x e hx
  | get k =>
    have hst := stamps_eq h.heap k
    cases hk : hm k with
    | none =>
      rw [hk] at hst
      have hna : ∀ v, ¬ Alive m now k v := by
        rintro v ⟨e, h1, h2⟩
        have := (h.alive k v e h1 h2).1
        simp [hk] at this
      have hsp : Spec timeout m (.get k, now) (.exc .keyError) m := ⟨rfl, Or.inr ⟨hna, rfl⟩⟩
      have he : step H timeout s (.get k, now) = (s, .exc .keyError) := by simp only [step, hst]
      rw [he]
      exact ⟨m, hm, h, Or.inl hsp, fun hc _ => ⟨hsp, hc⟩⟩
    | some ts =>
      rw [hk] at hst
      obtain ⟨v, hv⟩ := h.heap_le k ts hk
      by_cases hlt : ts < now
      · have hna : ∀ v, ¬ Alive m now k v := by
          rintro v' ⟨e, h1, h2⟩
          rw [hv] at h1; cases h1; omega
        have hsp : Spec timeout m (.get k, now) (.exc .keyError) m := ⟨rfl, Or.inr ⟨hna, rfl⟩⟩
        have he : step H timeout s (.get k, now) =
            ({ s with data := Dict.del s.data k }, .exc .keyError) := by
          simp only [step, hst, hlt, ↓reduceIte]
        rw [he]
        refine ⟨m, hm, ?_, Or.inl hsp, ?_⟩
        · refine ⟨h.heap, Dict.wf_del h.wf k, ?_, h.heap_le, ?_⟩
          · intro x v' e hx hxe
            obtain ⟨h1, h2⟩ := h.alive x v' e hx hxe
            have hne : ¬ k = x := by
              rintro rfl
              rw [hk] at h1; cases h1; omega
            simp [h1, h2, hne]
          · intro x v' hx
            simp only [Dict.get?_del] at hx
            split at hx
            · simp at hx
            · exact h.data_le x v' hx
        · intro _ hg
          have := hg ts hst
          omega
      · obtain ⟨_, hdv⟩ := h.alive k v ts hv (by omega)
        have hsp : Spec timeout m (.get k, now) (.val v) m :=
          ⟨rfl, Or.inl ⟨v, ⟨ts, hv, by omega⟩, rfl⟩⟩
        have he : step H timeout s (.get k, now) = (s, .val v) := by
          simp only [step, hst, hlt, ↓reduceIte, hdv]
        rw [he]
        exact ⟨m, hm, h, Or.inl hsp, fun hc _ => ⟨hsp, hc⟩⟩
  | contains k =>
    have hst := stamps_eq h.heap k
    cases hk : hm k with
    | none =>
      rw [hk] at hst
      have hsp : Spec timeout m (.contains k, now) (.bool false) m := by
        refine ⟨rfl, false, rfl, by simp, ?_⟩
        rintro ⟨v, e, h1, h2⟩
        have := (h.alive k v e h1 h2).1
        simp [hk] at this
      have he : step H timeout s (.contains k, now) = (s, .bool false) := by simp only [step, hst]
      rw [he]
      exact ⟨m, hm, h, Or.inl hsp, fun hc _ => ⟨hsp, hc⟩⟩
    | some ts =>
      rw [hk] at hst
      obtain ⟨v, hv⟩ := h.heap_le k ts hk
      by_cases hlt : ts < now
      · rcases del_sim H h k with ⟨hn, _⟩ | ⟨e, s', hme, _, hr, hclean, hcase⟩
        · simp [hk] at hn
        · rw [hk] at hme; cases hme
          have hr := hr hlt
          have hsp : Spec timeout m (.contains k, now) (.bool false) m := by
            refine ⟨rfl, false, rfl, by simp, ?_⟩
            rintro ⟨v', e, h1, h2⟩
            rw [hv] at h1; cases h1; omega
          rcases hcase with ⟨hh, hd⟩ | ⟨hh, hd⟩
          · have he : step H timeout s (.contains k, now) = (s', .bool false) := by
              simp only [step, hst, hlt, ↓reduceIte, hd]
            rw [he]
            exact ⟨m, _, hr, Or.inl hsp, fun hc _ => ⟨hsp, hclean hc⟩⟩
          · have he : step H timeout s (.contains k, now) = (s', .exc .keyError) := by
              simp only [step, hst, hlt, ↓reduceIte, hd]
            rw [he]
            refine ⟨m, _, hr, Or.inr ⟨rfl, rfl, v, ts, hv, hlt⟩, fun hc _ => ?_⟩
            have := hc k ts hk
            simp [hh] at this
      · have hsp : Spec timeout m (.contains k, now) (.bool true) m :=
          ⟨rfl, true, rfl, by simp; exact ⟨v, ts, hv, by omega⟩⟩
        have he : step H timeout s (.contains k, now) = (s, .bool true) := by
          simp only [step, hst, hlt, ↓reduceIte]
        rw [he]
        exact ⟨m, hm, h, Or.inl hsp, fun hc _ => ⟨hsp, hc⟩⟩
  | del k =>
    have hst := stamps_eq h.heap k
    rcases del_sim H h k with ⟨hn, hd⟩ | ⟨e, s', hme, hr, _, hclean, hcase⟩
    · have hna : ∀ v, ¬ Alive m now k v := by
        rintro v ⟨e, h1, h2⟩
        have := (h.alive k v e h1 h2).1
        simp [hn] at this
      have he : step H timeout s (.del k, now) = (s, .exc .valueError) := by simp only [step, hd]
      rw [he]
      refine ⟨m.upd k none, hm, ?_, Or.inr ?_, ?_⟩
      · refine ⟨h.heap, h.wf, ?_, ?_, ?_⟩
        · intro x v e hx hxe
          simp only [Life.upd] at hx
          split at hx
          · simp at hx
          · exact h.alive x v e hx hxe
        · intro x e hx
          have hne : ¬ x = k := by rintro rfl; simp [hn] at hx
          simp only [Life.upd, if_neg hne]
          exact h.heap_le x e hx
        · intro x v hx
          obtain ⟨e, h1, h2⟩ := h.data_le x v hx
          have hne : ¬ x = k := by rintro rfl; simp [hn] at h2
          exact ⟨e, by simp [Life.upd, hne, h1], h2⟩
      · refine ⟨hna, rfl, ?_⟩
        by_cases hmk : m k = none
        · exact Or.inl ⟨rfl, hmk⟩
        · exact Or.inr ⟨Or.inr (Or.inr rfl), hmk⟩
      · rintro _ ⟨ts, hts, _⟩
        rw [hst, hn] at hts; simp at hts
    · rw [hme] at hst
      obtain ⟨v, hv⟩ := h.heap_le k e hme
      rcases hcase with ⟨hh, hd⟩ | ⟨hh, hd⟩
      · have he : step H timeout s (.del k, now) = (s', .unit) := by simp only [step, hd]
        rw [he]
        refine ⟨m.upd k none, _, hr, ?_, ?_⟩
        · by_cases hlt : e < now
          · right
            refine ⟨?_, rfl, Or.inr ⟨Or.inl rfl, by simp [hv]⟩⟩
            rintro v' ⟨e', h1, h2⟩
            rw [hv] at h1; cases h1; omega
          · left
            exact Or.inl ⟨⟨v, e, hv, by omega⟩, rfl, rfl⟩
        · rintro hc ⟨ts, hts, hle⟩
          rw [hst] at hts; cases hts
          exact ⟨Or.inl ⟨⟨v, e, hv, hle⟩, rfl, rfl⟩, hclean hc⟩
      · have he : step H timeout s (.del k, now) = (s', .exc .keyError) := by simp only [step, hd]
        rw [he]
        have hlt : e < now := by
          by_cases hlt : e < now
          · exact hlt
          · have := (h.alive k v e hv (by omega)).2
            simp [Dict.has, this] at hh
        refine ⟨m.upd k none, _, hr, Or.inr ⟨?_, rfl, Or.inr ⟨Or.inr (Or.inl rfl), by simp [hv]⟩⟩, ?_⟩
        · rintro v' ⟨e', h1, h2⟩
          rw [hv] at h1; cases h1; omega
        · rintro hc ⟨ts, hts, hle⟩
          rw [hst] at hts; cases hts
          omega
  | iter =>
    obtain ⟨s', hm', i1, ⟨j1, j2, j3⟩ | ⟨j1, j2, j3⟩⟩ := hcl
    · have he : step H timeout s (.iter, now) = (s', .keys (Dict.keys s'.data)) := by
        simp only [step, St.cleanup, j1]
      rw [he]
      have hsp : Spec timeout m (.iter, now) (.keys (Dict.keys s'.data)) m :=
        ⟨rfl, _, i1.wf, data_exact i1 j2, rfl⟩
      exact ⟨m, hm', i1, Or.inl hsp, fun hc _ => ⟨hsp, j3 hc⟩⟩
    · have he : step H timeout s (.iter, now) = (s', .exc .keyError) := by
        simp only [step, St.cleanup, j1]
      rw [he]
      exact ⟨m, hm', i1, Or.inr ⟨rfl, rfl, j3⟩, fun hc _ => absurd hc j2⟩
  | len =>
    obtain ⟨s', hm', i1, ⟨j1, j2, j3⟩ | ⟨j1, j2, j3⟩⟩ := hcl
    · have he : step H timeout s (.len, now) = (s', .nat s'.data.length) := by
        simp only [step, St.cleanup, j1]
      rw [he]
      have hsp : Spec timeout m (.len, now) (.nat s'.data.length) m :=
        ⟨rfl, _, i1.wf, data_exact i1 j2, by simp⟩
      exact ⟨m, hm', i1, Or.inl hsp, fun hc _ => ⟨hsp, j3 hc⟩⟩
    · have he : step H timeout s (.len, now) = (s', .exc .keyError) := by
        simp only [step, St.cleanup, j1]
      rw [he]
      exact ⟨m, hm', i1, Or.inr ⟨rfl, rfl, j3⟩, fun hc _ => absurd hc j2⟩
  | cleanup =>
    obtain ⟨s', hm', i1, ⟨j1, j2, j3⟩ | ⟨j1, j2, j3⟩⟩ := hcl
    · have he : step H timeout s (.cleanup, now) = (s', .unit) := by
        simp only [step, St.cleanup, j1]
      rw [he]
      have hsp : Spec timeout m (.cleanup, now) .unit m := ⟨rfl, rfl⟩
      exact ⟨m, hm', i1, Or.inl hsp, fun hc _ => ⟨hsp, j3 hc⟩⟩
    · have he : step H timeout s (.cleanup, now) = (s', .exc .keyError) := by
        simp only [step, St.cleanup, j1]
      rw [he]
      exact ⟨m, hm', i1, Or.inr ⟨rfl, rfl, j3⟩, fun hc _ => absurd hc j2⟩

theorem rep_init (T : Int) : Rep T (St.init H : St K V) (fun _ => none) (fun _ => none) := by
  have hnil : H.heapify [] = [] := by
    have := (H.heapify_perm []).length_eq
    exact List.length_eq_zero_iff.1 this
  refine ⟨⟨?_, ?_, ?_, ?_⟩, Dict.wf_nil, ?_, ?_, ?_⟩
  · simp only [St.init, TSHeap.init]; exact H.heapify_heap _
  · simp [St.init, TSHeap.init, hnil]
  · intro e; simp [St.init, TSHeap.init, hnil]
  · funext x; simp [St.init, TSHeap.init]
  · intro k v e h; simp at h
  · intro k e h; simp at h
  · intro k v h; simp [St.init] at h

theorem history {T : Int} {s : St K V} {m : Life K V} {hm : K → Option Int} (h : Rep T s m hm)
    (ops : List (Op K V × Int)) (hs : List.Pairwise (fun a b => a.2 ≤ b.2) ops) (hT : ∀ o ∈ ops, T ≤ o.2) :
    ∃ m', History (fun m o r m' => Spec timeout m o r m' ∨ Defect m o r m') m ops
      (runOps (step H timeout) s ops).2 m' := by
  induction ops generalizing T s m hm with
  | nil => exact ⟨m, rfl⟩
  | cons o os ih =>
    obtain ⟨m1, hm1, h1, h2, _⟩ := step_sim H timeout h o (hT o (by simp))
    rw [List.pairwise_cons] at hs
    obtain ⟨m2, h3⟩ := ih h1 hs.2 hs.1
    exact ⟨m2, m1, h2, h3⟩

theorem history_clean {T : Int} {s : St K V} {m : Life K V} {hm : K → Option Int} (h : Rep T s m hm)
    (hc : Clean s hm) (ops : List (Op K V × Int)) (hs : List.Pairwise (fun a b => a.2 ≤ b.2) ops)
    (hT : ∀ o ∈ ops, T ≤ o.2) (hg : AllSteps Guard (step H timeout) s ops) :
    ∃ m', History (Spec timeout) m ops (runOps (step H timeout) s ops).2 m' := by
  induction ops generalizing T s m hm with
  | nil => exact ⟨m, rfl⟩
  | cons o os ih =>
    obtain ⟨m1, hm1, h1, _, h2⟩ := step_sim H timeout h o (hT o (by simp))
    obtain ⟨h2, h2c⟩ := h2 hc hg.1
    rw [List.pairwise_cons] at hs
    obtain ⟨m2, h3⟩ := ih h1 h2c hs.2 hs.1 hg.2
    exact ⟨m2, m1, h2, h3⟩

end
end Verif.Expiring
