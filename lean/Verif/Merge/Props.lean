import Verif.Merge.Spec
import Verif.Conc.MonitorProps
/-!
# C25: merge_dicts
-/
namespace Verif.Merge
open Verif Conc

section
variable {ι : Type}

/-! ## Entries -/

theorem get_isSome_iff (a : Ents ι) (k : Key) : (a.get k).isSome ↔ k ∈ a.keys := by
  match a with
  | .nil => simp [Ents.get, Ents.keys]
  | .cons k' t es =>
    have := get_isSome_iff es k
    simp only [Ents.get, Ents.keys, List.mem_cons]
    by_cases h : k' = k
    · simp [h]
    · have h' : ¬ k = k' := fun e => h e.symm
      simp [h, h', this]

theorem get_none_iff (a : Ents ι) (k : Key) : a.get k = none ↔ k ∉ a.keys := by
  rw [← get_isSome_iff]; cases a.get k <;> simp

theorem keys_alter (k : Key) (f : Tree ι → Tree ι) (t : Tree ι) (a : Ents ι) :
    (a.alter k f t).keys = if k ∈ a.keys then a.keys else a.keys ++ [k] := by
  match a with
  | .nil => simp [Ents.alter, Ents.keys]
  | .cons k' x es =>
    have := keys_alter k f t es
    simp only [Ents.alter]
    by_cases h : k' = k
    · simp [h, Ents.keys]
    · have h' : ¬ k = k' := fun e => h e.symm
      simp only [h, if_false, Ents.keys, this, List.mem_cons, h', false_or]
      split <;> simp

theorem get_alter (k : Key) (f : Tree ι → Tree ι) (t : Tree ι) (a : Ents ι) (k2 : Key) :
    (a.alter k f t).get k2 = if k2 = k then some (match a.get k with | some x => f x | none => t) else a.get k2 := by
  match a with
  | .nil =>
    simp only [Ents.alter, Ents.get]
    by_cases h : k2 = k
    · simp [h]
    · have h' : ¬ k = k2 := fun e => h e.symm
      simp [h, h']
  | .cons k' x es =>
    have ih := get_alter k f t es k2
    simp only [Ents.alter]
    by_cases h : k' = k
    · subst h
      by_cases h2 : k2 = k'
      · simp [h2, Ents.get]
      · have h2' : ¬ k' = k2 := fun e => h2 e.symm
        simp [h2, h2', Ents.get]
    · simp only [h, if_false, Ents.get]
      by_cases h2 : k' = k2
      · have : ¬ k2 = k := by rw [← h2]; exact h
        simp [h2, this]
      · simp only [h2, if_false, ih]

theorem keys_into (b : Ents ι) (a : Ents ι) (hb : b.keys.Nodup) :
    (b.into a).keys = a.keys ++ b.keys.filter (fun k => decide (k ∉ a.keys)) := by
  match b with
  | .nil => simp [Ents.into, Ents.keys]
  | .cons k t b =>
    simp only [Ents.keys, List.nodup_cons] at hb
    simp only [Ents.into]
    rw [keys_into b _ hb.2, keys_alter]
    simp only [Ents.keys, List.filter_cons]
    split
    · rename_i h; simp [h]
    · rename_i h
      simp only [h, not_false_eq_true, decide_true, if_true, List.append_assoc, List.singleton_append]
      congr 2
      apply List.filter_congr
      intro k2 hk2
      have : k2 ≠ k := by rintro rfl; exact hb.1 hk2
      simp [this]

theorem get_into (b : Ents ι) (a : Ents ι) (hb : b.keys.Nodup) (k : Key) :
    (b.into a).get k = match a.get k, b.get k with
      | some x, some y => some (x.merge y)
      | none, some y => some y
      | x, none => x := by
  match b with
  | .nil => simp only [Ents.into, Ents.get]
  | .cons k' t b =>
    simp only [Ents.keys, List.nodup_cons] at hb
    simp only [Ents.into]
    rw [get_into b _ hb.2, get_alter]
    simp only [Ents.get]
    by_cases h : k = k'
    · subst h
      have hn : b.get k = none := (get_none_iff b k).2 hb.1
      simp only [if_true, hn]
      cases a.get k <;> rfl
    · have h' : ¬ k' = k := fun e => h e.symm
      simp only [h, h', if_false]

/-- **C25, entries.** Merging dictionaries, key by key: under a key of both the values merged, under a key of one its value. -/
theorem C25_entry (i j : ι) (a b : Ents ι) (hb : b.keys.Nodup) (k : Key) :
    ∃ es, (Tree.dict i a).merge (.dict j b) = .dict i es ∧
      es.get k = match a.get k, b.get k with
        | some x, some y => some (x.merge y)
        | none, some y => some y
        | x, none => x :=
  ⟨b.into a, rfl, get_into b a hb k⟩

/-- **C25, keys.** The keys of the result are the keys of the first in their order, followed by the other keys of the second in their order. -/
theorem C25_keys (i j : ι) (a b : Ents ι) (hb : b.keys.Nodup) :
    ∃ es, (Tree.dict i a).merge (.dict j b) = .dict i es ∧ es.keys = a.keys ++ b.keys.filter (fun k => decide (k ∉ a.keys)) :=
  ⟨b.into a, rfl, keys_into b a hb⟩

/-- **C25, other values.** Two lists are concatenated; of two values not both dictionaries and not both lists the second is taken. -/
theorem C25_other (v1 v2 : Tree ι) :
    (∀ i xs j ys, v1 = .list i xs → v2 = .list j ys → v1.merge v2 = .list i (xs ++ ys)) ∧
    (¬ (v1.isDict = true ∧ v2.isDict = true) → ¬ (v1.isList = true ∧ v2.isList = true) → v1.merge v2 = v2) := by
  refine ⟨?_, ?_⟩
  · rintro i xs j ys rfl rfl; rfl
  · intro h1 h2
    cases v2 <;> cases v1 <;> simp_all [Tree.merge, Tree.into, Tree.isDict, Tree.isList]

/-- equality of entries from the keys and the values under them -/
theorem ents_ext (a b : Ents ι) (ha : a.keys.Nodup) (hk : a.keys = b.keys) (hg : ∀ k, a.get k = b.get k) : a = b := by
  match a, b with
  | .nil, .nil => rfl
  | .nil, .cons k t b => simp [Ents.keys] at hk
  | .cons k t a, .nil => simp [Ents.keys] at hk
  | .cons k t a, .cons k' t' b =>
    simp only [Ents.keys, List.cons.injEq] at hk
    obtain ⟨rfl, hk⟩ := hk
    simp only [Ents.keys, List.nodup_cons] at ha
    have h1 := hg k
    simp only [Ents.get, if_true] at h1
    injection h1 with h1
    subst h1
    have : a = b := by
      apply ents_ext a b ha.2 hk
      intro k2
      by_cases h2 : k = k2
      · subst h2
        rw [(get_none_iff a k).2 ha.1, (get_none_iff b k).2 (hk ▸ ha.1)]
      · have := hg k2
        simpa [Ents.get, h2] using this
    rw [this]

theorem nodup_into (b a : Ents ι) (ha : a.keys.Nodup) (hb : b.keys.Nodup) : (b.into a).keys.Nodup := by
  rw [keys_into b a hb, List.nodup_append]
  refine ⟨ha, hb.filter _, ?_⟩
  intro x hx y hy
  simp at hy
  rintro rfl
  exact hy.2 hx

/-- **C25, neutral element.** The empty dictionary is neutral on both sides. -/
theorem C25_neutral (i j : ι) (b : Ents ι) (hb : b.keys.Nodup) :
    (Tree.dict i .nil).merge (.dict j b) = .dict i b ∧ (Tree.dict i b).merge (.dict j .nil) = .dict i b := by
  refine ⟨?_, rfl⟩
  show Tree.dict i (b.into .nil) = _
  congr 1
  refine ents_ext _ _ (nodup_into b .nil (by simp [Ents.keys]) hb) ?_ ?_
  · rw [keys_into b _ hb]; simp [Ents.keys]
  · intro k; rw [get_into b _ hb]; simp only [Ents.get]; cases b.get k <;> rfl

example : ((Ents.cons 1 (.atom 5) (.cons 2 (.list () [.atom 1]) .nil)) : Ents Unit).keys.Nodup := by decide

theorem wf_get {a : Ents ι} (h : a.WF) {k : Key} {t : Tree ι} (hg : a.get k = some t) : t.WF := by
  match a with
  | .nil => simp [Ents.get] at hg
  | .cons k' t' es =>
    simp only [Ents.get] at hg
    split at hg
    · injection hg with hg; subst hg; exact h.1
    · exact wf_get h.2 hg

theorem fit_get {c a b : Ents ι} (hf : c.Fit a b) {k : Key} {x y z : Tree ι} (hx : a.get k = some x) (hy : b.get k = some y) (hz : c.get k = some z) (hc : c.keys.Nodup) :
    z.Fit x y := by
  match c with
  | .nil => simp [Ents.get] at hz
  | .cons k' t es =>
    simp only [Ents.get] at hz
    simp only [Ents.Fit] at hf
    simp only [Ents.keys, List.nodup_cons] at hc
    split at hz
    · rename_i h; subst h; injection hz with hz; subst hz
      have := hf.1; rw [hx, hy] at this; exact this
    · exact fit_get hf.2 hx hy hz hc.2

end

section
variable {ι : Type}

theorem get_depth {a : Ents ι} {k : Key} {t : Tree ι} (hg : a.get k = some t) : t.depth ≤ a.depth := by
  match a with
  | .nil => simp [Ents.get] at hg
  | .cons k' t' es =>
    simp only [Ents.get] at hg
    simp only [Ents.depth]
    split at hg
    · injection hg with hg; subst hg; omega
    · have := get_depth hg; omega

/-- **C25, associativity (partial).** Merging well-formed values is associative, provided that under no key path the first and third value are both lists (or both dictionaries) while the second is something
else.  Missing: that case, in which it is not (see `C25_associative_violates`). -/
theorem C25_associative_partial (c a b : Tree ι) (ha : a.WF) (hb : b.WF) (hc : c.WF) (hf : c.Fit a b) : (a.merge b).merge c = a.merge (b.merge c) := by
  suffices H : ∀ (n : Nat) (c a b : Tree ι), c.depth ≤ n → a.WF → b.WF → c.WF → c.Fit a b → (a.merge b).merge c = a.merge (b.merge c) from H c.depth c a b (Nat.le_refl _) ha hb hc hf
  intro n
  induction n with
  | zero => intro c a b hd; cases c <;> simp [Tree.depth] at hd
  | succ n ih =>
    intro c a b hd ha hb hc hf
    cases c with
    | atom n => rfl
    | list k zs =>
      cases b with
      | list j ys => cases a <;> simp [Tree.merge, Tree.into]
      | atom m =>
        cases a with
        | list i xs => simp [Tree.Fit, Tree.isList] at hf
        | atom _ => rfl
        | dict _ _ => rfl
      | dict j eb =>
        cases a with
        | list i xs => simp [Tree.Fit, Tree.isList] at hf
        | atom _ => rfl
        | dict _ _ => rfl
    | dict k ec =>
      cases b with
      | atom m =>
        cases a with
        | dict i ea => simp [Tree.Fit, Tree.isDict] at hf
        | atom _ => rfl
        | list _ _ => rfl
      | list j ys =>
        cases a with
        | dict i ea => simp [Tree.Fit, Tree.isDict] at hf
        | atom _ => rfl
        | list _ _ => rfl
      | dict j eb =>
        cases a with
        | atom _ => rfl
        | list _ _ => rfl
        | dict i ea =>
          show Tree.dict i (ec.into (eb.into ea)) = Tree.dict i ((ec.into eb).into ea)
          congr 1
          simp only [Tree.WF] at ha hb hc
          have hbc := nodup_into ec eb hb.1 hc.1
          refine ents_ext _ _ (nodup_into _ _ (nodup_into _ _ ha.1 hb.1) hc.1) ?_ ?_
          · rw [keys_into _ _ hc.1, keys_into _ _ hb.1, keys_into _ _ hbc, keys_into _ _ hc.1, List.filter_append, List.append_assoc]
            congr 2
            rw [List.filter_filter]
            apply List.filter_congr
            intro x hx
            by_cases h1 : x ∈ ea.keys <;> by_cases h2 : x ∈ eb.keys <;> simp [h1, h2]
          · intro x
            rw [get_into _ _ hc.1, get_into _ _ hb.1, get_into _ _ hbc, get_into _ _ hc.1]
            cases h1 : ea.get x with
            | none => cases h2 : eb.get x <;> cases h3 : ec.get x <;> rfl
            | some p =>
              cases h2 : eb.get x with
              | none => cases h3 : ec.get x <;> rfl
              | some q =>
                cases h3 : ec.get x with
                | none => rfl
                | some r =>
                  dsimp only
                  congr 1
                  refine ih r p q ?_ (wf_get ha.2 h1) (wf_get hb.2 h2) (wf_get hc.2 h3) (fit_get hf.2 h1 h2 h3 hc.1)
                  have := get_depth h3
                  simp only [Tree.depth] at hd
                  omega

example : (Tree.dict () (.cons 1 (.list () [.atom 3]) .nil)).Fit (Tree.dict () (.cons 1 (.list () [.atom 1]) .nil)) (.dict () (.cons 1 (.list () [.atom 2]) (.cons 2 (.atom 7) .nil))) := by
  simp [Tree.Fit, Ents.Fit, Tree.isDict, Ents.get, Tree.isList]

/-- **C25 violated.** Merging is not associative: with `{'k': [1]}`, `{'k': 2}`, `{'k': [3]}` the result is `{'k': [3]}` if the first two are merged first, `{'k': [1, 3]}` if the last two are. -/
theorem C25_associative_violates :
    let a : Tree Unit := .dict () (.cons 1 (.list () [.atom 1]) .nil)
    let b : Tree Unit := .dict () (.cons 1 (.atom 2) .nil)
    let c : Tree Unit := .dict () (.cons 1 (.list () [.atom 3]) .nil)
    (a.merge b).merge c = .dict () (.cons 1 (.list () [.atom 3]) .nil) ∧ a.merge (b.merge c) = .dict () (.cons 1 (.list () [.atom 1, .atom 3]) .nil) := by
  refine ⟨rfl, rfl⟩

end

/-! ## The code on the heap computes the merge -/

mutual
theorem holds_frame {h h' : Heap} : ∀ (t : Tree Nat), (∀ i ∈ t.ids, h' i = h i) → t.Holds h → t.Holds h'
  | .atom _, _, _ => trivial
  | .list i xs, hf, hh => by simp only [Tree.Holds] at *; rw [hf i (by simp [Tree.ids])]; exact hh
  | .dict i es, hf, hh => by
    simp only [Tree.Holds] at *
    exact ⟨by rw [hf i (by simp [Tree.ids])]; exact hh.1, holdsE_frame es (fun j hj => hf j (by simp [Tree.ids, hj])) hh.2⟩
theorem holdsE_frame {h h' : Heap} : ∀ (es : Ents Nat), (∀ i ∈ es.ids, h' i = h i) → es.Holds h → es.Holds h'
  | .nil, _, _ => trivial
  | .cons k t es, hf, hh => by
    simp only [Ents.Holds] at *
    exact ⟨holds_frame t (fun j hj => hf j (by simp [Ents.ids, hj])) hh.1, holdsE_frame es (fun j hj => hf j (by simp [Ents.ids, hj])) hh.2⟩
end

theorem dict_get (a : Ents Nat) (k : Key) : a.dict.get? k = (a.get k).map Tree.val := by
  match a with
  | .nil => rfl
  | .cons k' t es =>
    have := dict_get es k
    simp only [Ents.dict, Dict.get?, Ents.get, this]
    split <;> rfl

theorem dict_keys (a : Ents Nat) : a.dict.keys = a.keys := by
  match a with
  | .nil => rfl
  | .cons k t es =>
    have := dict_keys es
    simp only [Dict.keys, Ents.dict, Ents.keys, List.map_cons] at *
    rw [this]

theorem dict_alter (k : Key) (f : Tree Nat → Tree Nat) (t : Tree Nat) (a : Ents Nat) :
    (a.alter k f t).dict = a.dict.set k (match a.get k with | some x => (f x).val | none => t.val) := by
  match a with
  | .nil => rfl
  | .cons k' x es =>
    have := dict_alter k f t es
    simp only [Ents.alter, Ents.dict, Dict.set, Ents.get]
    split <;> simp_all [Ents.dict]

theorem ids_get {a : Ents Nat} {k : Key} {t : Tree Nat} (hg : a.get k = some t) : ∀ i ∈ t.ids, i ∈ a.ids := by
  match a with
  | .nil => simp [Ents.get] at hg
  | .cons k' t' es =>
    simp only [Ents.get] at hg
    intro i hi
    simp only [Ents.ids, List.mem_append]
    split at hg
    · injection hg with hg; subst hg; exact Or.inl hi
    · exact Or.inr (ids_get hg i hi)

theorem holds_get {h : Heap} {a : Ents Nat} (hh : a.Holds h) {k : Key} {t : Tree Nat} (hg : a.get k = some t) : t.Holds h := by
  match a with
  | .nil => simp [Ents.get] at hg
  | .cons k' t' es =>
    simp only [Ents.get] at hg
    simp only [Ents.Holds] at hh
    split at hg
    · injection hg with hg; subst hg; exact hh.1
    · exact holds_get hh.2 hg

theorem nodup_get {a : Ents Nat} (hn : a.ids.Nodup) {k : Key} {t : Tree Nat} (hg : a.get k = some t) : t.ids.Nodup := by
  match a with
  | .nil => simp [Ents.get] at hg
  | .cons k' t' es =>
    simp only [Ents.get] at hg
    simp only [Ents.ids, List.nodup_append] at hn
    split at hg
    · injection hg with hg; subst hg; exact hn.1
    · exact nodup_get hn.2.1 hg

/-- changing the entry under `k`, with a heap that differs only inside the old entry -/
theorem holds_alter {h h' : Heap} (k : Key) (f : Tree Nat → Tree Nat) (t x : Tree Nat) (a : Ents Nat) (hg : a.get k = some x) (hn : a.ids.Nodup)
    (hh : a.Holds h) (hx : (f x).Holds h') (hf : ∀ i, i ∉ x.ids → h' i = h i) : (a.alter k f t).Holds h' := by
  match a with
  | .nil => simp [Ents.get] at hg
  | .cons k' y es =>
    simp only [Ents.get] at hg
    simp only [Ents.Holds] at hh
    simp only [Ents.ids, List.nodup_append] at hn
    simp only [Ents.alter]
    split at hg
    · rename_i hk
      injection hg with hg; subst hg
      simp only [hk, if_true, Ents.Holds]
      refine ⟨hx, holdsE_frame es ?_ hh.2⟩
      intro i hi
      apply hf
      intro hi'
      exact hn.2.2 i hi' i hi rfl
    · rename_i hk
      simp only [hk, if_false, Ents.Holds]
      refine ⟨holds_frame y ?_ hh.1, holds_alter k f t x es hg hn.2.1 hh.2 hx hf⟩
      intro i hi
      apply hf
      intro hi'
      exact hn.2.2 i hi i (ids_get hg i hi') rfl

theorem holds_alter_new {h : Heap} (k : Key) (f : Tree Nat → Tree Nat) (t : Tree Nat) (a : Ents Nat) (hg : a.get k = none) (hh : a.Holds h) (ht : t.Holds h) :
    (a.alter k f t).Holds h := by
  match a with
  | .nil => exact ⟨ht, trivial⟩
  | .cons k' y es =>
    simp only [Ents.get] at hg
    simp only [Ents.Holds] at hh
    simp only [Ents.alter]
    split at hg
    · cases hg
    · rename_i hk
      simp only [hk, if_false, Ents.Holds]
      exact ⟨hh.1, holds_alter_new k f t es hg hh.2 ht⟩

theorem ids_alter (k : Key) (f : Tree Nat → Tree Nat) (t : Tree Nat) (a : Ents Nat) (hn : (a.ids ++ t.ids).Nodup)
    (hf : ∀ x, a.get k = some x → (f x).ids.Nodup ∧ ∀ i ∈ (f x).ids, i ∈ x.ids ∨ i ∈ t.ids) :
    (a.alter k f t).ids.Nodup ∧ ∀ i ∈ (a.alter k f t).ids, i ∈ a.ids ∨ i ∈ t.ids := by
  match a with
  | .nil =>
    simp only [Ents.ids, List.nil_append] at hn
    simp only [Ents.alter, Ents.ids, List.append_nil]
    exact ⟨hn, fun i hi => Or.inr hi⟩
  | .cons k' y es =>
    simp only [Ents.ids, List.append_assoc] at hn
    rw [List.nodup_append] at hn
    obtain ⟨n1, n2, n3⟩ := hn
    simp only [Ents.alter]
    by_cases hk : k' = k
    · obtain ⟨f1, f2⟩ := hf y (by simp [Ents.get, hk])
      rw [List.nodup_append] at n2
      simp only [hk, if_true, Ents.ids]
      refine ⟨?_, ?_⟩
      · rw [List.nodup_append]
        refine ⟨f1, n2.1, ?_⟩
        rintro i hi j hj rfl
        rcases f2 i hi with h | h
        · exact n3 i h i (by simp [hj]) rfl
        · exact n2.2.2 i hj i h rfl
      · intro i hi
        rcases List.mem_append.1 hi with h | h
        · rcases f2 i h with h | h
          · exact Or.inl (by simp [h])
          · exact Or.inr h
        · exact Or.inl (by simp [h])
    · obtain ⟨f1, f2⟩ := ids_alter k f t es n2 (fun x hx => hf x (by simp [Ents.get, hk, hx]))
      simp only [hk, if_false, Ents.ids]
      refine ⟨?_, ?_⟩
      · rw [List.nodup_append]
        refine ⟨n1, f1, ?_⟩
        rintro i hi j hj rfl
        rcases f2 i hj with h | h
        · exact n3 i hi i (by simp [h]) rfl
        · exact n3 i hi i (by simp [h]) rfl
      · intro i hi
        rcases List.mem_append.1 hi with h | h
        · exact Or.inl (by simp [h])
        · rcases f2 i h with h | h
          · exact Or.inl (by simp [h])
          · exact Or.inr h

theorem wf_alter (k : Key) (f : Tree Nat → Tree Nat) (t : Tree Nat) (a : Ents Nat) (ha : a.WF) (ht : t.WF) (hf : ∀ x, a.get k = some x → (f x).WF) : (a.alter k f t).WF := by
  match a with
  | .nil => exact ⟨ht, trivial⟩
  | .cons k' y es =>
    simp only [Ents.alter]
    by_cases hk : k' = k
    · simp only [hk, if_true]; exact ⟨hf y (by simp [Ents.get, hk]), ha.2⟩
    · simp only [hk, if_false]; exact ⟨ha.1, wf_alter k f t es ha.2 ht (fun x hx => hf x (by simp [Ents.get, hk, hx]))⟩

mutual
theorem ids_into : ∀ (t2 t1 : Tree Nat), (t1.ids ++ t2.ids).Nodup → (t2.into t1).ids.Nodup ∧ ∀ i ∈ (t2.into t1).ids, i ∈ t1.ids ∨ i ∈ t2.ids
  | .atom n, t1, _ => by simp [Tree.into, Tree.ids]
  | .list j ys, .list i xs, _ => by simp [Tree.into, Tree.ids]
  | .list j ys, .atom _, _ => by simp [Tree.into, Tree.ids]
  | .list j ys, .dict _ _, _ => by simp [Tree.into, Tree.ids]
  | .dict j b, .atom _, hn => by simp only [Tree.into]; exact ⟨(List.nodup_append.1 hn).2.1, fun i hi => Or.inr hi⟩
  | .dict j b, .list _ _, hn => by simp only [Tree.into]; exact ⟨(List.nodup_append.1 hn).2.1, fun i hi => Or.inr hi⟩
  | .dict j b, .dict i a, hn => by
    simp only [Tree.ids, List.cons_append, List.nodup_cons] at hn
    have hn2 : (a.ids ++ b.ids).Nodup := hn.2.sublist (by simp)
    obtain ⟨h1, h2⟩ := idsE_into b a hn2
    simp only [Tree.into, Tree.ids]
    refine ⟨?_, ?_⟩
    · rw [List.nodup_cons]
      refine ⟨?_, h1⟩
      intro hi
      rcases h2 i hi with h | h <;> exact hn.1 (by simp [h])
    · intro x hx
      rcases List.mem_cons.1 hx with rfl | hx
      · exact Or.inl (by simp)
      · rcases h2 x hx with h | h
        · exact Or.inl (by simp [h])
        · exact Or.inr (by simp [h])
theorem idsE_into : ∀ (b a : Ents Nat), (a.ids ++ b.ids).Nodup → (b.into a).ids.Nodup ∧ ∀ i ∈ (b.into a).ids, i ∈ a.ids ∨ i ∈ b.ids
  | .nil, a, hn => by simp only [Ents.into]; simp only [Ents.ids, List.append_nil] at hn; exact ⟨hn, fun i hi => Or.inl hi⟩
  | .cons k t b, a, hn => by
    simp only [Ents.ids] at hn
    have hn1 : (a.ids ++ t.ids).Nodup := hn.sublist (by rw [← List.append_assoc]; exact List.sublist_append_left _ _)
    obtain ⟨h1, h2⟩ := ids_alter k t.into t a hn1 (fun x hx => ids_into t x (by
      rw [List.nodup_append] at hn1 ⊢
      exact ⟨nodup_get hn1.1 hx, hn1.2.1, fun p hp q hq => hn1.2.2 p (ids_get hx p hp) q hq⟩))
    have hn2 : ((a.alter k t.into t).ids ++ b.ids).Nodup := by
      rw [← List.append_assoc, List.nodup_append] at hn
      rw [List.nodup_append]
      refine ⟨h1, hn.2.1, ?_⟩
      rintro p hp q hq rfl
      exact hn.2.2 p (by rw [List.mem_append]; exact h2 p hp) p hq rfl
    obtain ⟨h3, h4⟩ := idsE_into b _ hn2
    simp only [Ents.into, Ents.ids]
    refine ⟨h3, ?_⟩
    intro i hi
    rcases h4 i hi with h | h
    · rcases h2 i h with h | h
      · exact Or.inl h
      · exact Or.inr (by simp [h])
    · exact Or.inr (by simp [h])
end

theorem getItem_eq {h : Heap} {i : Nat} {a : Ents Nat} (hi : h i = .dict a.dict) (k : Key) : getItem h i k = (a.get k).map Tree.val := by
  simp only [getItem, hi, dict_get]

mutual
theorem mergeH_ok : ∀ (t2 : Tree Nat) (fuel : Nat) (h : Heap) (t1 : Tree Nat), t2.depth ≤ fuel → t1.Holds h → t2.Holds h → (t1.ids ++ t2.ids).Nodup → t2.WF →
    ∃ h', mergeH fuel h t1.val t2.val = some (h', (t2.into t1).val) ∧ (t2.into t1).Holds h' ∧ ∀ x, x ∉ t1.ids → h' x = h x
  | .atom n, fuel + 1, h, t1, _, _, _, _, _ => by
    refine ⟨h, ?_, trivial, fun _ _ => rfl⟩
    cases t1 <;> simp [mergeH, Tree.val, Tree.into]
  | .list j ys, fuel + 1, h, .atom m, _, _, h2, _, _ => ⟨h, rfl, h2, fun _ _ => rfl⟩
  | .list j ys, fuel + 1, h, .dict i a, _, h1, h2, _, _ => by
    simp only [Tree.Holds] at h1 h2
    refine ⟨h, ?_, h2, fun _ _ => rfl⟩
    simp only [mergeH, Tree.val, h1.1, h2, Tree.into]
  | .list j ys, fuel + 1, h, .list i xs, _, h1, h2, _, _ => by
    simp only [Tree.Holds] at h1 h2
    refine ⟨upd h i (.list (xs ++ ys)), ?_, upd_same _ _ _, ?_⟩
    · simp only [mergeH, Tree.val, h1, h2, Tree.into]
    · intro x hx
      exact upd_other _ _ (by simpa [Tree.ids] using hx)
  | .dict j b, fuel + 1, h, .atom m, _, _, h2, _, _ => ⟨h, rfl, h2, fun _ _ => rfl⟩
  | .dict j b, fuel + 1, h, .list i xs, _, h1, h2, _, _ => by
    have h2' := h2
    simp only [Tree.Holds] at h1 h2
    refine ⟨h, ?_, h2', fun _ _ => rfl⟩
    simp only [mergeH, Tree.val, h1, h2.1, Tree.into]
  | .dict j b, fuel + 1, h, .dict i a, hd, h1, h2, hn, hw => by
    simp only [Tree.Holds] at h1 h2
    simp only [Tree.ids, List.cons_append, List.nodup_cons] at hn
    simp only [Tree.WF] at hw
    simp only [Tree.depth] at hd
    have hij : i ≠ j := by rintro rfl; exact hn.1 (by simp)
    have hn' : (a.ids ++ b.ids).Nodup := hn.2.sublist (by simp)
    have hj : j ∉ a.ids ∧ j ∉ b.ids := by
      have := hn.2
      rw [List.nodup_append] at this
      refine ⟨fun hc => this.2.2 j hc j (by simp) rfl, ?_⟩
      have := this.2.1
      rw [List.nodup_cons] at this; exact this.1
    obtain ⟨h', e1, e2, e3, e4⟩ := loopH_ok b fuel h i j a b.dict a.ids (by omega) h1.1 h2.1 h1.2 h2.2 hij (fun hc => hn.1 (by simp [hc])) (fun hc => hn.1 (by simp [hc]))
      hn' hj.1 hj.2 hw.1 hw.2 (fun k _ t ht => by rw [dict_get, ht]; rfl) (fun k t _ ht => ids_get ht) (fun x hx hxb => (List.nodup_append.1 hn').2.2 x hx x hxb rfl)
    refine ⟨h', ?_, ⟨e2, e3⟩, ?_⟩
    · simp only [mergeH, Tree.val, h1.1, h2.1, Tree.into, dict_keys, e1]
    · intro x hx
      simp only [Tree.ids, List.mem_cons, not_or] at hx
      exact e4 x hx.1 hx.2
  | .atom _, 0, _, _, hd, _, _, _, _ => by simp [Tree.depth] at hd
  | .list _ _, 0, _, _, hd, _, _, _, _ => by simp [Tree.depth] at hd
  | .dict _ _, 0, _, _, hd, _, _, _, _ => by simp [Tree.depth] at hd
theorem loopH_ok : ∀ (b : Ents Nat) (fuel : Nat) (h : Heap) (i j : Nat) (a : Ents Nat) (d2 : Dict Key Val) (S : List Nat), b.depth ≤ fuel → h i = .dict a.dict → h j = .dict d2 → a.Holds h → b.Holds h →
    i ≠ j → i ∉ a.ids → i ∉ b.ids → (a.ids ++ b.ids).Nodup → j ∉ S → j ∉ b.ids → b.keys.Nodup → b.WF →
    (∀ k ∈ b.keys, ∀ t, b.get k = some t → d2.get? k = some t.val) →
    (∀ k t, k ∈ b.keys → a.get k = some t → ∀ x ∈ t.ids, x ∈ S) → (∀ x ∈ S, x ∉ b.ids) →
    ∃ h', loopH (mergeH fuel) i j b.keys h = some h' ∧ h' i = .dict (b.into a).dict ∧ (b.into a).Holds h' ∧ ∀ x, x ≠ i → x ∉ S → h' x = h x
  | .nil, fuel, h, i, j, a, d2, S, _, hi, _, ha, _, _, _, _, _, _, _, _, _, _, _, _ => ⟨h, rfl, hi, ha, fun _ _ _ => rfl⟩
  | .cons k t b, fuel, h, i, j, a, d2, S, hd, hi, hj, ha, hb, hij, hia, hib, hn, hjS, hjb, hk, hw, hd2, hS, hSb => by
    simp only [Ents.depth] at hd
    simp only [Ents.Holds] at hb
    simp only [Ents.ids, List.mem_append, not_or] at hib hjb hSb
    simp only [Ents.keys, List.nodup_cons] at hk
    simp only [Ents.WF] at hw
    simp only [Ents.ids] at hn
    have hy : getItem h j k = some t.val := by
      simp only [getItem, hj]; exact hd2 k (by simp [Ents.keys]) t (by simp [Ents.get])
    have hn1 : (a.ids ++ t.ids).Nodup := hn.sublist (by rw [← List.append_assoc]; exact List.sublist_append_left _ _)
    have hget : ∀ x, a.get k = some x → (x.ids ++ t.ids).Nodup := by
      intro x hx
      rw [List.nodup_append] at hn1 ⊢
      exact ⟨nodup_get hn1.1 hx, hn1.2.1, fun p hp q hq => hn1.2.2 p (ids_get hx p hp) q hq⟩
    obtain ⟨g1, g2⟩ := ids_alter k t.into t a hn1 (fun x hx => ids_into t x (hget x hx))
    have hn2 : ((a.alter k t.into t).ids ++ b.ids).Nodup := by
      have hn' := hn
      rw [← List.append_assoc, List.nodup_append] at hn'
      rw [List.nodup_append]
      refine ⟨g1, hn'.2.1, ?_⟩
      rintro p hp q hq rfl
      exact hn'.2.2 p (by rw [List.mem_append]; exact g2 p hp) p hq rfl
    have htb : ∀ x ∈ t.ids, x ∉ b.ids := by
      intro x hx hxb
      rw [List.nodup_append] at hn
      have := hn.2.1
      rw [List.nodup_append] at this
      exact this.2.2 x hx x hxb rfl
    have hab : ∀ x ∈ a.ids, x ∉ b.ids := by
      intro x hx hxb
      rw [List.nodup_append] at hn
      exact hn.2.2 x hx x (by simp [hxb]) rfl
    -- the heap after this turn
    have key : ∃ h1, loopH (mergeH fuel) i j (k :: b.keys) h = loopH (mergeH fuel) i j b.keys h1 ∧ h1 i = .dict (a.alter k t.into t).dict ∧
        (a.alter k t.into t).Holds h1 ∧ ∀ x, x ≠ i → x ∉ S → h1 x = h x := by
      cases hx : a.get k with
      | none =>
        refine ⟨setItem h i k t.val, ?_, ?_, ?_, ?_⟩
        · simp only [loopH, hy, getItem_eq hi, hx, Option.map_none]
        · simp only [setItem, hi, upd_same, dict_alter, hx]
        · refine holds_alter_new k _ t a hx (holdsE_frame a ?_ ha) (holds_frame t ?_ hb.1)
          · intro x hxa; simp only [setItem, hi]; exact upd_other _ _ (by rintro rfl; exact hia hxa)
          · intro x hxa; simp only [setItem, hi]; exact upd_other _ _ (by rintro rfl; exact hib.1 hxa)
        · intro x hxi _; simp only [setItem, hi]; exact upd_other _ _ hxi
      | some x =>
        obtain ⟨h', m1, m2, m3⟩ := mergeH_ok t fuel h x (by omega) (holds_get ha hx) hb.1 (hget x hx) hw.1
        have hi' : h' i = .dict a.dict := by rw [m3 i (fun hc => hia (ids_get hx i hc))]; exact hi
        refine ⟨setItem h' i k (t.into x).val, ?_, ?_, ?_, ?_⟩
        · simp only [loopH, hy, getItem_eq hi, hx, Option.map_some, m1]
        · simp only [setItem, hi', upd_same, dict_alter, hx]
        · have hh := holds_alter k t.into t x a hx (List.nodup_append.1 hn1).1 ha m2 m3
          refine holdsE_frame _ ?_ hh
          intro z hz
          simp only [setItem, hi']
          refine upd_other _ _ ?_
          rintro rfl
          rcases g2 z hz with h | h
          · exact hia h
          · exact hib.1 h
        · intro z hz hzS
          simp only [setItem, hi']
          rw [upd_other _ _ hz]
          exact m3 z (fun hc => hzS (hS k x (by simp [Ents.keys]) hx z hc))
    obtain ⟨h1, k1, k2, k3, k4⟩ := key
    have hi2 : i ∉ (a.alter k t.into t).ids := by
      intro hc
      rcases g2 i hc with h | h
      · exact hia h
      · exact hib.1 h
    obtain ⟨h', e1, e2, e3, e4⟩ := loopH_ok b fuel h1 i j (a.alter k t.into t) d2 S (by omega) k2 (by rw [k4 j (Ne.symm hij) hjS]; exact hj) k3
      (holdsE_frame b (fun x hx => k4 x (by rintro rfl; exact hib.2 hx) (fun hc => (hSb x hc).2 hx)) hb.2) hij hi2 hib.2 hn2 hjS hjb.2 hk.2 hw.2
      (fun k' hk' t' ht' => hd2 k' (by simp [Ents.keys, hk']) t' (by
        have : ¬ k = k' := by rintro rfl; exact hk.1 hk'
        simp [Ents.get, this, ht']))
      (fun k' t' hk' ht' => by
        have hne : ¬ k' = k := by rintro rfl; exact hk.1 hk'
        rw [get_alter, if_neg hne] at ht'
        exact hS k' t' (by simp [Ents.keys, hk']) ht') (fun x hx => (hSb x hx).2)
    refine ⟨h', ?_, e2, e3, ?_⟩
    · simp only [Ents.keys]; rw [k1]; exact e1
    · intro x hx hxS
      rw [e4 x hx hxS, k4 x hx hxS]
end

mutual
theorem plain_into {ι : Type} : ∀ (t2 t1 : Tree ι), (t2.into t1).plain = t2.plain.into t1.plain
  | .atom n, t1 => by cases t1 <;> simp [Tree.into, Tree.plain]
  | .list j ys, t1 => by cases t1 <;> simp [Tree.into, Tree.plain]
  | .dict j b, .atom _ => by simp [Tree.into, Tree.plain]
  | .dict j b, .list _ _ => by simp [Tree.into, Tree.plain]
  | .dict j b, .dict i a => by simp only [Tree.into, Tree.plain]; rw [plainE_into b a]
theorem plainE_into {ι : Type} : ∀ (b a : Ents ι), (b.into a).plain = b.plain.into a.plain
  | .nil, a => by simp [Ents.into, Ents.plain]
  | .cons k t b, a => by
    simp only [Ents.into, Ents.plain]
    rw [plainE_into b]
    congr 1
    have : ∀ a : Ents ι, (a.alter k t.into t).plain = a.plain.alter k t.plain.into t.plain := by
      intro a
      match a with
      | .nil => simp [Ents.alter, Ents.plain]
      | .cons k' x es =>
        have ih : (es.alter k t.into t).plain = es.plain.alter k t.plain.into t.plain := by
          exact plain_alter k t t.into t.plain.into (fun x => plain_into t x) es
        simp only [Ents.alter, Ents.plain]
        split
        · simp [Ents.plain, plain_into t x]
        · simp [Ents.plain, ih]
    exact this a
theorem plain_alter {ι : Type} (k : Key) (t : Tree ι) (f : Tree ι → Tree ι) (g : Tree Unit → Tree Unit) (hfg : ∀ x, (f x).plain = g x.plain) :
    ∀ es : Ents ι, (es.alter k f t).plain = es.plain.alter k g t.plain
  | .nil => by simp [Ents.alter, Ents.plain]
  | .cons k' x es => by
    have ih := plain_alter k t f g hfg es
    simp only [Ents.alter, Ents.plain]
    split
    · simp [Ents.plain, hfg]
    · simp [Ents.plain, ih]
end

/-- **C25, the code.** Let the heap hold two values that share no dictionaries or lists with each other or within themselves (this excludes cyclic ones).  If recursion is not limited below the depth of the
second, `merge_dicts` returns the first one's object (unless it returns the second), which now holds the merge of the two values, the second value is as it was, and so is everything that is not part of the
first. -/
theorem C25_merge (h : Heap) (t1 t2 : Tree Nat) (fuel : Nat) (hd : t2.depth ≤ fuel) (h1 : t1.Holds h) (h2 : t2.Holds h)
    (hsep : (t1.ids ++ t2.ids).Nodup) (hw : t2.WF) :
    ∃ (h' : Heap) (r : Tree Nat), mergeH fuel h t1.val t2.val = some (h', r.val) ∧ r.Holds h' ∧ r.plain = t1.plain.merge t2.plain ∧ t2.Holds h' ∧
      (∀ x, x ∉ t1.ids → h' x = h x) ∧ r.ids.Nodup ∧ (∀ x ∈ r.ids, x ∈ t1.ids ∨ x ∈ t2.ids) := by
  obtain ⟨h', e1, e2, e3⟩ := mergeH_ok t2 fuel h t1 hd h1 h2 hsep hw
  refine ⟨h', t2.into t1, e1, e2, plain_into t2 t1, holds_frame t2 ?_ h2, e3, (ids_into t2 t1 hsep).1, (ids_into t2 t1 hsep).2⟩
  intro x hx
  exact e3 x (fun hc => (List.nodup_append.1 hsep).2.2 x hc x hx rfl)

/-- `{1: {2: 20}, 3: [7]}` at 0 and `{3: [8], 1: {4: 40}}` at 10 -/
def exHeap : Heap := fun i =>
  match i with
  | 0 => .dict [(1, .ref 1), (3, .ref 2)]
  | 1 => .dict [(2, .atom 20)]
  | 2 => .list [.atom 7]
  | 10 => .dict [(3, .ref 11), (1, .ref 12)]
  | 11 => .list [.atom 8]
  | 12 => .dict [(4, .atom 40)]
  | _ => .list []

def exT1 : Tree Nat := .dict 0 (.cons 1 (.dict 1 (.cons 2 (.atom 20) .nil)) (.cons 3 (.list 2 [.atom 7]) .nil))
def exT2 : Tree Nat := .dict 10 (.cons 3 (.list 11 [.atom 8]) (.cons 1 (.dict 12 (.cons 4 (.atom 40) .nil)) .nil))

example : exT1.Holds exHeap ∧ exT2.Holds exHeap ∧ (exT1.ids ++ exT2.ids).Nodup ∧ exT2.WF ∧ exT2.depth ≤ 5 := by
  refine ⟨?_, ?_, by decide, ?_, by decide⟩ <;> simp [exT1, exT2, Tree.Holds, Ents.Holds, exHeap, Ents.dict, Tree.val, Tree.WF, Ents.WF, Ents.keys]

/-- **C25 violated** (for the second argument): parts of the second argument become parts of the result, and merging something else into the result then changes the second argument. Here
`merge_dicts(merge_dicts({}, {1: [7]}), {1: [8]})` makes the second dictionary `{1: [7, 8]}`. -/
theorem C25_second_argument_violates :
    ∃ (h h1 h2 : Heap) (r1 r2 : Val), h 0 = .dict [] ∧ h 1 = .dict [(1, .ref 2)] ∧ h 2 = .list [.atom 7] ∧ h 3 = .dict [(1, .ref 4)] ∧ h 4 = .list [.atom 8] ∧
      mergeH 5 h (.ref 0) (.ref 1) = some (h1, r1) ∧ mergeH 5 h1 r1 (.ref 3) = some (h2, r2) ∧
      h2 1 = .dict [(1, .ref 2)] ∧ h2 2 = .list [.atom 7, .atom 8] := by
  refine ⟨fun i => match i with | 0 => .dict [] | 1 => .dict [(1, .ref 2)] | 2 => .list [.atom 7] | 3 => .dict [(1, .ref 4)] | 4 => .list [.atom 8] | _ => .list [],
    _, _, _, _, rfl, rfl, rfl, rfl, rfl, rfl, rfl, rfl, rfl⟩

end Verif.Merge
