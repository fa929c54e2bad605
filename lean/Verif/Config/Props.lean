import Verif.Config.Spec
import Verif.Merge.Props
/-!
# C26: configuration sources
-/
namespace Verif.Config
open Verif Conc Merge

/-! ## What is provided -/

def Srcs.ofList {α : Type} : List (Src α) → Srcs α
  | [] => .nil
  | s :: l => .cons s (Srcs.ofList l)

theorem values_ofList (l : List (Src Cfg)) : (Srcs.ofList l).values = l.map Src.value := by
  induction l with
  | nil => rfl
  | cons s l ih => simp [Srcs.ofList, Srcs.values, ih]

theorem alternative_skip (pre l : List (Out Cfg)) (hp : ∀ o ∈ pre, o = .raise .configurationError) : alternative (pre ++ l) = alternative l := by
  induction pre with
  | nil => rfl
  | cons o pre ih =>
    rw [hp o (by simp)]
    simp only [List.cons_append, alternative]
    exact ih (fun o ho => hp o (by simp [ho]))

/-- **C26, AlternativeSource.** It provides what the first source that does not fail provides, and fails with ConfigurationError exactly when all do. -/
theorem C26_alternative (l : List (Src Cfg)) :
    (∀ pre s post c, l = pre ++ s :: post → (∀ x ∈ pre, x.value = .raise .configurationError) → s.value = .ok c → c.isDict = true →
      (Src.alt (Srcs.ofList l)).value = .ok c) ∧
    ((Src.alt (Srcs.ofList l)).value = .raise .configurationError ↔ ∀ s ∈ l, s.value = .raise .configurationError) := by
  refine ⟨?_, ?_⟩
  · rintro pre s post c rfl hp hs hc
    simp only [Src.value, values_ofList, List.map_append, List.map_cons]
    rw [alternative_skip _ _ (by simpa using hp), hs]
    simp [alternative, hc]
  · simp only [Src.value, values_ofList]
    induction l with
    | nil => simp [alternative]
    | cons s l ih =>
      simp only [List.map_cons, List.mem_cons, forall_eq_or_imp]
      cases hv : s.value with
      | ok c => simp only [alternative]; split <;> simp
      | raise e => cases e <;> simp [alternative, ih]

/-- **C26, OptionalSource (partial).** It provides what its source provides, and an empty dictionary if that fails with ConfigurationError; it never fails with ConfigurationError.
Missing: it fails if its source provides something other than a dictionary or raises another exception (see `C26_optional_violates`). -/
theorem C26_optional_partial (s : Src Cfg) :
    (∀ c, s.value = .ok c → c.isDict = true → s.optional.value = .ok c) ∧
    (s.value = .raise .configurationError → s.optional.value = .ok emptyCfg) ∧
    s.optional.value ≠ .raise .configurationError := by
  simp only [Src.optional, Src.value, Srcs.values]
  refine ⟨?_, ?_, ?_⟩
  · intro c h1 h2; simp [h1, h2, alternative]
  · intro h1; simp [h1, alternative, emptyCfg, Tree.isDict]
  · cases s.value with
    | ok c => simp only [alternative]; split <;> simp
    | raise e => cases e <;> simp [alternative, emptyCfg, Tree.isDict]

/-- **C26 violated** (OptionalSource never fails): it fails if the source raises anything but ConfigurationError, or provides a list. -/
theorem C26_optional_violates :
    (Src.optional (.leaf (.raise .valueError))).value = .raise .valueError ∧
    (Src.optional (.leaf (.ok (.list () [.atom 1])))).value = .raise .assertionError := ⟨rfl, rfl⟩

theorem firstFatal_ok (onFail : Nat) (l : List (Out Cfg)) (h : ∀ o ∈ l, (∃ c, o = .ok c ∧ c.isDict = true) ∨ (onFail = SILENT ∧ o = .raise .configurationError)) : firstFatal onFail l = none := by
  induction l with
  | nil => rfl
  | cons o l ih =>
    have ih := ih (fun o ho => h o (by simp [ho]))
    rcases h o (by simp) with ⟨c, rfl, hc⟩ | ⟨ho, rfl⟩
    · simp [firstFatal, hc, ih]
    · subst ho; simp [firstFatal, ih]

theorem firstFatal_append (onFail : Nat) (pre l : List (Out Cfg)) (h : firstFatal onFail pre = none) : firstFatal onFail (pre ++ l) = firstFatal onFail l := by
  induction pre with
  | nil => rfl
  | cons o pre ih =>
    cases o with
    | ok c => simp only [firstFatal, List.cons_append] at *; split at h <;> simp_all
    | raise e =>
      by_cases hs : onFail = SILENT
      · cases e <;> simp_all [firstFatal]
      · cases e <;> simp_all [firstFatal]

/-- **C26, MergingSource.** If every source provides a dictionary, or fails while failures are to be ignored, the dictionaries provided are merged in order; except that if there are sources
and all fail, it fails if asked to. -/
theorem C26_merging (onFail : Nat) (failNone : Bool) (l : List (Src Cfg))
    (h : ∀ s ∈ l, (∃ c, s.value = .ok c ∧ c.isDict = true) ∨ (onFail = SILENT ∧ s.value = .raise .configurationError)) :
    (failNone = true → l ≠ [] → (∀ s ∈ l, s.value = .raise .configurationError) → (Src.merging onFail failNone (Srcs.ofList l)).value = .raise .configurationError) ∧
    ((failNone = false ∨ l = [] ∨ ∃ s ∈ l, ∃ c, s.value = .ok c) → (Src.merging onFail failNone (Srcs.ofList l)).value = .ok (mergeAll (provided (l.map Src.value)))) := by
  have hf : firstFatal onFail (l.map Src.value) = none := firstFatal_ok _ _ (by
    intro o ho
    obtain ⟨s, hs, rfl⟩ := List.mem_map.1 ho
    exact h s hs)
  simp only [Src.value, values_ofList, merged, hf]
  refine ⟨?_, ?_⟩
  · intro h1 h2 h3
    have : provided (l.map Src.value) = [] := by
      clear hf h h2
      induction l with
      | nil => rfl
      | cons s l ih => simp [h3 s (by simp), provided, ih (fun s hs => h3 s (by simp [hs]))]
    simp [this, h1, h2]
  · intro h1
    rw [if_neg]
    rintro ⟨h2, h3, h4⟩
    rcases h1 with h1 | h1 | ⟨s, hs, c, hc⟩
    · rw [h1] at h4; cases h4
    · exact h3 (by simp [h1])
    · have : ∀ (l : List (Src Cfg)), s ∈ l → provided (l.map Src.value) ≠ [] := by
        intro l
        induction l with
        | nil => simp
        | cons x l ih =>
          intro hx
          rcases List.mem_cons.1 hx with rfl | hx
          · simp [hc, provided]
          · cases hv : x.value with
            | ok v => simp [hv, provided]
            | raise e => simp only [List.map_cons, hv, provided]; exact ih hx
      exact this l hs h2

/-- **C26, MergingSource, failures.** The first source that fails makes it fail, unless failures are to be ignored. -/
theorem C26_merging_fails (onFail : Nat) (failNone : Bool) (pre post : List (Src Cfg)) (s : Src Cfg) (hn : onFail ≠ SILENT)
    (hp : ∀ x ∈ pre, ∃ c, x.value = .ok c ∧ c.isDict = true) (hs : s.value = .raise .configurationError) :
    (Src.merging onFail failNone (Srcs.ofList (pre ++ s :: post))).value = .raise .configurationError := by
  simp only [Src.value, values_ofList, merged, List.map_append, List.map_cons]
  rw [firstFatal_append _ _ _ (firstFatal_ok _ _ (by
    intro o ho
    obtain ⟨x, hx, rfl⟩ := List.mem_map.1 ho
    exact Or.inl (hp x hx))), hs]
  simp [firstFatal, hn]

/-- merging left to right, starting from the first -/
def mergeList : List Cfg → Option Cfg
  | [] => none
  | c :: l => some (l.foldl Tree.merge c)

/-- the entry of a configuration under a key -/
def entry (k : Key) : Cfg → Option Cfg
  | .dict _ es => es.get k
  | _ => none

theorem foldl_dict (k : Key) : ∀ (l : List Cfg) (es : Ents Unit), (∀ c ∈ l, c.isDict = true ∧ c.WF) →
    ∃ es', l.foldl Tree.merge (.dict () es) = .dict () es' ∧ es'.get k = match es.get k with
      | some x => some ((l.filterMap (entry k)).foldl Tree.merge x)
      | none => mergeList (l.filterMap (entry k)) := by
  intro l
  induction l with
  | nil => intro es _; refine ⟨es, rfl, ?_⟩; cases es.get k <;> simp [mergeList]
  | cons c l ih =>
    intro es h
    have hc := h c (by simp)
    cases c with
    | atom n => simp [Tree.isDict] at hc
    | list _ _ => simp [Tree.isDict] at hc
    | dict j eb =>
      have hw : eb.keys.Nodup := hc.2.1
      obtain ⟨es1, e1, e2⟩ := C25_entry () j es eb hw k
      obtain ⟨es', i1, i2⟩ := ih es1 (fun c hc => h c (by simp [hc]))
      refine ⟨es', ?_, ?_⟩
      · simp only [List.foldl_cons, e1, i1]
      · rw [i2, e2]
        have he : entry k (.dict j eb) = eb.get k := rfl
        cases h1 : es.get k with
        | none =>
          cases h2 : eb.get k with
          | none => simp [he, h2]
          | some y => simp [he, h2, mergeList]
        | some x =>
          cases h2 : eb.get k with
          | none => simp [he, h2]
          | some y => simp [he, h2]

/-- **C26, overriding.** Under each key the merged configuration has the values the configurations have under that key, merged in order (so the last one if they are neither dictionaries nor lists); and a key
no configuration has is not in it. -/
theorem C26_overriding (l : List Cfg) (h : ∀ c ∈ l, c.isDict = true ∧ c.WF) (k : Key) : entry k (mergeAll l) = mergeList (l.filterMap (entry k)) := by
  obtain ⟨es', e1, e2⟩ := foldl_dict k l .nil h
  simp only [mergeAll, emptyCfg, e1]
  exact e2

/-- **C26, atoms override.** If the last value under a key is an atom, the merged configuration has that value. -/
theorem C26_last_atom (l : List Cfg) (h : ∀ c ∈ l, c.isDict = true ∧ c.WF) (k : Key) (n : Nat) (pre : List Cfg) (hl : l.filterMap (entry k) = pre ++ [.atom n]) :
    entry k (mergeAll l) = some (.atom n) := by
  rw [C26_overriding l h k, hl]
  cases pre with
  | nil => rfl
  | cons c pre => simp [mergeList, Tree.merge, Tree.into]

/-- **C26, BuildObjectFrom.** It provides a dictionary with one key, and what its child provides under it. -/
theorem C26_object (k : Key) (s : Src Cfg) :
    (∀ c, s.value = .ok c → (Src.object k s).value = .ok (.dict () (.cons k c .nil))) ∧ (∀ e, s.value = .raise e → (Src.object k s).value = .raise e) := by
  refine ⟨?_, ?_⟩ <;> intro c h <;> simp [Src.value, h, Out.map]

example : ∀ s ∈ [Src.leaf (.ok emptyCfg), .leaf (.raise .configurationError), .object 4 .base], (∃ c, s.value = .ok c ∧ c.isDict = true) ∨ (SILENT = SILENT ∧ s.value = .raise .configurationError) := by
  intro s hs
  simp only [List.mem_cons, List.not_mem_nil, or_false] at hs
  rcases hs with rfl | rfl | rfl
  · exact Or.inl ⟨_, rfl, rfl⟩
  · exact Or.inr ⟨rfl, rfl⟩
  · exact Or.inl ⟨_, rfl, rfl⟩

/-! ## The code provides it -/

mutual
theorem wf_into : ∀ (t2 t1 : Tree Nat), t1.WF → t2.WF → (t2.into t1).WF
  | .atom _, _, _, _ => trivial
  | .list _ _, .atom _, _, _ => trivial
  | .list _ _, .list _ _, _, _ => trivial
  | .list _ _, .dict _ _, _, _ => trivial
  | .dict _ _, .atom _, _, h2 => h2
  | .dict _ _, .list _ _, _, h2 => h2
  | .dict _ b, .dict _ a, h1, h2 => ⟨nodup_into b a h1.1 h2.1, wfE_into b a h1.2 h2.2⟩
theorem wfE_into : ∀ (b a : Ents Nat), a.WF → b.WF → (b.into a).WF
  | .nil, _, h1, _ => h1
  | .cons k t b, a, h1, h2 => wfE_into b _ (wf_alter k t.into t a h1 h2.1 (fun x hx => wf_into t x (wf_get h1 hx) h2.1)) h2.2
end

theorem depth_alter {ι : Type} (k : Key) (f : Tree ι → Tree ι) (t : Tree ι) (n : Nat) (a : Ents ι) (ha : a.depth ≤ n) (ht : t.depth ≤ n) (hf : ∀ x, a.get k = some x → (f x).depth ≤ n) : (a.alter k f t).depth ≤ n := by
  match a with
  | .nil => simp only [Ents.alter, Ents.depth]; omega
  | .cons k' y es =>
    simp only [Ents.depth] at ha
    simp only [Ents.alter]
    by_cases hk : k' = k
    · simp only [hk, if_true, Ents.depth]
      have := hf y (by simp [Ents.get, hk])
      omega
    · simp only [hk, if_false, Ents.depth]
      have := depth_alter k f t n es (by omega) ht (fun x hx => hf x (by simp [Ents.get, hk, hx]))
      omega

mutual
theorem depth_into {ι : Type} : ∀ (t2 t1 : Tree ι), (t2.into t1).depth ≤ max t1.depth t2.depth
  | .atom _, t1 => by simp only [Tree.into]; omega
  | .list _ _, .atom _ => by simp [Tree.into, Tree.depth]
  | .list _ _, .list _ _ => by simp [Tree.into, Tree.depth]
  | .list _ _, .dict _ _ => by simp only [Tree.into]; omega
  | .dict _ _, .atom _ => by simp only [Tree.into]; omega
  | .dict _ _, .list _ _ => by simp only [Tree.into]; omega
  | .dict _ b, .dict _ a => by
    have := depthE_into b a
    simp only [Tree.into, Tree.depth]; omega
theorem depthE_into {ι : Type} : ∀ (b a : Ents ι), (b.into a).depth ≤ max a.depth b.depth
  | .nil, a => by simp only [Ents.into]; omega
  | .cons k t b, a => by
    have h1 := depthE_into b (a.alter k t.into t)
    have h2 := depth_alter k t.into t (max a.depth t.depth) a (by omega) (by omega) (fun x hx => by
      have := depth_into t x
      have := get_depth hx
      omega)
    simp only [Ents.into, Ents.depth]
    omega
end

/-- the sources' values are on the heap, share nothing, and are older than any object to be made -/
structure Ready (st : St) (ids : List Nat) : Prop where
  nodup : ids.Nodup
  old : ∀ i ∈ ids, i < st.next

/-- what a run of `provide` did: it changed only the objects of these sources and made new ones -/
structure Did (st st' : St) (ids : List Nat) : Prop where
  frame : ∀ i, i ∉ ids → i < st.next → st'.heap i = st.heap i
  le : st.next ≤ st'.next

theorem Did.refl (st : St) (ids : List Nat) : Did st st ids := ⟨fun _ _ _ => rfl, Nat.le_refl _⟩

/-- an outcome on the heap is this outcome -/
def Matches (st st' : St) (ids : List Nat) (d : Nat) (o : Out Val) (c : Out Cfg) : Prop :=
  match o, c with
  | .raise e, .raise e' => e = e'
  | .ok v, .ok p => ∃ t : Tree Nat, v = t.val ∧ t.plain = p ∧ t.Holds st'.heap ∧ t.WF ∧ t.ids.Nodup ∧ (∀ i ∈ t.ids, i ∈ ids ∨ (st.next ≤ i ∧ i < st'.next)) ∧ t.depth ≤ d
  | _, _ => False

theorem isDict_eq {st : St} {t : Tree Nat} (h : t.Holds st.heap) : st.isDict t.val = t.plain.isDict := by
  cases t with
  | atom n => rfl
  | list i xs => simp only [Tree.Holds] at h; simp [St.isDict, Tree.val, h, Tree.plain, Tree.isDict]
  | dict i es => simp only [Tree.Holds] at h; simp [St.isDict, Tree.val, h.1, Tree.plain, Tree.isDict]

mutual
theorem src_depth_pos {ι : Type} : ∀ s : Src (Tree ι), 1 ≤ s.depth
  | .leaf (.ok t) => by cases t <;> simp [Src.depth, Tree.depth]
  | .leaf (.raise _) => by simp [Src.depth]
  | .base => by simp [Src.depth]
  | .alt ss => by simp only [Src.depth]; exact srcs_depth_pos ss
  | .merging _ _ ss => by simp only [Src.depth]; exact srcs_depth_pos ss
  | .object _ s => by simp only [Src.depth]; omega
theorem srcs_depth_pos {ι : Type} : ∀ ss : Srcs (Tree ι), 1 ≤ ss.depth
  | .nil => by simp [Srcs.depth]
  | .cons s ss => by have := srcs_depth_pos ss; simp only [Srcs.depth]; omega
end

mutual
theorem all_mono {α : Type} {P Q : α → Prop} : ∀ s : Src α, s.All (fun t => P t → Q t) → s.All P → s.All Q
  | .leaf (.ok t), h1, h2 => h1 h2
  | .leaf (.raise _), _, _ => trivial
  | .base, _, _ => trivial
  | .alt ss, h1, h2 => alls_mono ss h1 h2
  | .merging _ _ ss, h1, h2 => alls_mono ss h1 h2
  | .object _ s, h1, h2 => all_mono s h1 h2
theorem alls_mono {α : Type} {P Q : α → Prop} : ∀ ss : Srcs α, ss.All (fun t => P t → Q t) → ss.All P → ss.All Q
  | .nil, _, _ => trivial
  | .cons s ss, h1, h2 => ⟨all_mono s h1.1 h2.1, alls_mono ss h1.2 h2.2⟩
end

/-- the values of sources stay on the heap if it does not change there -/
theorem src_frame {h h' : Heap} : ∀ s : Src (Tree Nat), (∀ i ∈ s.ids, h' i = h i) → s.All (Tree.Holds h) → s.All (Tree.Holds h')
  | .leaf (.ok t), hf, hh => holds_frame t hf hh
  | .leaf (.raise _), _, _ => trivial
  | .base, _, _ => trivial
  | .alt ss, hf, hh => srcs_frame ss hf hh
  | .merging _ _ ss, hf, hh => srcs_frame ss hf hh
  | .object _ s, hf, hh => src_frame s hf hh
where
  srcs_frame {h h' : Heap} : ∀ ss : Srcs (Tree Nat), (∀ i ∈ ss.ids, h' i = h i) → ss.All (Tree.Holds h) → ss.All (Tree.Holds h')
    | .nil, _, _ => trivial
    | .cons s ss, hf, hh => ⟨src_frame s (fun i hi => hf i (by simp [Srcs.ids, hi])) hh.1, srcs_frame ss (fun i hi => hf i (by simp [Srcs.ids, hi])) hh.2⟩

theorem did_trans {st st1 st2 : St} {a b : List Nat} (h1 : Did st st1 a) (h2 : Did st1 st2 b) (c : List Nat) (ha : ∀ i ∈ a, i ∈ c) (hb : ∀ i ∈ b, i < st.next → i ∈ c) : Did st st2 c := by
  refine ⟨?_, Nat.le_trans h1.le h2.le⟩
  intro i hi hlt
  rw [h2.frame i (fun h => hi (hb i h hlt)) (Nat.lt_of_lt_of_le hlt h1.le), h1.frame i (fun h => hi (ha i h)) hlt]

theorem alloc_did (st : St) (d : Dict Key Val) (ids : List Nat) : Did st (st.alloc d).1 ids := by
  refine ⟨?_, Nat.le_succ _⟩
  intro i _ hlt
  exact upd_other _ _ (by omega)

theorem srcs_nonempty (ss : Srcs (Tree Nat)) : (ss.map Tree.val).nonempty = true ↔ (ss.map Tree.plain).values ≠ [] := by
  cases ss <;> simp [Srcs.map, Srcs.values, Srcs.nonempty]

mutual
theorem provide_ok (f : Nat) : ∀ (s : Src (Tree Nat)) (st : St), s.depth ≤ f → Ready st s.ids → s.All (Tree.Holds st.heap) → s.All Tree.WF →
    Did st ((s.map Tree.val).provide f st).1 s.ids ∧ Matches st ((s.map Tree.val).provide f st).1 s.ids s.depth ((s.map Tree.val).provide f st).2 (s.map Tree.plain).value
  | .leaf (.raise e), st, _, _, _, _ => ⟨Did.refl _ _, rfl⟩
  | .leaf (.ok t), st, _, hr, hh, hw => ⟨Did.refl _ _, t, rfl, rfl, hh, hw, hr.nodup, fun i hi => Or.inl hi, Nat.le_refl _⟩
  | .base, st, _, _, _, _ => by
    refine ⟨alloc_did _ _ _, .dict st.next .nil, rfl, rfl, ?_, ⟨by simp [Ents.keys], trivial⟩, by simp [Tree.ids, Ents.ids], ?_, by simp [Tree.depth, Ents.depth, Src.depth]⟩
    · exact ⟨upd_same _ _ _, trivial⟩
    · intro i hi
      simp only [Tree.ids, Ents.ids, List.mem_singleton] at hi
      subst hi
      exact Or.inr ⟨Nat.le_refl _, Nat.lt_succ_self _⟩
  | .alt ss, st, hd, hr, hh, hw => first_ok f ss st hd hr hh hw
  | .object k s, st, hd, hr, hh, hw => by
    simp only [Src.depth] at hd
    obtain ⟨d1, m1⟩ := provide_ok f s st (by omega) hr hh hw
    simp only [Src.map, Src.provide, Src.value, Src.ids]
    generalize (s.map Tree.val).provide f st = r at d1 m1
    obtain ⟨st', o⟩ := r
    generalize (s.map Tree.plain).value = c at m1
    cases o with
    | raise e =>
      cases c with
      | raise e' => exact ⟨d1, m1⟩
      | ok p => exact absurd m1 (by simp [Matches])
    | ok v =>
      cases c with
      | raise e' => exact absurd m1 (by simp [Matches])
      | ok p =>
        obtain ⟨t, rfl, rfl, t1, t2, t3, t4, t5⟩ := m1
        have hlt : ∀ i ∈ t.ids, i < st'.next := by
          intro i hi
          rcases t4 i hi with h | h
          · have := hr.old i h; have := d1.le; dsimp only at *; omega
          · exact h.2
        refine ⟨did_trans d1 (alloc_did st' _ []) s.ids (fun _ h => h) (by simp), .dict st'.next (.cons k t .nil), rfl, rfl, ⟨upd_same _ _ _, ?_, trivial⟩, ⟨by simp [Ents.keys], t2, trivial⟩, ?_, ?_, ?_⟩
        · refine holds_frame t ?_ t1
          intro i hi
          exact upd_other _ _ (by have := hlt i hi; omega)
        · simp only [Tree.ids, Ents.ids, List.append_nil, List.nodup_cons]
          exact ⟨fun h => Nat.lt_irrefl _ (hlt _ h), t3⟩
        · intro i hi
          simp only [Tree.ids, Ents.ids, List.append_nil, List.mem_cons] at hi
          have := d1.le
          dsimp only at this
          show i ∈ s.ids ∨ (st.next ≤ i ∧ i < st'.next + 1)
          rcases hi with rfl | hi
          · right; omega
          · rcases t4 i hi with h | h
            · exact Or.inl h
            · right; dsimp only at h; omega
        · simp only [Tree.depth, Ents.depth, Src.depth]; omega
  | .merging onFail failNone ss, st, hd, hr, hh, hw => by
    simp only [Src.depth] at hd
    have hpos := srcs_depth_pos ss
    obtain ⟨d1, m1⟩ := mergeInto_ok f onFail ss (st.alloc []).1 st.next .nil 0 hd
      (by simp only [Ents.ids, List.nil_append, List.nodup_cons]; exact ⟨fun h => Nat.lt_irrefl _ (hr.old _ h), hr.nodup⟩)
      (by
        intro i hi
        simp only [Ents.ids, List.nil_append, List.mem_cons] at hi
        show i < st.next + 1
        rcases hi with rfl | hi
        · omega
        · have := hr.old i hi; omega)
      ⟨upd_same _ _ _, trivial⟩ ⟨by simp [Ents.keys], trivial⟩
      (by simp only [Tree.depth, Ents.depth]; omega)
      (src_frame.srcs_frame ss (fun i hi => upd_other _ _ (by have := hr.old i hi; omega)) hh) hw
    have e0 : ((st.alloc []).2 : Val) = .ref st.next := rfl
    simp only [Src.map, Src.provide, Src.value, Src.ids, Src.depth, merged, e0]
    have hne := srcs_nonempty ss
    generalize (ss.map Tree.val).mergeInto f onFail (st.alloc []).1 (.ref st.next) 0 = r at d1 m1
    obtain ⟨st', o⟩ := r
    generalize (ss.map Tree.plain).values = vs at m1 hne
    have d2 : Did st st' ss.ids := by
      refine ⟨?_, ?_⟩
      · intro i hi hlt
        rw [d1.frame i (by simp only [Ents.ids, List.nil_append, List.mem_cons, not_or]; exact ⟨by omega, hi⟩) (by show i < st.next + 1; omega)]
        exact upd_other _ _ (by omega)
      · have := d1.le
        have : st.next + 1 ≤ st'.next := this
        omega
    cases o with
    | raise e =>
      cases hff : firstFatal onFail vs with
      | none => rw [hff] at m1; exact absurd m1 (by simp)
      | some e' => rw [hff] at m1; exact ⟨d2, m1⟩
    | ok r =>
      obtain ⟨v, n⟩ := r
      cases hff : firstFatal onFail vs with
      | some e' => rw [hff] at m1; exact absurd m1 (by simp)
      | none =>
        rw [hff] at m1
        obtain ⟨es, rfl, hn, t1, t2, t3, t4, t5, t6⟩ := m1
        have hcond : (n = 0 ∧ (ss.map Tree.val).nonempty = true ∧ failNone = true) ↔ (provided vs = [] ∧ vs ≠ [] ∧ failNone = true) := by
          rw [hne, hn]; simp
        by_cases hc : provided vs = [] ∧ vs ≠ [] ∧ failNone = true
        · simp only [if_pos hc, if_pos (hcond.2 hc)]
          exact ⟨d2, rfl⟩
        · simp only [if_neg hc, if_neg (fun h => hc (hcond.1 h))]
          refine ⟨d2, .dict st.next es, rfl, ?_, t2, t3, t4, ?_, ?_⟩
          · exact t1
          · intro i hi
            rcases t5 i hi with h | h
            · simp only [Ents.ids, List.nil_append, List.mem_cons] at h
              rcases h with rfl | h
              · right
                have : st.next + 1 ≤ st'.next := d1.le
                omega
              · exact Or.inl h
            · right
              have : st.next + 1 ≤ i := h.1
              exact ⟨by omega, h.2⟩
          · simp only [Tree.depth, Ents.depth] at t6 ⊢; omega
theorem first_ok (f : Nat) : ∀ (ss : Srcs (Tree Nat)) (st : St), ss.depth ≤ f → Ready st ss.ids → ss.All (Tree.Holds st.heap) → ss.All Tree.WF →
    Did st ((ss.map Tree.val).first f st).1 ss.ids ∧ Matches st ((ss.map Tree.val).first f st).1 ss.ids ss.depth ((ss.map Tree.val).first f st).2 (alternative (ss.map Tree.plain).values)
  | .nil, st, _, _, _, _ => ⟨Did.refl _ _, rfl⟩
  | .cons s ss, st, hd, hr, hh, hw => by
    simp only [Srcs.depth] at hd
    have hn := hr.nodup
    simp only [Srcs.ids, List.nodup_append] at hn
    obtain ⟨d1, m1⟩ := provide_ok f s st (by omega) ⟨hn.1, fun i hi => hr.old i (by simp [Srcs.ids, hi])⟩ hh.1 hw.1
    simp only [Srcs.map, Srcs.first, Srcs.values]
    generalize (s.map Tree.val).provide f st = r at d1 m1
    obtain ⟨st', o⟩ := r
    generalize (s.map Tree.plain).value = c at m1
    have dd : Did st st' (Srcs.cons s ss).ids := ⟨fun i hi hlt => d1.frame i (fun h => hi (by simp [Srcs.ids, h])) hlt, d1.le⟩
    cases o with
    | raise e =>
      cases c with
      | ok p => exact absurd m1 (by simp [Matches])
      | raise e' =>
        simp only [Matches] at m1
        subst m1
        by_cases he : e = .configurationError
        · subst he
          simp only [alternative]
          have hr' : Ready st' ss.ids := ⟨hn.2.1, fun i hi => Nat.lt_of_lt_of_le (hr.old i (by simp [Srcs.ids, hi])) d1.le⟩
          have hh' : ss.All (Tree.Holds st'.heap) := src_frame.srcs_frame ss (fun i hi => d1.frame i (fun h => hn.2.2 i h i hi rfl) (hr.old i (by simp [Srcs.ids, hi]))) hh.2
          obtain ⟨d2, m2⟩ := first_ok f ss st' (by omega) hr' hh' hw.2
          refine ⟨did_trans d1 d2 _ (fun i hi => by simp [Srcs.ids, hi]) (fun i hi _ => by simp [Srcs.ids, hi]), ?_⟩
          generalize (ss.map Tree.val).first f st' = r2 at d2 m2
          obtain ⟨st2, o2⟩ := r2
          generalize alternative (ss.map Tree.plain).values = c2 at m2
          cases o2 with
          | raise e => cases c2 with
            | raise e' => exact m2
            | ok p => exact absurd m2 (by simp [Matches])
          | ok v => cases c2 with
            | raise e' => exact absurd m2 (by simp [Matches])
            | ok p =>
              obtain ⟨t, rfl, rfl, t1, t2, t3, t4, t5⟩ := m2
              refine ⟨t, rfl, rfl, t1, t2, t3, ?_, ?_⟩
              · intro i hi
                have := d1.le
                rcases t4 i hi with h | h
                · exact Or.inl (by simp [Srcs.ids, h])
                · exact Or.inr (by dsimp only at *; omega)
              · simp only [Srcs.depth]; omega
        · cases e <;> first | exact absurd rfl he | exact ⟨dd, rfl⟩
    | ok v =>
      cases c with
      | raise e' => exact absurd m1 (by simp [Matches])
      | ok p =>
        obtain ⟨t, rfl, rfl, t1, t2, t3, t4, t5⟩ := m1
        simp only [alternative, isDict_eq t1]
        cases t.plain.isDict with
        | false => exact ⟨dd, rfl⟩
        | true =>
          refine ⟨dd, t, rfl, rfl, t1, t2, t3, ?_, ?_⟩
          · intro i hi
            rcases t4 i hi with h | h
            · exact Or.inl (by simp [Srcs.ids, h])
            · exact Or.inr h
          · simp only [Srcs.depth]; omega
theorem mergeInto_ok (f onFail : Nat) : ∀ (ss : Srcs (Tree Nat)) (st : St) (j : Nat) (ec : Ents Nat) (n : Nat), ss.depth ≤ f →
    (j :: (ec.ids ++ ss.ids)).Nodup → (∀ i ∈ j :: (ec.ids ++ ss.ids), i < st.next) →
    (Tree.dict j ec).Holds st.heap → (Tree.dict j ec).WF → (Tree.dict j ec).depth ≤ max (Tree.dict j ec).depth ss.depth → ss.All (Tree.Holds st.heap) → ss.All Tree.WF →
    Did st ((ss.map Tree.val).mergeInto f onFail st (.ref j) n).1 (j :: (ec.ids ++ ss.ids)) ∧
    match ((ss.map Tree.val).mergeInto f onFail st (.ref j) n).2, firstFatal onFail (ss.map Tree.plain).values with
    | .raise e, some e' => e = e'
    | .ok (v, m), none => ∃ es : Ents Nat, v = .ref j ∧ m = n + (provided (ss.map Tree.plain).values).length ∧
        (Tree.dict j es).plain = (provided (ss.map Tree.plain).values).foldl Tree.merge (Tree.dict j ec).plain ∧
        (Tree.dict j es).Holds ((ss.map Tree.val).mergeInto f onFail st (.ref j) n).1.heap ∧ (Tree.dict j es).WF ∧ (Tree.dict j es).ids.Nodup ∧
        (∀ i ∈ (Tree.dict j es).ids, i ∈ j :: (ec.ids ++ ss.ids) ∨ (st.next ≤ i ∧ i < ((ss.map Tree.val).mergeInto f onFail st (.ref j) n).1.next)) ∧
        (Tree.dict j es).depth ≤ max (Tree.dict j ec).depth ss.depth
    | _, _ => False
  | .nil, st, j, ec, n, _, hn, hl, hh, hw, hdd, _, _ => by
    simp only [Srcs.ids, List.append_nil] at hn hl ⊢
    exact ⟨Did.refl _ _, ec, rfl, rfl, rfl, hh, hw, hn, fun i hi => Or.inl hi, hdd⟩
  | .cons s ss, st, j, ec, n, hd, hn, hl, hh, hw, _, ha, hwa => by
    simp only [Srcs.depth] at hd
    have hpos := srcs_depth_pos ss
    simp only [Srcs.ids, List.nodup_cons, List.mem_append, not_or] at hn
    obtain ⟨⟨hj1, hj2, hj3⟩, hn⟩ := hn
    rw [List.nodup_append, List.nodup_append] at hn
    obtain ⟨n1, ⟨n2, n3, n4⟩, n5⟩ := hn
    simp only [Srcs.ids, List.mem_cons, List.mem_append, forall_eq_or_imp] at hl
    obtain ⟨hlj, hl⟩ := hl
    obtain ⟨d1, m1⟩ := provide_ok f s st (by omega) ⟨n2, fun i hi => hl i (by simp [hi])⟩ ha.1 hwa.1
    simp only [Srcs.map, Srcs.mergeInto, Srcs.values]
    generalize (s.map Tree.val).provide f st = r at d1 m1
    obtain ⟨st', o⟩ := r
    dsimp only at d1 m1
    generalize (s.map Tree.plain).value = c at m1
    have hle : st.next ≤ st'.next := d1.le
    have dd : Did st st' (j :: (ec.ids ++ (Srcs.cons s ss).ids)) := ⟨fun i hi hlt => d1.frame i (fun h => hi (by simp [Srcs.ids, h])) hlt, d1.le⟩
    have hcfg : (Tree.dict j ec).Holds st'.heap := by
      refine holds_frame _ ?_ hh
      intro i hi
      simp only [Tree.ids, List.mem_cons] at hi
      rcases hi with rfl | hi
      · exact d1.frame i hj2 hlj
      · exact d1.frame i (fun h => n5 i hi i (by simp [h]) rfl) (hl i (by simp [hi]))
    have hss : ss.All (Tree.Holds st'.heap) := src_frame.srcs_frame ss (fun i hi => d1.frame i (fun h => n4 i h i hi rfl) (hl i (by simp [hi]))) ha.2
    -- going on with a configuration `t` provided
    have go : ∀ (st1 : St) (t : Tree Nat) (tp : Ents Nat) (k : Nat), t = .dict k tp → t.Holds st1.heap → t.WF → t.ids.Nodup →
        (∀ i ∈ t.ids, i ∈ s.ids ∨ (st.next ≤ i ∧ i < st1.next)) → t.depth ≤ max s.depth ss.depth → Did st st1 s.ids →
        (Tree.dict j ec).Holds st1.heap → ss.All (Tree.Holds st1.heap) →
        ∃ h', mergeH f st1.heap (.ref j) t.val = some (h', .ref j) ∧ ∀ m, 
          Did st ((ss.map Tree.val).mergeInto f onFail { st1 with heap := h' } (.ref j) m).1 (j :: (ec.ids ++ (Srcs.cons s ss).ids)) ∧
          match ((ss.map Tree.val).mergeInto f onFail { st1 with heap := h' } (.ref j) m).2, firstFatal onFail (ss.map Tree.plain).values with
          | .raise e, some e' => e = e'
          | .ok (v, m'), none => ∃ es : Ents Nat, v = .ref j ∧ m' = m + (provided (ss.map Tree.plain).values).length ∧
              (Tree.dict j es).plain = (provided (ss.map Tree.plain).values).foldl Tree.merge ((Tree.dict j ec).plain.merge t.plain) ∧
              (Tree.dict j es).Holds ((ss.map Tree.val).mergeInto f onFail { st1 with heap := h' } (.ref j) m).1.heap ∧ (Tree.dict j es).WF ∧ (Tree.dict j es).ids.Nodup ∧
              (∀ i ∈ (Tree.dict j es).ids, i ∈ j :: (ec.ids ++ (Srcs.cons s ss).ids) ∨ (st.next ≤ i ∧ i < ((ss.map Tree.val).mergeInto f onFail { st1 with heap := h' } (.ref j) m).1.next)) ∧
              (Tree.dict j es).depth ≤ max (Tree.dict j ec).depth (Srcs.cons s ss).depth
          | _, _ => False := by
      intro st1 t tp k ht t1 t2 t3 t4 t5 dt hc1 hs1
      have hlt : st.next ≤ st1.next := dt.le
      have hsep : ((Tree.dict j ec).ids ++ t.ids).Nodup := by
        rw [List.nodup_append]
        refine ⟨by simp only [Tree.ids, List.nodup_cons]; exact ⟨hj1, n1⟩, t3, ?_⟩
        rintro a ha' b hb rfl
        simp only [Tree.ids, List.mem_cons] at ha'
        have hlta : a < st.next := by
          rcases ha' with rfl | h
          · exact hlj
          · exact hl a (by simp [h])
        rcases t4 a hb with h | h
        · rcases ha' with rfl | h'
          · exact hj2 h
          · exact n5 a h' a (by simp [h]) rfl
        · omega
      obtain ⟨h', e1, e2, e3⟩ := mergeH_ok t f st1.heap (.dict j ec) (by omega) hc1 t1 hsep t2
      obtain ⟨g1, g2⟩ := ids_into t (.dict j ec) hsep
      have hwn := wf_into t (.dict j ec) hw t2
      have hdn := depth_into t (.dict j ec)
      have hpl := plain_into t (.dict j ec)
      subst ht
      have hin : (Tree.dict k tp).into (.dict j ec) = .dict j (tp.into ec) := by simp [Tree.into]
      rw [hin] at e1 e2 g1 g2 hwn hdn hpl
      have hsub : ∀ i ∈ (tp.into ec).ids, i ∈ ec.ids ∨ i ∈ s.ids ∨ (st.next ≤ i ∧ i < st1.next) := by
        intro i hi
        rcases g2 i (by simp [Tree.ids, hi]) with h | h
        · simp only [Tree.ids, List.mem_cons] at h
          rcases h with rfl | h
          · simp only [Tree.ids, List.nodup_cons] at g1; exact absurd hi g1.1
          · exact Or.inl h
        · exact Or.inr (t4 i h)
      refine ⟨h', e1, ?_⟩
      intro m
      have hss' : ss.All (Tree.Holds h') := src_frame.srcs_frame ss (fun i hi => e3 i (by
        simp only [Tree.ids, List.mem_cons, not_or]
        exact ⟨by rintro rfl; exact hj3 hi, fun h => n5 i h i (by simp [hi]) rfl⟩)) hs1
      obtain ⟨d2, m2⟩ := mergeInto_ok f onFail ss { st1 with heap := h' } j (tp.into ec) m (by omega)
        (by
          simp only [Tree.ids, List.nodup_cons] at g1
          simp only [List.nodup_cons, List.mem_append, not_or]
          refine ⟨⟨g1.1, hj3⟩, ?_⟩
          rw [List.nodup_append]
          refine ⟨g1.2, n3, ?_⟩
          rintro a ha' b hb rfl
          rcases hsub a ha' with h | h | h
          · exact n5 a h a (by simp [hb]) rfl
          · exact n4 a h a hb rfl
          · have := hl a (by simp [hb]); omega)
        (by
          intro i hi
          simp only [List.mem_cons, List.mem_append] at hi
          show i < st1.next
          rcases hi with rfl | hi | hi
          · omega
          · rcases hsub i hi with h | h | h
            · have := hl i (by simp [h]); omega
            · have := hl i (by simp [h]); omega
            · exact h.2
          · have := hl i (by simp [hi]); omega)
        e2 hwn (by omega) hss' hwa.2
      refine ⟨?_, ?_⟩
      · refine ⟨?_, Nat.le_trans hlt d2.le⟩
        intro i hi hilt
        simp only [Srcs.ids, List.mem_cons, List.mem_append, not_or] at hi
        rw [d2.frame i ?_ (by show i < st1.next; omega)]
        · show h' i = _
          rw [e3 i (by simp only [Tree.ids, List.mem_cons, not_or]; exact ⟨hi.1, hi.2.1⟩)]
          exact dt.frame i hi.2.2.1 hilt
        · simp only [List.mem_cons, List.mem_append, not_or]
          refine ⟨hi.1, ?_, hi.2.2.2⟩
          intro h
          rcases hsub i h with h | h | h
          · exact hi.2.1 h
          · exact hi.2.2.1 h
          · omega
      · generalize (ss.map Tree.val).mergeInto f onFail { st1 with heap := h' } (.ref j) m = r2 at d2 m2
        obtain ⟨st2, o2⟩ := r2
        have hle2 : st1.next ≤ st2.next := d2.le
        cases o2 with
        | raise e =>
          cases hff : firstFatal onFail (ss.map Tree.plain).values with
          | none => rw [hff] at m2; exact absurd m2 (by simp)
          | some e' => rw [hff] at m2; exact m2
        | ok r =>
          obtain ⟨v, m'⟩ := r
          cases hff : firstFatal onFail (ss.map Tree.plain).values with
          | some e' => rw [hff] at m2; exact absurd m2 (by simp)
          | none =>
            rw [hff] at m2
            obtain ⟨es, rfl, q1, q2, q3, q4, q5, q6, q7⟩ := m2
            refine ⟨es, rfl, q1, ?_, q3, q4, q5, ?_, ?_⟩
            · rw [q2, hpl]; rfl
            · intro i hi
              rcases q6 i hi with h | h
              · simp only [List.mem_cons, List.mem_append] at h
                simp only [Srcs.ids, List.mem_cons, List.mem_append]
                rcases h with rfl | h | h
                · exact Or.inl (Or.inl rfl)
                · rcases hsub i h with h | h | h
                  · exact Or.inl (Or.inr (Or.inl h))
                  · exact Or.inl (Or.inr (Or.inr (Or.inl h)))
                  · exact Or.inr ⟨h.1, Nat.lt_of_lt_of_le h.2 hle2⟩
                · exact Or.inl (Or.inr (Or.inr (Or.inr h)))
              · dsimp only at h
                exact Or.inr ⟨by omega, h.2⟩
            · simp only [Srcs.depth]; omega
    cases o with
    | raise e =>
      cases c with
      | ok p => exact absurd m1 (by simp [Matches])
      | raise e' =>
        simp only [Matches] at m1
        subst m1
        by_cases he : e = .configurationError
        · subst he
          simp only [firstFatal, provided]
          by_cases h0 : onFail = RAISE
          · have : onFail ≠ SILENT := by rw [h0]; decide
            simp only [h0, if_true, if_neg this]
            have : RAISE ≠ SILENT := by decide
            simp only [if_neg this]
            exact ⟨dd, trivial⟩
          · by_cases h1 : onFail = SILENT
            · simp only [if_neg h0, if_pos h1]
              have hfr : ∀ i, i < st'.next → (st'.alloc []).1.heap i = st'.heap i := fun i hi => upd_other _ _ (by omega)
              obtain ⟨h', e1, e2⟩ := go (st'.alloc []).1 (.dict st'.next .nil) .nil st'.next rfl ⟨upd_same _ _ _, trivial⟩ ⟨by simp [Ents.keys], trivial⟩
                (by simp [Tree.ids, Ents.ids])
                (by
                  intro i hi
                  simp only [Tree.ids, Ents.ids, List.mem_singleton] at hi
                  subst hi
                  exact Or.inr ⟨hle, Nat.lt_succ_self _⟩)
                (by simp only [Tree.depth, Ents.depth]; omega)
                (did_trans d1 (alloc_did st' [] []) s.ids (fun _ h => h) (by simp))
                (holds_frame _ (fun i hi => hfr i (by
                  simp only [Tree.ids, List.mem_cons] at hi
                  rcases hi with rfl | hi
                  · omega
                  · have := hl i (by simp [hi]); omega)) hcfg)
                (src_frame.srcs_frame ss (fun i hi => hfr i (by have := hl i (by simp [hi]); omega)) hss)
              have hval : (Tree.dict st'.next .nil).val = (st'.alloc []).2 := rfl
              rw [hval] at e1
              simp only [e1]
              have e2 := e2 n
              rw [h1] at e2 ⊢
              exact e2
            · simp only [if_neg h0, if_neg h1]
              exact ⟨dd, trivial⟩
        · have hff : firstFatal onFail (Out.raise e :: (ss.map Tree.plain).values) = some e := by
            cases e <;> first | exact absurd rfl he | rfl
          rw [hff]
          cases e <;> first | exact absurd rfl he | exact ⟨dd, rfl⟩
    | ok v =>
      cases c with
      | raise e' => exact absurd m1 (by simp [Matches])
      | ok p =>
        obtain ⟨t, rfl, rfl, t1, t2, t3, t4, t5⟩ := m1
        simp only [isDict_eq t1, firstFatal, provided]
        cases t with
        | atom _ => simp only [Tree.plain, Tree.isDict]; exact ⟨dd, rfl⟩
        | list _ _ => simp only [Tree.plain, Tree.isDict]; exact ⟨dd, rfl⟩
        | dict k tp =>
          obtain ⟨h', e1, e2⟩ := go st' (.dict k tp) tp k rfl t1 t2 t3 t4 (by omega) d1 hcfg hss
          have e2 := e2 (n + 1)
          have hp : (Tree.dict k tp).plain.isDict = true := by simp [Tree.plain, Tree.isDict]
          simp only [hp, if_true, e1, List.length_cons, List.foldl_cons]
          rw [Nat.add_comm (provided _).length 1, ← Nat.add_assoc]
          exact e2
end

/-- **C26, the code.** Let the values of all the sources be on the heap, sharing no objects, and the recursion limit at least their depth.  Then `provide()` provides (or raises) what the description of the sources
says, and changes nothing but the values of those sources. -/
theorem C26_code (f : Nat) (s : Src (Tree Nat)) (st : St) (hd : s.depth ≤ f) (hn : s.ids.Nodup) (ho : ∀ i ∈ s.ids, i < st.next) (hh : s.All (Tree.Holds st.heap)) (hw : s.All Tree.WF) :
    (∀ e, (s.map Tree.plain).value = .raise e → ((s.map Tree.val).provide f st).2 = .raise e) ∧
    (∀ c, (s.map Tree.plain).value = .ok c → ∃ t : Tree Nat, ((s.map Tree.val).provide f st).2 = .ok t.val ∧ t.plain = c ∧ t.Holds ((s.map Tree.val).provide f st).1.heap) ∧
    (∀ i, i ∉ s.ids → i < st.next → ((s.map Tree.val).provide f st).1.heap i = st.heap i) := by
  obtain ⟨d, m⟩ := provide_ok f s st hd ⟨hn, ho⟩ hh hw
  refine ⟨?_, ?_, d.frame⟩
  · intro e he
    rw [he] at m
    cases ho' : ((s.map Tree.val).provide f st).2 with
    | raise e' => rw [ho'] at m; simp only [Matches] at m; rw [m]
    | ok v => rw [ho'] at m; exact absurd m (by simp [Matches])
  · intro c hc
    rw [hc] at m
    cases ho' : ((s.map Tree.val).provide f st).2 with
    | raise e' => rw [ho'] at m; exact absurd m (by simp [Matches])
    | ok v => rw [ho'] at m; obtain ⟨t, rfl, h1, h2, _⟩ := m; exact ⟨t, rfl, h1, h2⟩

/-- two StaticSources with `{1: [7]}` and `{1: [8]}` merged -/
def exHeap2 : Heap := fun i =>
  match i with
  | 0 => .dict [(1, .ref 1)]
  | 1 => .list [.atom 7]
  | 2 => .dict [(1, .ref 3)]
  | 3 => .list [.atom 8]
  | _ => .list []

def exSrc : Src (Tree Nat) :=
  .merging RAISE true (.cons (.leaf (.ok (.dict 0 (.cons 1 (.list 1 [.atom 7]) .nil)))) (.cons (.leaf (.ok (.dict 2 (.cons 1 (.list 3 [.atom 8]) .nil)))) .nil))

example : exSrc.depth ≤ 5 ∧ exSrc.ids.Nodup ∧ (∀ i ∈ exSrc.ids, i < 4) ∧ exSrc.All (Tree.Holds exHeap2) ∧ exSrc.All Tree.WF := by
  refine ⟨by decide, by decide, by decide, ?_, ?_⟩ <;>
    simp [exSrc, Src.All, Srcs.All, Tree.Holds, Ents.Holds, exHeap2, Ents.dict, Tree.val, Tree.WF, Ents.WF, Ents.keys]

/-- what a list object contains -/
def listAt (h : Heap) (i : Nat) : List Val :=
  match h i with
  | .list xs => xs
  | _ => []

/-- **C26 violated** (calling `provide()` again): MergingSource merges into the sources' own lists and dictionaries.  `MergingSource(StaticSource({1: [7]}), StaticSource({1: [8]}))` provides `{1: [7, 8]}` the
first time, changing the first StaticSource, and `{1: [7, 8, 8]}` the second time. -/
theorem C26_provide_again_violates :
    let s := exSrc.map Tree.val
    let r1 := s.provide 5 { heap := exHeap2, next := 4 }
    let r2 := s.provide 5 r1.1
    r1.2 = .ok (.ref 4) ∧ getItem r1.1.heap 4 1 = some (.ref 1) ∧ listAt r1.1.heap 1 = [.atom 7, .atom 8] ∧
    r2.2 = .ok (.ref 5) ∧ getItem r2.1.heap 5 1 = some (.ref 1) ∧ listAt r2.1.heap 1 = [.atom 7, .atom 8, .atom 8] := by
  refine ⟨rfl, rfl, rfl, rfl, rfl, rfl⟩

end Verif.Config
