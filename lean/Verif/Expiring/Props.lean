import Verif.Expiring.Lemmas
import Verif.Heap.HeapqCorrect
/-! # C12 (ExpiringEntryDict) and C13 (SelfCleaningDefaultDict) -/
namespace Verif.Expiring
open Verif Verif.Heap

section
variable {K V : Type _} [PyLinOrd K] [DecidableEq K] (H : Heapq (Int × K)) (timeout : Int)

/-- C12 for every history with a clock that does not go back: every result is what the specification asks for, or one
of the exceptions listed in `Defect`.  In particular lookups and successful membership tests, lengths and iterations are always exact: an entry is
visible until its expiration and never afterwards.  Partial: see `Defect` and the `violates` theorems. -/
theorem C12_expiring_dict_any_history_partial (ops : List (Op K V × Int))
    (hs : List.Pairwise (fun a b => a.2 ≤ b.2) ops) :
    ∃ m', History (fun m o r m' => Spec timeout m o r m' ∨ Defect m o r m') (fun _ => none) ops
      (runOps (step H timeout) (St.init H) ops).2 m' := by
  cases ops with
  | nil => exact ⟨_, rfl⟩
  | cons o os =>
    refine history H timeout (rep_init H o.2) (o :: os) hs ?_
    intro x hx
    rcases List.mem_cons.1 hx with rfl | hx
    · exact Int.le_refl _
    · exact (List.pairwise_cons.1 hs).1 x hx

/-- C12 exactly, for histories in which no dead entry that has not been cleaned up yet is looked up by `d[k]` and only living entries are
deleted. -/
theorem C12_expiring_dict_refines_partial (ops : List (Op K V × Int))
    (hs : List.Pairwise (fun a b => a.2 ≤ b.2) ops)
    (hg : AllSteps Guard (step H timeout) (St.init H) ops) :
    ∃ m', History (Spec timeout) (fun _ => none) ops
      (runOps (step H timeout) (St.init H) ops).2 m' := by
  cases ops with
  | nil => exact ⟨_, rfl⟩
  | cons o os =>
    refine history_clean H timeout (rep_init H o.2) ?_ (o :: os) hs ?_ hg
    · intro k e h; simp at h
    · intro x hx
      rcases List.mem_cons.1 hx with rfl | hx
      · exact Int.le_refl _
      · exact (List.pairwise_cons.1 hs).1 x hx

omit [DecidableEq K] in
theorem heapify_nil : H.heapify [] = [] :=
  List.length_eq_zero_iff.1 (H.heapify_perm []).length_eq

omit [DecidableEq K] in
theorem push_nil (x : Int × K) : H.heappush [] x = [x] := List.perm_singleton.1 (H.push_perm [] x)

omit [DecidableEq K] in
theorem pop_single (x : Int × K) : H.heappop [x] = some (x, []) := by
  cases h : H.heappop [x] with
  | none => exact absurd h (H.pop_some [x] (by simp))
  | some p =>
    obtain ⟨y, r⟩ := p
    have h1 := H.pop_perm _ _ _ h
    have hr : r = [] := by
      have := h1.length_eq
      simp at this; exact this
    subst hr
    have := List.singleton_perm.1 h1
    simp at this
    rw [this]

/-- the state after one entry was set and looked up after its death -/
theorem after_dead_lookup (k : K) (v : V) (t now : Int) (hn : t + timeout < now) :
    (runOps (step H timeout) (St.init H : St K V) [(.set k v, t), (.get k, now)]).1 =
      { data := [], heap := { data := [(t + timeout, k)], stamps := [(k, t + timeout)] } } := by
  have hp : TSHeap.push H (TSHeap.init H) (t + timeout) k =
      ({ data := [(t + timeout, k)], stamps := [(k, t + timeout)] }, .unit) := by
    simp [TSHeap.push, TSHeap.init, Dict.has, push_nil, heapify_nil, Dict.set]
  simp only [runOps]
  have h1 : step H timeout (St.init H : St K V) (.set k v, t) =
      ({ data := [(k, v)], heap := { data := [(t + timeout, k)], stamps := [(k, t + timeout)] } }, .unit) := by
    simp [step, St.init, hp, Dict.set]
  rw [h1]
  simp [step, Dict.get?, hn, Dict.del]

/-- The code breaks C12: after looking an entry up once it is dead (which rightly raises KeyError), the next `len(d)`
raises KeyError too. For every heap implementation, key, value, timeout and times. -/
theorem C12_len_raises_after_dead_lookup_violates (k : K) (v : V) (t now now' : Int)
    (hn : t + timeout < now) (hn' : now ≤ now') :
    (runOps (step H timeout) (St.init H : St K V) [(.set k v, t), (.get k, now), (.len, now')]).2.getLast? =
      some (.exc .keyError) := by
  have := runOps_append (step H timeout) (St.init H : St K V) [(.set k v, t), (.get k, now)] [(.len, now')]
  simp only [List.cons_append, List.nil_append] at this
  rw [this, after_dead_lookup H timeout k v t now hn]
  have hlt : ¬ (now' ≤ t + timeout) := by omega
  simp [runOps, step, St.cleanup, cleanupLoop, hlt, TSHeap.pop, pop_single, Dict.has, Dict.get?]

/-- The same for membership: `k in d` raises KeyError instead of returning False. -/
theorem C12_contains_raises_after_dead_lookup_violates (k : K) (v : V) (t now now' : Int)
    (hn : t + timeout < now) (hn' : now ≤ now') :
    (runOps (step H timeout) (St.init H : St K V) [(.set k v, t), (.get k, now), (.contains k, now')]).2.getLast? =
      some (.exc .keyError) := by
  have := runOps_append (step H timeout) (St.init H : St K V) [(.set k v, t), (.get k, now)] [(.contains k, now')]
  simp only [List.cons_append, List.nil_append] at this
  rw [this, after_dead_lookup H timeout k v t now hn]
  have hlt : t + timeout < now' := by omega
  simp [runOps, step, hlt, St.del, TSHeap.popItem, removeFirst, Dict.has, Dict.get?]

/-- The code breaks C12: deleting an absent key raises ValueError, not KeyError. -/
theorem C12_delete_absent_violates (k : K) (now : Int) :
    (step H timeout (St.init H : St K V) (.del k, now)).2 = .exc .valueError := by
  simp [step, St.del, St.init, TSHeap.init, heapify_nil, TSHeap.popItem, removeFirst]

end

/-! ## C13 -/
section
variable {K V : Type _} [DecidableEq K] [DecidableEq V] (dflt : V) (bm : Bool)

/-- the dictionary represents the total map -/
def SRep (d : Dict K V) (m : K → V) : Prop := Dict.WF d ∧ ∀ k, (Dict.get? d k).getD dflt = m k

/-- every call but iteration and in-place updates -/
def SRegular : SOp K V → Prop
  | .iter => False
  | .update _ _ => False
  | _ => True

omit [DecidableEq V] in
theorem SRep.del_default {d : Dict K V} {m : K → V} (h : SRep dflt d m) {k : K} (hk : m k = dflt) :
    SRep dflt (Dict.del d k) m := by
  refine ⟨Dict.wf_del h.1 k, fun x => ?_⟩
  simp only [Dict.get?_del]
  split
  · next hx => subst hx; simp [hk]
  · exact h.2 x

theorem cleanup_fold (keys : List K) : ∀ (d : Dict K V) (m : K → V), SRep dflt d m →
    SRep dflt (keys.foldl (scleanOne dflt) d) m ∧
    (∀ x, Dict.get? (keys.foldl (scleanOne dflt) d) x = if x ∈ keys ∧ Dict.get? d x = some dflt then none else Dict.get? d x) := by
  induction keys with
  | nil => intro d m h; exact ⟨h, by simp⟩
  | cons k ks ih =>
    intro d m h
    simp only [List.foldl_cons]
    have hone : scleanOne dflt d k = match Dict.get? d k with
      | some v => if v = dflt then Dict.del d k else d
      | none => d := rfl
    rw [hone]
    cases hk : Dict.get? d k with
    | none =>
      obtain ⟨i1, i2⟩ := ih d m h
      refine ⟨i1, fun x => ?_⟩
      rw [i2 x]
      by_cases hx : x = k
      · subst hx; simp [hk]
      · simp [hx]
    | some v =>
      dsimp only
      by_cases hv : v = dflt
      · subst hv
        have hmk : m k = v := by rw [← h.2 k, hk]; rfl
        simp only [↓reduceIte]
        obtain ⟨i1, i2⟩ := ih _ m (h.del_default v hmk)
        refine ⟨i1, fun x => ?_⟩
        rw [i2 x]
        simp only [Dict.get?_del]
        by_cases hx : k = x
        · subst hx; simp [hk]
        · have hx' : ¬ x = k := fun hc => hx hc.symm
          simp [hx, hx']
      · simp only [hv, ↓reduceIte]
        obtain ⟨i1, i2⟩ := ih d m h
        refine ⟨i1, fun x => ?_⟩
        rw [i2 x]
        by_cases hx : x = k
        · subst hx; simp [hk, hv]
        · simp [hx]

theorem cleanup_exact {d : Dict K V} {m : K → V} (h : SRep dflt d m) :
    SRep dflt (scleanup dflt d) m ∧ ∀ k, k ∈ Dict.keys (scleanup dflt d) ↔ m k ≠ dflt := by
  obtain ⟨h1, h2⟩ := cleanup_fold dflt (Dict.keys d) d m h
  refine ⟨h1, fun k => ?_⟩
  rw [← Dict.get?_isSome_iff]
  have h2k := h2 k
  have hmk := h.2 k
  unfold scleanup
  rw [h2k]
  cases hd : Dict.get? d k with
  | none => simp [hd] at hmk; simp [← hmk]
  | some v =>
    simp [hd] at hmk
    have hmem : k ∈ Dict.keys d := (Dict.get?_isSome_iff d k).1 (by simp [hd])
    subst hmk
    by_cases hv : m k = dflt
    · simp [hv, hmem]
    · simp [hv]

theorem sstep_sim {d : Dict K V} {m : K → V} (o : SOp K V) (ho : SRegular o) (h : SRep dflt d m) :
    ∃ m', SSpec dflt m o (sstep dflt bm d o).2 m' ∧ SRep dflt (sstep dflt bm d o).1 m' := by
  have hget : ∀ k, (sget dflt bm d k).2 = m k ∧ SRep dflt (sget dflt bm d k).1 m := by
    intro k
    have hk := h.2 k
    unfold sget
    cases hd : Dict.get? d k with
    | none =>
      simp [hd] at hk
      refine ⟨by dsimp only; split <;> exact hk, ?_⟩
      dsimp only
      split
      · refine ⟨Dict.wf_set h.1 k dflt, fun x => ?_⟩
        simp only [Dict.get?_set]
        split
        · next hx => subst hx; simpa using hk
        · exact h.2 x
      · exact h
    | some v =>
      simp [hd] at hk
      dsimp only
      split
      · next hv => exact ⟨hk, h.del_default dflt (by rw [← hk]; exact hv)⟩
      · exact ⟨hk, h⟩
  have hdel : ∀ k, SRep dflt (Dict.del d k) (fun x => if x = k then dflt else m x) := by
    intro k
    refine ⟨Dict.wf_del h.1 k, fun x => ?_⟩
    simp only [Dict.get?_del]
    by_cases hx : k = x
    · subst hx; simp
    · have hx' : ¬ x = k := fun hc => hx hc.symm
      simp [hx, hx', h.2]
  cases o with
  | set k v =>
    refine ⟨_, ⟨rfl, rfl⟩, ?_⟩
    simp only [sstep, sset]
    by_cases hv : v = dflt
    · subst hv
      simp only [↓reduceIte, ne_eq, not_true_eq_false]
      split
      · exact hdel k
      · next hh =>
        refine ⟨h.1, fun x => ?_⟩
        dsimp only
        split
        · next hx =>
          subst hx
          have : Dict.get? d x = none := by simpa [Dict.has] using hh
          simp [this]
        · exact h.2 x
    · simp only [hv, ↓reduceIte, ite_self, ne_eq, not_false_eq_true]
      refine ⟨Dict.wf_set h.1 k v, fun x => ?_⟩
      simp only [Dict.get?_set]
      by_cases hx : k = x
      · subst hx; simp
      · have hx' : ¬ x = k := fun hc => hx hc.symm
        simp [hx, hx', h.2]
  | get k =>
    refine ⟨m, ⟨?_, rfl⟩, (hget k).2⟩
    simp only [sstep, (hget k).1]
  | update k f => exact ho.elim
  | contains k => exact ⟨m, ⟨rfl, rfl⟩, (hget k).2⟩
  | del k =>
    refine ⟨_, ⟨rfl, rfl⟩, ?_⟩
    simp only [sstep]
    split
    · exact hdel k
    · next hh =>
      refine ⟨h.1, fun x => ?_⟩
      dsimp only
      split
      · next hx =>
        subst hx
        have : Dict.get? d x = none := by simpa [Dict.has] using hh
        simp [this]
      · exact h.2 x
  | iter => exact ho.elim
  | len =>
    obtain ⟨h1, h2⟩ := cleanup_exact dflt h
    exact ⟨m, ⟨rfl, _, h1.1, h2, by simp [sstep]⟩, h1⟩
  | cleanup => exact ⟨m, ⟨rfl, rfl⟩, (cleanup_exact dflt h).1⟩

/-- C13, for every history of assignments, lookups, deletions, membership tests, lengths and cleanups: the
results are those of a total map.  Partial: iteration is broken (next theorem) and so is changing a looked up
object in place. -/
theorem C13_default_dict_is_total_map_partial (ops : List (SOp K V)) (hP : ∀ o ∈ ops, SRegular o) :
    ∃ m', History (SSpec dflt) (fun _ => dflt) ops (runOps (sstep dflt bm) [] ops).2 m' := by
  obtain ⟨m', h, _⟩ := history_of_sim (step := sstep dflt bm) (spec := SSpec dflt) (SRep dflt) SRegular
    (fun s b o hp hr => sstep_sim dflt bm o hp hr) [] (fun _ => dflt) ops hP
    ⟨Dict.wf_nil, fun _ => rfl⟩
  exact ⟨m', h⟩

/-- C13: after a cleanup no entry equal to the default is stored and every other entry is kept; whatever was done before
(in-place updates included, hence the arbitrary dictionary). -/
theorem C13_cleanup_frees_defaults (d : Dict K V) (hw : Dict.WF d) :
    (∀ k v, (k, v) ∈ scleanup dflt d ↔ (k, v) ∈ d ∧ v ≠ dflt) := by
  have hR : SRep dflt d (fun k => (Dict.get? d k).getD dflt) := ⟨hw, fun _ => rfl⟩
  obtain ⟨h1, h2⟩ := cleanup_fold dflt (Dict.keys d) d _ hR
  intro k v
  unfold scleanup
  rw [Dict.mem_iff h1.1, Dict.mem_iff hw]
  rw [h2 k]
  constructor
  · intro hk
    split at hk
    · simp at hk
    · next hc =>
      refine ⟨hk, ?_⟩
      rintro rfl
      exact hc ⟨(Dict.get?_isSome_iff d k).1 (by simp [hk]), hk⟩
  · rintro ⟨hk, hv⟩
    rw [if_neg]
    · exact hk
    · rintro ⟨_, hc⟩
      rw [hk] at hc; cases hc; exact hv rfl

/-- The code breaks C13: iteration yields nothing, whatever the dictionary holds: after
assigning a non-default value to `k`, a proper iteration would have to include `k`. -/
theorem C13_iteration_is_empty_violates (ops : List (SOp K V)) (k : K) (v : V) (hv : v ≠ dflt) :
    (sstep dflt bm (runOps (sstep dflt bm) [] (ops ++ [.set k v])).1 .iter).2 = .keys [] ∧
    ∀ (m m' : K → V), m k = v → ¬ SSpec dflt m .iter (.keys []) m' := by
  refine ⟨rfl, ?_⟩
  rintro m m' hm ⟨_, l, _, h2, h3⟩
  have hl : l = [] := by cases h3; rfl
  subst hl
  have := (h2 k).2 (by rw [hm]; exact hv)
  simp at this

/-- The code breaks C13 for `d[k].change()`: without background maintenance, after `d[k]` has been looked up once while at its default, the
next lookup takes the object out of the dictionary and a change made to it is lost. -/
theorem C13_in_place_update_lost_violates (k : K) (f : V → V) :
    (runOps (sstep dflt false) [] [.get k, .update k f, .get k]).2.getLast? = some (.val dflt) := by
  simp [runOps, sstep, sget, Dict.get?, Dict.set, Dict.del, Dict.has]

/-- and with background maintenance (the default setting) a change to a looked up default is never kept -/
theorem C13_in_place_update_never_kept_violates (k : K) (f : V → V) :
    (runOps (sstep dflt true) [] [.update k f, .get k]).2.getLast? = some (.val dflt) := by
  simp [runOps, sstep, sget, Dict.get?, Dict.has]

end

/-! ### Non-vacuity -/

/-- entries living 10, an overwritten one, a dead one found by membership and by length -/
def exOps : List (Op Nat Nat × Int) :=
  [(.set 1 5, 0), (.set 2 6, 3), (.set 1 7, 5), (.get 2, 13), (.contains 2, 14), (.len, 14), (.del 1, 15),
   (.iter, 20)]

example : List.Pairwise (fun a b : Op Nat Nat × Int => a.2 ≤ b.2) exOps := by
  simp [exOps]

example := C12_expiring_dict_any_history_partial (cpython (Int × Nat)) 10 exOps (by simp [exOps])

example (H : Heapq (Int × Nat)) : AllSteps Guard (step H 10) (St.init H : St Nat Nat)
    [(.set 1 5, 0), (.get 1, 10), (.contains 2, 14), (.len, 14), (.set 2 6, 20), (.del 2, 21)] := by
  have e1 : H.heapify [] = [] := heapify_nil H
  simp [AllSteps, Guard, step, St.init, TSHeap.init, TSHeap.push, e1, push_nil, Dict.has, Dict.get?, Dict.set,
    St.cleanup, cleanupLoop, TSHeap.pop, pop_single, Dict.del]

example : ∀ o ∈ ([.set 1 5, .get 2, .del 1, .len, .cleanup, .contains 3] : List (SOp Nat Nat)), SRegular o := by
  simp [SRegular]

end Verif.Expiring
