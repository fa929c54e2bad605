import Verif.Syncable.Spec
/-! # C15: SyncableDroppable -/
namespace Verif.Syncable
open Verif

section
variable {V : Type _} {spanMem spanDb : Int}

/-- keys strictly ascending -/
def Asc (l : List (Pt V)) : Prop := l.Pairwise (fun x y => x.1 < y.1)

theorem asc_append {a b : List (Pt V)} : Asc (a ++ b) ↔ Asc a ∧ Asc b ∧ ∀ x ∈ a, ∀ y ∈ b, x.1 < y.1 :=
  List.pairwise_append

theorem dbPut_end {db : List (Pt V)} {x : Pt V} (h : ∀ y ∈ db, y.1 < x.1) : dbPut db x = db ++ [x] := by
  unfold dbPut
  rw [List.filter_eq_self.2 (by intro y hy; simpa using h y hy), List.filter_eq_nil_iff.2]
  · simp
  · intro y hy; have := h y hy; simp; omega

theorem foldl_dbPut (l : List (Pt V)) : ∀ db : List (Pt V), Asc (db ++ l) → l.foldl dbPut db = db ++ l := by
  induction l with
  | nil => intro db _; simp
  | cons x xs ih =>
    intro db h
    have hx : ∀ y ∈ db, y.1 < x.1 := fun y hy => (asc_append.1 h).2.2 y hy x (by simp)
    rw [List.foldl_cons, dbPut_end hx, ih _ (by simpa using h)]
    simp

/-- the concrete object holds the series, first in the database, then in memory -/
structure Rep (s : St V) (a : Series V) : Prop where
  data : s.db ++ s.mem = a.data
  asc : Asc a.data
  start : s.start = a.data.head?.map (·.1)
  stop : s.stop = a.data.getLast?.map (·.1)
  synced : s.synced = a.synced
  /-- nothing is confirmed that was not accepted -/
  bound : ∀ y, a.synced = some y → ∃ l, a.data.getLast? = some l ∧ y ≤ l.1

/-- Where the code does what it should: a sync request when there is data in memory, the first key is not 0, and either nothing was
confirmed and the database does not hold more than was asked for, or the confirmation reaches into the memory; an archive
query when the database is empty or the memory is not; only accepted keys are confirmed. -/
def Guard (s : St V) : Op V → Prop
  | .archive _ _ => s.mem ≠ [] ∨ s.db = []
  | .syncRequest m => s.start = none ∨
      s.start ≠ some 0 ∧ s.mem ≠ [] ∧
        (s.synced = none ∧ (∀ n, m = some n → s.db.length ≤ n) ∨
          ∃ y f, s.synced = some y ∧ s.firstKey = some f ∧ f ≤ y)
  | .syncedUpTo k => ∃ l, s.stop = some l ∧ k ≤ l
  | _ => True

theorem getLast_key_max {l : List (Pt V)} (h : Asc l) {z : Pt V} (hz : l.getLast? = some z) :
    ∀ x ∈ l, x.1 ≤ z.1 := by
  obtain ⟨l', rfl⟩ : ∃ l', l = l' ++ [z] := by
    rcases List.eq_nil_or_concat l with hc | ⟨r, w, hc⟩
    · subst hc; simp at hz
    · rw [List.concat_eq_append] at hc; subst hc
      simp at hz; subst hz; exact ⟨r, rfl⟩
  intro x hx
  rcases List.mem_append.1 hx with hx | hx
  · exact Int.le_of_lt ((asc_append.1 h).2.2 x hx z (by simp))
  · simp at hx; subst hx; exact Int.le_refl _

theorem head_key_min {z : Pt V} {l : List (Pt V)} (h : Asc (z :: l)) : ∀ x ∈ z :: l, z.1 ≤ x.1 := by
  intro x hx
  rcases List.mem_cons.1 hx with hx | hx
  · subst hx; exact Int.le_refl _
  · exact Int.le_of_lt (List.rel_of_pairwise_cons h hx)

/-- reading an ascending list from `i` to `j` -/
theorem scan_eq (i j : Int) : ∀ l : List (Pt V), Asc l →
    (scan i j l).1 = l.filter (fun x => i ≤ x.1 ∧ x.1 ≤ j) ∧
    ((scan i j l).2 = false → ∃ x ∈ l, j < x.1) := by
  intro l
  induction l with
  | nil => intro _; simp [scan]
  | cons x xs ih =>
    intro h
    obtain ⟨h1, h2⟩ := ih (List.Pairwise.of_cons h)
    unfold scan
    split
    · next hlt =>
      have : ¬ i ≤ x.1 := by omega
      refine ⟨by rw [h1]; simp [this], fun hf => ?_⟩
      obtain ⟨y, hy, hy'⟩ := h2 hf
      exact ⟨y, by simp [hy], hy'⟩
    · next hge =>
      split
      · next hgt =>
        refine ⟨?_, fun _ => ⟨x, by simp, hgt⟩⟩
        symm
        rw [List.filter_eq_nil_iff]
        intro y hy
        have := head_key_min h y hy
        simp; omega
      · next hle =>
        have : i ≤ x.1 ∧ x.1 ≤ j := by omega
        refine ⟨by simp [h1, this.1, this.2], fun hf => ?_⟩
        obtain ⟨y, hy, hy'⟩ := h2 hf
        exact ⟨y, by simp [hy], hy'⟩

theorem breakIndex_some (c : Int) : ∀ (l : List (Pt V)) (i : Nat), breakIndex c l = some i →
    (∀ x ∈ l.take i, x.1 ≤ c) ∧ ∃ z zs, l.drop i = z :: zs ∧ c < z.1 := by
  intro l
  induction l with
  | nil => intro i h; simp [breakIndex] at h
  | cons x xs ih =>
    intro i h
    unfold breakIndex at h
    split at h
    · next hx =>
      simp at h; subst h
      exact ⟨by simp, x, xs, by simp, hx⟩
    · next hx =>
      cases hb : breakIndex c xs with
      | none => simp [hb] at h
      | some j =>
        simp [hb] at h; subst h
        obtain ⟨h1, z, zs, h2, h3⟩ := ih j hb
        refine ⟨?_, z, zs, by simpa using h2, h3⟩
        intro y hy
        rw [List.take_succ_cons] at hy
        rcases List.mem_cons.1 hy with hy | hy
        · subst hy; omega
        · exact h1 y hy

theorem breakIndex_none (c : Int) : ∀ (l : List (Pt V)), breakIndex c l = none → ∀ x ∈ l, x.1 ≤ c := by
  intro l
  induction l with
  | nil => intro _ x hx; simp at hx
  | cons x xs ih =>
    intro h
    unfold breakIndex at h
    split at h
    · simp at h
    · next hx =>
      simp at h
      intro y hy
      rcases List.mem_cons.1 hy with hy | hy
      · subst hy; omega
      · exact ih h y hy

/-- the clean-up loop over an ascending database deletes exactly the old entries -/
theorem dbLoop_eq (c : Int) : ∀ l : List (Pt V), Asc l →
    dbLoop c l l = (l.filter (fun x => c ≤ x.1), ((l.filter (fun x => c ≤ x.1)).head?).map (·.1)) := by
  intro l
  induction l with
  | nil => intro _; simp [dbLoop]
  | cons x xs ih =>
    intro h
    unfold dbLoop
    split
    · next hx =>
      have hdel : dbDelete (x :: xs) x.1 = xs := by
        unfold dbDelete
        rw [List.filter_cons]
        simp only [ne_eq, not_true_eq_false, decide_false, Bool.false_eq_true, ↓reduceIte]
        apply List.filter_eq_self.2
        intro y hy
        have := List.rel_of_pairwise_cons h hy
        simp; omega
      rw [hdel, ih (List.Pairwise.of_cons h)]
      have : ¬ c ≤ x.1 := by omega
      simp [this]
    · next hx =>
      have : (x :: xs).filter (fun x => decide (c ≤ x.1)) = x :: xs := by
        apply List.filter_eq_self.2
        intro y hy
        have := head_key_min h y hy
        simp; omega
      rw [this]; simp

theorem asc_filter {l : List (Pt V)} (p : Pt V → Bool) (h : Asc l) : Asc (l.filter p) := List.Pairwise.filter p h

theorem getLast_filter {l : List (Pt V)} {z : Pt V} (p : Pt V → Bool) (hz : l.getLast? = some z) (hp : p z = true) :
    (l.filter p).getLast? = some z := by
  rcases List.eq_nil_or_concat l with hc | ⟨r, w, hc⟩
  · subst hc; simp at hz
  · rw [List.concat_eq_append] at hc; subst hc
    simp at hz; subst hz
    simp [List.filter_append, hp]

theorem rep_same_data {s : St V} {a : Series V} (h : Rep s a) (db mem : List (Pt V)) (hd : db ++ mem = a.data) :
    Rep { s with db := db, mem := mem } a :=
  ⟨hd, h.asc, h.start, h.stop, h.synced, h.bound⟩

theorem cleanup_rep {s : St V} {a : Series V} (h : Rep s a) {l : Pt V} (hl : a.data.getLast? = some l)
    (hpos : 0 < spanDb) (s' : St V)
    (hd : s'.db ++ s'.mem = a.data.filter (fun x => decide (l.1 - spanDb ≤ x.1)))
    (hst : s'.start = ((a.data.filter (fun x => decide (l.1 - spanDb ≤ x.1))).head?).map (·.1))
    (hsp : s'.stop = s.stop) (hsy : s'.synced = s.synced) :
    Rep s' { a with data := a.data.filter (fun x => decide (l.1 - spanDb ≤ x.1)) } := by
  have hlast : (a.data.filter (fun x => decide (l.1 - spanDb ≤ x.1))).getLast? = some l :=
    getLast_filter _ hl (by simp; omega)
  refine ⟨hd, asc_filter _ h.asc, hst, ?_, by rw [hsy]; exact h.synced, ?_⟩
  · rw [hsp, h.stop, hlast, hl]
  · intro y hy
    obtain ⟨l', h1, h2⟩ := h.bound y hy
    rw [hl] at h1
    simp at h1; subst h1
    exact ⟨l, hlast, h2⟩

/-- filtering from a cutoff that falls on the database only keeps the memory whole -/
theorem filter_mem_of_db {db mem : List (Pt V)} (h : Asc (db ++ mem)) (c : Int)
    (hne : db.filter (fun x => decide (c ≤ x.1)) ≠ []) : mem.filter (fun x => decide (c ≤ x.1)) = mem := by
  apply List.filter_eq_self.2
  intro y hy
  obtain ⟨x, hx⟩ := List.exists_mem_of_ne_nil _ hne
  rw [List.mem_filter] at hx
  have := (asc_append.1 h).2.2 x hx.1 y hy
  have h2 := hx.2
  simp at h2
  simp; omega

theorem cleanupDb_sim {s : St V} {a : Series V} (h : Rep s a) (hpos : 0 < spanDb) :
    ∃ a', Spec spanDb a .cleanupDb (St.cleanupDb spanDb 2 s).2 a' ∧ Rep (St.cleanupDb spanDb 2 s).1 a' := by
  have hd := h.data
  cases hm : s.mem with
  | nil =>
    refine ⟨a, ?_, ?_⟩
    · unfold St.cleanupDb
      rw [hm]
      cases s.start <;> exact .cleanupNothing
    · unfold St.cleanupDb
      rw [hm]
      cases s.start <;> exact h
  | cons f ms =>
    have hne : a.data ≠ [] := by rw [← hd, hm]; simp
    obtain ⟨l, hl⟩ : ∃ l, a.data.getLast? = some l := by
      cases hg : a.data.getLast? with
      | none => rw [List.getLast?_eq_none_iff] at hg; exact absurd hg hne
      | some l => exact ⟨l, rfl⟩
    have hlm : s.mem.getLast? = some l := by
      rw [← hd, List.getLast?_append] at hl
      rw [hm] at hl ⊢
      have : (f :: ms).getLast? ≠ none := by simp
      cases hg : (f :: ms).getLast? with
      | none => exact absurd hg this
      | some w => rw [hg] at hl; simpa using hl
    have hstop : s.stop = some l.1 := by rw [h.stop, hl]; rfl
    have hascdb : Asc (s.db ++ s.mem) := by rw [hd]; exact h.asc
    refine ⟨{ a with data := a.data.filter (fun x => decide (l.1 - spanDb ≤ x.1)) }, ?_⟩
    have hspec : Spec spanDb a .cleanupDb .unit
        { a with data := a.data.filter (fun x => decide (l.1 - spanDb ≤ x.1)) } := .cleanupDb hl
    -- the memory after filtering is not empty: it has the newest entry
    have hml : (s.mem.filter (fun x => decide (x.1 ≥ l.1 - spanDb))).getLast? = some l :=
      getLast_filter _ hlm (by simp; omega)
    have hge : ∀ c : Int, (fun x : Pt V => decide (x.1 ≥ c)) = (fun x : Pt V => decide (c ≤ x.1)) := fun c => rfl
    cases hdb : s.db with
    | nil =>
      have hst : s.start = some f.1 := by rw [h.start, ← hd, hdb, hm]; rfl
      have heq : St.cleanupDb spanDb 2 s = (s.cleanupAllInMemory (l.1 - spanDb), .unit) := by
        rw [St.cleanupDb, hst, hm, hstop]
        simp
      rw [heq]
      refine ⟨hspec, ?_⟩
      unfold St.cleanupAllInMemory
      dsimp only [St.firstKey]
      rw [hge]
      have hmd : s.mem = a.data := by rw [← hd, hdb]; rfl
      cases hh : (s.mem.filter (fun x => decide (l.1 - spanDb ≤ x.1))).head? with
      | none =>
        rw [List.head?_eq_none_iff] at hh
        rw [hge, hh] at hml; simp at hml
      | some w =>
        apply cleanup_rep h hl hpos
        · show s.db ++ _ = _
          rw [hdb, hmd]; rfl
        · show some w.1 = _
          rw [hmd] at hh
          rw [hh]; rfl
        · rfl
        · rfl
    | cons d ds =>
      have hst : s.start = some d.1 := by rw [h.start, ← hd, hdb]; rfl
      have hdf : d.1 < f.1 := (asc_append.1 hascdb).2.2 d (by simp [hdb]) f (by simp [hm])
      have hne' : d.1 ≠ f.1 := by omega
      have hascd : Asc s.db := (asc_append.1 hascdb).1
      have hit : dbIterate s.db s.start = s.db := by
        rw [hst]
        unfold dbIterate
        apply List.filter_eq_self.2
        intro y hy
        rw [hdb] at hy hascd
        have := head_key_min hascd y hy
        simpa using this
      have hfull : a.data.filter (fun x => decide (l.1 - spanDb ≤ x.1)) =
          s.db.filter (fun x => decide (l.1 - spanDb ≤ x.1)) ++ s.mem.filter (fun x => decide (l.1 - spanDb ≤ x.1)) := by
        rw [← hd, List.filter_append]
      have hloop := dbLoop_eq (l.1 - spanDb) s.db hascd
      rw [St.cleanupDb]
      rw [hst, hm, hstop]
      simp only [hne', ↓reduceIte]
      unfold St.cleanupTheDb
      rw [hit, hloop]
      cases hh : (s.db.filter (fun x => decide (l.1 - spanDb ≤ x.1))).head? with
      | some w =>
        dsimp only [Option.map_some]
        refine ⟨hspec, ?_⟩
        have hkeep := filter_mem_of_db hascdb (l.1 - spanDb) (by
          intro hc; rw [hc] at hh; simp at hh)
        apply cleanup_rep h hl hpos
        · rw [hfull, hkeep]
        · rw [hfull, List.head?_append, hh]; rfl
        · rfl
        · rfl
      | none =>
        dsimp only [Option.map_none, St.firstKey]
        rw [List.head?_eq_none_iff] at hh
        rw [hm]
        dsimp only [List.head?_cons, Option.map_some]
        rw [hh]
        rw [St.cleanupDb]
        dsimp only
        rw [hstop]
        simp only [↓reduceIte]
        refine ⟨hspec, ?_⟩
        unfold St.cleanupAllInMemory
        dsimp only [St.firstKey]
        rw [hge]
        cases hh2 : (s.mem.filter (fun x => decide (l.1 - spanDb ≤ x.1))).head? with
        | none =>
          rw [List.head?_eq_none_iff] at hh2
          rw [hge, hh2] at hml; simp at hml
        | some w =>
          rw [hm] at hh2
          rw [hh2]
          dsimp only [Option.map_some]
          apply cleanup_rep h hl hpos
          · rw [hfull, hh, hm]
          · rw [hfull, hh, hm, List.nil_append, hh2]; rfl
          · exact hstop.symm
          · rfl

theorem latest_sim {s : St V} {a : Series V} (h : Rep s a) : Spec spanDb a .latest s.latest a := by
  unfold St.latest
  cases hl : a.data.getLast? with
  | none =>
    rw [h.stop, hl]
    exact .latestNone (List.getLast?_eq_none_iff.1 hl)
  | some l =>
    rw [h.stop, hl]
    dsimp only [Option.map_some]
    have hd := h.data
    cases hm : s.mem.getLast? with
    | some x =>
      rw [← hd, List.getLast?_append, hm] at hl
      simp at hl; subst hl
      exact .latest (by rw [← hd, List.getLast?_append, hm]; rfl)
    | none =>
      dsimp only
      have hm' := List.getLast?_eq_none_iff.1 hm
      have hdb : s.db = a.data := by rw [← hd, hm']; simp
      have : dbIterate s.db (some l.1) = [l] := by
        unfold dbIterate
        rw [hdb]
        have hasc := h.asc
        rcases List.eq_nil_or_concat a.data with hc | ⟨r, w, hc⟩
        · rw [hc] at hl; simp at hl
        · rw [List.concat_eq_append] at hc
          rw [hc] at hl hasc
          simp at hl; subst hl
          rw [hc]
          dsimp only
          rw [List.filter_append]
          have : r.filter (fun y => decide (w.1 ≤ y.1)) = [] := by
            rw [List.filter_eq_nil_iff]
            intro y hy
            have := (asc_append.1 hasc).2.2 y hy w (by simp)
            simp; omega
          rw [this]; simp
      rw [this]
      exact .latest hl

theorem archive_sim {s : St V} {a : Series V} (h : Rep s a) (i j : Int) (hg : s.mem ≠ [] ∨ s.db = []) :
    s.archive i j = a.data.filter (fun x => decide (i ≤ x.1 ∧ x.1 ≤ j)) := by
  have hd := h.data
  have hasc : Asc (s.db ++ s.mem) := by rw [hd]; exact h.asc
  obtain ⟨hA, hB, hC⟩ := asc_append.1 hasc
  unfold St.archive St.firstKey
  cases hm : s.mem with
  | nil =>
    have : s.db = [] := by rcases hg with hg | hg; exact absurd hm hg; exact hg
    rw [← hd, this, hm]; rfl
  | cons f ms =>
    dsimp only [List.head?_cons, Option.map_some]
    rw [← hm, ← hd, List.filter_append]
    split
    · next hle =>
      rw [(scan_eq i j s.mem hB).1]
      have : s.db.filter (fun x => decide (i ≤ x.1 ∧ x.1 ≤ j)) = [] := by
        rw [List.filter_eq_nil_iff]
        intro y hy
        have := hC y hy f (by simp [hm])
        simp; omega
      rw [this]; rfl
    · next hgt =>
      have hdi := scan_eq i j (dbIterate s.db (some i)) (asc_filter _ hA)
      have hff : (dbIterate s.db (some i)).filter (fun x => decide (i ≤ x.1 ∧ x.1 ≤ j)) =
          s.db.filter (fun x => decide (i ≤ x.1 ∧ x.1 ≤ j)) := by
        unfold dbIterate
        rw [List.filter_filter]
        congr 1
        funext x
        by_cases h1 : i ≤ x.1 <;> simp [h1]
      split
      · rw [hdi.1, hff, (scan_eq f.1 j s.mem hB).1]
        congr 1
        apply List.filter_congr
        intro x hx
        have : f.1 ≤ x.1 := by
          rw [hm] at hx hB
          exact head_key_min hB x hx
        simp only [decide_eq_decide]
        omega
      · next hf =>
        obtain ⟨x, hx, hxj⟩ := hdi.2 (by simpa using hf)
        unfold dbIterate at hx
        rw [List.mem_filter] at hx
        rw [hdi.1, hff]
        have : s.mem.filter (fun x => decide (i ≤ x.1 ∧ x.1 ≤ j)) = [] := by
          rw [List.filter_eq_nil_iff]
          intro y hy
          have := hC x hx.1 y hy
          simp; omega
        rw [this]; simp

theorem request_sim {s : St V} {a : Series V} (h : Rep s a) (m : Option Nat) (hg : Guard s (.syncRequest m)) :
    Spec spanDb a (.syncRequest m) (s.syncRequest m) a := by
  have hd := h.data
  have hasc : Asc (s.db ++ s.mem) := by rw [hd]; exact h.asc
  obtain ⟨hA, hB, hC⟩ := asc_append.1 hasc
  unfold St.syncRequest
  rcases hg with hg | ⟨h0, hmem, hg⟩
  · rw [hg]
    have hnil : a.data = [] := by
      rw [h.start] at hg
      cases hh : a.data with
      | nil => rfl
      | cons x xs => rw [hh] at hg; simp at hg
    simp only [true_or, ↓reduceIte]
    apply Spec.requestNone
    unfold Series.unconfirmed
    split <;> simp [hnil]
  · have hne : a.data ≠ [] := by rw [← hd]; simp [hmem]
    have hsn : s.start ≠ none := by
      rw [h.start]
      cases hh : a.data with
      | nil => exact absurd hh hne
      | cons x xs => simp
    have hcond : ¬ (s.start = none ∨ s.start = some 0) := by
      rintro (hc | hc)
      · exact hsn hc
      · exact h0 hc
    simp only [hcond, ↓reduceIte]
    obtain ⟨l, hl⟩ : ∃ l, s.mem.getLast? = some l := by
      cases hgl : s.mem.getLast? with
      | none => exact absurd (List.getLast?_eq_none_iff.1 hgl) hmem
      | some l => exact ⟨l, rfl⟩
    have hla : a.data.getLast? = some l := by rw [← hd, List.getLast?_append, hl]; rfl
    rw [hl]
    dsimp only
    rcases hg with ⟨hs, hmax⟩ | ⟨y, f, hs, hf, hfy⟩
    · have hun : a.unconfirmed = a.data := by
        unfold Series.unconfirmed
        rw [← h.synced, hs]
      rw [hs]
      simp only [reduceCtorEq, ↓reduceIte]
      have hres : Spec spanDb a (.syncRequest m) (.items (takeMax m a.unconfirmed)) a :=
        .request (by rw [hun]; exact hne)
      rw [hun, ← hd] at hres
      cases m with
      | none => exact hres
      | some n =>
        have hle := hmax n rfl
        show Spec spanDb a _ (if s.db.length < n then .items (s.db ++ s.mem.take (n - s.db.length)) else .items s.db) a
        dsimp only [takeMax] at hres
        rw [List.take_append] at hres
        by_cases hlt : s.db.length < n
        · rw [if_pos hlt]
          rw [List.take_of_length_le (by omega)] at hres
          exact hres
        · rw [if_neg hlt]
          have : n = s.db.length := by omega
          subst this
          simpa using hres
    · have hun : a.unconfirmed = s.mem.filter (fun x => decide (y < x.1)) := by
        unfold Series.unconfirmed
        rw [← h.synced, hs]
        dsimp only
        rw [← hd, List.filter_append]
        have : s.db.filter (fun x => decide (y < x.1)) = [] := by
          rw [List.filter_eq_nil_iff]
          intro x hx
          cases hm : s.mem with
          | nil => exact absurd hm hmem
          | cons f' ms =>
            have : f'.1 = f := by simpa [St.firstKey, hm] using hf
            have := hC x hx f' (by simp [hm])
            simp; omega
        rw [this]; rfl
      rw [hs]
      split
      · next heq =>
        apply Spec.requestNone
        rw [hun, List.filter_eq_nil_iff]
        intro x hx
        have := getLast_key_max hB hl x hx
        simp at heq
        simp; omega
      · next hneq =>
        rw [hf]
        simp only [hfy, ↓reduceIte]
        have hres : Spec spanDb a (.syncRequest m) (.items (takeMax m a.unconfirmed)) a := by
          apply Spec.request
          rw [hun]
          obtain ⟨l', h1, h2⟩ := h.bound y (by rw [← h.synced, hs])
          rw [hla] at h1
          simp at h1; subst h1
          have hlt : y < l.1 := by
            have : y ≠ l.1 := fun hc => hneq (by rw [hc])
            omega
          intro hc
          rw [List.filter_eq_nil_iff] at hc
          exact hc l (List.mem_of_getLast? hl) (by simpa using hlt)
        rw [hun] at hres
        exact hres

theorem new_rep {s : St V} {a : Series V} (h : Rep s a) (k : Int) (v : V) (hk : ∀ x ∈ a.data, x.1 < k) :
    Rep { s with mem := s.mem ++ [(k, v)], stop := some k, start := some (s.start.getD k) }
      { a with data := a.data ++ [(k, v)] } := by
  refine ⟨by simp [← h.data], ?_, ?_, by simp, h.synced, ?_⟩
  · rw [asc_append]
    exact ⟨h.asc, List.pairwise_singleton _ _, fun x hx y hy => by simp at hy; subst hy; exact hk x hx⟩
  · show some (s.start.getD k) = _
    rw [h.start]
    cases hh : a.data with
    | nil => simp
    | cons x xs => simp
  · intro y hy
    obtain ⟨l, h1, h2⟩ := h.bound y hy
    refine ⟨(k, v), by simp, ?_⟩
    have := hk l (List.mem_of_getLast? h1)
    show y ≤ k
    omega

theorem step_sim {s : St V} {a : Series V} (o : Op V) (hg : Guard s o) (h : Rep s a) (hpos : 0 < spanDb) :
    ∃ a', Spec spanDb a o (step spanMem spanDb s o).2 a' ∧ Rep (step spanMem spanDb s o).1 a' := by
  have hd := h.data
  have hasc : Asc (s.db ++ s.mem) := by rw [hd]; exact h.asc
  cases o with
  | newData k v =>
    simp only [step]
    cases hl : a.data.getLast? with
    | none =>
      have hnil := List.getLast?_eq_none_iff.1 hl
      rw [h.stop, hl]
      dsimp only [Option.map_none]
      have hk : ∀ x ∈ a.data, x.1 < k := by rw [hnil]; simp
      exact ⟨_, .new hk, new_rep h k v hk⟩
    | some l =>
      rw [h.stop, hl]
      dsimp only [Option.map_some]
      split
      · next hle => exact ⟨a, .old ⟨l, List.mem_of_getLast? hl, hle⟩, h⟩
      · next hgt =>
        have hk : ∀ x ∈ a.data, x.1 < k := by
          intro x hx
          have := getLast_key_max h.asc hl x hx
          omega
        exact ⟨_, .new hk, new_rep h k v hk⟩
  | syncToDb =>
    refine ⟨a, .syncToDb, ?_⟩
    apply rep_same_data h
    rw [foldl_dbPut _ _ hasc]; simpa using hd
  | cleanupMemory =>
    simp only [step, St.cleanupMemory, St.firstKey]
    cases hm : s.mem with
    | nil => exact ⟨a, .cleanupMemory, h⟩
    | cons f ms =>
      dsimp only [List.head?_cons, Option.map_some]
      have hne : a.data ≠ [] := by rw [← hd, hm]; simp
      cases hl : a.data.getLast? with
      | none => exact absurd (List.getLast?_eq_none_iff.1 hl) hne
      | some l =>
        rw [h.stop, hl]
        dsimp only [Option.map_some]
        rw [← hm]
        split
        · next i hi =>
          refine ⟨a, .cleanupMemory, ?_⟩
          have hr : Rep { s with db := (s.mem.take i).foldl dbPut s.db, mem := s.mem.drop i } a := by
            apply rep_same_data h
            rw [foldl_dbPut]
            · rw [List.append_assoc, List.take_append_drop]; exact hd
            · have : Asc (s.db ++ (s.mem.take i ++ s.mem.drop i)) := by rw [List.take_append_drop]; exact hasc
              rw [← List.append_assoc] at this
              exact (asc_append.1 this).1
          have hst := h.stop
          rw [hl] at hst
          simpa [hst] using hr
        · refine ⟨a, .cleanupMemory, ?_⟩
          have hr : Rep s.syncToDb a := by
            apply rep_same_data h
            rw [foldl_dbPut _ _ hasc]; simpa using hd
          exact hr
  | cleanupDb => exact cleanupDb_sim h hpos
  | archive i j =>
    refine ⟨a, ?_, h⟩
    simp only [step]
    rw [archive_sim h i j hg]
    exact .archive
  | latest => exact ⟨a, latest_sim h, h⟩
  | syncRequest m => exact ⟨a, request_sim h m hg, h⟩
  | syncedUpTo k =>
    refine ⟨{ a with synced := some k }, .confirm, h.data, h.asc, h.start, h.stop, rfl, ?_⟩
    intro y hy
    simp at hy; subst hy
    obtain ⟨l, h1, h2⟩ := hg
    rw [h.stop] at h1
    cases hl : a.data.getLast? with
    | none => rw [hl] at h1; simp at h1
    | some z => rw [hl] at h1; simp at h1; subst h1; exact ⟨z, rfl, h2⟩

/-- **C15.** For every database with ascending keys, everything up to `synced` of it confirmed, and every history of calls within
the guard, the results are those of the series: new data is accepted iff newer than everything held, sync requests report the unconfirmed
data in order and at most the amount asked for, moving data to the database changes nothing, and cleaning up drops only data older than
the span.  At the end the database followed by the memory is exactly the series.
Missing for the full statement: sync requests outside the guard, which go wrong
(`C15_confirmed_again_violates` and the theorems after it). -/
theorem C15_series_partial (hpos : 0 < spanDb) (db : List (Pt V)) (synced : Option Int) (hasc : Asc db)
    (hsync : ∀ y, synced = some y → ∃ l, db.getLast? = some l ∧ y ≤ l.1) (ops : List (Op V))
    (hg : AllSteps Guard (step spanMem spanDb) (St.init db synced) ops) :
    ∃ a, History (Spec spanDb) { data := db, synced := synced } ops
        (runOps (step spanMem spanDb) (St.init db synced) ops).2 a ∧
      (runOps (step spanMem spanDb) (St.init db synced) ops).1.db ++
        (runOps (step spanMem spanDb) (St.init db synced) ops).1.mem = a.data := by
  obtain ⟨a, h1, h2⟩ := history_of_sim' (spec := Spec spanDb) Rep Guard
    (fun s b o hg h => step_sim o hg h hpos) (St.init db synced) { data := db, synced := synced } ops hg
    ⟨by simp [St.init], hasc, rfl, rfl, rfl, hsync⟩
  exact ⟨a, h1, h2.data⟩

/-- **C15**, memory: after `cleanup_keep_in_memory` only data inside the span is in memory, everything else is in the database. -/
theorem C15_memory_bounded (s : St V) (hasc : Asc s.mem) (stop : Int) (hs : s.stop = some stop) :
    (∀ x ∈ (step spanMem spanDb s .cleanupMemory).1.mem, stop - spanMem < x.1) ∧
      (Asc (s.db ++ s.mem) →
        (step spanMem spanDb s .cleanupMemory).1.db ++ (step spanMem spanDb s .cleanupMemory).1.mem =
          s.db ++ s.mem) := by
  simp only [step, St.cleanupMemory, St.firstKey]
  cases hm : s.mem with
  | nil => simp [hm]
  | cons f ms =>
    dsimp only [List.head?_cons, Option.map_some]
    rw [hs]
    dsimp only
    rw [← hm]
    split
    · next i hi =>
      obtain ⟨h1, z, zs, h2, h3⟩ := breakIndex_some _ _ _ hi
      refine ⟨?_, ?_⟩
      · intro x hx
        have hasc' : Asc (s.mem.drop i) := List.Pairwise.sublist (List.drop_sublist i _) hasc
        rw [h2] at hx hasc'
        have := head_key_min hasc' x hx
        omega
      · intro ha
        dsimp only
        rw [foldl_dbPut]
        · rw [List.append_assoc, List.take_append_drop]
        · have : Asc (s.db ++ (s.mem.take i ++ s.mem.drop i)) := by rw [List.take_append_drop]; exact ha
          rw [← List.append_assoc] at this
          exact (asc_append.1 this).1
    · refine ⟨by simp [St.syncToDb], fun ha => ?_⟩
      simp only [St.syncToDb]
      rw [foldl_dbPut _ _ ha]; simp

end

/-! ## Where the statement is false -/

section
variable {V : Type} (spanMem spanDb : Int)

/-- **C15 is false**: confirm an item, store it, add two newer ones.  The sync request reports the confirmed item again and
neither of the new ones, for all items. -/
theorem C15_confirmed_again_violates (i j k : Int) (v w u : V) (hij : i < j) (hjk : j < k) (hi : i ≠ 0) :
    (step spanMem spanDb (runOps (step spanMem spanDb) (St.init [] none)
      [.newData i v, .syncedUpTo i, .syncToDb, .newData j w, .newData k u]).1 (.syncRequest none)).2 = .items [(i, v)] := by
  have h1 : ¬ j ≤ i := by omega
  have h2 : ¬ i = k := by omega
  have h3 : ¬ k ≤ j := by omega
  simp [h3, runOps, step, St.init, St.syncToDb, St.syncRequest, dbPut, dbIterate, St.firstKey, appendIndex, h1, h2, hi, hij]

/-- **C15 is false**: with more data in the database than asked for, too much is reported. -/
theorem C15_maximum_ignored_violates (i j k : Int) (v w u : V) (hij : i < j) (hjk : j < k) (hi : i ≠ 0) :
    (step spanMem spanDb (runOps (step spanMem spanDb) (St.init [] none)
      [.newData i v, .newData j w, .syncToDb, .newData k u]).1 (.syncRequest (some 1))).2 =
      .items [(i, v), (j, w)] := by
  have h1 : ¬ j ≤ i := by omega
  have h2 : ¬ k ≤ j := by omega
  have h3 : ¬ j < i := by omega
  simp [runOps, step, St.init, St.syncToDb, St.syncRequest, dbPut, dbIterate, h1, h2, h3, hi, hij]

/-- **C15 is false**: the same with an item confirmed earlier: the request returns None instead of an iterator. -/
theorem C15_returns_none_violates (i j : Int) (v w : V) (hij : i < j) (hi : i ≠ 0) :
    (step spanMem spanDb (runOps (step spanMem spanDb) (St.init [] none)
      [.newData i v, .syncedUpTo i, .syncToDb, .newData j w]).1 (.syncRequest (some 1))).2 = .none := by
  have h1 : ¬ j ≤ i := by omega
  have h2 : ¬ i = j := by omega
  simp [runOps, step, St.init, St.syncToDb, St.syncRequest, dbPut, dbIterate, St.firstKey, h1, h2, hi]

/-- **C15 is false**: a series that starts at key 0 is never reported. -/
theorem C15_key_zero_violates (v : V) (m : Option Nat) :
    (step spanMem spanDb (runOps (step spanMem spanDb) (St.init [] none) [.newData 0 v]).1 (.syncRequest m)).2 =
      .exc .valueError := by
  simp [runOps, step, St.init, St.syncRequest]

/-- **C15 is false**: with all data in the database the request fails with IndexError, although nothing is confirmed. -/
theorem C15_nothing_in_memory_violates (i : Int) (v : V) (hi : i ≠ 0) (m : Option Nat) :
    (step spanMem spanDb (runOps (step spanMem spanDb) (St.init [] none)
      [.newData i v, .syncToDb]).1 (.syncRequest m)).2 = .exc .indexError := by
  simp [runOps, step, St.init, St.syncRequest, St.syncToDb, hi]

/-- **C15 is false** for archive queries with all data in the database: they find nothing. -/
theorem C15_archive_empty_violates (i : Int) (v : V) :
    (step spanMem spanDb (runOps (step spanMem spanDb) (St.init [] none)
      [.newData i v, .syncToDb]).1 (.archive i i)).2 = .items [] := by
  simp [runOps, step, St.init, St.syncToDb, St.archive, St.firstKey]

end

/-- a history within the guard: data moved to the database, requests, a confirmation and both clean-ups -/
example : AllSteps Guard (step (V := Nat) 5 10) (St.init [] none)
    [.newData 1 10, .newData 2 20, .newData 8 80, .cleanupMemory, .newData 20 200, .newData 10 1, .syncRequest (some 3),
     .syncedUpTo 8, .syncRequest none, .cleanupDb, .archive 2 9, .latest] := by
  simp [AllSteps, Guard, step, St.init, St.cleanupMemory, St.firstKey, breakIndex, dbPut, St.cleanupDb, St.cleanupTheDb,
    dbLoop, dbIterate, dbDelete, St.cleanupAllInMemory]

/-- and what it returns -/
example : (runOps (step (V := Nat) 5 10) (St.init [] none)
    [.newData 1 10, .newData 2 20, .newData 8 80, .cleanupMemory, .newData 20 200, .newData 10 1, .syncRequest (some 3),
     .syncedUpTo 8, .syncRequest none, .cleanupDb, .archive 2 20, .latest]).2 =
    [.unit, .unit, .unit, .unit, .unit, .exc .valueError, .items [(1, 10), (2, 20), (8, 80)], .unit,
     .items [(20, 200)], .unit, .items [(20, 200)], .item (20, 200)] := by
  decide

end Verif.Syncable
