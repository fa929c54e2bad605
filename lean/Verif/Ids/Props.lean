import Verif.Ids.Spec
/-! # C17, C18: IDAllocator and SequentialIssuer -/
namespace Verif.Ids
open Verif

/-! ## SequentialIssuer -/

theorem istep_lt (s : Int) (o : IOp) : s ≤ (istep s o).2 ∧ (istep s o).2 < (istep s o).1 := by
  cases o with
  | issue => simp [istep]; omega
  | noLessThan x => simp only [istep]; split <;> simp <;> omega

theorem issued_ge (ops : List IOp) : ∀ s, ∀ x ∈ (runOps istep s ops).2, s ≤ x := by
  induction ops with
  | nil => intro s x hx; simp [runOps] at hx
  | cons o os ih =>
    intro s x hx
    have h := istep_lt s o
    rcases List.mem_cons.1 hx with hx | hx
    · subst hx; exact h.1
    · have := ih _ x hx; omega

/-- **C18.** For every starting value and every order in which the threads' calls get the lock, the identifiers issued strictly
increase (so none is issued twice). -/
theorem C18_strictly_increasing (start : Int) (ops : List IOp) :
    (runOps istep start ops).2.Pairwise (· < ·) := by
  induction ops generalizing start with
  | nil => exact List.Pairwise.nil
  | cons o os ih =>
    refine List.Pairwise.cons ?_ (ih _)
    intro y hy
    have h := istep_lt start o
    have := issued_ge os _ y hy
    show (istep start o).2 < y
    omega

/-- **C18.** Every identifier is at least the starting value, and `no_less_than(x)` issues at least `x`; it issues exactly the larger of `x` and the
next identifier. -/
theorem C18_no_less_than (start : Int) (ops : List IOp) (x : Int) :
    x ≤ (istep (runOps istep start ops).1 (.noLessThan x)).2 ∧
    (∀ y ∈ (runOps istep start ops).2, start ≤ y) ∧
    (istep (runOps istep start ops).1 (.noLessThan x)).2 =
      max x (istep (runOps istep start ops).1 .issue).2 := by
  refine ⟨?_, issued_ge ops start, ?_⟩
  · simp only [istep]; split <;> simp <;> omega
  · simp only [istep]; split <;> simp <;> omega

/-- **C18.** The first identifier is the starting value; and after any call, and any calls before it, `issue` gives the number that follows the one given last. -/
theorem C18_consecutive (start : Int) (ops : List IOp) (o : IOp) :
    (istep start .issue).2 = start ∧ (runOps istep start (ops ++ [o, .issue])).2 = (runOps istep start (ops ++ [o])).2 ++ [(istep (runOps istep start ops).1 o).2 + 1] := by
  refine ⟨rfl, ?_⟩
  induction ops generalizing start with
  | nil =>
    cases o with
    | issue => simp [runOps, istep]
    | noLessThan x => 
      simp only [List.nil_append, runOps, istep]
      by_cases h : start > x <;> simp [h]
  | cons a ops ih => simp only [List.cons_append, runOps, ih]

example : (runOps istep 3 [.issue, .noLessThan 2, .noLessThan 9, .issue]).2 = [3, 4, 9, 10] := by decide

/-! ## IDAllocator -/

theorem mem_foldl_setAdd (l : List Int) : ∀ (f : List Int) (x : Int), x ∈ l.foldl setAdd f ↔ x ∈ f ∨ x ∈ l := by
  induction l with
  | nil => intro f x; simp
  | cons a l ih =>
    intro f x
    rw [List.foldl_cons, ih, mem_setAdd, List.mem_cons]
    constructor
    · rintro ((h | h) | h) <;> simp [h]
    · rintro (h | h | h) <;> simp [h]

theorem nodup_foldl_setAdd (l : List Int) : ∀ (f : List Int), f.Nodup → (l.foldl setAdd f).Nodup := by
  induction l with
  | nil => intro f h; exact h
  | cons a l ih => intro f h; exact ih _ (nodup_setAdd h)

theorem mem_pyRange {a b x : Int} : x ∈ pyRange a b ↔ a ≤ x ∧ x < b := by
  unfold pyRange
  rw [List.mem_map]
  constructor
  · rintro ⟨i, hi, rfl⟩
    rw [List.mem_range] at hi
    simp; omega
  · rintro ⟨h1, h2⟩
    exact ⟨(x - a).toNat, List.mem_range.2 (by omega), by simp; omega⟩

theorem mem_add {l : List Int} {x y : Int} : y ∈ setAdd l x ↔ y ∈ l ∨ y = x := by
  rw [mem_setAdd]; exact or_comm

/-- the invariant: free and allocated identifiers are all those below the bound, and none is both -/
structure Inv (limit : Option Int) (s : St) : Prop where
  cover : ∀ x, x ∈ s.free ∨ x ∈ s.allocated ↔ 0 ≤ x ∧ x < s.bound
  disj : ∀ x, x ∈ s.free → x ∉ s.allocated
  freeNodup : s.free.Nodup
  allocNodup : s.allocated.Nodup
  lim : ∀ t, limit = some t → s.bound ≤ max 0 t
  neg : s.bound < 0 → limit = some s.bound

/-- the identifiers in use -/
def Rep (startAt : Int) (limit : Option Int) (s : St) (A : Int → Prop) : Prop :=
  Inv limit s ∧ ∀ x, A x ↔ x - startAt ∈ s.allocated

theorem clip_cases {limit : Option Int} {s : St} (h : Inv limit s) (x : Int) (hx : s.bound ≤ x) :
    (0 ≤ s.bound ∧ s.bound ≤ clip limit x) ∨ (clip limit x < 0 ∧ limit = some (clip limit x)) := by
  have hn := h.neg
  have hl := h.lim
  unfold clip
  cases limit with
  | none =>
    left
    refine ⟨?_, hx⟩
    by_cases hb : s.bound < 0
    · simpa using hn hb
    · omega
  | some t =>
    have hl := hl t rfl
    dsimp only
    by_cases hb : s.bound < 0
    · have := Option.some.inj (hn hb)
      right
      split
      · exact ⟨by omega, rfl⟩
      · exact ⟨by omega, by congr 1; omega⟩
    · split
      · by_cases ht : t < 0
        · exact Or.inr ⟨ht, rfl⟩
        · left; omega
      · left; omega

theorem clip_le {limit : Option Int} {t : Int} (h : limit = some t) (x : Int) : clip limit x ≤ t := by
  subst h
  unfold clip
  dsimp only
  split <;> omega

theorem extend_inv {limit : Option Int} {s : St} (h : Inv limit s) (x : Int) (hx : s.bound ≤ x) :
    Inv limit (s.extend limit x).1 := by
  have hc := clip_cases h x hx
  refine ⟨?_, ?_, nodup_foldl_setAdd _ _ h.freeNodup, h.allocNodup, ?_, ?_⟩
  · intro y
    have hcov := h.cover y
    unfold St.extend
    dsimp only
    rw [mem_foldl_setAdd, mem_pyRange]
    by_cases hy : y < s.bound
    · constructor
      · rintro ((h1 | h1) | h1)
        · have := hcov.1 (Or.inl h1); have := h.neg; have hl := h.lim; 
          rcases hc with hc | ⟨hc, hc'⟩
          · omega
          · have := hl _ hc'; omega
        · omega
        · have := hcov.1 (Or.inr h1); have hl := h.lim
          rcases hc with hc | ⟨hc, hc'⟩
          · omega
          · have := hl _ hc'; omega
      · rintro ⟨h1, h2⟩
        rcases hcov.2 ⟨h1, hy⟩ with h3 | h3
        · exact Or.inl (Or.inl h3)
        · exact Or.inr h3
    · constructor
      · rintro ((h1 | h1) | h1)
        · have := hcov.1 (Or.inl h1); omega
        · rcases hc with hc | ⟨hc, hc'⟩
          · omega
          · have hl := h.lim _ hc'
            by_cases hb : s.bound < 0
            · have := Option.some.inj ((h.neg hb).symm.trans hc'); omega
            · omega
        · have := hcov.1 (Or.inr h1); omega
      · rintro ⟨h1, h2⟩
        exact Or.inl (Or.inr ⟨by omega, h2⟩)
  · intro y hy
    unfold St.extend at hy
    dsimp only at hy
    rw [mem_foldl_setAdd, mem_pyRange] at hy
    rcases hy with hy | hy
    · exact h.disj y hy
    · intro hm
      have := (h.cover y).1 (Or.inr hm)
      omega
  · intro t ht
    have := clip_le ht x
    show clip limit x ≤ _
    omega
  · intro hb
    have hb : clip limit x < 0 := hb
    rcases hc with hc | hc
    · omega
    · exact hc.2

/-- moving one identifier from free to allocated keeps the invariant -/
theorem take_inv {limit : Option Int} {s : St} (h : Inv limit s) {x : Int} (hx : x ∈ s.free) :
    Inv limit { s with free := s.free.erase x, allocated := setAdd s.allocated x } := by
  refine ⟨?_, ?_, h.freeNodup.erase _, nodup_setAdd h.allocNodup, h.lim, h.neg⟩
  · intro y
    dsimp only
    rw [h.freeNodup.mem_erase_iff, mem_add, ← h.cover y]
    constructor
    · rintro (h1 | h1 | h1)
      · exact Or.inl h1.2
      · exact Or.inr h1
      · subst h1; exact Or.inl hx
    · rintro (h1 | h1)
      · by_cases hy : y = x
        · exact Or.inr (Or.inr hy)
        · exact Or.inl ⟨hy, h1⟩
      · exact Or.inr (Or.inl h1)
  · intro y hy
    dsimp only at hy ⊢
    rw [h.freeNodup.mem_erase_iff] at hy
    rw [mem_add]
    rintro (h1 | h1)
    · exact h.disj y hy.2 h1
    · exact hy.1 h1

theorem take_rep {startAt : Int} {limit : Option Int} {s : St} {A : Int → Prop} (h : Inv limit s)
    (hA : ∀ x, A x ↔ x - startAt ∈ s.allocated) {x : Int} (hx : x ∈ s.free) :
    Rep startAt limit { s with free := s.free.erase x, allocated := setAdd s.allocated x }
      (fun y => y = x + startAt ∨ A y) := by
  refine ⟨take_inv h hx, ?_⟩
  intro y
  dsimp only
  rw [mem_add, hA]
  constructor
  · rintro (h1 | h1)
    · right; omega
    · exact Or.inl h1
  · rintro (h1 | h1)
    · exact Or.inr h1
    · left; omega

theorem free_inv {limit : Option Int} {s : St} (h : Inv limit s) {x : Int} (hx : x ∈ s.allocated) :
    Inv limit { s with allocated := s.allocated.erase x, free := setAdd s.free x } := by
  refine ⟨?_, ?_, nodup_setAdd h.freeNodup, h.allocNodup.erase _, h.lim, h.neg⟩
  · intro y
    dsimp only
    rw [h.allocNodup.mem_erase_iff, mem_add, ← h.cover y]
    constructor
    · rintro ((h1 | h1) | h1)
      · exact Or.inl h1
      · subst h1; exact Or.inr hx
      · exact Or.inr h1.2
    · rintro (h1 | h1)
      · exact Or.inl (Or.inl h1)
      · by_cases hy : y = x
        · exact Or.inl (Or.inr hy)
        · exact Or.inr ⟨hy, h1⟩
  · intro y hy
    dsimp only at hy ⊢
    rw [mem_add] at hy
    rw [h.allocNodup.mem_erase_iff]
    rintro ⟨h1, h2⟩
    rcases hy with h3 | h3
    · exact h.disj y h3 h2
    · exact h1 h3

/-- the limit on the identifiers `allocate_int` hands out: the constructor's limit, counted from `start_at` -/
def allocLimit (startAt : Int) (top : Option Int) : Option Int := (limitOf top).map (· + startAt)

theorem step_sim (startAt : Int) (top : Option Int) (hs : 0 ≤ startAt) {s : St} {A : Int → Prop}
    (h : Rep startAt (limitOf top) s A) (o : Op) :
    ∃ A', Spec startAt (allocLimit startAt top) (limitOf top) A o (step startAt top s o).2 A' ∧
      Rep startAt (limitOf top) (step startAt top s o).1 A' := by
  obtain ⟨hi, hA⟩ := h
  cases o with
  | markFree x =>
    by_cases h1 : x < startAt
    · refine ⟨A, ?_, ?_⟩
      · simp only [step, if_pos h1]
        refine .freeUnused ?_
        rw [hA]
        intro hm
        have := (hi.cover _).1 (Or.inr hm)
        omega
      · simp only [step, if_pos h1]; exact ⟨hi, hA⟩
    · by_cases h2 : x - startAt ∉ s.allocated
      · refine ⟨A, ?_, ?_⟩
        · simp only [step, if_neg h1, if_pos h2]
          refine .freeUnused ?_
          rw [hA]; exact h2
        · simp only [step, if_neg h1, if_pos h2]; exact ⟨hi, hA⟩
      · have h2' : x - startAt ∈ s.allocated := Classical.not_not.1 h2
        refine ⟨fun y => y ≠ x ∧ A y, ?_, ?_⟩
        · simp only [step, if_neg h1, if_neg h2]
          exact .free ((hA x).2 h2')
        · simp only [step, if_neg h1, if_neg h2]
          refine ⟨free_inv hi h2', ?_⟩
          intro y
          dsimp only
          rw [hi.allocNodup.mem_erase_iff, hA]
          constructor
          · rintro ⟨h3, h4⟩; exact ⟨by omega, h4⟩
          · rintro ⟨h3, h4⟩; exact ⟨by omega, h4⟩
  | allocate i =>
    by_cases hf : s.free = []
    · have he := extend_inv hi (s.bound + 10) (by omega)
      by_cases h0 : (s.extend (limitOf top) (s.bound + 10)).2 = 0
      · refine ⟨A, ?_, ?_⟩
        · simp only [step, if_pos hf, if_pos h0]
          refine .empty ?_
          intro x hx hb
          rw [hA]
          have hc := hi.cover (x - startAt)
          rw [hf] at hc
          have hlt : x - startAt < s.bound := by
            simp only [St.extend, pyRange, List.length_map, List.length_range] at h0
            unfold clip at h0
            cases hl : limitOf top with
            | none => rw [hl] at h0; dsimp only at h0; omega
            | some t =>
              have hb := hb (t + startAt) (by simp [allocLimit, hl])
              rw [hl] at h0
              dsimp only at h0
              split at h0 <;> omega
          rcases hc.2 ⟨by omega, hlt⟩ with h1 | h1
          · simp at h1
          · exact h1
        · simp only [step, if_pos hf, if_pos h0]
          exact ⟨he, hA⟩
      · have hne : (s.extend (limitOf top) (s.bound + 10)).1.free ≠ [] := by
          intro hnil
          apply h0
          have hm : ∀ y, y ∉ (s.extend (limitOf top) (s.bound + 10)).1.free := by rw [hnil]; simp
          show (pyRange s.bound (clip (limitOf top) (s.bound + 10))).length = 0
          rw [List.length_eq_zero_iff, List.eq_nil_iff_forall_not_mem]
          intro y hy
          exact hm y ((mem_foldl_setAdd _ _ _).2 (Or.inr hy))
        generalize hs1 : (s.extend (limitOf top) (s.bound + 10)) = r at *
        have hal : r.1.allocated = s.allocated := by rw [← hs1]; rfl
        have hlt : i % r.1.free.length < r.1.free.length := Nat.mod_lt _ (List.length_pos_iff.2 hne)
        have hg := List.getElem?_eq_getElem hlt
        have hmem := List.getElem_mem hlt
        generalize r.1.free[i % r.1.free.length] = x at hg hmem
        have hA' : ∀ x, A x ↔ x - startAt ∈ r.1.allocated := by rw [hal]; exact hA
        refine ⟨fun y => y = x + startAt ∨ A y, ?_, ?_⟩
        · simp only [step, if_pos hf, hs1, if_neg h0, hg]
          have hb := (he.cover x).1 (Or.inl hmem)
          refine .allocate ?_ (by omega) ?_
          · rw [hA', show x + startAt - startAt = x by omega]
            exact he.disj x hmem
          · intro t ht
            unfold allocLimit at ht
            rw [Option.map_eq_some_iff] at ht
            obtain ⟨a, h1, h2⟩ := ht
            have := he.lim a h1
            omega
        · simp only [step, if_pos hf, hs1, if_neg h0, hg]
          exact take_rep he hA' hmem
    · have hlt : i % s.free.length < s.free.length := Nat.mod_lt _ (List.length_pos_iff.2 hf)
      have hg := List.getElem?_eq_getElem hlt
      have hmem := List.getElem_mem hlt
      generalize s.free[i % s.free.length] = x at hg hmem
      refine ⟨fun y => y = x + startAt ∨ A y, ?_, ?_⟩
      · simp only [step, if_neg hf, Nat.one_ne_zero, if_false, hg]
        have hb := (hi.cover x).1 (Or.inl hmem)
        refine .allocate ?_ (by omega) ?_
        · rw [hA, show x + startAt - startAt = x by omega]
          exact hi.disj x hmem
        · intro t ht
          unfold allocLimit at ht
          rw [Option.map_eq_some_iff] at ht
          obtain ⟨a, h1, h2⟩ := ht
          have := hi.lim a h1
          omega
      · simp only [step, if_neg hf, Nat.one_ne_zero, if_false, hg]
        exact take_rep hi hA hmem
  | markAllocated x =>
    by_cases h1 : x < startAt
    · refine ⟨A, ?_, ?_⟩
      · simp only [step, if_pos h1]
        exact .markOutside (by omega)
      · simp only [step, if_pos h1]; exact ⟨hi, hA⟩
    · by_cases h2 : overLimit (limitOf top) x = true
      · refine ⟨A, ?_, ?_⟩
        · simp only [step, if_neg h1, if_pos h2]
          refine .markOutside ?_
          rintro ⟨_, hb⟩
          cases hl : limitOf top with
          | none => rw [hl] at h2; simp [overLimit] at h2
          | some t =>
            rw [hl] at h2
            have : x ≥ t := of_decide_eq_true h2
            have := hb t hl
            omega
        · simp only [step, if_neg h1, if_pos h2]; exact ⟨hi, hA⟩
      · have hbel : Below (limitOf top) x := by
          intro t ht
          rw [ht] at h2
          have : ¬ x ≥ t := fun h => h2 (decide_eq_true h)
          omega
        by_cases h3 : x - startAt ≥ s.bound
        · have he := extend_inv hi (x - startAt + 1) (by omega)
          have hmem : x - startAt ∈ (s.extend (limitOf top) (x - startAt + 1)).1.free := by
            refine (mem_foldl_setAdd _ _ _).2 (Or.inr (mem_pyRange.2 ⟨h3, ?_⟩))
            show x - startAt < clip (limitOf top) (x - startAt + 1)
            unfold clip
            cases hl : limitOf top with
            | none => dsimp only; omega
            | some t => have := hbel t hl; dsimp only; split <;> omega
          have hna : ¬ A x := by
            rw [hA]
            intro hm
            have := (hi.cover _).1 (Or.inr hm)
            omega
          refine ⟨fun y => y = x ∨ A y, ?_, ?_⟩
          · simp only [step, if_neg h1, if_neg h2, if_pos h3, if_pos hmem]
            exact .mark hna (by omega) hbel
          · simp only [step, if_neg h1, if_neg h2, if_pos h3, if_pos hmem]
            have := take_rep (startAt := startAt) (A := A) he hA hmem
            rwa [show x - startAt + startAt = x by omega] at this
        · by_cases h4 : x - startAt ∈ s.allocated
          · refine ⟨A, ?_, ?_⟩
            · simp only [step, if_neg h1, if_neg h2, if_neg h3, if_pos h4]
              exact .markTaken ((hA x).2 h4)
            · simp only [step, if_neg h1, if_neg h2, if_neg h3, if_pos h4]; exact ⟨hi, hA⟩
          · have h5 : x - startAt ∈ s.free := by
              rcases (hi.cover (x - startAt)).2 ⟨by omega, by omega⟩ with h5 | h5
              · exact h5
              · exact absurd h5 h4
            refine ⟨fun y => y = x ∨ A y, ?_, ?_⟩
            · simp only [step, if_neg h1, if_neg h2, if_neg h3, if_neg h4, if_pos h5]
              exact .mark (fun h => h4 ((hA x).1 h)) (by omega) hbel
            · simp only [step, if_neg h1, if_neg h2, if_neg h3, if_neg h4, if_pos h5]
              have := take_rep (startAt := startAt) (A := A) hi hA h5
              rwa [show x - startAt + startAt = x by omega] at this

theorem rep_init (startAt : Int) (limit : Option Int) : Rep startAt limit St.init (fun _ => False) := by
  refine ⟨⟨?_, ?_, List.nodup_nil, List.nodup_nil, ?_, ?_⟩, ?_⟩
  · intro x; simp [St.init]
  · intro x h; simp [St.init] at h
  · intro t _; show (0 : Int) ≤ _; omega
  · intro h; simp [St.init] at h
  · intro x; simp [St.init]

/-- **C17.** For every history of calls (in the order the threads get the lock) and every choice of the free identifier to hand out,
an allocator starting at `start_at` without a limit, or starting at 0 with a non-zero limit, behaves as the set of identifiers in
use: a new identifier is in the bounds and not in use, Empty is raised only if all are in use, and freeing an unallocated identifier
is ValueError and changes nothing.  Missing from the full statement: a limit together with `start_at ≠ 0`, and the limit 0 (below). -/
theorem C17_allocator_partial (startAt : Int) (top : Option Int) (hs : 0 ≤ startAt)
    (hg : top = none ∨ (startAt = 0 ∧ top ≠ some 0)) (ops : List Op) :
    ∃ A', History (Spec startAt top top) (fun _ => False) ops (runOps (step startAt top) St.init ops).2 A' := by
  have hl : limitOf top = top := by
    unfold limitOf
    cases top with
    | none => rfl
    | some t =>
      rcases hg with hg | hg
      · cases hg
      · dsimp only; rw [if_neg]; rintro rfl; exact hg.2 rfl
  have ha : allocLimit startAt top = top := by
    unfold allocLimit
    rw [hl]
    rcases hg with hg | hg
    · rw [hg]; rfl
    · rw [hg.1]; simp
  obtain ⟨A', h1, _⟩ := history_of_sim (Rep startAt (limitOf top)) (fun _ => True)
    (fun s A o _ h => step_sim startAt top hs h o) _ _ ops (fun _ _ => trivial) (rep_init startAt _)
  rw [ha, hl] at h1
  exact ⟨A', h1⟩

/-- **C17.** With a limit and `start_at > 0` the same holds except that `allocate_int` hands out identifiers up to `start_at +
top_limit` (exclusive), and a limit of 0 is no limit. -/
theorem C17_any_limit_partial (startAt : Int) (top : Option Int) (hs : 0 ≤ startAt) (ops : List Op) :
    ∃ A', History (Spec startAt ((limitOf top).map (· + startAt)) (limitOf top)) (fun _ => False) ops
      (runOps (step startAt top) St.init ops).2 A' := by
  obtain ⟨A', h1, _⟩ := history_of_sim (Rep startAt (limitOf top)) (fun _ => True)
    (fun s A o _ h => step_sim startAt top hs h o) _ _ ops (fun _ _ => trivial) (rep_init startAt _)
  exact ⟨A', h1⟩

example := C17_allocator_partial 0 (some 2) (by decide) (Or.inr ⟨rfl, by decide⟩)
  [.allocate 0, .allocate 5, .allocate 0, .markFree 1, .markFree 1, .markAllocated 1]

example : (runOps (step 0 (some 2)) St.init
    [.allocate 0, .allocate 5, .allocate 0, .markFree 1, .markFree 1, .markAllocated 1]).2 =
    [.id 0, .id 1, .exc .empty, .unit, .exc .valueError, .unit] := by decide

/-- **C17 is violated by the limit with `start_at > 0`**: an identifier not below `top_limit` is handed out, and
`mark_as_allocated` refuses that identifier after it is freed. -/
theorem C17_beyond_limit_violates :
    (runOps (step 5 (some 6)) St.init [.allocate 1, .markFree 6, .markAllocated 6]).2 =
      [.id 6, .unit, .exc .valueError] := by decide

/-- **C17 is violated by the limit 0**: an allocator with an empty range hands out identifiers. -/
theorem C17_zero_limit_violates (i : Nat) (startAt : Int) : ∃ x,
    (step startAt (some 0) St.init (.allocate i)).2 = .id x ∧ startAt ≤ x := by
  have : (St.init.extend (limitOf (some 0)) (St.init.bound + 10)).1.free = [0, 1, 2, 3, 4, 5, 6, 7, 8, 9] := by decide
  have h2 : (St.init.extend (limitOf (some 0)) (St.init.bound + 10)).2 ≠ 0 := by decide
  have hmem : ∀ x ∈ ([0, 1, 2, 3, 4, 5, 6, 7, 8, 9] : List Int), 0 ≤ x := by decide
  have hlt : i % 10 < ([0, 1, 2, 3, 4, 5, 6, 7, 8, 9] : List Int).length := Nat.mod_lt _ (by decide)
  have hg := List.getElem?_eq_getElem hlt
  have hm := hmem _ (List.getElem_mem hlt)
  generalize ([0, 1, 2, 3, 4, 5, 6, 7, 8, 9] : List Int)[i % 10] = y at hg hm
  refine ⟨y + startAt, ?_, by omega⟩
  simp only [step, if_pos (show St.init.free = [] from rfl), if_neg h2, this]
  simp only [List.length_cons, List.length_nil, Nat.reduceAdd, Nat.zero_add, hg]

/-- **C17 is violated by a negative `start_at` with a limit**: Empty is raised though identifiers below the limit are unused, and
reserving one of them is KeyError. -/
theorem C17_negative_start_violates :
    (runOps (step (-5) (some 1)) St.init [.allocate 0, .allocate 0, .markAllocated 0]).2 =
      [.id (-5), .exc .empty, .exc .keyError] := by decide

end Verif.Ids
