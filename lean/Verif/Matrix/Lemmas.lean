import Verif.Matrix.Spec
/-! # Lemmas about the SparseMatrix model -/
namespace Verif.Matrix
open Verif

section
variable {V : Type _}

/-- how many rows have a value in column `c` -/
def colCount (rows : Dict Int (Dict Int V)) (c : Int) : Nat := (rows.filter (fun p => Dict.has p.2 c)).length

/-- 1 if the row has column `c` -/
def hasN (d : Dict Int V) (c : Int) : Nat := if Dict.has d c then 1 else 0

theorem colCount_cons (p : Int × Dict Int V) (rows : Dict Int (Dict Int V)) (c : Int) :
    colCount (p :: rows) c = hasN p.2 c + colCount rows c := by
  unfold colCount hasN
  rw [List.filter_cons]
  split <;> simp <;> omega

theorem colCount_set_new {rows : Dict Int (Dict Int V)} {r : Int} (h : Dict.get? rows r = none) (d : Dict Int V) (c : Int) :
    colCount (Dict.set rows r d) c = colCount rows c + hasN d c := by
  induction rows with
  | nil => simp only [Dict.set]; rw [colCount_cons]; dsimp only; omega
  | cons p rows ih =>
    rw [Dict.get?_cons] at h
    split at h
    · simp at h
    · next hp =>
      simp only [Dict.set, hp, ↓reduceIte]
      rw [colCount_cons, colCount_cons, ih h]; dsimp only; omega

theorem colCount_set_old {rows : Dict Int (Dict Int V)} {r : Int} {d0 : Dict Int V} (h : Dict.get? rows r = some d0)
    (d : Dict Int V) (c : Int) :
    colCount (Dict.set rows r d) c + hasN d0 c = colCount rows c + hasN d c := by
  induction rows with
  | nil => simp at h
  | cons p rows ih =>
    rw [Dict.get?_cons] at h
    split at h
    · next hp =>
      simp at h; subst h
      simp only [Dict.set, hp, ↓reduceIte]
      rw [colCount_cons, colCount_cons]
      show hasN d c + _ + _ = _
      omega
    · next hp =>
      simp only [Dict.set, hp, ↓reduceIte]
      rw [colCount_cons, colCount_cons]
      have := ih h
      dsimp only
      omega

theorem del_of_absent {rows : Dict Int (Dict Int V)} {r : Int} (h : r ∉ rows.map Prod.fst) :
    Dict.del rows r = rows := by
  unfold Dict.del
  apply List.filter_eq_self.2
  intro p hp
  have : p.1 ≠ r := fun hc => h (List.mem_map.2 ⟨p, hp, hc⟩)
  simpa using this

theorem colCount_del {rows : Dict Int (Dict Int V)} {r : Int} {d0 : Dict Int V} (hw : Dict.WF rows)
    (h : Dict.get? rows r = some d0) (c : Int) :
    colCount (Dict.del rows r) c + hasN d0 c = colCount rows c := by
  induction rows with
  | nil => simp at h
  | cons p rows ih =>
    unfold Dict.WF at hw
    rw [List.map_cons, List.nodup_cons] at hw
    rw [Dict.get?_cons] at h
    by_cases hp : p.1 = r
    · simp only [hp, ↓reduceIte, Option.some.injEq] at h
      subst h
      have : Dict.del (p :: rows) r = Dict.del rows r := by
        unfold Dict.del; rw [List.filter_cons]; simp [hp]
      rw [this, del_of_absent (by rw [← hp]; exact hw.1), colCount_cons]; omega
    · simp only [hp, ↓reduceIte] at h
      have : Dict.del (p :: rows) r = p :: Dict.del rows r := by
        unfold Dict.del; rw [List.filter_cons]; simp [hp]
      rw [this, colCount_cons, colCount_cons]
      have := ih hw.2 h
      omega

theorem colCount_pos {rows : Dict Int (Dict Int V)} (hw : Dict.WF rows) (c : Int) :
    0 < colCount rows c ↔ ∃ r d, Dict.get? rows r = some d ∧ Dict.has d c = true := by
  unfold colCount
  rw [List.length_pos_iff_exists_mem]
  constructor
  · rintro ⟨p, hp⟩
    rw [List.mem_filter] at hp
    exact ⟨p.1, p.2, Dict.get?_of_mem hw hp.1, hp.2⟩
  · rintro ⟨r, d, h1, h2⟩
    exact ⟨(r, d), List.mem_filter.2 ⟨Dict.mem_of_get? h1, h2⟩⟩

/-- the value in a cell of the representation -/
def cell (s : St V) (c r : Int) : Option V := (Dict.get? s.rows r).bind (fun d => Dict.get? d c)

/-- a count, absent if zero -/
def optPos (n : Nat) : Option Nat := if n = 0 then none else some n

/-- the invariant of the representation -/
structure Inv (s : St V) : Prop where
  rowsWF : Dict.WF s.rows
  countWF : Dict.WF s.count
  row : ∀ r d, Dict.get? s.rows r = some d → Dict.WF d ∧ d ≠ []
  count : ∀ c, Dict.get? s.count c = optPos (colCount s.rows c)
  box : IsBox (cell s) s.noCols s.noRows

/-- the matrix represents the cells -/
def Rep (s : St V) (m : Cells V) : Prop := Inv s ∧ cell s = m

theorem cleanupKey_eq (i n : Int) : cleanupKey i n = idx i n := by
  unfold cleanupKey idx; split <;> split <;> omega

theorem leastBound_unique {P : Int → Prop} {a b : Int} (ha : LeastBound P a) (hb : LeastBound P b) : a = b := by
  rcases ha.2 with h1 | ⟨h1, h1'⟩ <;> rcases hb.2 with h2 | ⟨h2, h2'⟩
  · have := hb.1 _ h1; have := ha.1 _ h2; omega
  · exact absurd h1 (h2' _)
  · exact absurd h2 (h1' _)
  · omega

theorem leastBound_nonneg {P : Int → Prop} {a : Int} (ha : LeastBound P a) : 0 ≤ a := by
  rcases ha.2 with h1 | ⟨h1, _⟩
  · have := ha.1 _ h1; omega
  · omega

theorem leastBound_congr {P Q : Int → Prop} {a : Int} (h : ∀ x, P x ↔ Q x) (ha : LeastBound P a) : LeastBound Q a := by
  have : P = Q := funext fun x => propext (h x)
  exact this ▸ ha

theorem leastBound_add {P : Int → Prop} {a x : Int} (ha : LeastBound P a) (hx : 0 ≤ x) :
    LeastBound (fun y => y = x ∨ P y) (if x ≥ a then x + 1 else a) := by
  split
  · refine ⟨?_, Or.inl (Or.inl (by omega))⟩
    rintro y (rfl | hy)
    · omega
    · have := ha.1 y hy; omega
  · refine ⟨?_, ?_⟩
    · rintro y (rfl | hy)
      · omega
      · exact ha.1 y hy
    · rcases ha.2 with h1 | ⟨h1, _⟩
      · exact Or.inl (Or.inr h1)
      · omega

theorem foldl_max (xs : List Int) : ∀ x : Int,
    (xs.foldl (fun a b => if b > a then b else a) x = x ∨ xs.foldl (fun a b => if b > a then b else a) x ∈ xs) ∧
    x ≤ xs.foldl (fun a b => if b > a then b else a) x ∧
    ∀ y ∈ xs, y ≤ xs.foldl (fun a b => if b > a then b else a) x := by
  induction xs with
  | nil => intro x; simp
  | cons z zs ih =>
    intro x
    obtain ⟨h1, h2, h3⟩ := ih (if z > x then z else x)
    rw [List.foldl_cons]
    refine ⟨?_, ?_, ?_⟩
    · rcases h1 with h1 | h1
      · rw [h1]
        split
        · right; simp
        · left; rfl
      · right; exact List.mem_cons_of_mem _ h1
    · split at h2 <;> rename_i hz
      · rw [if_pos hz]; omega
      · rw [if_neg hz]; omega
    · intro y hy
      rcases List.mem_cons.1 hy with hy | hy
      · subst hy
        split at h2 <;> rename_i hz
        · rw [if_pos hz]; omega
        · rw [if_neg hz]; omega
      · exact h3 y hy

theorem pyMax_bound {P : Int → Prop} {l : List Int} {m : Int} (hl : ∀ x, x ∈ l ↔ P x) (hpos : ∀ x, P x → 0 ≤ x)
    (h : pyMax l = some m) : LeastBound P (m + 1) := by
  cases l with
  | nil => simp [pyMax] at h
  | cons x xs =>
    simp only [pyMax, Option.some.injEq] at h
    obtain ⟨h1, h2, h3⟩ := foldl_max xs x
    rw [h] at h1 h2 h3
    refine ⟨?_, Or.inl ?_⟩
    · intro y hy
      have hy' := hpos y hy
      rw [← hl] at hy
      rcases List.mem_cons.1 hy with hy | hy
      · subst hy; omega
      · have := h3 y hy; omega
    · have : m + 1 - 1 = m := by omega
      rw [this, ← hl]
      rcases h1 with h1 | h1
      · rw [h1]; simp
      · exact List.mem_cons_of_mem _ h1

theorem pyMax_none {l : List Int} (h : pyMax l = none) : l = [] := by
  cases l with
  | nil => rfl
  | cons x xs => simp [pyMax] at h

theorem has_iff (d : Dict Int V) (c : Int) : Dict.has d c = true ↔ Dict.get? d c ≠ none := by
  unfold Dict.has
  cases Dict.get? d c <;> simp

theorem col_set_iff {s : St V} (hw : Dict.WF s.rows) (c : Int) : 0 < colCount s.rows c ↔ ∃ r, cell s c r ≠ none := by
  rw [colCount_pos hw]
  constructor
  · rintro ⟨r, d, h1, h2⟩
    refine ⟨r, ?_⟩
    unfold cell
    rw [h1]
    exact (has_iff d c).1 h2
  · rintro ⟨r, h⟩
    unfold cell at h
    cases hd : Dict.get? s.rows r with
    | none => rw [hd] at h; simp at h
    | some d =>
      rw [hd] at h
      exact ⟨r, d, hd, (has_iff d c).2 h⟩

theorem mem_countKeys {s : St V} (h : ∀ c, Dict.get? s.count c = optPos (colCount s.rows c))
    (hw : Dict.WF s.rows) (c : Int) : c ∈ Dict.keys s.count ↔ ∃ r, cell s c r ≠ none := by
  rw [← col_set_iff hw, ← Dict.get?_isSome_iff, h c]
  unfold optPos
  split <;> simp <;> omega

theorem mem_rowKeys {s : St V} (hrow : ∀ r d, Dict.get? s.rows r = some d → Dict.WF d ∧ d ≠ []) (r : Int) :
    r ∈ Dict.keys s.rows ↔ ∃ c, cell s c r ≠ none := by
  rw [← Dict.get?_isSome_iff]
  constructor
  · intro h
    obtain ⟨d, hd⟩ := Option.isSome_iff_exists.1 h
    obtain ⟨hw, hne⟩ := hrow r d hd
    cases d with
    | nil => exact absurd rfl hne
    | cons p d =>
      refine ⟨p.1, ?_⟩
      unfold cell
      rw [hd]
      simp [Dict.get?_cons]
  · rintro ⟨c, h⟩
    unfold cell at h
    cases hd : Dict.get? s.rows r with
    | none => rw [hd] at h; simp at h
    | some d => rfl

theorem inv_empty : Inv (St.empty : St V) := by
  refine ⟨Dict.wf_nil, Dict.wf_nil, by simp [St.empty], by simp [St.empty, colCount, optPos], ?_⟩
  refine ⟨⟨?_, Or.inr ⟨rfl, ?_⟩⟩, ⟨?_, Or.inr ⟨rfl, ?_⟩⟩⟩ <;> simp [cell, St.empty]

theorem set_ne_nil (d : Dict Int V) (c : Int) (v : V) : Dict.set d c v ≠ [] := by
  cases d with
  | nil => simp [Dict.set]
  | cons p d => simp only [Dict.set]; split <;> simp

theorem hasN_set (d : Dict Int V) (c : Int) (v : V) (x : Int) :
    hasN (Dict.set d c v) x = if x = c then 1 else hasN d x := by
  unfold hasN Dict.has
  rw [Dict.get?_set]
  by_cases h : x = c
  · subst h; simp
  · have : ¬ c = x := fun hc => h hc.symm
    simp [h, this]

theorem hasN_del (d : Dict Int V) (c : Int) (x : Int) :
    hasN (Dict.del d c) x = if x = c then 0 else hasN d x := by
  unfold hasN Dict.has
  rw [Dict.get?_del]
  by_cases h : x = c
  · subst h; simp
  · have : ¬ c = x := fun hc => h hc.symm
    simp [h, this]

theorem incCount_get (count : Dict Int Nat) (c x : Int) :
    Dict.get? (incCount count c) x = if x = c then some ((Dict.get? count c).getD 0 + 1) else Dict.get? count x := by
  unfold incCount
  by_cases h : x = c
  · subst h; split <;> rename_i hc <;> simp [hc]
  · have : ¬ c = x := fun hc => h hc.symm
    split <;> simp [h, this]

theorem incCount_wf {count : Dict Int Nat} (h : Dict.WF count) (c : Int) : Dict.WF (incCount count c) := by
  unfold incCount; split <;> exact Dict.wf_set h _ _

theorem cell_put (s : St V) (c r : Int) (v : V) (x y : Int) :
    cell (s.put c r v) x y = if x = c ∧ y = r then some v else cell s x y := by
  unfold cell St.put
  simp only [Dict.get?_set]
  by_cases hy : r = y
  · subst hy
    simp only [↓reduceIte, Option.bind_some, Dict.get?_set, and_true]
    by_cases hx : c = x
    · subst hx; simp
    · have : ¬ x = c := fun hc => hx hc.symm
      simp only [hx, this, ↓reduceIte]
      cases Dict.get? s.rows r <;> simp
  · have : ¬ y = r := fun hc => hy hc.symm
    simp [hy, this]

theorem put_inv {s : St V} (h : Inv s) (c r : Int) (v : V) (hc : 0 ≤ c) (hr : 0 ≤ r) : Inv (s.put c r v) := by
  have hcell := cell_put s c r v
  refine ⟨Dict.wf_set h.rowsWF _ _, ?_, ?_, ?_, ?_⟩
  · show Dict.WF (match Dict.get? s.rows r with | none => _ | some d => _)
    split
    · exact incCount_wf h.countWF c
    · split
      · exact h.countWF
      · exact incCount_wf h.countWF c
  · intro r' d hd
    unfold St.put at hd
    simp only [Dict.get?_set] at hd
    split at hd
    · simp at hd; subst hd
      refine ⟨Dict.wf_set ?_ _ _, set_ne_nil _ _ _⟩
      cases hg : Dict.get? s.rows r with
      | none => exact Dict.wf_nil
      | some d0 => exact (h.row r d0 hg).1
    · exact h.row r' d hd
  · intro x
    have hcx := h.count x
    have hcc := h.count c
    unfold St.put
    dsimp only
    cases hg : Dict.get? s.rows r with
    | none =>
      dsimp only [Option.getD_none]
      rw [colCount_set_new hg, hasN_set, incCount_get]
      by_cases hx : x = c
      · subst hx
        simp only [↓reduceIte]
        rw [hcc]
        unfold optPos
        split <;> rename_i h0 <;> simp [h0]
      · simp only [hx, ↓reduceIte]
        rw [hcx]
        simp [hasN, Dict.has]
    | some d =>
      dsimp only [Option.getD_some]
      have hset := colCount_set_old hg (Dict.set d c v) x
      rw [hasN_set] at hset
      by_cases hh : Dict.has d c = true
      · simp only [hh, ↓reduceIte]
        have hn : hasN d c = 1 := by simp [hasN, hh]
        have : colCount (Dict.set s.rows r (Dict.set d c v)) x = colCount s.rows x := by
          by_cases hx : x = c
          · subst hx; simp only [↓reduceIte] at hset; omega
          · simp only [hx, ↓reduceIte] at hset; omega
        rw [this]; exact hcx
      · simp only [hh, Bool.false_eq_true, ↓reduceIte]
        have hn : hasN d c = 0 := by simp [hasN, hh]
        rw [incCount_get]
        by_cases hx : x = c
        · subst hx
          simp only [↓reduceIte] at hset ⊢
          have : colCount (Dict.set s.rows r (Dict.set d x v)) x = colCount s.rows x + 1 := by omega
          rw [this, hcc]
          unfold optPos
          split <;> rename_i h0 <;> simp [h0]
        · simp only [hx, ↓reduceIte] at hset ⊢
          have : colCount (Dict.set s.rows r (Dict.set d c v)) x = colCount s.rows x := by omega
          rw [this]; exact hcx
  · refine ⟨leastBound_congr ?_ (leastBound_add h.box.1 hc), leastBound_congr ?_ (leastBound_add h.box.2 hr)⟩
    · intro x
      constructor
      · rintro (hx | ⟨y, hy⟩)
        · exact ⟨r, by rw [hcell, hx]; simp⟩
        · refine ⟨y, ?_⟩
          rw [hcell]; split
          · simp
          · exact hy
      · rintro ⟨y, hy⟩
        rw [hcell] at hy
        split at hy
        · next hxy => exact Or.inl hxy.1
        · exact Or.inr ⟨y, hy⟩
    · intro y
      constructor
      · rintro (hx | ⟨x, hx⟩)
        · exact ⟨c, by rw [hcell, hx]; simp⟩
        · refine ⟨x, ?_⟩
          rw [hcell]; split
          · simp
          · exact hx
      · rintro ⟨x, hx⟩
        rw [hcell] at hx
        split at hx
        · next hxy => exact Or.inl hxy.2
        · exact Or.inr ⟨x, hx⟩

/-- a deletion of an unset cell does nothing -/
theorem delAt_absent {s : St V} {c r : Int} (h : cell s c r = none) : s.delAt c r = (s, none) := by
  unfold St.delAt
  unfold cell at h
  cases hg : Dict.get? s.rows r with
  | none => rfl
  | some d =>
    rw [hg] at h
    have : Dict.has d c = false := by unfold Dict.has; simp only [Option.bind_some] at h; rw [h]; rfl
    simp [this]

/-- a deletion that leaves some cell set -/
theorem delAt_sim {s : St V} (h : Inv s) (c r : Int)
    (hother : ∃ x y, ¬ (x = c ∧ y = r) ∧ cell s x y ≠ none) :
    (s.delAt c r).2 = none ∧ Inv (s.delAt c r).1 ∧
      ∀ x y, cell (s.delAt c r).1 x y = if x = c ∧ y = r then none else cell s x y := by
  by_cases hc0 : cell s c r = none
  · rw [delAt_absent hc0]
    refine ⟨rfl, h, ?_⟩
    intro x y
    split
    · next hxy => rw [hxy.1, hxy.2]; exact hc0
    · rfl
  · have hset : ∃ d, Dict.get? s.rows r = some d ∧ Dict.has d c = true := by
      unfold cell at hc0
      cases hg : Dict.get? s.rows r with
      | none => rw [hg] at hc0; simp at hc0
      | some d => rw [hg] at hc0; exact ⟨d, rfl, (has_iff d c).2 hc0⟩
    obtain ⟨d, hd, hdc⟩ := hset
    let rows' := if (Dict.del d c).isEmpty then Dict.del s.rows r else Dict.set s.rows r (Dict.del d c)
    have hrowsWF : Dict.WF rows' := by
      show Dict.WF (if _ then _ else _)
      split
      · exact Dict.wf_del h.rowsWF _
      · exact Dict.wf_set h.rowsWF _ _
    have hcells : ∀ x y, (Dict.get? rows' y).bind (fun d => Dict.get? d x) =
        if x = c ∧ y = r then none else cell s x y := by
      intro x y
      show (Dict.get? (if _ then _ else _) y).bind _ = _
      unfold cell
      split
      · next he =>
        rw [Dict.get?_del]
        by_cases hy : r = y
        · subst hy
          simp only [↓reduceIte, Option.bind_none, and_true]
          split
          · rfl
          · next hx =>
            rw [hd]
            simp only [Option.bind_some]
            have hdel := Dict.get?_del d c x
            rw [List.isEmpty_iff.1 he] at hdel
            have : ¬ c = x := fun hc => hx hc.symm
            simpa [this] using hdel
        · have : ¬ y = r := fun hc => hy hc.symm
          simp [hy, this]
      · rw [Dict.get?_set]
        by_cases hy : r = y
        · subst hy
          simp only [↓reduceIte, Option.bind_some, Dict.get?_del, and_true, hd]
          by_cases hx : c = x
          · subst hx; simp
          · have : ¬ x = c := fun hc => hx hc.symm
            simp [hx, this]
        · have : ¬ y = r := fun hc => hy hc.symm
          simp [hy, this]
    have hrow' : ∀ r' d', Dict.get? rows' r' = some d' → Dict.WF d' ∧ d' ≠ [] := by
      intro r' d' hd'
      have hd' : Dict.get? (if (Dict.del d c).isEmpty then Dict.del s.rows r else Dict.set s.rows r (Dict.del d c)) r' = some d' := hd'
      split at hd'
      · rw [Dict.get?_del] at hd'
        split at hd'
        · simp at hd'
        · exact h.row r' d' hd'
      · next he =>
        rw [Dict.get?_set] at hd'
        split at hd'
        · simp at hd'; subst hd'
          refine ⟨Dict.wf_del (h.row r d hd).1 _, ?_⟩
          intro hc; rw [hc] at he; simp at he
        · exact h.row r' d' hd'
    have hcnt : ∀ x, colCount rows' x = if x = c then colCount s.rows x - 1 else colCount s.rows x := by
      intro x
      show colCount (if _ then _ else _) x = _
      have hn : hasN d c = 1 := by simp [hasN, hdc]
      split
      · next he =>
        have hdel := colCount_del h.rowsWF hd x
        have hnd := hasN_del d c x
        rw [List.isEmpty_iff.1 he] at hnd
        by_cases hx : x = c
        · subst hx; simp; omega
        · simp only [hx, ↓reduceIte] at hnd ⊢
          simp [hasN, Dict.has] at hnd
          have : hasN d x = 0 := by simp [hasN, Dict.has, ← hnd]
          omega
      · have hs := colCount_set_old hd (Dict.del d c) x
        rw [hasN_del] at hs
        by_cases hx : x = c
        · subst hx; simp at hs ⊢; omega
        · simp only [hx, ↓reduceIte] at hs ⊢; omega
    have hpos : 0 < colCount s.rows c := (colCount_pos h.rowsWF c).2 ⟨r, d, hd, hdc⟩
    have hgc : Dict.get? s.count c = some (colCount s.rows c) := by
      rw [h.count c, optPos, if_neg (by omega)]
    let count' := if colCount s.rows c = 1 then Dict.del s.count c else Dict.set s.count c (colCount s.rows c - 1)
    have hcount' : ∀ x, Dict.get? count' x = optPos (colCount rows' x) := by
      intro x
      show Dict.get? (if _ then _ else _) x = _
      rw [hcnt]
      split
      · next h1 =>
        rw [Dict.get?_del]
        by_cases hx : x = c
        · subst hx; simp [h1, optPos]
        · have : ¬ c = x := fun hc => hx hc.symm
          simp only [this, hx, ↓reduceIte]; exact h.count x
      · next h1 =>
        rw [Dict.get?_set]
        by_cases hx : x = c
        · subst hx; simp [optPos]
          omega
        · have : ¬ c = x := fun hc => hx hc.symm
          simp only [this, hx, ↓reduceIte]; exact h.count x
    have hcountWF' : Dict.WF count' := by
      show Dict.WF (if _ then _ else _)
      split
      · exact Dict.wf_del h.countWF _
      · exact Dict.wf_set h.countWF _ _
    obtain ⟨x0, y0, hne0, hx0⟩ := hother
    have hnn : ∀ x y, cell s x y ≠ none → 0 ≤ x ∧ 0 ≤ y := fun x y hxy =>
      ⟨(h.box.1.1 x ⟨y, hxy⟩).1, (h.box.2.1 y ⟨x, hxy⟩).1⟩
    have hdelAt : s.delAt c r =
        match pyMax (Dict.keys count') with
        | none => ({ s with rows := rows', count := count' }, some .valueError)
        | some mc =>
          match pyMax (Dict.keys rows') with
          | none => ({ s with rows := rows', count := count', noCols := mc + 1 }, some .valueError)
          | some mr => ({ rows := rows', count := count', noCols := mc + 1, noRows := mr + 1 }, none) := by
      unfold St.delAt
      simp only [hd, hdc, hgc]
      rfl
    rw [hdelAt]
    let s0 : St V := { rows := rows', count := count', noCols := 0, noRows := 0 }
    have hcell0 : ∀ x y, cell s0 x y = if x = c ∧ y = r then none else cell s x y := hcells
    have hmemc := mem_countKeys (s := s0) hcount' hrowsWF
    have hmemr := mem_rowKeys (s := s0) hrow'
    have h00 : cell s0 x0 y0 ≠ none := by rw [hcell0, if_neg hne0]; exact hx0
    have hnn0 : ∀ x y, cell s0 x y ≠ none → 0 ≤ x ∧ 0 ≤ y := by
      intro x y hxy
      rw [hcell0] at hxy
      split at hxy
      · exact absurd rfl hxy
      · exact hnn x y hxy
    cases hmc : pyMax (Dict.keys count') with
    | none =>
      have := (hmemc x0).2 ⟨y0, h00⟩
      rw [show s0.count = count' from rfl, pyMax_none hmc] at this
      simp at this
    | some mc =>
      cases hmr : pyMax (Dict.keys rows') with
      | none =>
        have := (hmemr y0).2 ⟨x0, h00⟩
        rw [show s0.rows = rows' from rfl, pyMax_none hmr] at this
        simp at this
      | some mr =>
        refine ⟨rfl, ⟨hrowsWF, hcountWF', hrow', hcount', ?_⟩, hcells⟩
        exact ⟨pyMax_bound hmemc (fun x ⟨y, hy⟩ => (hnn0 x y hy).1) hmc,
          pyMax_bound hmemr (fun y ⟨x, hx⟩ => (hnn0 x y hx).2) hmr⟩

end
end Verif.Matrix
