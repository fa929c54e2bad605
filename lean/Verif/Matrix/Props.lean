import Verif.Matrix.Lemmas
/-! # C16: SparseMatrix -/
namespace Verif.Matrix
open Verif

section
variable {V : Type _}

/-- a cell changed -/
def upd (m : Cells V) (c r : Int) (v : Option V) : Cells V := fun x y => if x = c ∧ y = r then v else m x y

theorem idx_nonneg {i n : Int} (h : 0 ≤ i) : idx i n = i := by unfold idx; simp [h]

theorem del1_sim {s : St V} (h : Inv s) (c r : Int)
    (hg : cell s (idx c s.noCols) (idx r s.noRows) = none ∨
      ∃ x y, ¬ (x = idx c s.noCols ∧ y = idx r s.noRows) ∧ cell s x y ≠ none) :
    (s.del1 c r).2 = none ∧ Inv (s.del1 c r).1 ∧
      cell (s.del1 c r).1 = upd (cell s) (idx c s.noCols) (idx r s.noRows) none := by
  unfold St.del1
  rw [cleanupKey_eq, cleanupKey_eq]
  rcases hg with hg | hg
  · rw [delAt_absent hg]
    refine ⟨rfl, h, ?_⟩
    funext x y
    unfold upd
    split
    · next hxy => rw [hxy.1, hxy.2]; exact hg
    · rfl
  · obtain ⟨h1, h2, h3⟩ := delAt_sim h _ _ hg
    exact ⟨h1, h2, funext fun x => funext fun y => h3 x y⟩

theorem set1_sim {s : St V} (h : Inv s) (c r : Int) (v : Option V) (hc : 0 ≤ idx c s.noCols) (hr : 0 ≤ idx r s.noRows)
    (hg : v = none → cell s (idx c s.noCols) (idx r s.noRows) = none ∨
      ∃ x y, ¬ (x = idx c s.noCols ∧ y = idx r s.noRows) ∧ cell s x y ≠ none) :
    (s.set1 c r v).2 = none ∧ Inv (s.set1 c r v).1 ∧
      cell (s.set1 c r v).1 = upd (cell s) (idx c s.noCols) (idx r s.noRows) v := by
  cases v with
  | none => exact del1_sim h c r (hg rfl)
  | some v =>
    unfold St.set1
    rw [cleanupKey_eq, cleanupKey_eq]
    exact ⟨rfl, put_inv h _ _ v hc hr, funext fun x => funext fun y => cell_put s _ _ v x y⟩

/-- a loop whose rounds succeed and change the cells by `u` -/
theorem loop_sim {α : Type _} (f : St V → α → St V × Option Exc) (u : Cells V → α → Cells V) (I : List α → St V → Prop)
    (hstep : ∀ x xs s, I (x :: xs) s → (f s x).2 = none ∧ I xs (f s x).1 ∧ cell (f s x).1 = u (cell s) x) :
    ∀ xs s, I xs s → (loop f s xs).2 = none ∧ I [] (loop f s xs).1 ∧ cell (loop f s xs).1 = xs.foldl u (cell s) := by
  intro xs
  induction xs with
  | nil => intro s h; exact ⟨rfl, h, rfl⟩
  | cons x xs ih =>
    intro s h
    obtain ⟨h1, h2, h3⟩ := hstep x xs s h
    have : loop f s (x :: xs) = loop f (f s x).1 xs := by
      rw [loop]
      have : f s x = ((f s x).1, none) := by rw [← h1]
      rw [this]
    rw [this, List.foldl_cons, ← h3]
    exact ih _ h2

theorem enum_fst_ge {α : Type _} (l : List α) : ∀ (i : Int), ∀ x ∈ enum i l, i ≤ x.1 := by
  induction l with
  | nil => intro i x hx; simp [enum] at hx
  | cons a l ih =>
    intro i x hx
    rcases List.mem_cons.1 hx with hx | hx
    · subst hx; exact Int.le_refl _
    · have := ih (i + 1) x hx; omega

theorem enum_pairwise {α : Type _} (l : List α) : ∀ (i : Int), (enum i l).Pairwise (fun x y => x.1 < y.1) := by
  induction l with
  | nil => intro i; exact List.Pairwise.nil
  | cons a l ih =>
    intro i
    refine List.Pairwise.cons ?_ (ih (i + 1))
    intro y hy
    have := enum_fst_ge l (i + 1) y hy
    show i < y.1
    omega

theorem nth_cons (v : Option V) (vs : List (Option V)) (i : Int) (hi : 0 ≤ i) :
    nth (v :: vs) i = if i = 0 then v else nth vs (i - 1) := by
  unfold nth
  by_cases h : i = 0
  · subst h; simp
  · have h1 : 0 ≤ i - 1 := by omega
    have h2 : i.toNat = (i - 1).toNat + 1 := by omega
    simp only [hi, h1, h, ↓reduceIte]
    rw [h2, List.getElem?_cons_succ]

/-- assigning consecutive values to every `k`th cell of a row -/
theorem foldl_row (k r : Int) (hk : 0 < k) (vs : List (Option V)) : ∀ (i : Int) (m : Cells V) (x y : Int), 0 ≤ i →
    (enum i vs).foldl (fun m (a : Int × Option V) => upd m (a.1 * k) r a.2) m x y =
      if y = r ∧ x % k = 0 ∧ i ≤ x / k ∧ x / k < i + vs.length then nth vs (x / k - i) else m x y := by
  induction vs with
  | nil =>
    intro i m x y hi
    have : ¬ (y = r ∧ x % k = 0 ∧ i ≤ x / k ∧ x / k < i + ([] : List (Option V)).length) := by
      rintro ⟨_, _, h1, h2⟩
      simp at h2; omega
    rw [if_neg this]; rfl
  | cons v vs ih =>
    intro i m x y hi
    rw [enum, List.foldl_cons, ih (i + 1) _ x y (by omega)]
    have hlen : ((v :: vs).length : Int) = vs.length + 1 := by simp
    by_cases hy : y = r
    rotate_left
    · rw [if_neg (fun h => hy h.1), if_neg (fun h => hy h.1)]
      unfold upd
      rw [if_neg (fun h => hy h.2)]
    by_cases hx : x % k = 0
    rotate_left
    · rw [if_neg (fun h => hx h.2.1), if_neg (fun h => hx h.2.1)]
      unfold upd
      rw [if_neg]
      rintro ⟨h1, _⟩
      exact hx (by rw [h1]; exact Int.mul_emod_left i k)
    have hxk : x = x / k * k := by
      have := Int.mul_ediv_add_emod x k
      rw [hx] at this
      rw [Int.mul_comm]; omega
    by_cases hi' : x / k = i
    · rw [if_neg (by rintro ⟨_, _, h1, _⟩; omega), if_pos (by refine ⟨hy, hx, ?_, ?_⟩ <;> omega)]
      unfold upd
      rw [if_pos ⟨by rw [hxk, hi'], hy⟩, nth_cons _ _ _ (by omega)]
      simp [hi']
    · by_cases hrange : i + 1 ≤ x / k ∧ x / k < i + 1 + vs.length
      · rw [if_pos ⟨hy, hx, hrange⟩, if_pos (by refine ⟨hy, hx, ?_, ?_⟩ <;> omega), nth_cons _ _ _ (by omega),
          if_neg (by omega)]
        congr 1; omega
      · rw [if_neg (by rintro ⟨_, _, h1⟩; exact hrange h1), if_neg (by rintro ⟨_, _, h1, h2⟩; omega)]
        unfold upd
        rw [if_neg]
        rintro ⟨h1, _⟩
        apply hi'
        rw [h1]
        exact Int.mul_ediv_cancel i (by omega)

/-- the same for a column -/
theorem foldl_col (c : Int) (vs : List (Option V)) : ∀ (i : Int) (m : Cells V) (x y : Int), 0 ≤ i →
    (enum i vs).foldl (fun m (a : Int × Option V) => upd m c a.1 a.2) m x y =
      if x = c ∧ i ≤ y ∧ y < i + vs.length then nth vs (y - i) else m x y := by
  induction vs with
  | nil =>
    intro i m x y hi
    have : ¬ (x = c ∧ i ≤ y ∧ y < i + ([] : List (Option V)).length) := by
      rintro ⟨_, h1, h2⟩
      simp at h2; omega
    rw [if_neg this]; rfl
  | cons v vs ih =>
    intro i m x y hi
    rw [enum, List.foldl_cons, ih (i + 1) _ x y (by omega)]
    have hlen : ((v :: vs).length : Int) = vs.length + 1 := by simp
    by_cases hx : x = c
    rotate_left
    · rw [if_neg (fun h => hx h.1), if_neg (fun h => hx h.1)]
      unfold upd
      rw [if_neg (fun h => hx h.1)]
    by_cases hi' : y = i
    · rw [if_neg (by rintro ⟨_, h1, _⟩; omega), if_pos (by refine ⟨hx, ?_, ?_⟩ <;> omega)]
      unfold upd
      rw [if_pos ⟨hx, hi'⟩, nth_cons _ _ _ (by omega)]
      simp [hi']
    · by_cases hrange : i + 1 ≤ y ∧ y < i + 1 + vs.length
      · rw [if_pos ⟨hx, hrange⟩, if_pos (by refine ⟨hx, ?_, ?_⟩ <;> omega), nth_cons _ _ _ (by omega),
          if_neg (by omega)]
        congr 1; omega
      · rw [if_neg (by rintro ⟨_, h1⟩; exact hrange h1), if_neg (by rintro ⟨_, h1, h2⟩; omega)]
        unfold upd
        rw [if_neg (fun h => hi' h.2)]

/-- a row of assignments, when no None is assigned or another row has a cell -/
theorem setRow_sim {s : St V} (h : Inv s) (r : Int) (hr : 0 ≤ r) (vs : List (Option V))
    (hg : (∀ v ∈ vs, v ≠ none) ∨ ∃ x y, y ≠ r ∧ cell s x y ≠ none) :
    (s.setRowAt r vs).2 = none ∧ Inv (s.setRowAt r vs).1 ∧
      cell (s.setRowAt r vs).1 = (enum 0 vs).foldl (fun m (a : Int × Option V) => upd m a.1 r a.2) (cell s) := by
  unfold St.setRowAt
  have hmain := loop_sim (fun (s : St V) (x : Int × Option V) => s.set1 x.1 r x.2)
    (fun m (a : Int × Option V) => upd m a.1 r a.2)
    (fun xs s => Inv s ∧ (∀ a ∈ xs, 0 ≤ a.1) ∧ ((∀ a ∈ xs, a.2 ≠ none) ∨ ∃ x y, y ≠ r ∧ cell s x y ≠ none))
    ?_ (enum 0 vs) s ⟨h, fun a ha => enum_fst_ge vs 0 a ha, ?_⟩
  · exact ⟨hmain.1, hmain.2.1.1, hmain.2.2⟩
  · rintro a xs s ⟨h1, h2, h3⟩
    have ha := h2 a (by simp)
    obtain ⟨e1, e2, e3⟩ := set1_sim h1 a.1 r a.2 (by rw [idx_nonneg ha]; exact ha) (by rw [idx_nonneg hr]; exact hr) (by
      intro hv
      rcases h3 with h3 | ⟨x, y, h4, h5⟩
      · exact absurd hv (h3 a (by simp))
      · right
        refine ⟨x, y, ?_, h5⟩
        rw [idx_nonneg hr]
        exact fun hc => h4 hc.2)
    rw [idx_nonneg ha, idx_nonneg hr] at e3
    refine ⟨e1, ⟨e2, fun a ha => h2 a (by simp [ha]), ?_⟩, e3⟩
    rcases h3 with h3 | ⟨x, y, h4, h5⟩
    · exact Or.inl (fun a ha => h3 a (by simp [ha]))
    · right
      refine ⟨x, y, h4, ?_⟩
      rw [e3]
      unfold upd
      rw [if_neg (fun hc => h4 hc.2)]
      exact h5
  · rcases hg with hg | hg
    · left
      have : ∀ (l : List (Option V)) (i : Int), (∀ v ∈ l, v ≠ none) → ∀ a ∈ enum i l, a.2 ≠ none := by
        intro l
        induction l with
        | nil => intro i _ a ha; simp [enum] at ha
        | cons v l ih =>
          intro i hl a ha
          rcases List.mem_cons.1 ha with ha | ha
          · subst ha; exact hl v (by simp)
          · exact ih (i + 1) (fun v hv => hl v (by simp [hv])) a ha
      exact this vs 0 hg
    · exact Or.inr hg

/-- the same for a column -/
theorem setCol_sim {s : St V} (h : Inv s) (c : Int) (hc : 0 ≤ c) (vs : List (Option V))
    (hg : (∀ v ∈ vs, v ≠ none) ∨ ∃ x y, x ≠ c ∧ cell s x y ≠ none) :
    (s.setColAt c vs).2 = none ∧ Inv (s.setColAt c vs).1 ∧
      cell (s.setColAt c vs).1 = (enum 0 vs).foldl (fun m (a : Int × Option V) => upd m c a.1 a.2) (cell s) := by
  unfold St.setColAt
  have hmain := loop_sim (fun (s : St V) (x : Int × Option V) => s.set1 c x.1 x.2)
    (fun m (a : Int × Option V) => upd m c a.1 a.2)
    (fun xs s => Inv s ∧ (∀ a ∈ xs, 0 ≤ a.1) ∧ ((∀ a ∈ xs, a.2 ≠ none) ∨ ∃ x y, x ≠ c ∧ cell s x y ≠ none))
    ?_ (enum 0 vs) s ⟨h, fun a ha => enum_fst_ge vs 0 a ha, ?_⟩
  · exact ⟨hmain.1, hmain.2.1.1, hmain.2.2⟩
  · rintro a xs s ⟨h1, h2, h3⟩
    have ha := h2 a (by simp)
    obtain ⟨e1, e2, e3⟩ := set1_sim h1 c a.1 a.2 (by rw [idx_nonneg hc]; exact hc) (by rw [idx_nonneg ha]; exact ha) (by
      intro hv
      rcases h3 with h3 | ⟨x, y, h4, h5⟩
      · exact absurd hv (h3 a (by simp))
      · right
        refine ⟨x, y, ?_, h5⟩
        rw [idx_nonneg hc]
        exact fun hc => h4 hc.1)
    rw [idx_nonneg ha, idx_nonneg hc] at e3
    refine ⟨e1, ⟨e2, fun a ha => h2 a (by simp [ha]), ?_⟩, e3⟩
    rcases h3 with h3 | ⟨x, y, h4, h5⟩
    · exact Or.inl (fun a ha => h3 a (by simp [ha]))
    · right
      refine ⟨x, y, h4, ?_⟩
      rw [e3]
      unfold upd
      rw [if_neg (fun hc => h4 hc.1)]
      exact h5
  · rcases hg with hg | hg
    · left
      have : ∀ (l : List (Option V)) (i : Int), (∀ v ∈ l, v ≠ none) → ∀ a ∈ enum i l, a.2 ≠ none := by
        intro l
        induction l with
        | nil => intro i _ a ha; simp [enum] at ha
        | cons v l ih =>
          intro i hl a ha
          rcases List.mem_cons.1 ha with ha | ha
          · subst ha; exact hl v (by simp)
          · exact ih (i + 1) (fun v hv => hl v (by simp [hv])) a ha
      exact this vs 0 hg
    · exact Or.inr hg

/-- assignments to cells of a row nothing was assigned to yet -/
theorem freshRow_sim {s : St V} (h : Inv s) (k r : Int) (hk : 0 < k) (hr : 0 ≤ r) (vs : List (Option V))
    (hfresh : ∀ x, cell s x r = none) :
    let res := loop (fun (s : St V) (y : Int × Option V) => s.set1 (y.1 * k) r y.2) s (enum 0 vs)
    res.2 = none ∧ Inv res.1 ∧
      cell res.1 = (enum 0 vs).foldl (fun m (a : Int × Option V) => upd m (a.1 * k) r a.2) (cell s) := by
  have hmain := loop_sim (fun (s : St V) (x : Int × Option V) => s.set1 (x.1 * k) r x.2)
    (fun m (a : Int × Option V) => upd m (a.1 * k) r a.2)
    (fun xs s => Inv s ∧ (∀ a ∈ xs, 0 ≤ a.1) ∧ xs.Pairwise (fun a b => a.1 < b.1) ∧ (∀ a ∈ xs, cell s (a.1 * k) r = none))
    ?_ (enum 0 vs) s ⟨h, fun a ha => enum_fst_ge vs 0 a ha, enum_pairwise vs 0, fun a _ => hfresh _⟩
  · exact ⟨hmain.1, hmain.2.1.1, hmain.2.2⟩
  · rintro a xs s ⟨h1, h2, h3, h4⟩
    have ha := h2 a (by simp)
    have hak : 0 ≤ a.1 * k := Int.mul_nonneg ha (by omega)
    obtain ⟨e1, e2, e3⟩ := set1_sim h1 (a.1 * k) r a.2 (by rw [idx_nonneg hak]; exact hak)
      (by rw [idx_nonneg hr]; exact hr) (by
        intro _
        left
        rw [idx_nonneg hak, idx_nonneg hr]
        exact h4 a (by simp))
    rw [idx_nonneg hak, idx_nonneg hr] at e3
    refine ⟨e1, ⟨e2, fun a ha => h2 a (by simp [ha]), List.Pairwise.of_cons h3, ?_⟩, e3⟩
    intro b hb
    rw [e3]
    unfold upd
    have hlt := List.rel_of_pairwise_cons h3 hb
    rw [if_neg]
    · exact h4 b (by simp [hb])
    · rintro ⟨hc, _⟩
      have := Int.eq_of_mul_eq_mul_right (by omega) hc
      omega

/-- building a matrix row by row -/
theorem build_sim (k : Int) (hk : 0 < k) (vss : List (List (Option V))) :
    let res := loop (fun s (x : Int × List (Option V)) =>
      loop (fun (s : St V) (y : Int × Option V) => s.set1 (y.1 * k) (x.1 * k) y.2) s (enum 0 x.2)) St.empty (enum 0 vss)
    res.2 = none ∧ Inv res.1 ∧ cell res.1 = (enum 0 vss).foldl (fun m (a : Int × List (Option V)) =>
      (enum 0 a.2).foldl (fun m (b : Int × Option V) => upd m (b.1 * k) (a.1 * k) b.2) m) (fun _ _ => none) := by
  have hmain := loop_sim (fun s (x : Int × List (Option V)) =>
      loop (fun (s : St V) (y : Int × Option V) => s.set1 (y.1 * k) (x.1 * k) y.2) s (enum 0 x.2))
    (fun m (a : Int × List (Option V)) =>
      (enum 0 a.2).foldl (fun m (b : Int × Option V) => upd m (b.1 * k) (a.1 * k) b.2) m)
    (fun xs s => Inv s ∧ (∀ a ∈ xs, 0 ≤ a.1) ∧ xs.Pairwise (fun a b => a.1 < b.1) ∧
      (∀ a ∈ xs, ∀ x, cell s x (a.1 * k) = none))
    ?_ (enum 0 vss) St.empty ⟨inv_empty, fun a ha => enum_fst_ge vss 0 a ha, enum_pairwise vss 0, fun a _ x => rfl⟩
  · exact ⟨hmain.1, hmain.2.1.1, hmain.2.2⟩
  · rintro a xs s ⟨h1, h2, h3, h4⟩
    have ha := h2 a (by simp)
    have hak : 0 ≤ a.1 * k := Int.mul_nonneg ha (by omega)
    obtain ⟨e1, e2, e3⟩ := freshRow_sim h1 k (a.1 * k) hk hak a.2 (h4 a (by simp))
    refine ⟨e1, ⟨e2, fun a ha => h2 a (by simp [ha]), List.Pairwise.of_cons h3, ?_⟩, e3⟩
    intro b hb x
    rw [e3, foldl_row k _ hk _ _ _ _ _ (by omega), if_neg]
    · exact h4 b (by simp [hb]) x
    · rintro ⟨hc, _⟩
      have hlt := List.rel_of_pairwise_cons h3 hb
      have := Int.eq_of_mul_eq_mul_right (by omega) hc
      omega

/-- what building row by row gives -/
theorem foldl_build (k : Int) (hk : 0 < k) (vss : List (List (Option V))) : ∀ (i : Int) (m : Cells V) (x y : Int), 0 ≤ i →
    (∀ x y, i * k ≤ y → m x y = none) → 0 ≤ x → 
    (enum i vss).foldl (fun m (a : Int × List (Option V)) =>
      (enum 0 a.2).foldl (fun m (b : Int × Option V) => upd m (b.1 * k) (a.1 * k) b.2) m) m x y =
      if y % k = 0 ∧ x % k = 0 ∧ i ≤ y / k ∧ y / k < i + vss.length then
        nth (vss.getD (y / k - i).toNat []) (x / k) else m x y := by
  induction vss with
  | nil =>
    intro i m x y hi hm hx
    have : ¬ (y % k = 0 ∧ x % k = 0 ∧ i ≤ y / k ∧ y / k < i + ([] : List (List (Option V))).length) := by
      rintro ⟨_, _, h1, h2⟩
      simp at h2; omega
    rw [if_neg this]; rfl
  | cons vs vss ih =>
    intro i m x y hi hm hx
    rw [enum, List.foldl_cons]
    have hrow := fun x y => foldl_row k (i * k) hk vs 0 m x y (by omega)
    rw [ih (i + 1) _ x y (by omega) ?_ hx]
    · have hlen : ((vs :: vss).length : Int) = vss.length + 1 := by simp
      have hxk : 0 ≤ x / k := Int.ediv_nonneg hx (by omega)
      by_cases hx0 : x % k = 0
      rotate_left
      · rw [if_neg (fun h => hx0 h.2.1), if_neg (fun h => hx0 h.2.1), hrow, if_neg (fun h => hx0 h.2.1)]
      by_cases hy0 : y % k = 0
      rotate_left
      · rw [if_neg (fun h => hy0 h.1), if_neg (fun h => hy0 h.1), hrow, if_neg]
        rintro ⟨h1, _⟩
        exact hy0 (by rw [h1]; exact Int.mul_emod_left i k)
      have hyk : y = y / k * k := by
        have := Int.mul_ediv_add_emod y k
        rw [hy0] at this
        rw [Int.mul_comm]; omega
      by_cases hi' : y / k = i
      · rw [if_neg (by rintro ⟨_, _, h1, _⟩; omega), if_pos (by refine ⟨hy0, hx0, ?_, ?_⟩ <;> omega), hrow]
        have hz : (y / k - i).toNat = 0 := by omega
        rw [hz]
        simp only [List.getD_cons_zero]
        by_cases hlt : x / k < 0 + vs.length
        · rw [if_pos ⟨by rw [hyk, hi'], hx0, hxk, hlt⟩]; congr 1; omega
        · rw [if_neg (by rintro ⟨_, _, _, h⟩; exact hlt h), hm]
          · unfold nth
            rw [if_pos hxk, List.getElem?_eq_none (by omega)]; rfl
          · rw [hyk, hi']; exact Int.le_refl _
      · by_cases hrange : i + 1 ≤ y / k ∧ y / k < i + 1 + vss.length
        · rw [if_pos ⟨hy0, hx0, hrange⟩, if_pos (by refine ⟨hy0, hx0, ?_, ?_⟩ <;> omega)]
          have : (y / k - i).toNat = (y / k - (i + 1)).toNat + 1 := by omega
          rw [this, List.getD_cons_succ]
        · rw [if_neg (by rintro ⟨_, _, h1⟩; exact hrange h1), if_neg (by rintro ⟨_, _, h1, h2⟩; omega), hrow, if_neg]
          rintro ⟨h1, _⟩
          apply hi'
          rw [h1]
          exact Int.mul_ediv_cancel i (by omega)
    · intro x' y' hy'
      have h1 : i * k < (i + 1) * k := by
        have : (i + 1) * k = i * k + k := by rw [Int.add_mul]; omega
        omega
      rw [hrow, if_neg (by rintro ⟨h2, _⟩; omega)]
      exact hm _ _ (by omega)

/-- cells left of the first column stay as they are -/
theorem foldl_build_neg (k : Int) (hk : 0 < k) (vss : List (List (Option V))) : ∀ (i : Int) (m : Cells V) (x y : Int),
    x < 0 → (enum i vss).foldl (fun m (a : Int × List (Option V)) =>
      (enum 0 a.2).foldl (fun m (b : Int × Option V) => upd m (b.1 * k) (a.1 * k) b.2) m) m x y = m x y := by
  induction vss with
  | nil => intro i m x y hx; rfl
  | cons vs vss ih =>
    intro i m x y hx
    rw [enum, List.foldl_cons, ih _ _ _ _ hx, foldl_row k _ hk _ _ _ _ _ (by omega), if_neg]
    rintro ⟨_, _, h1, _⟩
    have := Int.ediv_neg_of_neg_of_pos hx hk
    omega

theorem mem_range {n x : Int} : x ∈ range n ↔ 0 ≤ x ∧ x < n := by
  unfold range
  rw [List.mem_map]
  constructor
  · rintro ⟨a, ha, rfl⟩
    rw [List.mem_range] at ha
    simp; omega
  · rintro ⟨h1, h2⟩
    exact ⟨x.toNat, List.mem_range.2 (by omega), by simp; omega⟩

/-- deleting cells of a row when another row has a cell -/
theorem delCells_row_sim {s : St V} (h : Inv s) (r : Int) (hr : 0 ≤ r) (xs : List Int) (hxs : ∀ c ∈ xs, 0 ≤ c)
    (hg : ∃ x y, y ≠ r ∧ cell s x y ≠ none) :
    let res := loop (fun (s : St V) c => s.del1 c r) s xs
    res.2 = none ∧ Inv res.1 ∧ cell res.1 = fun x y => if y = r ∧ x ∈ xs then none else cell s x y := by
  have hmain := loop_sim (fun (s : St V) c => s.del1 c r) (fun m c => upd m c r none)
    (fun xs s => Inv s ∧ (∀ c ∈ xs, 0 ≤ c) ∧ ∃ x y, y ≠ r ∧ cell s x y ≠ none)
    ?_ xs s ⟨h, hxs, hg⟩
  · refine ⟨hmain.1, hmain.2.1.1, hmain.2.2.trans ?_⟩
    generalize cell s = m
    clear hmain hg hxs h
    induction xs generalizing m with
    | nil => funext x y; simp
    | cons c xs ih =>
      rw [List.foldl_cons, ih]
      funext x y
      unfold upd
      by_cases hy : y = r <;> by_cases hx : x = c <;> by_cases hm : x ∈ xs <;> simp [hy, hx, hm]
      all_goals (try subst hx; simp_all)
  · rintro c xs s ⟨h1, h2, x, y, h4, h5⟩
    have hc := h2 c (by simp)
    obtain ⟨e1, e2, e3⟩ := del1_sim h1 c r (by
      right
      refine ⟨x, y, ?_, h5⟩
      rw [idx_nonneg hr]
      exact fun hc => h4 hc.2)
    rw [idx_nonneg hc, idx_nonneg hr] at e3
    refine ⟨e1, ⟨e2, fun a ha => h2 a (by simp [ha]), x, y, h4, ?_⟩, e3⟩
    rw [e3]
    unfold upd
    rw [if_neg (fun hc => h4 hc.2)]
    exact h5

/-- the same for a column -/
theorem delCells_col_sim {s : St V} (h : Inv s) (c : Int) (hc : 0 ≤ c) (ys : List Int) (hys : ∀ r ∈ ys, 0 ≤ r)
    (hg : ∃ x y, x ≠ c ∧ cell s x y ≠ none) :
    let res := loop (fun (s : St V) r => s.del1 c r) s ys
    res.2 = none ∧ Inv res.1 ∧ cell res.1 = fun x y => if x = c ∧ y ∈ ys then none else cell s x y := by
  have hmain := loop_sim (fun (s : St V) r => s.del1 c r) (fun m r => upd m c r none)
    (fun xs s => Inv s ∧ (∀ c ∈ xs, 0 ≤ c) ∧ ∃ x y, x ≠ c ∧ cell s x y ≠ none)
    ?_ ys s ⟨h, hys, hg⟩
  · refine ⟨hmain.1, hmain.2.1.1, hmain.2.2.trans ?_⟩
    generalize cell s = m
    clear hmain hg hys h
    induction ys generalizing m with
    | nil => funext x y; simp
    | cons r ys ih =>
      rw [List.foldl_cons, ih]
      funext x y
      unfold upd
      by_cases hy : y = r <;> by_cases hx : x = c <;> by_cases hm : y ∈ ys <;> simp [hy, hx, hm]
      all_goals (try subst hy; simp_all)
  · rintro r xs s ⟨h1, h2, x, y, h4, h5⟩
    have hr := h2 r (by simp)
    obtain ⟨e1, e2, e3⟩ := del1_sim h1 c r (by
      right
      refine ⟨x, y, ?_, h5⟩
      rw [idx_nonneg hc]
      exact fun hc => h4 hc.1)
    rw [idx_nonneg hc, idx_nonneg hr] at e3
    refine ⟨e1, ⟨e2, fun a ha => h2 a (by simp [ha]), x, y, h4, ?_⟩, e3⟩
    rw [e3]
    unfold upd
    rw [if_neg (fun hc => h4 hc.1)]
    exact h5

/-! ## Reading -/

theorem getAt_in {s : St V} {c r : Int} (hc : c < s.noCols) (hr : r < s.noRows) : s.getAt c r = .val (cell s c r) := by
  unfold St.getAt
  rw [if_neg (by omega), if_neg (by omega)]; rfl

theorem getAt_out {s : St V} {c r : Int} (h : s.noCols ≤ c ∨ s.noRows ≤ r) : s.getAt c r = .exc .indexError := by
  unfold St.getAt
  split
  · rfl
  · rw [if_pos (by omega)]

theorem readAll_in {s : St V} (l : List (Int × Int))
    (h : ∀ p ∈ l, 0 ≤ p.1 ∧ p.1 < s.noCols ∧ 0 ≤ p.2 ∧ p.2 < s.noRows) :
    readAll s l = .list (l.map (fun p => cell s p.1 p.2)) := by
  induction l with
  | nil => rfl
  | cons p l ih =>
    obtain ⟨h1, h2, h3, h4⟩ := h p (by simp)
    obtain ⟨c, r⟩ := p
    unfold readAll
    rw [cleanupKey_eq, cleanupKey_eq, idx_nonneg h1, idx_nonneg h3, getAt_in h2 h4, ih (fun p hp => h p (by simp [hp]))]
    rfl

theorem row_eq (s : St V) (r : Int) : s.row r = cellsOf s.noCols (fun x => cell s x r) := by
  unfold St.row cellsOf cell range
  cases Dict.get? s.rows r with
  | none => 
    simp only [Option.bind_none]
    apply List.ext_getElem <;> simp
  | some d => simp

theorem allRows_eq (s : St V) :
    s.allRows = (List.range s.noRows.toNat).map (fun y => cellsOf s.noCols (fun x => cell s x (Int.ofNat y))) := by
  unfold St.allRows range
  rw [List.map_map]
  congr 1
  funext y
  exact row_eq s _

/-- Calls for which the code keeps the promise: coordinates not below zero after counting from the end; and a call
that deletes cells does not delete the only cells of the matrix; `delete_row` of a row that has cells. -/
def Guard (s : St V) : Op V → Prop
  | .set c r v => 0 ≤ idx c s.noCols ∧ 0 ≤ idx r s.noRows ∧
      (v = none → cell s (idx c s.noCols) (idx r s.noRows) = none ∨
        ∃ x y, ¬ (x = idx c s.noCols ∧ y = idx r s.noRows) ∧ cell s x y ≠ none)
  | .del c r => 0 ≤ idx c s.noCols ∧ 0 ≤ idx r s.noRows ∧
      (cell s (idx c s.noCols) (idx r s.noRows) = none ∨
        ∃ x y, ¬ (x = idx c s.noCols ∧ y = idx r s.noRows) ∧ cell s x y ≠ none)
  | .setRow r vs => 0 ≤ idx r s.noRows ∧
      ((∀ v ∈ vs, v ≠ none) ∨ ∃ x y, y ≠ idx r s.noRows ∧ cell s x y ≠ none)
  | .setCol c vs => 0 ≤ idx c s.noCols ∧
      ((∀ v ∈ vs, v ≠ none) ∨ ∃ x y, x ≠ idx c s.noCols ∧ cell s x y ≠ none)
  | .delRow r => 0 ≤ idx r s.noRows ∧ ∃ x y, y ≠ idx r s.noRows ∧ cell s x y ≠ none
  | .delCol c => 0 ≤ idx c s.noCols ∧ ∃ x y, x ≠ idx c s.noCols ∧ cell s x y ≠ none
  | .deleteRow r => (∃ x, cell s x r ≠ none) ∧ ∃ x y, y ≠ r ∧ cell s x y ≠ none
  | .get c r => 0 ≤ idx c s.noCols ∧ 0 ≤ idx r s.noRows
  | .getRow r => 0 ≤ idx r s.noRows
  | .getCol c => 0 ≤ idx c s.noCols
  | _ => True

theorem wrap_ok {x : St V × Option Exc} (h : x.2 = none) : wrap x = (x.1, .unit) := by
  unfold wrap; rw [h]

theorem nth_none_of_ge (vs : List (Option V)) (x : Int) (h : ¬ (0 ≤ x ∧ x < vs.length)) : nth vs x = none := by
  unfold nth
  split
  · next h1 => rw [List.getElem?_eq_none (by omega)]; rfl
  · rfl

theorem nth_cellsOf (n : Int) (f : Int → Option V) (x : Int) :
    nth (cellsOf n f) x = if 0 ≤ x ∧ x < n then f x else none := by
  unfold nth cellsOf
  by_cases hx : 0 ≤ x
  · by_cases hn : x < n
    · have : x.toNat < n.toNat := by omega
      simp only [hx, hn, and_self, ↓reduceIte, List.getElem?_map]
      rw [List.getElem?_range this]
      simp only [Option.map_some, Option.join_some]
      congr 1
      simp; omega
    · simp only [hx, hn, and_false, ↓reduceIte]
      rw [List.getElem?_eq_none (by simp; omega)]; rfl
  · simp [hx]

theorem step_sim {s : St V} {m : Cells V} (o : Op V) (hg : Guard s o) (h : Rep s m) :
    ∃ m', Spec m o (step s o).2 m' ∧ Rep (step s o).1 m' := by
  obtain ⟨hinv, hm⟩ := h
  subst hm
  have hbox := hinv.box
  have hw := leastBound_nonneg hbox.1
  have hh := leastBound_nonneg hbox.2
  have hrow1 : ∀ (r : Int) (vs : List (Option V)), (enum 0 vs).foldl (fun m (a : Int × Option V) => upd m a.1 r a.2) (cell s) =
      fun (x y : Int) => if y = r ∧ 0 ≤ x ∧ x < vs.length then nth vs x else cell s x y := by
    intro r vs
    funext x y
    have := foldl_row 1 r (by omega) vs 0 (cell s) x y (by omega)
    simp only [Int.mul_one] at this
    rw [this]
    simp [Int.emod_one]
  cases o with
  | set c r v =>
    obtain ⟨h1, h2, h3⟩ := hg
    obtain ⟨e1, e2, e3⟩ := set1_sim hinv c r v h1 h2 h3
    simp only [step]
    rw [wrap_ok e1]
    exact ⟨_, .set hbox h1 h2, e2, e3⟩
  | setRow r vs =>
    obtain ⟨h1, h2⟩ := hg
    simp only [step]
    rw [cleanupKey_eq]
    obtain ⟨e1, e2, e3⟩ := setRow_sim hinv (idx r s.noRows) h1 vs h2
    rw [wrap_ok e1]
    exact ⟨_, .setRow hbox h1, e2, e3.trans (hrow1 _ _)⟩
  | setCol c vs =>
    obtain ⟨h1, h2⟩ := hg
    simp only [step]
    rw [cleanupKey_eq]
    obtain ⟨e1, e2, e3⟩ := setCol_sim hinv (idx c s.noCols) h1 vs h2
    rw [wrap_ok e1]
    refine ⟨_, .setCol hbox h1, e2, e3.trans ?_⟩
    funext x y
    rw [foldl_col _ _ _ _ _ _ (by omega)]
    simp
  | setAll vss =>
    have hb := build_sim (V := V) 1 (by omega) vss
    simp only [Int.mul_one] at hb
    obtain ⟨e1, e2, e3⟩ := hb
    have hf : fromIterable vss = ((fromIterable vss).1, none) := by
      have : (fromIterable vss).2 = none := e1
      rw [← this]
    simp only [step]
    rw [hf]
    refine ⟨_, .setAll, e2, e3.trans ?_⟩
    funext x y
    by_cases hx : 0 ≤ x
    · have := foldl_build (V := V) 1 (by omega) vss 0 (fun _ _ => none) x y (by omega) (fun _ _ _ => rfl) hx
      simp only [Int.mul_one] at this
      rw [this]
      simp [Int.emod_one]
    · have := foldl_build_neg (V := V) 1 (by omega) vss 0 (fun _ _ => none) x y (by omega)
      simp only [Int.mul_one] at this
      rw [this, nth_none_of_ge _ _ (by omega)]
      simp
  | del c r =>
    obtain ⟨h1, h2, h3⟩ := hg
    obtain ⟨e1, e2, e3⟩ := del1_sim hinv c r h3
    simp only [step]
    rw [wrap_ok e1]
    exact ⟨_, .del hbox h1 h2, e2, e3⟩
  | delRow r =>
    obtain ⟨h1, h2⟩ := hg
    simp only [step]
    rw [cleanupKey_eq]
    obtain ⟨e1, e2, e3⟩ := delCells_row_sim hinv (idx r s.noRows) h1 (range s.noCols)
      (fun c hc => (mem_range.1 hc).1) h2
    rw [wrap_ok e1]
    refine ⟨_, .delRow hbox h1, e2, e3.trans ?_⟩
    funext x y
    by_cases hy : y = idx r s.noRows
    · simp only [hy, true_and, ↓reduceIte]
      split
      · rfl
      · next hx =>
        rw [mem_range] at hx
        cases hc : cell s x (idx r s.noRows) with
        | none => rfl
        | some v => exact absurd (hbox.1.1 x ⟨_, by rw [hc]; simp⟩) hx
    · simp [hy]
  | delCol c =>
    obtain ⟨h1, h2⟩ := hg
    simp only [step]
    rw [cleanupKey_eq]
    obtain ⟨e1, e2, e3⟩ := delCells_col_sim hinv (idx c s.noCols) h1 (range s.noRows)
      (fun c hc => (mem_range.1 hc).1) h2
    rw [wrap_ok e1]
    refine ⟨_, .delCol hbox h1, e2, e3.trans ?_⟩
    funext x y
    by_cases hx : x = idx c s.noCols
    · simp only [hx, true_and, ↓reduceIte]
      split
      · rfl
      · next hy =>
        rw [mem_range] at hy
        cases hc : cell s (idx c s.noCols) y with
        | none => rfl
        | some v => exact absurd (hbox.2.1 y ⟨_, by rw [hc]; simp⟩) hy
    · simp [hx]
  | clear => exact ⟨_, .clear, inv_empty, rfl⟩
  | deleteRow r =>
    obtain ⟨⟨x0, hx0⟩, h2⟩ := hg
    have hr : 0 ≤ r := (hbox.2.1 r ⟨x0, hx0⟩).1
    simp only [step]
    cases hd : Dict.get? s.rows r with
    | none => unfold cell at hx0; rw [hd] at hx0; simp at hx0
    | some d =>
      have hkey : ∀ c, c ∈ Dict.keys d ↔ cell s c r ≠ none := by
        intro c
        rw [← Dict.get?_isSome_iff]
        unfold cell
        rw [hd]
        simp only [Option.bind_some]
        cases Dict.get? d c <;> simp
      obtain ⟨e1, e2, e3⟩ := delCells_row_sim hinv r hr (Dict.keys d)
        (fun c hc => (hbox.1.1 c ⟨r, (hkey c).1 hc⟩).1) h2
      dsimp only
      rw [wrap_ok e1]
      refine ⟨_, .deleteRow, e2, e3.trans ?_⟩
      funext x y
      by_cases hy : y = r
      · subst hy
        simp only [true_and, ↓reduceIte]
        split
        · rfl
        · next hx =>
          rw [hkey] at hx
          cases hc : cell s x y with
          | none => rfl
          | some v => rw [hc] at hx; simp at hx
      · simp [hy]
  | appendRow vs =>
    have hfresh : ∀ x, cell s x s.noRows = none := by
      intro x
      cases hc : cell s x s.noRows with
      | none => rfl
      | some v =>
        have := hbox.2.1 s.noRows ⟨x, by rw [hc]; simp⟩
        omega
    have hb := freshRow_sim hinv 1 s.noRows (by omega) hh vs hfresh
    simp only [Int.mul_one] at hb
    obtain ⟨e1, e2, e3⟩ := hb
    have hs : (s.setRowAt s.noRows vs).2 = none := e1
    simp only [step]
    rw [wrap_ok hs]
    exact ⟨_, .appendRow hbox, e2, e3.trans (hrow1 _ _)⟩
  | shoot =>
    obtain ⟨e1, e2, e3⟩ := build_sim (V := V) 2 (by omega) s.allRows
    have hf : s.shoot = (s.shoot.1, none) := by
      have : s.shoot.2 = none := e1
      rw [← this]
    simp only [step]
    rw [hf]
    refine ⟨_, .shoot, e2, e3.trans ?_⟩
    funext x y
    have hout : ∀ a b : Int, ¬ (0 ≤ a ∧ a < s.noCols ∧ 0 ≤ b ∧ b < s.noRows) → cell s a b = none := by
      intro a b hab
      cases hc : cell s a b with
      | none => rfl
      | some v =>
        have h1 := hbox.1.1 a ⟨b, by rw [hc]; simp⟩
        have h2 := hbox.2.1 b ⟨a, by rw [hc]; simp⟩
        exact absurd ⟨h1.1, h1.2, h2.1, h2.2⟩ hab
    by_cases hx : 0 ≤ x
    · rw [foldl_build (V := V) 2 (by omega) s.allRows 0 (fun _ _ => none) x y (by omega) (fun _ _ _ => rfl) hx]
      have hlen : s.allRows.length = s.noRows.toNat := by rw [allRows_eq]; simp
      by_cases he : x % 2 = 0 ∧ y % 2 = 0
      · by_cases hy : 0 ≤ y / 2 ∧ y / 2 < 0 + s.allRows.length
        · rw [if_pos ⟨he.2, he.1, hy⟩, if_pos he]
          have hi : (y / 2 - 0).toNat < s.noRows.toNat := by omega
          have hget : s.allRows.getD (y / 2 - 0).toNat [] = cellsOf s.noCols (fun x => cell s x (y / 2)) := by
            rw [allRows_eq, List.getD_eq_getElem?_getD, List.getElem?_map, List.getElem?_range hi]
            simp only [Option.map_some, Option.getD_some]
            congr 1
            funext x
            congr 1
            simp; omega
          rw [hget, nth_cellsOf]
          split
          · rfl
          · next hn => exact (hout _ _ (by omega)).symm
        · rw [if_neg (by rintro ⟨_, _, h1⟩; exact hy h1), if_pos he]
          exact (hout _ _ (by omega)).symm
      · rw [if_neg (by rintro ⟨h1, h2, _⟩; exact he ⟨h2, h1⟩), if_neg he]
    · rw [foldl_build_neg (V := V) 2 (by omega) s.allRows 0 (fun _ _ => none) x y (by omega)]
      split
      · exact (hout _ _ (by omega)).symm
      · rfl
  | get c r =>
    obtain ⟨h1, h2⟩ := hg
    refine ⟨cell s, ?_, hinv, rfl⟩
    simp only [step]
    rw [cleanupKey_eq, cleanupKey_eq]
    by_cases hin : idx c s.noCols < s.noCols ∧ idx r s.noRows < s.noRows
    · rw [getAt_in hin.1 hin.2]
      exact .get hbox h1 hin.1 h2 hin.2
    · rw [getAt_out (by omega)]
      exact .getOutside hbox (by omega)
  | getRow r =>
    refine ⟨cell s, ?_, hinv, rfl⟩
    simp only [step]
    rw [cleanupKey_eq]
    have hg : 0 ≤ idx r s.noRows := hg
    by_cases hin : idx r s.noRows < s.noRows
    · rw [readAll_in]
      · have : (((range s.noCols).map (fun c => (c, idx r s.noRows))).map (fun p => cell s p.1 p.2)) =
            cellsOf s.noCols (fun x => cell s x (idx r s.noRows)) := by
          unfold range cellsOf
          simp
        rw [this]
        exact .getRow hbox hg hin
      · intro p hp
        rw [List.mem_map] at hp
        obtain ⟨c, hc, rfl⟩ := hp
        rw [mem_range] at hc
        exact ⟨hc.1, hc.2, hg, hin⟩
    · by_cases hc0 : s.noCols = 0
      · have hnil : range s.noCols = [] := by rw [hc0]; rfl
        rw [hnil]
        apply Spec.getRowEmpty
        intro x y
        cases hc : cell s x y with
        | none => rfl
        | some v =>
          have := hbox.1.1 x ⟨y, by rw [hc]; simp⟩
          omega
      · obtain ⟨n, hn⟩ : ∃ n, s.noCols.toNat = n + 1 := ⟨s.noCols.toNat - 1, by omega⟩
        have hcons : ∃ l, range s.noCols = 0 :: l := by
          unfold range
          rw [hn, List.range_succ_eq_map]
          exact ⟨_, rfl⟩
        obtain ⟨l, hl⟩ := hcons
        rw [hl, List.map_cons, readAll, cleanupKey_eq, cleanupKey_eq, idx_nonneg hg, getAt_out (Or.inr (by omega))]
        refine .getRowOutside hbox (by omega) ?_
        rcases hbox.1.2 with hb | ⟨hb, _⟩
        · obtain ⟨y, hy⟩ := hb
          have := hbox.2.1 y ⟨_, hy⟩
          omega
        · omega
  | getCol c =>
    refine ⟨cell s, ?_, hinv, rfl⟩
    simp only [step]
    rw [cleanupKey_eq]
    have hg : 0 ≤ idx c s.noCols := hg
    by_cases hin : idx c s.noCols < s.noCols
    · rw [readAll_in]
      · have : (((range s.noRows).map (fun r => (idx c s.noCols, r))).map (fun p => cell s p.1 p.2)) =
            cellsOf s.noRows (fun y => cell s (idx c s.noCols) y) := by
          unfold range cellsOf
          simp
        rw [this]
        exact .getCol hbox hg hin
      · intro p hp
        rw [List.mem_map] at hp
        obtain ⟨c, hc, rfl⟩ := hp
        rw [mem_range] at hc
        exact ⟨hg, hin, hc.1, hc.2⟩
    · by_cases hc0 : s.noRows = 0
      · have hnil : range s.noRows = [] := by rw [hc0]; rfl
        rw [hnil]
        apply Spec.getColEmpty
        intro x y
        cases hc : cell s x y with
        | none => rfl
        | some v =>
          have := hbox.2.1 y ⟨x, by rw [hc]; simp⟩
          omega
      · obtain ⟨n, hn⟩ : ∃ n, s.noRows.toNat = n + 1 := ⟨s.noRows.toNat - 1, by omega⟩
        have hcons : ∃ l, range s.noRows = 0 :: l := by
          unfold range
          rw [hn, List.range_succ_eq_map]
          exact ⟨_, rfl⟩
        obtain ⟨l, hl⟩ := hcons
        rw [hl, List.map_cons, readAll, cleanupKey_eq, cleanupKey_eq, idx_nonneg hg, getAt_out (Or.inl (by omega))]
        refine .getColOutside hbox (by omega) ?_
        rcases hbox.2.2 with hb | ⟨hb, _⟩
        · obtain ⟨x, hx⟩ := hb
          have := hbox.1.1 x ⟨_, hx⟩
          omega
        · omega
  | getAll =>
    refine ⟨cell s, ?_, hinv, rfl⟩
    simp only [step]
    rw [allRows_eq]
    exact .getAll hbox
  | dims => exact ⟨cell s, .dims hbox, hinv, rfl⟩

/-- **C16.** For every history of calls within the guard, starting from an empty matrix: every read returns the last value assigned (None if
none was or it was deleted), IndexError outside the box, the numbers of columns and rows are those of the smallest box with all set
cells.  `Spec` determines every result from the cells alone.
Missing for the full statement: deleting the last cell, indices below zero, and `delete_row` of an empty row, where it fails
(`C16_delete_last_violates` and the theorems after it). -/
theorem C16_matrix_partial (ops : List (Op V)) (hg : AllSteps Guard step (St.empty : St V) ops) :
    ∃ m, History Spec (fun _ _ => none) ops (runOps step (St.empty : St V) ops).2 m ∧
      IsBox m (runOps step (St.empty : St V) ops).1.noCols (runOps step (St.empty : St V) ops).1.noRows := by
  obtain ⟨m, h1, h2⟩ := history_of_sim' (spec := Spec) Rep Guard (fun s b o hg h => step_sim o hg h)
    (St.empty : St V) (fun _ _ => none) ops hg ⟨inv_empty, rfl⟩
  refine ⟨m, h1, ?_⟩
  rw [← h2.2]
  exact h2.1.box

/-- the box is determined by the cells -/
theorem C16_box_unique {m : Cells V} {w h w' h' : Int} (h1 : IsBox m w h) (h2 : IsBox m w' h') : w = w' ∧ h = h' :=
  ⟨leastBound_unique h1.1 h2.1, leastBound_unique h1.2 h2.2⟩

theorem maxLoop_spec (gt : V → V → Bool) (hirr : ∀ a, gt a a = false)
    (hasymm : ∀ a b, gt a b = true → gt b a = false)
    (htrans : ∀ a b c, gt b a = false → gt c b = false → gt c a = false) (vs : List (Option V)) : ∀ (i : V),
    ∃ r, maxLoop gt (some i) vs = some (some r) ∧ (r = i ∨ some r ∈ vs) ∧ gt i r = false ∧
      ∀ v, some v ∈ vs → gt v r = false := by
  induction vs with
  | nil => intro i; exact ⟨i, rfl, Or.inl rfl, hirr i, by simp⟩
  | cons v vs ih =>
    intro i
    cases v with
    | none =>
      obtain ⟨r, h1, h2, h3, h4⟩ := ih i
      refine ⟨r, h1, ?_, h3, ?_⟩
      · rcases h2 with h2 | h2
        · exact Or.inl h2
        · exact Or.inr (List.mem_cons_of_mem _ h2)
      · intro v hv
        rcases List.mem_cons.1 hv with hv | hv
        · simp at hv
        · exact h4 v hv
    | some v =>
      obtain ⟨r, h1, h2, h3, h4⟩ := ih (if gt v i then v else i)
      refine ⟨r, h1, ?_, ?_, ?_⟩
      · rcases h2 with h2 | h2
        · split at h2
          · right; rw [h2]; simp
          · left; exact h2
        · exact Or.inr (List.mem_cons_of_mem _ h2)
      · split at h3
        · next hv => exact htrans r v i h3 (hasymm v i hv)
        · exact h3
      · intro w hw
        rcases List.mem_cons.1 hw with hw | hw
        · simp at hw; subst hw
          split at h3
          · exact h3
          · next hv => exact htrans r i w h3 (by simpa using hv)
        · exact h4 w hw

/-- **C16**, `max()` (and `min()` with the comparison reversed), for every total order, after every history within the guard: if the top
left cell is set the result is a value of the matrix that no other value exceeds.  Missing: the top left cell not set, where it fails
(`C16_max_violates`). -/
theorem C16_max_partial (gt : V → V → Bool) (hirr : ∀ a, gt a a = false)
    (hasymm : ∀ a b, gt a b = true → gt b a = false)
    (htrans : ∀ a b c, gt b a = false → gt c b = false → gt c a = false)
    (ops : List (Op V)) (hg : AllSteps Guard step (St.empty : St V) ops) :
    ∃ m : Cells V, History Spec (fun _ _ => none) ops (runOps step (St.empty : St V) ops).2 m ∧
      (m 0 0 ≠ none → ∃ r, St.max gt (runOps step (St.empty : St V) ops).1 = .val (some r) ∧
        (∃ x y, m x y = some r) ∧ ∀ x y v, m x y = some v → gt v r = false) := by
  obtain ⟨m, h1, h2⟩ := history_of_sim' (spec := Spec) Rep Guard (fun s b o hg h => step_sim o hg h)
    (St.empty : St V) (fun _ _ => none) ops hg ⟨inv_empty, rfl⟩
  refine ⟨m, h1, fun h0 => ?_⟩
  generalize (runOps step (St.empty : St V) ops).1 = s at h2
  obtain ⟨hinv, hm⟩ := h2
  subst hm
  have hbox := hinv.box
  obtain ⟨i, hi⟩ := Option.ne_none_iff_exists'.1 h0
  have hc := hbox.1.1 0 ⟨0, h0⟩
  have hr := hbox.2.1 0 ⟨0, h0⟩
  obtain ⟨r, e1, e2, e3, e4⟩ := maxLoop_spec gt hirr hasymm htrans s.allRows.flatten i
  have hmem : ∀ v, some v ∈ s.allRows.flatten ↔ ∃ x y, cell s x y = some v := by
    intro v
    rw [allRows_eq]
    unfold cellsOf
    simp only [List.mem_flatten, List.mem_map, List.mem_range]
    constructor
    · rintro ⟨l, ⟨y, hy, rfl⟩, hv⟩
      rw [List.mem_map] at hv
      obtain ⟨x, _, hx⟩ := hv
      exact ⟨_, _, hx⟩
    · rintro ⟨x, y, hxy⟩
      have hx := hbox.1.1 x ⟨y, by rw [hxy]; simp⟩
      have hy := hbox.2.1 y ⟨x, by rw [hxy]; simp⟩
      refine ⟨_, ⟨y.toNat, by omega, rfl⟩, ?_⟩
      rw [List.mem_map]
      refine ⟨x.toNat, List.mem_range.2 (by omega), ?_⟩
      have h1 : Int.ofNat x.toNat = x := by simp; omega
      have h2 : Int.ofNat y.toNat = y := by simp; omega
      rw [h1, h2]; exact hxy
  refine ⟨r, ?_, ?_, ?_⟩
  · unfold St.max
    rw [getAt_in hc.2 hr.2, hi]
    dsimp only
    rw [e1]
  · rcases e2 with e2 | e2
    · exact ⟨0, 0, by rw [e2]; exact hi⟩
    · exact (hmem r).1 e2
  · intro x y v hv
    exact e4 v ((hmem v).2 ⟨x, y, hv⟩)

/-! ## Where the statement is false -/

/-- **C16 is false**: deleting the only cell raises ValueError and leaves the box as it was, for every cell and value. -/
theorem C16_delete_last_violates (c r : Int) (hc : 0 ≤ c) (hr : 0 ≤ r) (v : V) :
    (runOps step (St.empty : St V) [.set c r (some v), .del c r, .dims]).2 =
      [.unit, .exc .valueError, .dims (c + 1) (r + 1)] := by
  have h1 : ¬ c < 0 := by omega
  have h2 : ¬ r < 0 := by omega
  simp [runOps, step, St.empty, St.set1, St.del1, St.put, St.delAt, cleanupKey, h1, h2, wrap, incCount, Dict.set, Dict.get?,
    Dict.has, Dict.del, pyMax, Dict.keys, hc, hr]

/-- **C16 is false**: reading far to the left of the matrix returns None, not IndexError. -/
theorem C16_negative_read_violates (v : V) :
    (runOps step (St.empty : St V) [.set 0 0 (some v), .get (-5) 0]).2 = [.unit, .val none] := by
  simp [runOps, step, St.empty, St.set1, St.put, cleanupKey, wrap, incCount, Dict.set, Dict.get?, St.getAt]

/-- **C16 is false**: assigning there stores a value outside the box, which iteration does not show. -/
theorem C16_negative_write_violates (v w : V) :
    (runOps step (St.empty : St V) [.set 0 0 (some v), .set (-5) 0 (some w), .get (-5) 0, .getAll]).2 =
      [.unit, .unit, .val (some w), .lists [[some v]]] := by
  simp [runOps, step, St.empty, St.set1, St.put, cleanupKey, wrap, incCount, Dict.set, Dict.get?, Dict.has, St.getAt,
    St.allRows, St.row, range]

/-- **C16 is false**: deleting a row that does not exist makes the next deletion count it. -/
theorem C16_delete_missing_row_violates (v : V) :
    (runOps step (St.empty : St V) [.set 0 0 (some v), .set 1 0 (some v), .deleteRow 7, .del 1 0, .dims]).2 =
      [.unit, .unit, .unit, .unit, .dims 1 8] := by
  simp [runOps, step, St.empty, St.set1, St.del1, St.put, St.delAt, cleanupKey, wrap, incCount, Dict.set, Dict.get?,
    Dict.has, Dict.del, pyMax, Dict.keys]

/-- `max()` fails with TypeError if the top left cell is not set, however many others are. -/
theorem C16_max_violates (gt : V → V → Bool) (v : V) :
    St.max gt (runOps step (St.empty : St V) [.set 1 1 (some v)]).1 = .exc .typeError := by
  simp [runOps, step, St.empty, St.set1, St.put, cleanupKey, wrap, incCount, Dict.set, Dict.get?, St.getAt,
    St.max, maxLoop, St.allRows, St.row, range, List.range_succ]

/-- A matrix is true exactly when it is empty. -/
theorem C16_bool_inverted_violates (v : V) (c r : Int) (hc : 0 ≤ c) (hr : 0 ≤ r) :
    (St.empty : St V).toBool = true ∧ (runOps step (St.empty : St V) [.set c r (some v)]).1.toBool = false := by
  have h1 : ¬ c < 0 := by omega
  have h2 : ¬ r < 0 := by omega
  have h3 : ¬ r + 1 = 0 := by omega
  simp [runOps, step, St.empty, St.set1, St.put, cleanupKey, wrap, St.toBool, h1, h2, h3, hr]

end

/-- a history within the guard: cells, a row with a None, a column, deletions, negative indices -/
example : AllSteps Guard step (St.empty : St Nat)
    [.setAll [[some 1, none], [some 3, some 4]], .set 2 2 (some 9), .del (-1) (-1), .get 1 0, .get 1 1, .dims] := by
  refine ⟨trivial, ⟨by decide, by decide, by simp⟩, ⟨by decide, by decide, Or.inr ⟨0, 0, by decide, by decide⟩⟩,
    ⟨by decide, by decide⟩, ⟨by decide, by decide⟩, trivial, trivial⟩

example : (runOps step (St.empty : St Nat)
    [.setAll [[some 1, none], [some 3, some 4]], .set 2 2 (some 9), .dims, .del (-1) (-1), .get 1 0, .get 1 1, .get 2 2, .dims,
     .setRow 0 [none, some 7], .getAll, .shoot, .getAll, .delCol 0, .getCol 2]).2 =
    [.unit, .unit, .dims 3 3, .unit, .val none, .val (some 4), .exc .indexError, .dims 2 2, .unit,
     .lists [[none, some 7], [some 3, some 4]], .unit,
     .lists [[none, none, some 7], [none, none, none], [some 3, none, some 4]], .unit, .list [some 7, none, some 4]] := by
  decide

end Verif.Matrix
