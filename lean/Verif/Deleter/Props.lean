import Verif.Deleter.Spec
/-!
# C24: deleters
-/
namespace Verif.Deleter
open Verif

section
variable {α : Type _}

/-! ## remove_items -/

theorem removeLoop_eq (marks : List Int) (rest pre : List α) (i delta : Nat) (h : pre.length + delta = i) :
    removeLoop marks rest i delta (pre ++ rest) =
      pre ++ ((rest.zipIdx i).filter (fun p => decide ((p.2 : Int) ∉ marks))).map Prod.fst := by
  induction rest generalizing pre i delta with
  | nil => simp [removeLoop]
  | cons x rest ih =>
    simp only [removeLoop, List.zipIdx_cons, List.filter_cons]
    split
    · rename_i hm
      have e : (pre ++ x :: rest).eraseIdx (i - delta) = pre ++ rest := by
        have : i - delta = pre.length := by omega
        rw [this, List.eraseIdx_append_of_length_le (Nat.le_refl _)]; simp
      rw [e, ih pre (i + 1) (delta + 1) (by omega)]
      simp [hm]
    · rename_i hm
      have := ih (pre ++ [x]) (i + 1) delta (by simp; omega)
      simp only [List.append_assoc, List.singleton_append] at this
      rw [this]
      simp [hm]

theorem remove_eq (s : LD α) (hr : s.removed = false) (gone : List Nat)
    (h : ∀ i, i < s.xs.length → ((i : Int) ∈ s.marks ↔ i ∈ gone)) : s.remove.xs = without s.xs gone := by
  unfold LD.remove
  rw [if_neg (by simp [hr])]
  have := removeLoop_eq s.marks s.xs [] 0 0 rfl
  simp only [List.nil_append] at this
  show removeLoop s.marks s.xs 0 0 s.xs = _
  rw [this]
  unfold without
  congr 1
  apply List.filter_congr
  intro p hp
  have hlt : p.2 < s.xs.length := by
    have := List.snd_lt_of_mem_zipIdx hp
    omega
  have := h p.2 hlt
  simp [this]

/-! ## The cursor -/

/-- how the deleter represents the cursor -/
structure Rep (d : Dir) (s : LD α) (c : Cursor α) : Prop where
  xs : s.xs = c.xs
  dir : s.dir = d
  idx : s.idx = (c.pos : Int) - 1
  le : c.pos ≤ c.xs.length + 1
  removed : s.removed = false
  marks : ∀ i, i < c.xs.length → ((i : Int) ∈ s.marks ↔ i ∈ c.marked)

/-- the call that the model treats differently: moving left at the first element -/
def Guard (s : LD α) (o : LOp) : Prop :=
  match o, s.dir with
  | .next, .backward => s.idx ≠ 0
  | .prev, .forward => s.idx ≠ 0
  | _, _ => True

theorem show_eq {d : Dir} {s : LD α} {c : Cursor α} (h : Rep d s c) (h0 : c.pos ≠ 0 ∨ c.xs = []) : s.at .stopIteration = c.show := by
  unfold LD.at Cursor.show Cursor.current pyGet
  rw [h.idx, h.xs]
  by_cases hp : c.pos = 0
  · rcases h0 with h0 | h0
    · exact absurd hp h0
    · rw [h0, hp]; simp
  · have e : ((c.pos : Int) - 1).toNat = c.pos - 1 := by omega
    have e1 : (0 : Int) ≤ (c.pos : Int) - 1 := by omega
    rw [if_pos e1, e, if_neg hp]

theorem step_sim (d : Dir) (s : LD α) (c : Cursor α) (o : LOp) (hg : Guard s o) (h : Rep d s c) :
    ∃ c', lspec d c o (s.step o).2 c' ∧ Rep d (s.step o).1 c' := by
  have hright : ∀ (s' : LD α), s'.xs = s.xs → s'.dir = s.dir → s'.marks = s.marks → s'.removed = s.removed →
      s'.idx = (if s.idx = s.xs.length then s.idx else s.idx + 1) → Rep d s' c.right := by
    intro s' h1 h2 h3 h4 h5
    have hl := h.le; have hi := h.idx; have hx := h.xs
    refine ⟨h1.trans hx, h2.trans h.dir, ?_, ?_, h4.trans h.removed, fun i hlt => by rw [h3]; exact h.marks i hlt⟩
    · rw [h5, hx, hi]; simp only [Cursor.right]
      split <;> omega
    · simp only [Cursor.right]; omega
  have hleft : ∀ (s' : LD α), s'.xs = s.xs → s'.dir = s.dir → s'.marks = s.marks → s'.removed = s.removed →
      s'.idx = (if s.idx = -1 then s.idx else s.idx - 1) → Rep d s' c.left := by
    intro s' h1 h2 h3 h4 h5
    have hl := h.le; have hi := h.idx; have hx := h.xs
    refine ⟨h1.trans hx, h2.trans h.dir, ?_, ?_, h4.trans h.removed, fun i hlt => by rw [h3]; exact h.marks i hlt⟩
    · rw [h5, hi]; simp only [Cursor.left]
      split <;> omega
    · simp only [Cursor.left]; omega
  have endShow : c.pos = c.xs.length + 1 → c.right.show = .raised .stopIteration := by
    intro hp; simp [Cursor.show, Cursor.current, Cursor.right, hp, LRes.ofOption]
  have startShow : c.pos = 0 → c.left.show = .raised .stopIteration := by
    intro hp; simp [Cursor.show, Cursor.current, Cursor.left, hp, LRes.ofOption]
  have hl := h.le; have hi := h.idx; have hx := h.xs; have hd := h.dir
  have hxl : s.xs.length = c.xs.length := by rw [hx]
  -- the two moves
  have moveR : ∀ r : LD α × LRes α, r = (if s.idx = s.xs.length then (s, .raised .stopIteration) else ({ s with idx := s.idx + 1 }, ({ s with idx := s.idx + 1 } : LD α).at .stopIteration)) →
      r.2 = c.right.show ∧ Rep d r.1 c.right := by
    intro r hr
    by_cases he : s.idx = s.xs.length
    · rw [if_pos he] at hr; subst hr
      exact ⟨(endShow (by omega)).symm, hright _ rfl rfl rfl rfl (by rw [if_pos he])⟩
    · rw [if_neg he] at hr; subst hr
      have hR : Rep d { s with idx := s.idx + 1 } c.right := hright _ rfl rfl rfl rfl (by rw [if_neg he])
      exact ⟨show_eq hR (by simp only [Cursor.right]; omega), hR⟩
  have moveL : s.idx ≠ 0 → ∀ r : LD α × LRes α, r = (if s.idx = -1 then (s, .raised .stopIteration) else ({ s with idx := s.idx + -1 }, ({ s with idx := s.idx + -1 } : LD α).at .stopIteration)) →
      r.2 = c.left.show ∧ Rep d r.1 c.left := by
    intro h0 r hr
    by_cases he : s.idx = -1
    · rw [if_pos he] at hr; subst hr
      exact ⟨(startShow (by omega)).symm, hleft _ rfl rfl rfl rfl (by rw [if_pos he])⟩
    · rw [if_neg he] at hr; subst hr
      have hR : Rep d { s with idx := s.idx + -1 } c.left := hleft _ rfl rfl rfl rfl (by rw [if_neg he]; rfl)
      exact ⟨show_eq hR (by simp only [Cursor.left]; omega), hR⟩
  cases o with
  | iter =>
    refine ⟨_, ⟨rfl, rfl⟩, hx, hd, ?_, ?_, h.removed, ?_⟩
    · simp only [LD.step, startIdx, hd]; cases d <;> simp [hxl, startPos]
    · cases d <;> simp [startPos]
    · intro i _; simp [LD.step]
  | next =>
    cases d with
    | forward =>
      refine ⟨c.right, ⟨rfl, (moveR _ ?_).1⟩, (moveR _ ?_).2⟩ <;> simp [LD.step, LD.next, hd]
    | backward =>
      have h0 : s.idx ≠ 0 := by simpa [Guard, hd] using hg
      refine ⟨c.left, ⟨rfl, (moveL h0 _ ?_).1⟩, (moveL h0 _ ?_).2⟩ <;> simp [LD.step, LD.next, hd]
  | prev =>
    cases d with
    | forward =>
      have h0 : s.idx ≠ 0 := by simpa [Guard, hd] using hg
      refine ⟨c.left, ⟨rfl, (moveL h0 _ ?_).1⟩, (moveL h0 _ ?_).2⟩ <;> simp [LD.step, LD.prev, hd]
    | backward =>
      refine ⟨c.right, ⟨rfl, (moveR _ ?_).1⟩, (moveR _ ?_).2⟩ <;> simp [LD.step, LD.prev, hd]
  | value =>
    refine ⟨c, ⟨rfl, ?_⟩, h⟩
    intro x hxx
    unfold Cursor.current at hxx
    split at hxx
    · cases hxx
    · rename_i hp
      have e : ((c.pos : Int) - 1).toNat = c.pos - 1 := by omega
      have e1 : (0 : Int) ≤ (c.pos : Int) - 1 := by omega
      simp only [LD.step, LD.at, pyGet, hi, hx, if_pos e1, e, hxx, LRes.ofOption]
  | delete =>
    refine ⟨{ c with marked := if c.pos = 0 then c.marked else (c.pos - 1) :: c.marked }, ⟨rfl, rfl, rfl, ?_⟩, hx, hd, hi, hl, h.removed, ?_⟩
    · intro i
      dsimp only
      split
      · constructor
        · exact Or.inl
        · rintro (h' | h'); exact h'; omega
      · simp only [List.mem_cons]
        constructor
        · rintro (h' | h')
          · right; omega
          · exact Or.inl h'
        · rintro (h' | h')
          · exact Or.inr h'
          · left; omega
    · intro i hlt
      simp only [LD.step, mem_setAdd, h.marks i hlt, hi]
      split
      · constructor
        · rintro (h' | h'); omega; exact h'
        · exact Or.inr
      · simp only [List.mem_cons]
        constructor
        · rintro (h' | h')
          · left; omega
          · exact Or.inr h'
        · rintro (h' | h')
          · left; omega
          · exact Or.inr h'

/-- **C24, lists (partial).** For every list, direction and sequence of calls that does not step off the first element to the left: the deleter acts as a cursor on the list, and leaving the context leaves the
list without exactly the entries that were current when `delete` was called (since the last `iter`), in their order; leaving it again changes nothing.  Missing: stepping left from the
first element (see `C24_backward_violates`, `C24_prev_violates`). -/
theorem C24_list_partial (xs : List α) (d : Dir) (ops : List LOp) (hg : AllSteps Guard LD.step (LD.new xs d) ops) :
    ∃ c, History (lspec d) { xs := xs, pos := startPos d xs, marked := [] } ops (runOps LD.step (LD.new xs d) ops).2 c ∧
      c.xs = xs ∧ (runOps LD.step (LD.new xs d) ops).1.remove.xs = without xs c.marked ∧
      (runOps LD.step (LD.new xs d) ops).1.remove.remove = (runOps LD.step (LD.new xs d) ops).1.remove := by
  have h0 : Rep d (LD.new xs d) { xs := xs, pos := startPos d xs, marked := [] } := by
    refine ⟨rfl, rfl, ?_, ?_, rfl, ?_⟩
    · cases d <;> simp [LD.new, startIdx, startPos]
    · cases d <;> simp [startPos]
    · intro i _; simp [LD.new]
  obtain ⟨c, hc, hr⟩ := history_of_sim' (Rep d) Guard (fun s b o hP hR => step_sim d s b o hP hR) _ _ ops hg h0
  have hxs : c.xs = xs := by
    have : ∀ (ops : List LOp) (rs : List (LRes α)) (b c : Cursor α), History (lspec d) b ops rs c → c.xs = b.xs := by
      intro ops
      induction ops with
      | nil => intro rs b c h; cases rs with
        | nil => exact h ▸ rfl
        | cons _ _ => exact h.elim
      | cons o ops ih =>
        intro rs b c h
        cases rs with
        | nil => exact h.elim
        | cons r rs =>
          obtain ⟨m, h1, h2⟩ := h
          rw [ih rs m c h2]
          cases o with
          | iter => rw [h1.1]
          | next => rw [h1.1]; cases d <;> rfl
          | prev => rw [h1.1]; cases d <;> rfl
          | value => rw [h1.1]
          | delete => exact h1.1
    exact this ops _ _ _ hc
  refine ⟨c, hc, hxs, ?_, ?_⟩
  · rw [remove_eq _ hr.removed c.marked (fun i hi => hr.marks i (by rw [← hr.xs]; exact hi)), hr.xs, hxs]
  · have h1 : (runOps LD.step (LD.new xs d) ops).1.remove.removed = true := by
      unfold LD.remove; rw [if_neg (by simp [hr.removed])]
    generalize (runOps LD.step (LD.new xs d) ops).1.remove = s' at h1
    unfold LD.remove
    rw [if_pos h1]

/-- mark the first and third, going back once -/
example : AllSteps Guard LD.step (LD.new [10, 20, 30, 40] .forward) [.iter, .next, .delete, .next, .next, .next, .prev, .delete, .value] := by
  simp [AllSteps, Guard, LD.step, LD.new, LD.next, LD.prev, startIdx]
example : (runOps LD.step (LD.new [10, 20, 30, 40] .forward) [.iter, .next, .delete, .next, .next, .next, .prev, .delete, .value]).1.remove.xs = [20, 40] := by decide

/-! ## Whole loops -/

theorem next_forward (s : LD α) (hd : s.dir = .forward) (n : Nat) (hi : s.idx = (n : Int) - 1) :
    s.next = (if s.idx = s.xs.length then (s, .raised .stopIteration) else
      ({ s with idx := n }, .ofOption .stopIteration s.xs[n]?)) := by
  have e : s.idx + 1 = n := by omega
  simp [LD.next, LD.at, pyGet, hd, e]

theorem forLoop_forward (dec : Nat → α → Bool) (rest : List α) (fuel n : Nat) (s : LD α) (hd : s.dir = .forward) (hi : s.idx = (n : Int) - 1)
    (pre : List α) (hx : s.xs = pre ++ rest) (hn : pre.length = n) (hf : rest.length < fuel) (hm : ∀ i ∈ s.marks, i < n) :
    (forLoop dec fuel n s).2 = rest ∧ (forLoop dec fuel n s).1.xs = s.xs ∧ (forLoop dec fuel n s).1.removed = s.removed ∧
      ∀ i : Nat, (i : Int) ∈ (forLoop dec fuel n s).1.marks ↔ ((i : Int) ∈ s.marks ∨ (n ≤ i ∧ ∃ x, s.xs[i]? = some x ∧ dec i x = true)) := by
  induction rest generalizing fuel n s pre with
  | nil =>
    cases fuel with
    | zero => simp at hf
    | succ fuel =>
      have hlen : s.xs.length = n := by rw [hx]; simpa using hn
      have hne : ¬ s.idx = s.xs.length := by omega
      have hnx : s.next = ({ s with idx := n }, .raised .stopIteration) := by
        rw [next_forward s hd n hi, if_neg hne]
        rw [List.getElem?_eq_none (by omega)]; rfl
      refine ⟨by simp [forLoop, hnx], by simp [forLoop, hnx], by simp [forLoop, hnx], ?_⟩
      intro i
      simp only [forLoop, hnx]
      constructor
      · exact Or.inl
      · rintro (h | ⟨h1, x, h2, _⟩)
        · exact h
        · rw [List.getElem?_eq_none (by omega)] at h2; cases h2
  | cons x rest ih =>
    cases fuel with
    | zero => simp at hf
    | succ fuel =>
      have hlen : s.xs.length = n + 1 + rest.length := by rw [hx]; simp; omega
      have hne : ¬ s.idx = s.xs.length := by omega
      have hget : s.xs[n]? = some x := by rw [hx, List.getElem?_append_right (by omega)]; simp [hn]
      have hnx : s.next = ({ s with idx := n }, .item x) := by
        rw [next_forward s hd n hi, if_neg hne, hget]; rfl
      have hstep : forLoop dec (fuel + 1) n s =
          ((forLoop dec fuel (n + 1) (if dec n x then { s with idx := n, marks := setAdd s.marks n } else { s with idx := n })).1,
            x :: (forLoop dec fuel (n + 1) (if dec n x then { s with idx := n, marks := setAdd s.marks n } else { s with idx := n })).2) := by
        simp only [forLoop, hnx, LD.step]
      have hlast : ∀ i : Nat, n ≤ i → (i = n ∨ n + 1 ≤ i) := by intro i hi; omega
      cases hdec : dec n x with
      | true =>
        obtain ⟨a, b, c, e⟩ := ih fuel (n + 1) { s with idx := n, marks := setAdd s.marks n } hd (by simp) (pre ++ [x]) (by simp [hx]) (by simp [hn]) (by simpa using hf)
          (by intro i hi; simp only [mem_setAdd] at hi; rcases hi with hi | hi; omega; have := hm i hi; omega)
        rw [hstep, hdec]
        refine ⟨by simpa using a, by simpa using b, by simpa using c, ?_⟩
        intro i
        have := e i
        simp only [if_pos]
        rw [this]
        simp only [mem_setAdd]
        constructor
        · rintro ((h | h) | ⟨h1, y, h2, h3⟩)
          · have : i = n := by omega
            subst this; exact Or.inr ⟨Nat.le_refl _, x, hget, hdec⟩
          · exact Or.inl h
          · exact Or.inr ⟨by omega, y, h2, h3⟩
        · rintro (h | ⟨h1, y, h2, h3⟩)
          · exact Or.inl (Or.inr h)
          · rcases hlast i h1 with rfl | h1
            · exact Or.inl (Or.inl rfl)
            · exact Or.inr ⟨h1, y, h2, h3⟩
      | false =>
        obtain ⟨a, b, c, e⟩ := ih fuel (n + 1) { s with idx := n } hd (by simp) (pre ++ [x]) (by simp [hx]) (by simp [hn]) (by simpa using hf)
          (by intro i hi; have := hm i hi; omega)
        rw [hstep, hdec]
        refine ⟨by simpa using a, by simpa using b, by simpa using c, ?_⟩
        intro i
        have := e i
        simp only [Bool.false_eq_true, if_false]
        rw [this]
        constructor
        · rintro (h | ⟨h1, y, h2, h3⟩)
          · exact Or.inl h
          · exact Or.inr ⟨by omega, y, h2, h3⟩
        · rintro (h | ⟨h1, y, h2, h3⟩)
          · exact Or.inl h
          · rcases hlast i h1 with rfl | h1
            · rw [hget] at h2; injection h2 with h2; subst h2; rw [hdec] at h3; cases h3
            · exact Or.inr ⟨h1, y, h2, h3⟩

/-- the elements for which the decision was not to delete; `n` is the number of the first one -/
def keepBy (dec : Nat → α → Bool) (n : Nat) : List α → List α
  | [] => []
  | x :: xs => if dec n x then keepBy dec (n + 1) xs else x :: keepBy dec (n + 1) xs

theorem without_keepBy (dec : Nat → α → Bool) (xs : List α) :
    ((xs.zipIdx).filter (fun p => !dec p.2 p.1)).map Prod.fst = keepBy dec 0 xs := by
  have : ∀ (xs : List α) n, ((xs.zipIdx n).filter (fun p => !dec p.2 p.1)).map Prod.fst = keepBy dec n xs := by
    intro xs
    induction xs with
    | nil => intro n; rfl
    | cons x xs ih =>
      intro n
      simp only [List.zipIdx_cons, List.filter_cons, keepBy]
      cases dec n x <;> simp [ih]
  exact this xs 0

theorem remove_keepBy (dec : Nat → α → Bool) (s : LD α) (hr : s.removed = false)
    (h : ∀ (i : Nat) x, s.xs[i]? = some x → ((i : Int) ∈ s.marks ↔ dec i x = true)) : s.remove.xs = keepBy dec 0 s.xs := by
  unfold LD.remove
  rw [if_neg (by simp [hr])]
  have := removeLoop_eq s.marks s.xs [] 0 0 rfl
  simp only [List.nil_append] at this
  show removeLoop s.marks s.xs 0 0 s.xs = _
  rw [this, ← without_keepBy]
  congr 1
  apply List.filter_congr
  intro p hp
  have hg : s.xs[p.2]? = some p.1 := by
    have := List.mem_zipIdx_iff_getElem?.1 (show (p.1, p.2) ∈ s.xs.zipIdx from hp)
    exact this
  have := h p.2 p.1 hg
  cases hd : dec p.2 p.1 <;> simp_all

/-- **C24, forward loop.** `for x in ld:` meets each element exactly once, in order, whatever is deleted on the way, and after the context the list is what was not deleted, in order. -/
theorem C24_for_loop (xs : List α) (dec : Nat → α → Bool) (fuel : Nat) (hf : xs.length < fuel) :
    let r := forLoop dec fuel 0 (LD.new xs .forward)
    r.2 = xs ∧ r.1.remove.xs = keepBy dec 0 xs := by
  intro r
  obtain ⟨a, b, c, e⟩ := forLoop_forward dec xs fuel 0 (LD.new xs .forward) rfl (by simp [LD.new, startIdx]) [] (by simp [LD.new]) rfl hf (by simp [LD.new])
  refine ⟨a, ?_⟩
  have hx : r.1.xs = xs := b
  rw [remove_keepBy dec r.1 c, hx]
  intro i x hi
  rw [hx] at hi
  have := e i
  rw [this]
  constructor
  · rintro (h | ⟨_, y, h2, h3⟩)
    · simp [LD.new] at h
    · have h2' : xs[i]? = some y := h2
      rw [hi] at h2'; injection h2' with h2'; subst h2'; exact h3
  · intro hd
    exact Or.inr ⟨Nat.zero_le _, x, hi, hd⟩

example : (forLoop (fun _ x => x % 2 == 0) 10 0 (LD.new [1, 2, 3, 4, 6] .forward)).1.remove.xs = [1, 3] := by decide

theorem next_backward (s : LD α) (hd : s.dir = .backward) (n : Nat) (hi : s.idx = (n : Int) + 1) :
    s.next = ({ s with idx := n }, .ofOption .stopIteration s.xs[n]?) := by
  have e : s.idx + -1 = n := by omega
  have h1 : ¬ s.idx = -1 := by omega
  simp [LD.next, LD.at, pyGet, hd, e, h1]

/-- the loop from position `n - 1` down: the elements before position `n` reversed, then the last element of the list once more -/
theorem forLoop_backward (dec : Nat → α → Bool) (n fuel k : Nat) (s : LD α) (hd : s.dir = .backward) (hi : s.idx = (n : Int)) (hn : n ≤ s.xs.length) (last : α)
    (hl : s.xs.getLast? = some last) (hf : n + 1 < fuel) :
    (forLoop dec fuel k s).2 = (s.xs.take n).reverse ++ [last] ∧ (forLoop dec fuel k s).1.xs = s.xs ∧ (forLoop dec fuel k s).1.removed = s.removed ∧
      ∀ i : Nat, (i : Int) ∈ (forLoop dec fuel k s).1.marks ↔ ((i : Int) ∈ s.marks ∨ (i < n ∧ ∃ x, s.xs[i]? = some x ∧ dec (k + (n - 1 - i)) x = true)) := by
  induction n generalizing fuel k s with
  | zero =>
    obtain ⟨fuel, rfl⟩ : ∃ f, fuel = f + 2 := ⟨fuel - 2, by omega⟩
    have hpos : 0 < s.xs.length := by
      cases hxs : s.xs with
      | nil => rw [hxs] at hl; simp at hl
      | cons _ _ => simp
    have hnx : s.next = ({ s with idx := -1 }, .item last) := by
      have h0 : s.idx = 0 := by simpa using hi
      have hg : s.xs[(((s.xs.length : Nat) : Int) + -1).toNat]? = some last := by
        rw [show (((s.xs.length : Nat) : Int) + -1).toNat = s.xs.length - 1 by omega, ← List.getLast?_eq_getElem?]
        exact hl
      have h1 : (1 : Int) ≤ s.xs.length := by omega
      simp [LD.next, LD.at, pyGet, hd, h0, h1]
      rw [hg]; rfl
    have hnx2 : ∀ s' : LD α, s'.dir = .backward → s'.idx = -1 → s'.next = (s', .raised .stopIteration) := by
      intro s' h1 h2; simp [LD.next, h1, h2]
    have hstep : forLoop dec (fuel + 2) k s = ((if dec k last then { s with idx := -1, marks := setAdd s.marks (-1) } else { s with idx := -1 }), [last]) := by
      rw [forLoop]
      simp only [hnx, LD.step]
      cases dec k last
      · simp only [Bool.false_eq_true, if_false, forLoop]
        rw [hnx2 { s with idx := -1 } hd rfl]
      · simp only [if_true, forLoop]
        rw [hnx2 { s with idx := -1, marks := setAdd s.marks (-1) } hd rfl]
    rw [hstep]
    refine ⟨by simp, by dsimp only; split <;> rfl, by dsimp only; split <;> rfl, ?_⟩
    intro i
    have hne : ¬ (i : Int) = -1 := by omega
    dsimp only
    split
    · simp [mem_setAdd, hne]
    · simp
  | succ n ih =>
    obtain ⟨fuel, rfl⟩ : ∃ f, fuel = f + 1 := ⟨fuel - 1, by omega⟩
    have hlt : n < s.xs.length := by omega
    have hget : s.xs[n]? = some s.xs[n] := List.getElem?_eq_getElem hlt
    have hnx : s.next = ({ s with idx := n }, .item s.xs[n]) := by
      rw [next_backward s hd n (by omega), hget]; rfl
    have hstep : forLoop dec (fuel + 1) k s =
        ((forLoop dec fuel (k + 1) (if dec k s.xs[n] then { s with idx := n, marks := setAdd s.marks n } else { s with idx := n })).1,
          s.xs[n] :: (forLoop dec fuel (k + 1) (if dec k s.xs[n] then { s with idx := n, marks := setAdd s.marks n } else { s with idx := n })).2) := by
      simp only [forLoop, hnx, LD.step]
    have htake : (s.xs.take (n + 1)).reverse = s.xs[n] :: (s.xs.take n).reverse := by
      rw [List.take_succ, hget]; simp
    have hk : ∀ i, i < n → k + 1 + (n - 1 - i) = k + (n + 1 - 1 - i) := by intro i hi; omega
    cases hdec : dec k s.xs[n] with
    | true =>
      obtain ⟨a, b, c, e⟩ := ih fuel (k + 1) { s with idx := n, marks := setAdd s.marks n } hd rfl (by simp; omega) hl (by omega)
      rw [hstep, hdec]
      simp only [if_true]
      refine ⟨by rw [htake]; simpa using a, b, c, ?_⟩
      intro i
      rw [e i]
      simp only [mem_setAdd]
      constructor
      · rintro ((h | h) | ⟨h1, y, h2, h3⟩)
        · have : i = n := by omega
          subst this
          refine Or.inr ⟨by omega, _, hget, ?_⟩
          rw [show k + (i + 1 - 1 - i) = k by omega]; exact hdec
        · exact Or.inl h
        · exact Or.inr ⟨by omega, y, h2, by rw [← hk i h1]; exact h3⟩
      · rintro (h | ⟨h1, y, h2, h3⟩)
        · exact Or.inl (Or.inr h)
        · by_cases hin : i = n
          · subst hin; exact Or.inl (Or.inl rfl)
          · have h1' : i < n := by omega
            exact Or.inr ⟨h1', y, h2, by rw [hk i h1']; exact h3⟩
    | false =>
      obtain ⟨a, b, c, e⟩ := ih fuel (k + 1) { s with idx := n } hd rfl (by simp; omega) hl (by omega)
      rw [hstep, hdec]
      simp only [Bool.false_eq_true, if_false]
      refine ⟨by rw [htake]; simpa using a, b, c, ?_⟩
      intro i
      rw [e i]
      constructor
      · rintro (h | ⟨h1, y, h2, h3⟩)
        · exact Or.inl h
        · exact Or.inr ⟨by omega, y, h2, by rw [← hk i h1]; exact h3⟩
      · rintro (h | ⟨h1, y, h2, h3⟩)
        · exact Or.inl h
        · by_cases hin : i = n
          · subst hin
            rw [hget] at h2; injection h2 with h2; subst h2
            rw [show k + (i + 1 - 1 - i) = k by omega, hdec] at h3; cases h3
          · have h1' : i < n := by omega
            exact Or.inr ⟨h1', y, h2, by rw [hk i h1']; exact h3⟩

/-- **C24, backward loop (partial).** Over a list that is not empty, the backward loop meets every element once from the last to the first, *then the last one again*; after the context the list
is what was not deleted, in order (the decision made at the second meeting of the last element has no effect). -/
theorem C24_backward_loop_partial (xs : List α) (last : α) (hl : xs.getLast? = some last) (dec : Nat → α → Bool) (fuel : Nat) (hf : xs.length + 1 < fuel) :
    let r := forLoop dec fuel 0 (LD.new xs .backward)
    r.2 = xs.reverse ++ [last] ∧ r.1.remove.xs = keepBy (fun i x => dec (xs.length - 1 - i) x) 0 xs := by
  intro r
  obtain ⟨a, b, c, e⟩ := forLoop_backward dec xs.length fuel 0 (LD.new xs .backward) rfl rfl (Nat.le_refl _) last hl hf
  have hx : r.1.xs = xs := b
  refine ⟨by rw [show (LD.new xs .backward).xs.take xs.length = xs from List.take_length] at a; exact a, ?_⟩
  rw [remove_keepBy (fun i x => dec (xs.length - 1 - i) x) r.1 c, hx]
  intro i x hi
  rw [hx] at hi
  rw [e i]
  constructor
  · rintro (h | ⟨_, y, h2, h3⟩)
    · simp [LD.new] at h
    · have h2' : xs[i]? = some y := h2
      rw [hi] at h2'; injection h2' with h2'; subst h2'; simpa using h3
  · intro hd
    have hlt : i < xs.length := by
      by_cases hlt : i < xs.length
      · exact hlt
      · rw [List.getElem?_eq_none (by omega)] at hi; cases hi
    exact Or.inr ⟨hlt, x, hi, by simpa using hd⟩

example : ([1, 2, 3] : List Nat).getLast? = some 3 := rfl

/-- **C24 violated.** Iterating backward over any list that is not empty meets the last element twice. -/
theorem C24_backward_violates (xs : List α) (hne : xs ≠ []) (dec : Nat → α → Bool) :
    (forLoop dec (xs.length + 2) 0 (LD.new xs .backward)).2 ≠ xs.reverse := by
  cases hl : xs.getLast? with
  | none => rw [List.getLast?_eq_none_iff] at hl; exact absurd hl hne
  | some last =>
    obtain ⟨a, _⟩ := C24_backward_loop_partial xs last hl dec (xs.length + 2) (by omega)
    rw [a]
    intro h
    have := congrArg List.length h
    simp at this

/-- **C24 violated.** `prev` at the first element returns the last one (instead of raising StopIteration), and deleting it then has no effect. -/
theorem C24_prev_violates :
    (runOps LD.step (LD.new [10, 20, 30] .forward) [.next, .prev, .delete, .value]).2 = [.item 10, .item 30, .none, .item 30] ∧
    (runOps LD.step (LD.new [10, 20, 30] .forward) [.next, .prev, .delete, .value]).1.remove.xs = [10, 20, 30] := by decide

/-- **C24 violated.** A deleter used for a second round deletes nothing, although iterating over it starts afresh. -/
theorem C24_second_round_violates :
    let s := (runOps LD.step (LD.new [10, 20] .forward) [.iter, .next, .delete]).1.remove
    s.xs = [20] ∧ (runOps LD.step s [.iter, .next, .delete]).2 = [.none, .item 20, .none] ∧ (runOps LD.step s [.iter, .next, .delete]).1.remove.xs = [20] := by decide

end

/-! ## Dictionaries -/

section
variable {κ ν : Type _} [DecidableEq κ]

theorem exitLoop_eq (ks : List κ) (d : Dict κ ν) (hn : ks.Nodup) (hin : ∀ k ∈ ks, k ∈ d.keys) :
    exitLoop ks d = (d.filter (fun p => decide (p.1 ∉ ks)), none) := by
  induction ks generalizing d with
  | nil => simp [exitLoop]; exact (List.filter_eq_self.2 (by simp)).symm
  | cons k ks ih =>
    have hk : d.has k = true := (Dict.get?_isSome_iff d k).2 (hin k (by simp))
    rw [exitLoop, if_pos hk]
    rw [List.nodup_cons] at hn
    rw [ih (d.del k) hn.2]
    · refine Prod.ext ?_ rfl
      simp only [Dict.del, List.filter_filter]
      apply List.filter_congr
      intro p _
      by_cases h1 : p.1 = k <;> by_cases h2 : p.1 ∈ ks <;> simp [h1, h2]
    · intro k' hk'
      rw [Dict.mem_keys_del]
      have : k' ≠ k := by rintro rfl; exact hn.1 hk'
      exact ⟨by first | exact this | exact fun h => this h.symm, hin k' (by simp [hk'])⟩

/-- what the deleter holds, in terms of what was seen: the items returned since the last `iter` (if any), the last key returned, the keys deleted -/
structure DInv (d : Dict κ ν) (s : DD κ ν) (l : Option (List (κ × ν))) (cur : Option κ) (marks : List κ) : Prop where
  dd : s.d = d
  curEq : s.cur = cur
  nodup : s.marks.Nodup
  mem : ∀ k, k ∈ s.marks ↔ k ∈ marks
  curIn : ∀ k, s.cur = some k → k ∈ d.keys
  marksIn : ∀ k ∈ s.marks, k ∈ d.keys
  it : match l with | none => s.it = none | some l => ∃ rest, s.it = some rest ∧ d = l ++ rest

theorem dinv_run (d : Dict κ ν) (ops : List DOp) (s : DD κ ν) (l : Option (List (κ × ν))) (cur : Option κ) (marks : List κ) (h : DInv d s l cur marks) :
    ∃ cur', DInv d (runOps DD.step s ops).1 (seen? l (trace s ops)) cur' (marks ++ deletedKeys cur (trace s ops)) := by
  induction ops generalizing s l cur marks with
  | nil => exact ⟨cur, by simpa [runOps, trace, seen?, deletedKeys] using h⟩
  | cons o ops ih =>
    have ht : trace s (o :: ops) = (o, (s.step o).2) :: trace (s.step o).1 ops := rfl
    rw [ht]
    show ∃ cur', DInv d (runOps DD.step (s.step o).1 ops).1 _ _ _
    cases o with
    | iter =>
      obtain ⟨c', hc⟩ := ih (s.step .iter).1 (some []) cur marks ⟨h.dd, h.curEq, h.nodup, h.mem, h.curIn, h.marksIn, ⟨d, by simp [DD.step, h.dd], rfl⟩⟩
      refine ⟨c', ?_⟩
      cases cur <;> simpa [seen?, deletedKeys] using hc
    | next =>
      cases hit : s.it with
      | none =>
        have e : s.step .next = (s, .raised .attributeError) := by simp [DD.step, hit]
        rw [e]
        obtain ⟨c', hc⟩ := ih s l cur marks h
        refine ⟨c', ?_⟩
        cases cur <;> simpa [seen?, deletedKeys] using hc
      | some rest =>
        cases rest with
        | nil =>
          have e : s.step .next = (s, .raised .stopIteration) := by simp [DD.step, hit]
          rw [e]
          obtain ⟨c', hc⟩ := ih s l cur marks h
          refine ⟨c', ?_⟩
          cases cur <;> simpa [seen?, deletedKeys] using hc
        | cons p rest =>
          obtain ⟨k, v⟩ := p
          have e : s.step .next = ({ s with it := some rest, cur := some k }, .item k v) := by simp [DD.step, hit]
          rw [e]
          have hl := h.it
          cases l with
          | none => rw [hit] at hl; cases hl
          | some l =>
            obtain ⟨r, hr1, hr2⟩ := hl
            rw [hit] at hr1; injection hr1 with hr1; subst hr1
            have hk : k ∈ d.keys := by rw [hr2]; simp [Dict.keys]
            obtain ⟨c', hc⟩ := ih { s with it := some rest, cur := some k } (some (l ++ [(k, v)])) (some k) marks
              ⟨h.dd, rfl, h.nodup, h.mem, by intro k' hk'; injection hk' with hk'; subst hk'; exact hk, h.marksIn, ⟨rest, rfl, by simp [hr2]⟩⟩
            refine ⟨c', ?_⟩
            cases cur <;> simpa [seen?, deletedKeys] using hc
    | delete =>
      cases hcur : s.cur with
      | none =>
        have e : s.step .delete = (s, .raised .attributeError) := by simp [DD.step, hcur]
        rw [e]
        obtain ⟨c', hc⟩ := ih s l cur marks h
        refine ⟨c', ?_⟩
        have : cur = none := by rw [← h.curEq]; exact hcur
        subst this
        simpa [seen?, deletedKeys] using hc
      | some k =>
        have e : s.step .delete = ({ s with marks := setAdd s.marks k }, .none) := by simp [DD.step, hcur]
        rw [e]
        have : cur = some k := by rw [← h.curEq]; exact hcur
        subst this
        obtain ⟨c', hc⟩ := ih { s with marks := setAdd s.marks k } l (some k) (marks ++ [k])
          ⟨h.dd, hcur, nodup_setAdd h.nodup, by intro k'; simp only [mem_setAdd, h.mem, List.mem_append, List.mem_singleton]; exact Or.comm,
            h.curIn, by intro k' hk'; rcases mem_setAdd.1 hk' with rfl | hk'; exact h.curIn _ hcur; exact h.marksIn _ hk', h.it⟩
        refine ⟨c', ?_⟩
        simpa [seen?, deletedKeys] using hc

/-- **C24, dictionaries.** For every dictionary, every sequence of `iter`, `next` and `delete` calls, and every order in which the set of keys is gone through: leaving the context raises nothing and leaves the
dictionary without exactly the entries whose key was the current one when `delete` was called, in the original order; and the items returned since the last `iter` are the first items of
the dictionary, each once, in order. -/
theorem C24_dict (d : Dict κ ν) (ops : List DOp) (order : List κ) (hperm : order.Perm (runOps DD.step (DD.new d) ops).1.marks) :
    let t := trace (DD.new d) ops
    exitLoop order (runOps DD.step (DD.new d) ops).1.d = (d.filter (fun p => decide (p.1 ∉ deletedKeys none t)), none) ∧
    ∃ rest, d = ((seen? none t).getD []) ++ rest := by
  intro t
  have h0 : DInv d (DD.new d) none none [] := ⟨rfl, rfl, by simp [DD.new], by simp [DD.new], by simp [DD.new], by simp [DD.new], rfl⟩
  obtain ⟨cur', h⟩ := dinv_run d ops (DD.new d) none none [] h0
  refine ⟨?_, ?_⟩
  · rw [h.dd, exitLoop_eq order d (hperm.nodup_iff.2 h.nodup) (fun k hk => h.marksIn k (hperm.mem_iff.1 hk))]
    refine Prod.ext ?_ rfl
    apply List.filter_congr
    intro p _
    have : p.1 ∈ order ↔ p.1 ∈ deletedKeys none t := by
      rw [hperm.mem_iff, h.mem]; simp [t]
    simp [this]
  · have hit := h.it
    show ∃ rest, d = ((seen? none (trace (DD.new d) ops)).getD []) ++ rest
    cases hs : seen? none (trace (DD.new d) ops) with
    | none => exact ⟨d, rfl⟩
    | some l => rw [hs] at hit; obtain ⟨r, _, hr⟩ := hit; exact ⟨r, hr⟩

/-- **C24, dictionaries, whole loop.** `for` over the deleter ends after as many turns as there are entries: the next `next` raises StopIteration. -/
theorem C24_dict_loop (d : Dict κ ν) (ops : List DOp) (s : DD κ ν) (hs : s = (runOps DD.step (DD.new d) ops).1) :
    s.step .next = (s, .raised .stopIteration) ↔ seen? none (trace (DD.new d) ops) = some d := by
  have h0 : DInv d (DD.new d) none none [] := ⟨rfl, rfl, by simp [DD.new], by simp [DD.new], by simp [DD.new], by simp [DD.new], rfl⟩
  obtain ⟨cur', h⟩ := dinv_run d ops (DD.new d) none none [] h0
  rw [← hs] at h
  have hit := h.it
  cases hs' : seen? none (trace (DD.new d) ops) with
  | none =>
    rw [hs'] at hit
    simp [DD.step, hit]
  | some l =>
    rw [hs'] at hit
    obtain ⟨r, hr1, hr2⟩ := hit
    cases r with
    | nil => simp [DD.step, hr1]; simpa using hr2.symm
    | cons p r =>
      obtain ⟨k, v⟩ := p
      simp only [DD.step, hr1]
      constructor
      · intro h'; have := congrArg Prod.snd h'; cases this
      · intro h'; injection h' with h'; rw [h'] at hr2
        have := congrArg List.length hr2; simp at this

/-- delete the second of three -/
example : deletedKeys none (trace (DD.new [(1, 10), (2, 20), (3, 30)]) [.iter, .next, .next, .delete, .next, .next]) = [2] := by decide
example : (runOps DD.step (DD.new [(1, 10), (2, 20), (3, 30)]) [.iter, .next, .next, .delete, .next, .delete, .next]).1.marks = [2, 3] := by decide

end
end Verif.Deleter
