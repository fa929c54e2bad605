import Verif.Parser.Model
import Verif.Py.Run
/-!
# Model of ListWrapperIterator and IteratorListAdapter (satella/coding/sequences/iterators.py), and C36

The wrapped iterator is given by the elements it has left.  Slices are without step.
-/
namespace Verif.Seq
open Verif Parser

variable {α : Type} [DecidableEq α]

/-- `l[i]`; `none` is IndexError.  (Part of the model of `ListWrapperIterator`, /repo/satella/coding/sequences/iterators.py:502-605.) -/
def pyIndex (l : List α) (i : Int) : Option α :=
  if 0 ≤ i then l[i.toNat]? else if 0 ≤ (l.length : Int) + i then l[((l.length : Int) + i).toNat]? else none

/-- `l[a:b]`, where None stands for the beginning and the end.  (Part of the model of `ListWrapperIterator`, /repo/satella/coding/sequences/iterators.py:502-605.) -/
def pySliceO (l : List α) (a b : Option Int) : List α := pySlice l (a.getD 0) (b.getD l.length)

/-- calls; `iter` is a whole `for` loop over the object.  (Part of the model of `ListWrapperIterator`, /repo/satella/coding/sequences/iterators.py:502-605.) -/
inductive AOp (α : Type) where
  | next
  | getInt (i : Int)
  | getSlice (a b : Option Int)
  | len
  | contains (x : α)
  | iter

/-- what they return.  (Part of the model of `ListWrapperIterator`, /repo/satella/coding/sequences/iterators.py:502-605.) -/
inductive ARes (α : Type) where
  | elem (x : α)
  | elems (l : List α)
  | nat (n : Nat)
  | bool (b : Bool)
  | exc (e : Exc)
  deriving DecidableEq, Repr

/-- an element, or IndexError.  (Part of the model of `ListWrapperIterator`, /repo/satella/coding/sequences/iterators.py:502-605.) -/
def ARes.ofIndex : Option α → ARes α
  | some x => .elem x
  | none => .exc .indexError

/-! ## ListWrapperIterator -/

/-- its attributes, /repo/satella/coding/sequences/iterators.py:529-533 -/
structure LW (α : Type) where
  list : List α
  rest : List α
  exhausted : Bool
  ptr : Nat
  deriving DecidableEq, Repr

/-- `__init__`, /repo/satella/coding/sequences/iterators.py:529-533 -/
def LW.init (s : List α) : LW α := { list := [], rest := s, exhausted := false, ptr := 0 }

/-- `exhaust`, /repo/satella/coding/sequences/iterators.py:535-543 -/
def LW.exhaust (s : LW α) : LW α :=
  if s.exhausted then s else { s with list := s.list ++ s.rest, rest := [], exhausted := true }

/-- the `while` of advance_to_item, /repo/satella/coding/sequences/iterators.py:552-558, by recursion on what the iterator has left -/
def advLoop (i : Int) (list : List α) : List α → List α × List α × Bool
  | [] => if (list.length : Int) < i then (list, [], true) else (list, [], false)
  | x :: r => if (list.length : Int) < i then advLoop i (list ++ [x]) r else (list, x :: r, false)

/-- `advance_to_item`, /repo/satella/coding/sequences/iterators.py:545-558 -/
def LW.advanceTo (s : LW α) (i : Int) : LW α :=
  if s.exhausted then s
  else let r := advLoop i s.list s.rest; { s with list := r.1, rest := r.2.1, exhausted := r.2.2 }

/-- `__next__`, /repo/satella/coding/sequences/iterators.py:575-599 -/
def LW.next (s : LW α) : LW α × ARes α :=
  if s.ptr = s.list.length ∧ s.exhausted = true then (s, .exc .stopIteration)
  else match s.list[s.ptr]? with
    | some x => ({ s with ptr := s.ptr + 1 }, .elem x)
    | none =>
      match s.rest with
      | x :: r => ({ s with list := s.list ++ [x], rest := r, ptr := s.ptr + 1 }, .elem x)
      | [] => ({ s with exhausted := true }, .exc .stopIteration)

/-- the part of the `for` of `__contains__` that goes over `self`, /repo/satella/coding/sequences/iterators.py:524-527; `fuel` bounds its turns -/
def LW.search (x : α) : Nat → LW α → LW α × Bool
  | 0, s => (s, false)
  | fuel + 1, s =>
    match s.next with
    | (s', .elem y) => if y = x then (s', true) else LW.search x fuel s'
    | (s', _) => (s', false)

/-- `__contains__`, /repo/satella/coding/sequences/iterators.py:521-527 -/
def LW.contains (s : LW α) (x : α) : LW α × Bool :=
  if x ∉ s.list ∧ s.exhausted = true then (s, false)
  else if x ∈ s.list then (s, true)
  else s.search x (s.list.length + s.rest.length + 1)

/-- a `for` loop: `__iter__` returns the object itself (/repo/satella/coding/sequences/iterators.py:601-605); `fuel` bounds its turns -/
def LW.forLoop : Nat → LW α → LW α × List α
  | 0, s => (s, [])
  | fuel + 1, s =>
    match s.next with
    | (s', .elem y) => let r := LW.forLoop fuel s'; (r.1, y :: r.2)
    | (s', _) => (s', [])

/-- One call; `__len__` is /repo/satella/coding/sequences/iterators.py:560-562, `__getitem__` :564-573.  Comparing a length with None raises TypeError. -/
def LW.step (s : LW α) : AOp α → LW α × ARes α
  | .next => s.next
  | .getInt i =>
    let s' := if (s.list.length : Int) < i + 1 then s.advanceTo (i + 1) else s
    (s', ARes.ofIndex (pyIndex s'.list i))
  | .getSlice a none => if s.exhausted then (s, .elems (pySliceO s.list a none)) else (s, .exc .typeError)
  | .getSlice a (some b) => let s' := s.advanceTo b; (s', .elems (pySliceO s'.list a (some b)))
  | .len => (s.exhaust, .nat s.exhaust.list.length)
  | .contains x => ((s.contains x).1, .bool (s.contains x).2)
  | .iter => let r := s.forLoop (s.list.length + s.rest.length + 1); (r.1, .elems r.2)

/-! ## IteratorListAdapter -/

/-- its attributes, /repo/satella/coding/sequences/iterators.py:661-666; `list` is None until unfolded -/
structure LA (α : Type) where
  rest : List α
  list : Option (List α)
  ptr : Nat
  deriving DecidableEq, Repr

/-- `__init__`, /repo/satella/coding/sequences/iterators.py:661-666 -/
def LA.init (s : List α) : LA α := { rest := s, list := none, ptr := 0 }

/-- `__unfold`, /repo/satella/coding/sequences/iterators.py:682-687; the list -/
def LA.content (s : LA α) : List α :=
  match s.list with
  | some l => l
  | none => s.rest

/-- `__unfold`, /repo/satella/coding/sequences/iterators.py:682-687; the object afterwards -/
def LA.unfold (s : LA α) : LA α :=
  match s.list with
  | some _ => s
  | none => { rest := [], list := some s.rest, ptr := 0 }

/-- `__next__`, /repo/satella/coding/sequences/iterators.py:674-680; IndexError becomes StopIteration -/
def LA.next (s : LA α) : LA α × ARes α :=
  match s.list with
  | some l => ({ s with ptr := s.ptr + 1 }, match l[s.ptr]? with | some x => .elem x | none => .exc .stopIteration)
  | none =>
    match s.rest with
    | x :: r => ({ s with rest := r }, .elem x)
    | [] => (s, .exc .stopIteration)

/-- One call, /repo/satella/coding/sequences/iterators.py: `__iter__` :668-672, `__getitem__` :689-691, `__contains__` :693-695, `__len__` :697-699. -/
def LA.step (s : LA α) : AOp α → LA α × ARes α
  | .next => s.next
  | .getInt i => (s.unfold, ARes.ofIndex (pyIndex s.content i))
  | .getSlice a b => (s.unfold, .elems (pySliceO s.content a b))
  | .len => (s.unfold, .nat s.content.length)
  | .contains x => (s.unfold, .bool (decide (x ∈ s.content)))
  | .iter =>
    match s.list with
    | some l => (s, .elems l)
    | none => ({ s with rest := [] }, .elems s.rest)

/-! ## Specification -/

/-- The list `L`, and how many times next() has given an element.  Looking for an element may move the position (see the violations). -/
def LSpec (L : List α) (p : Nat) : AOp α → ARes α → Nat → Prop
  | .next, r, p' => (∃ x, L[p]? = some x ∧ r = .elem x ∧ p' = p + 1) ∨ (L[p]? = none ∧ r = .exc .stopIteration ∧ p' = p)
  | .getInt i, r, p' => r = ARes.ofIndex (pyIndex L i) ∧ p' = p
  | .getSlice a b, r, p' => r = .elems (pySliceO L a b) ∧ p' = p
  | .len, r, p' => r = .nat L.length ∧ p' = p
  | .contains x, r, p' => (∃ b, r = .bool b ∧ (b = true ↔ x ∈ L)) ∧ p ≤ p'
  | .iter, r, p' => r = .elems (L.drop p) ∧ p' = max p L.length

/-- As above, but a `for` loop always gives the whole list, and only next() moves the position. -/
def LSpec' (L : List α) (p : Nat) : AOp α → ARes α → Nat → Prop
  | .next, r, p' => (∃ x, L[p]? = some x ∧ r = .elem x ∧ p' = p + 1) ∨ (L[p]? = none ∧ r = .exc .stopIteration)
  | .contains x, r, p' => (∃ b, r = .bool b ∧ (b = true ↔ x ∈ L)) ∧ p = p'
  | .iter, r, p' => r = .elems L ∧ p' = p
  | o, r, p' => LSpec L p o r p'

/-- Indices and bounds of slices that are not negative, and slices with an end; or all is loaded. -/
def LWGuard (s : LW α) : AOp α → Prop
  | .getInt i => s.exhausted = true ∨ 0 ≤ i
  | .getSlice a b => s.exhausted = true ∨ ((∀ i, a = some i → 0 ≤ i) ∧ ∃ j, b = some j ∧ 0 ≤ j)
  | _ => True

/-- the first call is not an iteration -/
def LAGuard (s : LA α) : AOp α → Prop
  | .next => s.list ≠ none
  | .iter => s.list ≠ none
  | _ => True

/-! ## C36 -/

/-- what has been loaded, and what has not, is the list -/
structure LWRep (L : List α) (s : LW α) (p : Nat) : Prop where
  all : s.list ++ s.rest = L
  ptr : s.ptr = p
  le : s.ptr ≤ s.list.length
  done : s.exhausted = true → s.rest = []

theorem advLoop_spec (i : Int) (r list : List α) :
    (advLoop i list r).1 ++ (advLoop i list r).2.1 = list ++ r ∧ list <+: (advLoop i list r).1 ∧
      ((advLoop i list r).2.2 = true → (advLoop i list r).2.1 = []) ∧
      ((advLoop i list r).2.1 = [] ∨ i ≤ ((advLoop i list r).1.length : Int)) := by
  induction r generalizing list with
  | nil => unfold advLoop; split <;> simp
  | cons x r ih =>
    unfold advLoop
    split
    · obtain ⟨h1, h2, h3, h4⟩ := ih (list ++ [x])
      exact ⟨by rw [h1]; simp, (List.prefix_append _ _).trans h2, h3, h4⟩
    · refine ⟨rfl, List.prefix_rfl, by simp, ?_⟩
      right; simp; omega

theorem advanceTo_rep {L : List α} {s : LW α} {p : Nat} (h : LWRep L s p) (i : Int) :
    LWRep L (s.advanceTo i) p ∧ ((s.advanceTo i).list = L ∨ (i ≤ ((s.advanceTo i).list.length : Int))) := by
  unfold LW.advanceTo
  split
  · rename_i he
    exact ⟨h, Or.inl (by have := h.all; rw [h.done he] at this; simpa using this)⟩
  · obtain ⟨h1, h2, h3, h4⟩ := advLoop_spec i s.rest s.list
    refine ⟨⟨h1.trans h.all, h.ptr, Nat.le_trans h.le h2.length_le, h3⟩, ?_⟩
    rcases h4 with h4 | h4
    · left; have := h1.trans h.all; rw [h4] at this; simpa using this
    · exact Or.inr h4

theorem exhausted_list {L : List α} {s : LW α} {p : Nat} (h : LWRep L s p) (he : s.exhausted = true) : s.list = L := by
  have := h.all; rw [h.done he] at this; simpa using this

theorem prefix_get {L a b : List α} (h : a ++ b = L) {i : Nat} (hi : i < a.length) : a[i]? = L[i]? := by
  rw [← h, List.getElem?_append_left hi]

theorem next_rep {L : List α} {s : LW α} {p : Nat} (h : LWRep L s p) :
    (∃ x, L[p]? = some x ∧ s.next.2 = .elem x ∧ LWRep L s.next.1 (p + 1)) ∨ (L[p]? = none ∧ s.next.2 = .exc .stopIteration ∧ LWRep L s.next.1 p ∧ s.next.1.exhausted = true) := by
  have hp := h.ptr
  subst hp
  unfold LW.next
  split
  · rename_i hc
    right
    refine ⟨?_, rfl, h, hc.2⟩
    rw [← exhausted_list h hc.2, hc.1]; simp
  · rename_i hc
    cases hx : s.list[s.ptr]? with
    | some x =>
      left
      obtain ⟨hl, _⟩ := List.getElem?_eq_some_iff.1 hx
      refine ⟨x, by rw [← prefix_get h.all hl, hx], rfl, ⟨h.all, rfl, hl, h.done⟩⟩
    | none =>
      have hl : s.ptr = s.list.length := Nat.le_antisymm h.le (List.getElem?_eq_none_iff.1 hx)
      cases hr : s.rest with
      | nil =>
        right
        refine ⟨?_, rfl, ⟨?_, rfl, h.le, fun _ => by simp⟩, rfl⟩
        · rw [← h.all, hr, hl]; simp
        · simpa [hr] using h.all
      | cons x r =>
        left
        refine ⟨x, ?_, rfl, ⟨?_, rfl, ?_, ?_⟩⟩
        · rw [← h.all, hr, hl]; simp
        · rw [← h.all, hr]; simp
        · simp; omega
        · intro he; rw [h.done he] at hr; cases hr

theorem search_rep {L : List α} (x : α) (fuel : Nat) : ∀ {s : LW α} {p : Nat}, LWRep L s p → L.length < p + fuel →
    ∃ p', p ≤ p' ∧ LWRep L (s.search x fuel).1 p' ∧ ((s.search x fuel).2 = true ↔ x ∈ L.drop p) := by
  induction fuel with
  | zero =>
    intro s p h hf
    exact ⟨p, Nat.le_refl _, h, by rw [LW.search, List.drop_eq_nil_of_le (by omega)]; simp⟩
  | succ fuel ih =>
    intro s p h hf
    rw [LW.search]
    rcases next_rep h with ⟨y, h1, h2, h3⟩ | ⟨h1, h2, h3, _⟩
    · rcases hn : s.next with ⟨s', r⟩
      rw [hn] at h2 h3
      dsimp only at h2 h3
      subst h2
      dsimp only
      obtain ⟨hl, hy⟩ := List.getElem?_eq_some_iff.1 h1
      have hd : L.drop p = y :: L.drop (p + 1) := by rw [List.drop_eq_getElem_cons hl, hy]
      split
      · rename_i e
        exact ⟨p + 1, by omega, h3, by simp [hd, e]⟩
      · rename_i e
        obtain ⟨p', h4, h5, h6⟩ := ih h3 (by omega)
        refine ⟨p', by omega, h5, ?_⟩
        rw [h6, hd]
        simp [Ne.symm e]
    · rcases hn : s.next with ⟨s', r⟩
      rw [hn] at h2 h3
      dsimp only at h2 h3
      subst h2
      exact ⟨p, Nat.le_refl _, h3, by rw [List.drop_eq_nil_of_le (List.getElem?_eq_none_iff.1 h1)]; simp⟩

theorem forLoop_rep {L : List α} (fuel : Nat) : ∀ {s : LW α} {p : Nat}, LWRep L s p → L.length < p + fuel →
    LWRep L (s.forLoop fuel).1 (max p L.length) ∧ (s.forLoop fuel).2 = L.drop p := by
  induction fuel with
  | zero =>
    intro s p h hf
    refine ⟨?_, by rw [LW.forLoop, List.drop_eq_nil_of_le (by omega)]⟩
    rw [Nat.max_eq_left (by omega)]
    exact h
  | succ fuel ih =>
    intro s p h hf
    rw [LW.forLoop]
    rcases next_rep h with ⟨y, h1, h2, h3⟩ | ⟨h1, h2, h3, _⟩
    · rcases hn : s.next with ⟨s', r⟩
      rw [hn] at h2 h3
      dsimp only at h2 h3
      subst h2
      dsimp only
      obtain ⟨hl, hy⟩ := List.getElem?_eq_some_iff.1 h1
      have hd : L.drop p = y :: L.drop (p + 1) := by rw [List.drop_eq_getElem_cons hl, hy]
      obtain ⟨h4, h5⟩ := ih h3 (by omega)
      rw [Nat.max_eq_right (by omega)] at h4
      rw [Nat.max_eq_right (by omega), hd, h5]
      exact ⟨h4, rfl⟩
    · rcases hn : s.next with ⟨s', r⟩
      rw [hn] at h2 h3
      dsimp only at h2 h3
      subst h2
      have hp := List.getElem?_eq_none_iff.1 h1
      rw [Nat.max_eq_left hp, List.drop_eq_nil_of_le hp]
      exact ⟨h3, rfl⟩

theorem slice_prefix {L l r : List α} (h : l ++ r = L) {a b : Nat} (hb : r = [] ∨ b ≤ l.length) :
    pySlice l a b = pySlice L a b := by
  rcases hb with rfl | hb
  · rw [List.append_nil] at h; rw [h]
  · subst h
    have hbd : ∀ (n k : Nat), bound n (k : Int) = min k n := by intro n k; unfold bound; rw [if_neg (by omega)]; simp
    simp only [pySlice, hbd, List.length_append]
    by_cases ha : a ≤ l.length
    · rw [Nat.min_eq_left ha, Nat.min_eq_left hb, Nat.min_eq_left (by omega), Nat.min_eq_left (by omega), List.drop_append_of_le_length ha, List.take_append_of_le_length (by simp; omega)]
    · rw [show min b l.length - min a l.length = 0 by omega, show min b (l.length + r.length) - min a (l.length + r.length) = 0 by omega]
      simp

theorem lw_step_sim {L : List α} (s : LW α) (p : Nat) (o : AOp α) (hg : LWGuard s o) (h : LWRep L s p) :
    ∃ p', LSpec L p o (s.step o).2 p' ∧ LWRep L (s.step o).1 p' := by
  cases o with
  | next =>
    rcases next_rep h with ⟨x, h1, h2, h3⟩ | ⟨h1, h2, h3, _⟩
    · exact ⟨p + 1, Or.inl ⟨x, h1, h2, rfl⟩, h3⟩
    · exact ⟨p, Or.inr ⟨h1, h2, rfl⟩, h3⟩
  | getInt i =>
    refine ⟨p, ⟨?_, rfl⟩, ?_⟩
    · simp only [LW.step]
      congr 1
      rcases hg with he | hi
      · have h1 : (if (s.list.length : Int) < i + 1 then s.advanceTo (i + 1) else s) = s := by
          split
          · simp [LW.advanceTo, he]
          · rfl
        rw [h1, exhausted_list h he]
      · unfold pyIndex
        rw [if_pos hi, if_pos hi]
        split
        · obtain ⟨h1, h2⟩ := advanceTo_rep h (i + 1)
          rcases h2 with h2 | h2
          · rw [h2]
          · exact prefix_get h1.all (by omega)
        · exact prefix_get h.all (by omega)
    · simp only [LW.step]
      split
      · exact (advanceTo_rep h _).1
      · exact h
  | getSlice a b =>
    cases b with
    | none =>
      rcases hg with he | ⟨_, j, hj, _⟩
      · simp only [LW.step, he, if_true]
        exact ⟨p, ⟨by rw [exhausted_list h he], rfl⟩, h⟩
      · cases hj
    | some b =>
      obtain ⟨h1, h2⟩ := advanceTo_rep h b
      refine ⟨p, ⟨?_, rfl⟩, h1⟩
      simp only [LW.step]
      congr 1
      rcases hg with he | ⟨ha, j, hj, hj0⟩
      · rw [show s.advanceTo b = s by simp [LW.advanceTo, he], exhausted_list h he]
      · cases hj
        rcases h2 with h2 | h2
        · rw [h2]
        · unfold pySliceO
          simp only [Option.getD_some]
          obtain ⟨b, rfl⟩ : ∃ n : Nat, b = n := ⟨b.toNat, by omega⟩
          have : ∃ n : Nat, a.getD 0 = (n : Int) := by
            cases a with
            | none => exact ⟨0, rfl⟩
            | some i => exact ⟨i.toNat, by have := ha i rfl; simp; omega⟩
          obtain ⟨n, hn⟩ := this
          rw [hn]
          exact slice_prefix h1.all (Or.inr (by omega))
  | len =>
    refine ⟨p, ⟨?_, rfl⟩, ?_⟩
    · simp only [LW.step, LW.exhaust]
      split
      · rename_i he; rw [exhausted_list h he]
      · rw [← h.all]
    · simp only [LW.step, LW.exhaust]
      split
      · exact h
      · exact ⟨by simpa using h.all, h.ptr, by have := h.le; simp; omega, fun _ => rfl⟩
  | contains x =>
    simp only [LW.step, LW.contains]
    split
    · rename_i hc
      refine ⟨p, ⟨⟨false, rfl, ?_⟩, Nat.le_refl _⟩, h⟩
      rw [← exhausted_list h hc.2]
      simp [hc.1]
    · split
      · rename_i hx
        refine ⟨p, ⟨⟨true, rfl, ?_⟩, Nat.le_refl _⟩, h⟩
        rw [← h.all]; simp [hx]
      · rename_i hx
        have hL : L.length = s.list.length + s.rest.length := by rw [← h.all]; simp
        obtain ⟨p', h1, h2, h3⟩ := search_rep x (s.list.length + s.rest.length + 1) h (by omega)
        refine ⟨p', ⟨⟨_, rfl, ?_⟩, h1⟩, h2⟩
        rw [h3]
        constructor
        · exact List.mem_of_mem_drop
        · intro hm
          rw [← List.take_append_drop p L] at hm
          rcases List.mem_append.1 hm with hm | hm
          · exfalso
            apply hx
            rw [← h.all, List.take_append_of_le_length (by have := h.le; have := h.ptr; omega)] at hm
            exact List.mem_of_mem_take hm
          · exact hm
  | iter =>
    have hL : L.length = s.list.length + s.rest.length := by rw [← h.all]; simp
    obtain ⟨h1, h2⟩ := forLoop_rep (s.list.length + s.rest.length + 1) h (by omega)
    exact ⟨_, ⟨by simp only [LW.step, h2], rfl⟩, h1⟩

/-- **C36, ListWrapperIterator.** In every history of calls in which indices (and bounds of slices) are not negative and slices have an end, or everything is already loaded, indexing, slicing, length and membership are those of the list of all elements
the iterator gives, however much was consumed; next() gives all its elements in order, and a `for` those not given yet. -/
theorem C36_wrapper_partial (L : List α) (ops : List (AOp α)) (hg : AllSteps LWGuard LW.step (LW.init L) ops) :
    ∃ p, History (LSpec L) 0 ops (runOps LW.step (LW.init L) ops).2 p := by
  obtain ⟨p, h, _⟩ := history_of_sim' (spec := LSpec L) (LWRep L) LWGuard (fun s b o hg h => lw_step_sim s b o hg h) (LW.init L) 0 ops hg
    ⟨rfl, rfl, Nat.le_refl _, fun h => by cases h⟩
  exact ⟨p, h⟩

/-- **C36, ListWrapperIterator, negative indices.** They count from the end of what is loaded so far. -/
theorem C36_negative_violates : (runOps LW.step (LW.init [1, 2, 3]) [.getInt 0, .getInt (-1)]).2 = [.elem 1, .elem 1] ∧
    (runOps LW.step (LW.init [1, 2, 3]) [.getInt (-1)]).2 = [.exc .indexError] ∧
    (runOps LW.step (LW.init [1, 2, 3]) [.getSlice none (some (-1))]).2 = [.elems []] := by decide

/-- **C36, ListWrapperIterator, slices without end.** `x[1:]` raises TypeError. -/
theorem C36_slice_violates : (runOps LW.step (LW.init [1, 2, 3]) [.getSlice (some 1) none]).2 = [.exc .typeError] := by decide

/-- **C36, ListWrapperIterator, iterating twice.** The second `for` gives nothing; and one after looking for an element misses those before it. -/
theorem C36_iterate_violates : (runOps LW.step (LW.init [1, 2, 3]) [.iter, .iter]).2 = [.elems [1, 2, 3], .elems []] ∧
    (runOps LW.step (LW.init [1, 2, 3]) [.contains 2, .iter]).2 = [.bool true, .elems [3]] := by decide

/-- the list, once unfolded -/
def LARep (L : List α) (s : LA α) (p : Nat) : Prop :=
  (s.list = some L ∧ (s.ptr = p ∨ (L.length ≤ p ∧ L.length ≤ s.ptr))) ∨ (s.list = none ∧ s.rest = L ∧ p = 0)

theorem la_step_sim {L : List α} (s : LA α) (p : Nat) (o : AOp α) (hg : LAGuard s o) (h : LARep L s p) :
    ∃ p', LSpec' L p o (s.step o).2 p' ∧ LARep L (s.step o).1 p' := by
  have hc : s.content = L := by
    rcases h with ⟨h, _⟩ | ⟨h, h', _⟩ <;> simp [LA.content, h]
    exact h'
  have hu : LARep L s.unfold p := by
    rcases h with ⟨h, h'⟩ | ⟨h, h', rfl⟩ <;> simp only [LA.unfold, h]
    · exact Or.inl ⟨h, h'⟩
    · exact Or.inl ⟨by rw [h'], Or.inl rfl⟩
  cases o with
  | getInt i => exact ⟨p, ⟨by simp only [LA.step, hc], rfl⟩, hu⟩
  | getSlice a b => exact ⟨p, ⟨by simp only [LA.step, hc], rfl⟩, hu⟩
  | len => exact ⟨p, ⟨by simp only [LA.step, hc], rfl⟩, hu⟩
  | contains x => exact ⟨p, ⟨⟨_, rfl, by simp [hc]⟩, rfl⟩, hu⟩
  | iter =>
    rcases h with ⟨h, h'⟩ | ⟨h, _⟩
    · refine ⟨p, ⟨by simp only [LA.step, h], rfl⟩, ?_⟩
      simp only [LA.step, h]; exact Or.inl ⟨h, h'⟩
    · exact absurd h hg
  | next =>
    rcases h with ⟨h, h'⟩ | ⟨h, _⟩
    · simp only [LA.step, LA.next, h]
      rcases h' with h' | ⟨h1, h2⟩
      · rw [h']
        cases hx : L[p]? with
        | some x => exact ⟨p + 1, Or.inl ⟨x, hx, rfl, rfl⟩, Or.inl ⟨rfl, Or.inl rfl⟩⟩
        | none => exact ⟨p + 1, Or.inr ⟨hx, rfl⟩, Or.inl ⟨rfl, Or.inl rfl⟩⟩
      · rw [List.getElem?_eq_none h2]
        exact ⟨p, Or.inr ⟨List.getElem?_eq_none h1, rfl⟩, Or.inl ⟨rfl, Or.inr ⟨h1, by simp; omega⟩⟩⟩
    · exact absurd h hg

/-- **C36, IteratorListAdapter.** In every history whose iterations (and calls of next()) come after a call of another kind, all is as with the list of all elements the iterator gives; each `for` gives the whole list. -/
theorem C36_adapter_partial (L : List α) (ops : List (AOp α)) (hg : AllSteps LAGuard LA.step (LA.init L) ops) :
    ∃ p, History (LSpec' L) 0 ops (runOps LA.step (LA.init L) ops).2 p := by
  obtain ⟨p, h, _⟩ := history_of_sim' (spec := LSpec' L) (LARep L) LAGuard (fun s b o hg h => la_step_sim s b o hg h) (LA.init L) 0 ops hg
    (Or.inr ⟨rfl, rfl, rfl⟩)
  exact ⟨p, h⟩

/-- **C36, IteratorListAdapter, the violation.** What was consumed before is missing afterwards. -/
theorem C36_consumed_violates : (runOps LA.step (LA.init [1, 2, 3]) [.next, .len, .contains 1, .getInt 0]).2 = [.elem 1, .nat 2, .bool false, .elem 2] ∧
    (runOps LA.step (LA.init [1, 2, 3]) [.iter, .len]).2 = [.elems [1, 2, 3], .nat 0] := by decide

/-! Concrete cases. -/

/-- some calls -/
def sampleOps : List (AOp Nat) := [.next, .getInt 1, .getSlice none (some 2), .contains 3, .len, .getInt (-1), .next]

example : AllSteps LWGuard LW.step (LW.init [1, 2, 3, 4]) sampleOps := by
  simp [sampleOps, AllSteps, LWGuard]; decide
example : (runOps LW.step (LW.init [1, 2, 3, 4]) sampleOps).2 = [.elem 1, .elem 2, .elems [1, 2], .bool true, .nat 4, .elem 4, .elem 4] := by decide
example : AllSteps LAGuard LA.step (LA.init [1, 2, 3]) [.len, .next, .iter, .getInt (-1), .next] := by
  simp [AllSteps, LAGuard]; decide
example : (runOps LA.step (LA.init [1, 2, 3]) [.len, .next, .iter, .getInt (-1), .next]).2 = [.nat 3, .elem 1, .elems [1, 2, 3], .elem 3, .elem 2] := by decide

/-- **C36, indices**: as for lists: an index counts from the start, or, if it is negative, from the end; there is an element exactly if the list has that place. -/
theorem C36_index (l : List α) (i : Int) (x : α) : pyIndex l i = some x ↔ ∃ k : Nat, ((k : Int) = i ∨ (i < 0 ∧ (k : Int) = l.length + i)) ∧ l[k]? = some x := by
  unfold pyIndex
  by_cases h : 0 ≤ i
  · rw [if_pos h]
    constructor
    · intro e; exact ⟨i.toNat, Or.inl (by omega), e⟩
    · rintro ⟨k, hk | hk, e⟩
      · rw [← hk]; simpa using e
      · omega
  · rw [if_neg h]
    split
    · constructor
      · intro e; exact ⟨_, Or.inr ⟨by omega, by omega⟩, e⟩
      · rintro ⟨k, hk | hk, e⟩
        · omega
        · rw [show ((l.length : Int) + i).toNat = k by omega]; exact e
    · constructor
      · intro e; cases e
      · rintro ⟨k, hk | hk, e⟩ <;> omega

/-- where a bound of a slice of a list of `n` elements lies: negative ones count from the end, but not beyond the start -/
def Bound (n : Nat) (i p : Int) : Prop := (0 ≤ i ∧ p = i) ∨ (i < 0 ∧ 0 ≤ n + i ∧ p = n + i) ∨ (n + i < 0 ∧ p = 0)

/-- **C36, slices**: as for lists: the elements from the first bound up to the second one, in order; without the first bound from the start, without the second one to the end. -/
theorem C36_slice (l : List α) (a b : Option Int) (lo hi : Int) (hlo : (a = none ∧ lo = 0) ∨ ∃ i, a = some i ∧ Bound l.length i lo) (hhi : (b = none ∧ hi = l.length) ∨ ∃ j, b = some j ∧ Bound l.length j hi) (k : Nat) :
    (pySliceO l a b)[k]? = if lo + k < hi then l[(lo + k).toNat]? else none := by
  have h1 : bound l.length (a.getD 0) = min lo.toNat l.length := by
    unfold Bound at hlo
    rcases hlo with ⟨rfl, rfl⟩ | ⟨i, rfl, h⟩
    · simp [bound]
    · simp only [Option.getD_some, bound]; split <;> omega
  have h2 : bound l.length (b.getD l.length) = min hi.toNat l.length := by
    unfold Bound at hhi
    rcases hhi with ⟨rfl, rfl⟩ | ⟨i, rfl, h⟩
    · simp only [Option.getD_none, bound]; split <;> omega
    · simp only [Option.getD_some, bound]; split <;> omega
  have h3 : 0 ≤ lo := by unfold Bound at hlo; rcases hlo with ⟨_, rfl⟩ | ⟨i, _, h⟩ <;> omega
  unfold pySliceO pySlice
  rw [h1, h2, List.getElem?_take]
  split
  · rename_i hk
    rw [if_pos (by omega), List.getElem?_drop]
    congr 1; omega
  · rename_i hk
    split
    · rw [List.getElem?_eq_none (by omega)]
    · rfl

example : pySliceO [1, 2, 3, 4, 5] (some (-3)) (some 4) = [3, 4] ∧ pySliceO [1, 2, 3] (some (-9)) none = [1, 2, 3] ∧ pyIndex [1, 2, 3] (-1) = some 3 := by decide

end Verif.Seq
