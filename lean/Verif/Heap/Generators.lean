import Verif.Heap.TimeLemmas
/-!
# `TimeBasedHeap.pop_less_than` consumed step by step among other calls, C280

`pop_less_than` is a generator: nothing happens when it is called, its limit is fixed when it is first asked for an element, and between two elements anything may happen to the heap: other calls, other generators, and time
passes.  Not modelled: a clock source that returns None (line 122), items that cannot be compared.
-/
set_option linter.unusedSectionVars false

namespace Verif.Heap.Generators
open Verif Verif.Heap

/-- the generator of a call of `pop_less_than`: not asked yet, suspended at the `yield`, over, /repo/satella/coding/structures/heaps/time.py:108-127 -/
inductive Gen where
  | fresh (less : Option Int)
  | running (less : Int)
  | over

/-- what happens: a call is made (`put` with a time and an item is one of them, /repo/satella/coding/structures/heaps/time.py:85-98), `put` is called with an item only, `pop_less_than` is called, its generator is asked for an
element, time passes.  (Part of the model of `TimeBasedHeap`, /repo/satella/coding/structures/heaps/time.py:10-133.) -/
inductive Act (ι : Type) where
  | call (o : TOp ι)
  | putNow (x : ι)
  | make (g : Nat) (less : Option Int)
  | next (g : Nat)
  | tick (d : Int)

/-- what is returned; `stop` is StopIteration.  (Part of the model of `TimeBasedHeap`, /repo/satella/coding/structures/heaps/time.py:10-133.) -/
inductive Ret (ι : Type) where
  | of (r : TRes ι)
  | entry (ts : Int) (x : ι)
  | stop
  | unit
  deriving DecidableEq

/-- the heap, the clock of its clock source, and the generators.  (Part of the model of `TimeBasedHeap`, /repo/satella/coding/structures/heaps/time.py:10-133.) -/
structure St (ι : Type) where
  data : List (Int × ι)
  clock : Int
  gens : Nat → Gen

section
variable {ι : Type} [PyLinOrd ι] [DecidableEq ι] (H : Heapq (Int × ι))

/-- the heap as constructed, /repo/satella/coding/structures/heaps/time.py:42-47 -/
def init : St ι := ⟨H.heapify [], 0, fun _ => .over⟩

/-- a generator is set.  (Part of the model of `pop_less_than`, /repo/satella/coding/structures/heaps/time.py:108-127.) -/
def St.gen (s : St ι) (g : Nat) (x : Gen) : St ι := { s with gens := fun h => if h = g then x else s.gens h }

/-- one turn of the loop, /repo/satella/coding/structures/heaps/time.py:124-127 -/
def turn (s : St ι) (g : Nat) (less : Int) : St ι × Ret ι :=
  match s.data.head? with
  | none => (s.gen g .over, .stop)
  | some top =>
    if top.1 ≥ less then (s.gen g .over, .stop)
    else
      match H.heappop s.data with
      | none => (s.gen g .over, .stop)
      | some (x, rest) => ({ s with data := rest }.gen g (.running less), .entry x.1 x.2)

/-- what happens does: the clock is read by `put`, :93, and by a generator when first asked, /repo/satella/coding/structures/heaps/time.py:119-120 -/
def step (s : St ι) : Act ι → St ι × Ret ι
  | .call o => let r := TimeHeap.step H s.data o; ({ s with data := r.1 }, .of r.2)
  | .putNow x => ({ s with data := H.heappush s.data (s.clock, x) }, .unit)
  | .make g less => (s.gen g (.fresh less), .unit)
  | .next g =>
    match s.gens g with
    | .fresh none => turn H s g s.clock
    | .fresh (some less) => turn H s g less
    | .running less => turn H s g less
    | .over => (s, .stop)
  | .tick d => ({ s with clock := s.clock + d }, .unit)

/-- the state after a history.  (Part of the model of `TimeBasedHeap`, /repo/satella/coding/structures/heaps/time.py:10-133.) -/
def after (as : List (Act ι)) : St ι := as.foldl (fun s a => (step H s a).1) (init H)

/-- what an act returns after a history.  (Part of the model of `TimeBasedHeap`, /repo/satella/coding/structures/heaps/time.py:10-133.) -/
def ret (as : List (Act ι)) (a : Act ι) : Ret ι := (step H (after H as) a).2

end

/-! ## Specification -/

/-- the time after a history: how much of it passed -/
def time {ι : Type} : List (Act ι) → Int
  | [] => 0
  | .tick d :: as => d + time as
  | _ :: as => time as

/-- not the generator asked for an element -/
def notNext {ι : Type} (g : Nat) : Act ι → Bool
  | .next g' => g' != g
  | _ => true

/-- The limit of the generator of a call `pop_less_than(less)` made after `p`, if `q` happened since: what was given, or else the time when the generator is first asked. -/
def limit {ι : Type} (p q : List (Act ι)) (g : Nat) (less : Option Int) : Int := less.getD (time p + time (q.takeWhile (notNext g)))

section
variable {ι : Type} [PyLinOrd ι] [DecidableEq ι] (H : Heapq (Int × ι))

/-- the generator made after `p` was asked once and was over, while `q` happened -/
def Over (p q : List (Act ι)) (g : Nat) (less : Option Int) : Prop := ∃ q1 q2, q = q1 ++ .next g :: q2 ∧ ret H (p ++ .make g less :: q1) (.next g) = .stop

/-! ## Proofs -/

theorem time_append (a b : List (Act ι)) : time (a ++ b) = time a + time b := by
  induction a with
  | nil => simp [time]
  | cons x a ih => cases x <;> simp only [List.cons_append, time, ih] <;> omega

theorem after_snoc (as : List (Act ι)) (a : Act ι) : after H (as ++ [a]) = (step H (after H as) a).1 := by simp [after]

theorem snoc_ind {α : Type _} {P : List α → Prop} (l : List α) (h0 : P []) (h1 : ∀ l a, P l → P (l ++ [a])) : P l := by
  suffices h : ∀ l : List α, P l.reverse by simpa using h l.reverse
  intro l
  induction l with
  | nil => exact h0
  | cons a l ih => simpa using h1 _ a ih

theorem turn_clock (s : St ι) (g : Nat) (t : Int) : (turn H s g t).1.clock = s.clock := by
  unfold turn
  split
  · rfl
  · split
    · rfl
    · split <;> rfl

theorem turn_other (s : St ι) (g h : Nat) (t : Int) (hn : h ≠ g) : (turn H s g t).1.gens h = s.gens h := by
  unfold turn
  split
  · simp [St.gen, hn]
  · split
    · simp [St.gen, hn]
    · split <;> simp [St.gen, hn]

/-- a turn yields and goes on, or stops and is over -/
theorem turn_gen (s : St ι) (g : Nat) (t : Int) : ((turn H s g t).2 = .stop ∧ (turn H s g t).1.gens g = .over) ∨ ((turn H s g t).2 ≠ .stop ∧ (turn H s g t).1.gens g = .running t) := by
  unfold turn
  split
  · simp [St.gen]
  · split
    · simp [St.gen]
    · split <;> simp [St.gen]

theorem turn_spec (s : St ι) (hh : IsHeap s.data) (g : Nat) (t : Int) :
    IsHeap (turn H s g t).1.data ∧ ((∃ ts x, (turn H s g t).2 = .entry ts x ∧ ts < t ∧ Least (ts, x) s.data ∧ s.data.Perm ((ts, x) :: (turn H s g t).1.data)) ∨
      ((turn H s g t).2 = .stop ∧ (turn H s g t).1.data = s.data ∧ ∀ e ∈ s.data, ¬ e.1 < t)) := by
  unfold turn
  cases hd : s.data.head? with
  | none =>
    refine ⟨hh, .inr ⟨rfl, rfl, fun e he => ?_⟩⟩
    rw [List.head?_eq_none_iff.1 hd] at he
    cases he
  | some top =>
    dsimp only
    by_cases ht : top.1 ≥ t
    · rw [if_pos ht]
      refine ⟨hh, .inr ⟨rfl, rfl, fun e he h => ?_⟩⟩
      have := le_fst (isHeap_head_min hh hd e he)
      omega
    · rw [if_neg ht]
      cases hp : H.heappop s.data with
      | none => exact absurd hp (H.pop_some _ (fun h => by rw [h] at hd; cases hd))
      | some xr =>
        obtain ⟨x, rest⟩ := xr
        obtain ⟨h1, h2, h3⟩ := pop_least H hh hp
        have he := H.pop_head _ _ _ hp
        rw [hd] at he
        cases he
        exact ⟨h3, .inl ⟨top.1, top.2, rfl, by omega, h1, h2⟩⟩

theorem step_heap (s : St ι) (hh : IsHeap s.data) (a : Act ι) : IsHeap (step H s a).1.data := by
  cases a with
  | call o => obtain ⟨b, _, h⟩ := time_step_sim H s.data s.data o ⟨hh, .refl _⟩; exact h.1
  | putNow x => exact H.push_heap _ _ hh
  | make g less => exact hh
  | next g =>
    simp only [step]
    split
    · exact (turn_spec H s hh g _).1
    · exact (turn_spec H s hh g _).1
    · exact (turn_spec H s hh g _).1
    · exact hh
  | tick d => exact hh

theorem after_heap (as : List (Act ι)) : IsHeap (after H as).data := by
  induction as using snoc_ind with
  | h0 => exact H.heapify_heap _
  | h1 as a ih => rw [after_snoc]; exact step_heap H _ ih a

theorem after_clock (as : List (Act ι)) : (after H as).clock = time as := by
  induction as using snoc_ind with
  | h0 => rfl
  | h1 as a ih =>
    rw [after_snoc, time_append, ← ih]
    cases a with
    | next g =>
      simp only [step, time]
      split
      · rw [turn_clock]; omega
      · rw [turn_clock]; omega
      · rw [turn_clock]; omega
      · simp
    | _ => simp [step, time, St.gen]

theorem takeWhile_any {α : Type _} {P : α → Bool} {q : List α} (h : ∃ a ∈ q, P a = false) (r : List α) : (q ++ r).takeWhile P = q.takeWhile P := by
  induction q with
  | nil => obtain ⟨_, h, _⟩ := h; cases h
  | cons b q ih =>
    obtain ⟨a, ha, h⟩ := h
    simp only [List.cons_append, List.takeWhile_cons]
    by_cases hb : P b = true
    · rw [if_pos hb, if_pos hb, ih ⟨a, (List.mem_cons.1 ha).resolve_left (fun e => by rw [e, hb] at h; cases h), h⟩]
    · rw [if_neg hb, if_neg hb]

theorem takeWhile_all {α : Type _} {P : α → Bool} {q : List α} (h : ∀ a ∈ q, P a = true) : q.takeWhile P = q := by
  induction q with
  | nil => rfl
  | cons b q ih => rw [List.takeWhile_cons, if_pos (h b (by simp)), ih (fun a ha => h a (by simp [ha]))]

theorem over_mono {p q : List (Act ι)} {g : Nat} {less : Option Int} (h : Over H p q g less) (a : Act ι) : Over H p (q ++ [a]) g less := by
  obtain ⟨q1, q2, h1, h2⟩ := h
  exact ⟨q1, q2 ++ [a], by rw [h1]; simp, h2⟩

theorem over_snoc {p q : List (Act ι)} {g : Nat} {less : Option Int} {a : Act ι} (h : Over H p (q ++ [a]) g less) : Over H p q g less ∨ (a = .next g ∧ ret H (p ++ .make g less :: q) (.next g) = .stop) := by
  obtain ⟨q1, q2, h1, h2⟩ := h
  rcases List.eq_nil_or_concat q2 with h | ⟨q3, b, h⟩
  · subst h
    have := List.append_inj' h1 rfl
    obtain ⟨e1, e2⟩ := this
    cases e2
    exact .inr ⟨rfl, e1 ▸ h2⟩
  · subst h
    have : q ++ [a] = (q1 ++ .next g :: q3) ++ [b] := by rw [h1]; simp
    exact .inl ⟨q1, q3, (List.append_inj' this rfl).1, h2⟩

/-- what the generator is, told by what happened since it was made -/
theorem gen_after (p q : List (Act ι)) (g : Nat) (less : Option Int) (hq : ∀ l, .make g l ∉ q) :
    ((∀ a ∈ q, notNext g a = true) ∧ (after H (p ++ .make g less :: q)).gens g = .fresh less ∧ ¬ Over H p q g less) ∨
    ((∃ a ∈ q, notNext g a = false) ∧ (after H (p ++ .make g less :: q)).gens g = .running (limit p q g less) ∧ ¬ Over H p q g less) ∨
    ((∃ a ∈ q, notNext g a = false) ∧ (after H (p ++ .make g less :: q)).gens g = .over ∧ Over H p q g less) := by
  induction q using snoc_ind with
  | h0 =>
    refine .inl ⟨nofun, ?_, ?_⟩
    · rw [after_snoc]; simp [step, St.gen]
    · rintro ⟨q1, q2, h, _⟩; cases q1 <;> cases h
  | h1 q a ih =>
    have ih := ih (fun l h => hq l (by simp [h]))
    have e : p ++ .make g less :: (q ++ [a]) = (p ++ .make g less :: q) ++ [a] := by simp
    rw [e, after_snoc]
    have hcl := after_clock H (p ++ .make g less :: q)
    rw [time_append] at hcl
    by_cases hn : a = .next g
    · subst hn
      have hf : notNext g (Act.next g : Act ι) = false := by simp [notNext]
      have hany : ∃ a ∈ q ++ [.next g], notNext g (a : Act ι) = false := ⟨.next g, by simp, hf⟩
      -- one turn with the limit
      have key : ∀ t, t = limit p (q ++ [.next g]) g less → ¬ Over H p q g less → step H (after H (p ++ .make g less :: q)) (.next g) = turn H (after H (p ++ .make g less :: q)) g t →
          ((∃ a ∈ q ++ [.next g], notNext g (a : Act ι) = false) ∧ (step H (after H (p ++ .make g less :: q)) (.next g)).1.gens g = .running (limit p (q ++ [.next g]) g less) ∧ ¬ Over H p (q ++ [.next g]) g less) ∨
          ((∃ a ∈ q ++ [.next g], notNext g (a : Act ι) = false) ∧ (step H (after H (p ++ .make g less :: q)) (.next g)).1.gens g = .over ∧ Over H p (q ++ [.next g]) g less) := by
        intro t ht ho hs
        rcases turn_gen H (after H (p ++ .make g less :: q)) g t with ⟨h1, h2⟩ | ⟨h1, h2⟩
        · exact .inr ⟨hany, by rw [hs]; exact h2, q, [], rfl, by unfold ret; rw [hs]; exact h1⟩
        · refine .inl ⟨hany, by rw [hs, ← ht]; exact h2, fun h => ?_⟩
          rcases over_snoc H h with h | ⟨_, h⟩
          · exact ho h
          · unfold ret at h; rw [hs] at h; exact h1 h
      rcases ih with ⟨h1, h2, h3⟩ | ⟨h1, h2, h3⟩ | ⟨h1, h2, h3⟩
      · right
        have hl : (q ++ [Act.next g]).takeWhile (notNext g) = q := by
          rw [List.takeWhile_append_of_pos h1]
          simp [hf]
        cases hless : less with
        | none =>
          subst hless
          refine key (after H (p ++ .make g none :: q)).clock ?_ h3 (by simp only [step, h2])
          rw [hcl]; simp [limit, hl, time]
        | some l =>
          subst hless
          exact key l (by simp [limit]) h3 (by simp only [step, h2])
      · right
        exact key (limit p q g less) (by unfold limit; rw [takeWhile_any h1]) h3 (by simp only [step, h2])
      · exact .inr (.inr ⟨hany, by simp only [step, h2], over_mono H h3 _⟩)
    · have ht : notNext g a = true := by
        cases a with
        | next g' => simp only [notNext, bne_iff_ne]; intro e; exact hn (by rw [e])
        | _ => rfl
      have hg : (step H (after H (p ++ .make g less :: q)) a).1.gens g = (after H (p ++ .make g less :: q)).gens g := by
        cases a with
        | make g' l =>
          have : g ≠ g' := fun e => hq l (by simp [e])
          simp [step, St.gen, this]
        | next g' =>
          have : g ≠ g' := fun e => hn (by rw [e])
          simp only [step]
          split
          · exact turn_other H _ _ _ _ this
          · exact turn_other H _ _ _ _ this
          · exact turn_other H _ _ _ _ this
          · rfl
        | _ => rfl
      have ho : Over H p (q ++ [a]) g less → Over H p q g less := fun h => (over_snoc H h).resolve_right (fun h => hn h.1)
      rw [hg]
      rcases ih with ⟨h1, h2, h3⟩ | ⟨⟨b, hb, h1⟩, h2, h3⟩ | ⟨⟨b, hb, h1⟩, h2, h3⟩
      · refine .inl ⟨fun b hb => ?_, h2, fun h => h3 (ho h)⟩
        rcases List.mem_append.1 hb with hb | hb
        · exact h1 b hb
        · rw [List.mem_singleton.1 hb]; exact ht
      · exact .inr (.inl ⟨⟨b, by simp [hb], h1⟩, by rw [h2]; unfold limit; rw [takeWhile_any ⟨b, hb, h1⟩], fun h => h3 (ho h)⟩)
      · exact .inr (.inr ⟨⟨b, by simp [hb], h1⟩, h2, over_mono H h3 a⟩)

/-- **C280 asked for an element.** A generator made by `pop_less_than(less)` is asked for an element, whatever happened before and since it was made.  If it was over once, it stops, and the heap is left alone.  Otherwise it
takes a least entry off the heap and yields it, if there is one below the limit, and stops if there is none; the limit is what was given, or the time when the generator was first asked. -/
theorem C280_next (p q : List (Act ι)) (g : Nat) (less : Option Int) (hq : ∀ l, .make g l ∉ q) :
    let as := p ++ .make g less :: q
    let L := limit p q g less
    (Over H p q g less → ret H as (.next g) = .stop ∧ (after H (as ++ [.next g])).data = (after H as).data) ∧
    (¬ Over H p q g less →
      (∃ ts x, ret H as (.next g) = .entry ts x ∧ ts < L ∧ Least (ts, x) (after H as).data ∧ (after H as).data.Perm ((ts, x) :: (after H (as ++ [.next g])).data)) ∨
      (ret H as (.next g) = .stop ∧ (after H (as ++ [.next g])).data = (after H as).data ∧ ∀ e ∈ (after H as).data, ¬ e.1 < L)) := by
  intro as L
  rw [after_snoc]
  unfold ret
  have hh := after_heap H as
  have hcl : (after H as).clock = time p + time (Act.make g less :: q) := by rw [after_clock, time_append]
  have ht : ∀ t, t = L → step H (after H as) (.next g) = turn H (after H as) g t →
      (∃ ts x, (step H (after H as) (.next g)).2 = .entry ts x ∧ ts < L ∧ Least (ts, x) (after H as).data ∧ (after H as).data.Perm ((ts, x) :: (step H (after H as) (.next g)).1.data)) ∨
      ((step H (after H as) (.next g)).2 = .stop ∧ (step H (after H as) (.next g)).1.data = (after H as).data ∧ ∀ e ∈ (after H as).data, ¬ e.1 < L) := by
    intro t e hs
    rw [hs, ← e]
    exact (turn_spec H (after H as) hh g t).2
  rcases gen_after H p q g less hq with ⟨h1, h2, h3⟩ | ⟨h1, h2, h3⟩ | ⟨h1, h2, h3⟩
  · refine ⟨fun h => absurd h h3, fun _ => ?_⟩
    cases less with
    | none => exact ht (after H as).clock (by rw [hcl]; simp [L, limit, takeWhile_all h1, time]) (by simp only [step, as, h2])
    | some l => exact ht l (by simp [L, limit]) (by simp only [step, as, h2])
  · exact ⟨fun h => absurd h h3, fun _ => ht L rfl (by simp only [step, as, h2, L])⟩
  · refine ⟨fun _ => ?_, fun h => absurd h3 h⟩
    simp only [step, as, h2, and_self]

/-- **C280 other calls.** Calling `pop_less_than` leaves the heap alone, whatever the limit; so does time.  A call of `put` with an item only puts it with the time of the call.  Every other call does to the bag of entries what
it does without generators around. -/
theorem C280_calls (as : List (Act ι)) :
    (∀ g less, (after H (as ++ [.make g less])).data = (after H as).data) ∧ (∀ d, (after H (as ++ [.tick d])).data = (after H as).data) ∧
    (∀ x, (after H (as ++ [.putNow x])).data.Perm ((time as, x) :: (after H as).data)) ∧
    (∀ o, ∃ r b, ret H as (.call o) = .of r ∧ TimeBagSpec (after H as).data o r b ∧ (after H (as ++ [.call o])).data.Perm b) := by
  refine ⟨fun g less => ?_, fun d => ?_, fun x => ?_, fun o => ?_⟩
  · rw [after_snoc]; rfl
  · rw [after_snoc]; rfl
  · rw [after_snoc, ← after_clock H as]; exact H.push_perm _ _
  · rw [after_snoc]
    obtain ⟨b, h1, h2⟩ := time_step_sim H (after H as).data (after H as).data o ⟨after_heap H as, .refl _⟩
    exact ⟨_, b, rfl, h1, h2.2⟩

end

/-- two items, a generator without a limit made before they are due, asked when one is, and while another is put -/
example : let H := cpython (Int × Nat)
    let as : List (Act Nat) := [.call (.put 3 0), .make 1 none, .call (.put 9 7), .tick 5]
    ret H as (.next 1) = .entry 3 0 ∧ ret H (as ++ [.next 1, .tick 9]) (.next 1) = .stop ∧ ret H (as ++ [.next 1, .call (.put 4 2)]) (.next 1) = .entry 4 2 ∧
    ret H (as ++ [.next 1, .next 1, .call (.put 4 2)]) (.next 1) = .stop ∧ limit [.call (.put 3 0)] [.call (.put 9 7), .tick 5, .next 1, .tick 9] 1 (none : Option Int) = 5 := by decide +kernel

/-- the hypothesis of `C280_next` holds -/
example : ∀ l, Act.make 1 l ∉ ([.call (.put 9 7), .tick 5, .next 1, .make 2 none] : List (Act Nat)) := by simp

end Verif.Heap.Generators
