import Verif.Heap.Generators
/-!
# `TimeBasedSetHeap.pop_less_than` consumed step by step among other calls, C281

As in `Verif.Heap.Generators`, for the heap that holds an item at most once.  All calls may be made, `remove` as well, though it leaves the timestamp of the item behind (C05).
Not modelled: a clock source that returns None (line 260), items that cannot be compared.
-/
set_option linter.unusedSectionVars false

namespace Verif.Heap.SetGenerators
open Verif Verif.Heap
open Verif.Heap.Generators (Gen Act Ret time notNext limit snoc_ind time_append takeWhile_any takeWhile_all)

/-- the heap, the clock of its clock source, and the generators.  (Part of the model of `TimeBasedSetHeap`, /repo/satella/coding/structures/heaps/time.py:136-271.) -/
structure St (ι : Type) where
  heap : TSHeap ι
  clock : Int
  gens : Nat → Gen

section
variable {ι : Type} [PyLinOrd ι] [DecidableEq ι] (H : Heapq (Int × ι))

/-- the heap as constructed, /repo/satella/coding/structures/heaps/time.py:181-187 -/
def init : St ι := ⟨TSHeap.init H, 0, fun _ => .over⟩

/-- a generator is set.  (Part of the model of `pop_less_than`, /repo/satella/coding/structures/heaps/time.py:247-265.) -/
def St.gen (s : St ι) (g : Nat) (x : Gen) : St ι := { s with gens := fun h => if h = g then x else s.gens h }

/-- one turn of the loop, /repo/satella/coding/structures/heaps/time.py:262-265; an exception of `pop` ends the generator -/
def turn (s : St ι) (g : Nat) (less : Int) : St ι × Ret ι :=
  match s.heap.data.head? with
  | none => (s.gen g .over, .stop)
  | some top =>
    if top.1 ≥ less then (s.gen g .over, .stop)
    else
      match TSHeap.pop H s.heap with
      | (h, .entry ts x) => ({ s with heap := h }.gen g (.running less), .entry ts x)
      | (h, r) => ({ s with heap := h }.gen g .over, .of r)

/-- what happens does: the clock is read by `put`, :240, and by a generator when first asked, /repo/satella/coding/structures/heaps/time.py:257-258 -/
def step (s : St ι) : Act ι → St ι × Ret ι
  | .call o => let r := TSHeap.step H s.heap o; ({ s with heap := r.1 }, .of r.2)
  | .putNow x => let r := TSHeap.push H s.heap s.clock x; ({ s with heap := r.1 }, .of r.2)
  | .make g less => (s.gen g (.fresh less), .unit)
  | .next g =>
    match s.gens g with
    | .fresh none => turn H s g s.clock
    | .fresh (some less) => turn H s g less
    | .running less => turn H s g less
    | .over => (s, .stop)
  | .tick d => ({ s with clock := s.clock + d }, .unit)

/-- the state after a history.  (Part of the model of `TimeBasedSetHeap`, /repo/satella/coding/structures/heaps/time.py:136-271.) -/
def after (as : List (Act ι)) : St ι := as.foldl (fun s a => (step H s a).1) (init H)

/-- what an act returns after a history.  (Part of the model of `TimeBasedSetHeap`, /repo/satella/coding/structures/heaps/time.py:136-271.) -/
def ret (as : List (Act ι)) (a : Act ι) : Ret ι := (step H (after H as) a).2

/-! ## Specification -/

/-- the generator made after `p` was asked once and was over, while `q` happened -/
def Over (p q : List (Act ι)) (g : Nat) (less : Option Int) : Prop := ∃ q1 q2, q = q1 ++ .next g :: q2 ∧ ret H (p ++ .make g less :: q1) (.next g) = .stop

/-! ## Proofs -/

theorem after_snoc (as : List (Act ι)) (a : Act ι) : after H (as ++ [a]) = (step H (after H as) a).1 := by simp [after]

/-- what holds of the heap whatever happens: every entry has its timestamp; there may be timestamps without entries -/
def Weak (s : TSHeap ι) : Prop := IsHeap s.data ∧ (s.data.map Prod.snd).Nodup ∧ ∀ e ∈ s.data, Dict.get? s.stamps e.2 = some e.1

theorem weak_has {s : TSHeap ι} (h : Weak s) {e : Int × ι} (he : e ∈ s.data) : Dict.has s.stamps e.2 = true := by simp [Dict.has, h.2.2 e he]

theorem weak_remove {s : TSHeap ι} (h : Weak s) {e : Int × ι} {rest d' : List (Int × ι)} (hp : s.data.Perm (e :: rest)) (hh : IsHeap d') (hd : d'.Perm rest) :
    Weak { data := d', stamps := Dict.del s.stamps e.2 } ∧ e.2 ∉ d'.map Prod.snd := by
  obtain ⟨h1, h2, h3⟩ := h
  have hn := (hp.map Prod.snd).nodup_iff.1 h2
  rw [List.map_cons, List.nodup_cons] at hn
  have hx : e.2 ∉ d'.map Prod.snd := fun hm => hn.1 ((hd.map Prod.snd).mem_iff.1 hm)
  refine ⟨⟨hh, (hd.map _).nodup_iff.2 hn.2, fun e' he' => ?_⟩, hx⟩
  dsimp only at he' ⊢
  rw [Dict.get?_del, if_neg (show ¬ e.2 = e'.2 from fun heq => hx (heq ▸ List.mem_map_of_mem (f := Prod.snd) he'))]
  exact h3 e' (hp.mem_iff.2 (List.mem_cons_of_mem _ (hd.mem_iff.1 he')))

theorem weak_put {s : TSHeap ι} (h : Weak s) (ts : Int) {x : ι} (hx : x ∉ s.data.map Prod.snd) : Weak { data := H.heappush s.data (ts, x), stamps := Dict.set s.stamps x ts } := by
  obtain ⟨h1, h2, h3⟩ := h
  have hpp := H.push_perm s.data (ts, x)
  refine ⟨H.push_heap _ _ h1, ?_, fun e he => ?_⟩
  · rw [(hpp.map _).nodup_iff, List.map_cons, List.nodup_cons]
    exact ⟨hx, h2⟩
  · dsimp only at he ⊢
    rw [Dict.get?_set]
    rcases List.mem_cons.1 (hpp.mem_iff.1 he) with rfl | he
    · simp
    · rw [if_neg (show ¬ x = e.2 from fun heq => hx (heq ▸ List.mem_map_of_mem (f := Prod.snd) he))]
      exact h3 e he

/-- an item is found and removed, or it is not there -/
theorem popItem_weak {s : TSHeap ι} (h : Weak s) (x : ι) :
    (TSHeap.popItem H s x = (s, .exc .valueError) ∧ x ∉ s.data.map Prod.snd) ∨ ∃ s' ts, TSHeap.popItem H s x = (s', .entry ts x) ∧ Weak s' ∧ x ∉ s'.data.map Prod.snd := by
  unfold TSHeap.popItem
  cases hr : removeFirst (fun e : Int × ι => decide (e.2 = x)) s.data with
  | none =>
    refine .inl ⟨rfl, fun hm => ?_⟩
    obtain ⟨e, he, rfl⟩ := List.mem_map.1 hm
    simpa using removeFirst_none hr e he
  | some er =>
    obtain ⟨e, rest⟩ := er
    obtain ⟨h1, h2⟩ := removeFirst_some hr
    have h1 : e.2 = x := by simpa using h1
    subst h1
    dsimp only
    rw [if_pos (weak_has h (h2.mem_iff.2 (by simp)))]
    obtain ⟨h3, h4⟩ := weak_remove h h2 (H.heapify_heap rest) (H.heapify_perm rest)
    exact .inr ⟨_, e.1, rfl, h3, h4⟩

theorem push_weak {s : TSHeap ι} (h : Weak s) (ts : Int) (x : ι) : Weak (TSHeap.push H s ts x).1 := by
  unfold TSHeap.push
  by_cases hs : Dict.has s.stamps x = true
  · rw [if_pos hs]
    rcases popItem_weak H h x with ⟨h1, _⟩ | ⟨s', ts', h1, h2, h3⟩
    · rw [h1]; exact h
    · rw [h1]; exact weak_put H h2 ts h3
  · rw [if_neg hs]
    refine weak_put H h ts (fun hm => ?_)
    obtain ⟨e, he, rfl⟩ := List.mem_map.1 hm
    exact hs (weak_has h he)

theorem pop_weak {s : TSHeap ι} (h : Weak s) :
    (s.data = [] ∧ TSHeap.pop H s = (s, .exc .indexError)) ∨
    ∃ e s', s.data.head? = some e ∧ TSHeap.pop H s = (s', .entry e.1 e.2) ∧ Least e s.data ∧ s.data.Perm (e :: s'.data) ∧ Weak s' := by
  unfold TSHeap.pop
  cases hp : H.heappop s.data with
  | none => exact .inl ⟨heappop_none H hp, rfl⟩
  | some er =>
    obtain ⟨e, rest⟩ := er
    obtain ⟨h1, h2, h3⟩ := pop_least H h.1 hp
    dsimp only
    rw [if_pos (weak_has h h1.1)]
    exact .inr ⟨e, _, H.pop_head _ _ _ hp, rfl, h1, h2, (weak_remove h h2 h3 (.refl _)).1⟩

theorem popLessThan_weak (t : Int) (n : Nat) {s : TSHeap ι} (h : Weak s) : Weak (TSHeap.popLessThan H t n s).1 := by
  induction n generalizing s with
  | zero => exact h
  | succ n ih =>
    unfold TSHeap.popLessThan
    cases s.data.head? with
    | none => exact h
    | some top =>
      dsimp only
      by_cases ht : top.1 ≥ t
      · rw [if_pos ht]; exact h
      · rw [if_neg ht]
        rcases pop_weak H h with ⟨_, h1⟩ | ⟨e, s', _, h1, _, _, h2⟩
        · rw [h1]; exact h
        · rw [h1]; exact ih h2

theorem call_weak {s : TSHeap ι} (h : Weak s) (o : TOp ι) : Weak (TSHeap.step H s o).1 := by
  cases o with
  | put ts x => exact push_weak H h ts x
  | pop =>
    simp only [TSHeap.step]
    rcases pop_weak H h with ⟨_, h1⟩ | ⟨e, s', _, h1, _, _, h2⟩ <;> rw [h1]
    · exact h
    · exact h2
  | popTimestamp ts =>
    simp only [TSHeap.step]
    cases hr : removeFirst (fun e : Int × ι => decide (e.1 = ts)) s.data with
    | none => exact h
    | some er =>
      obtain ⟨e, rest⟩ := er
      obtain ⟨_, h2⟩ := removeFirst_some hr
      dsimp only
      rw [if_pos (weak_has h (h2.mem_iff.2 (by simp)))]
      exact (weak_remove h h2 (H.heapify_heap rest) (H.heapify_perm rest)).1
  | popItem x =>
    simp only [TSHeap.step]
    rcases popItem_weak H h x with ⟨h1, _⟩ | ⟨s', ts', h1, h2, h3⟩ <;> rw [h1]
    · exact h
    · exact h2
  | getTimestamp x => simp only [TSHeap.step]; split <;> exact h
  | peekClosest => exact h
  | popLessThan t n =>
    have := popLessThan_weak H t n h
    simp only [TSHeap.step]
    split <;> rename_i he <;> rw [he] at this <;> exact this
  | remove x =>
    have hp := H.heapify_perm (s.data.filter (fun e => decide (e.2 ≠ x)))
    refine ⟨H.heapify_heap _, ?_, fun e he => h.2.2 e (List.mem_filter.1 (hp.mem_iff.1 he)).1⟩
    exact ((hp.map Prod.snd).nodup_iff).2 (h.2.1.sublist (List.filter_sublist.map Prod.snd))
  | items => exact h

theorem turn_spec (s : St ι) (hh : Weak s.heap) (g : Nat) (t : Int) :
    Weak (turn H s g t).1.heap ∧ ((∃ ts x, (turn H s g t).2 = .entry ts x ∧ ts < t ∧ Least (ts, x) s.heap.data ∧ s.heap.data.Perm ((ts, x) :: (turn H s g t).1.heap.data)) ∨
      ((turn H s g t).2 = .stop ∧ (turn H s g t).1.heap.data = s.heap.data ∧ ∀ e ∈ s.heap.data, ¬ e.1 < t)) ∧
    (((turn H s g t).2 = .stop ∧ (turn H s g t).1.gens g = .over) ∨ ((turn H s g t).2 ≠ .stop ∧ (turn H s g t).1.gens g = .running t)) := by
  unfold turn
  cases hd : s.heap.data.head? with
  | none =>
    refine ⟨hh, .inr ⟨rfl, rfl, fun e he => ?_⟩, .inl ⟨rfl, by simp [St.gen]⟩⟩
    rw [List.head?_eq_none_iff.1 hd] at he
    cases he
  | some top =>
    dsimp only
    by_cases ht : top.1 ≥ t
    · rw [if_pos ht]
      refine ⟨hh, .inr ⟨rfl, rfl, fun e he h => ?_⟩, .inl ⟨rfl, by simp [St.gen]⟩⟩
      have := le_fst (isHeap_head_min hh.1 hd e he)
      omega
    · rw [if_neg ht]
      rcases pop_weak H hh with ⟨h1, _⟩ | ⟨e, s', h0, h1, h2, h3, h4⟩
      · rw [h1] at hd; cases hd
      · rw [hd] at h0; cases h0
        rw [h1]
        exact ⟨h4, .inl ⟨top.1, top.2, rfl, by omega, h2, h3⟩, .inr ⟨nofun, by simp [St.gen]⟩⟩

theorem turn_gen (s : St ι) (hh : Weak s.heap) (g : Nat) (t : Int) : ((turn H s g t).2 = .stop ∧ (turn H s g t).1.gens g = .over) ∨ ((turn H s g t).2 ≠ .stop ∧ (turn H s g t).1.gens g = .running t) :=
  (turn_spec H s hh g t).2.2

theorem turn_clock (s : St ι) (g : Nat) (t : Int) : (turn H s g t).1.clock = s.clock := by
  unfold turn
  split
  · rfl
  · split
    · rfl
    · split <;> rfl

theorem turn_other (s : St ι) (g h : Nat) (t : Int) (hn : h ≠ g) : (turn H s g t).1.gens h = s.gens h := by
  unfold turn
  split
  · simp [St.gen, hn]
  · split
    · simp [St.gen, hn]
    · split <;> simp [St.gen, hn]

theorem step_weak (s : St ι) (hh : Weak s.heap) (a : Act ι) : Weak (step H s a).1.heap := by
  cases a with
  | call o => exact call_weak H hh o
  | putNow x => exact push_weak H hh _ x
  | make g less => exact hh
  | next g =>
    simp only [step]
    split
    · exact (turn_spec H s hh g _).1
    · exact (turn_spec H s hh g _).1
    · exact (turn_spec H s hh g _).1
    · exact hh
  | tick d => exact hh

theorem after_weak (as : List (Act ι)) : Weak (after H as).heap := by
  induction as using snoc_ind with
  | h0 =>
    have h : H.heapify [] = [] := List.Perm.eq_nil (H.heapify_perm [])
    refine ⟨H.heapify_heap _, ?_, ?_⟩ <;> simp [after, init, TSHeap.init, h]
  | h1 as a ih => rw [after_snoc]; exact step_weak H _ ih a

theorem after_clock (as : List (Act ι)) : (after H as).clock = time as := by
  induction as using snoc_ind with
  | h0 => rfl
  | h1 as a ih =>
    rw [after_snoc, time_append, ← ih]
    cases a with
    | next g =>
      simp only [step, time]
      split
      · rw [turn_clock]; omega
      · rw [turn_clock]; omega
      · rw [turn_clock]; omega
      · simp
    | _ => simp [step, time, St.gen]

theorem over_mono {p q : List (Act ι)} {g : Nat} {less : Option Int} (h : Over H p q g less) (a : Act ι) : Over H p (q ++ [a]) g less := by
  obtain ⟨q1, q2, h1, h2⟩ := h
  exact ⟨q1, q2 ++ [a], by rw [h1]; simp, h2⟩

theorem over_snoc {p q : List (Act ι)} {g : Nat} {less : Option Int} {a : Act ι} (h : Over H p (q ++ [a]) g less) : Over H p q g less ∨ (a = .next g ∧ ret H (p ++ .make g less :: q) (.next g) = .stop) := by
  obtain ⟨q1, q2, h1, h2⟩ := h
  rcases List.eq_nil_or_concat q2 with h | ⟨q3, b, h⟩
  · subst h
    have := List.append_inj' h1 rfl
    obtain ⟨e1, e2⟩ := this
    cases e2
    exact .inr ⟨rfl, e1 ▸ h2⟩
  · subst h
    have : q ++ [a] = (q1 ++ .next g :: q3) ++ [b] := by rw [h1]; simp
    exact .inl ⟨q1, q3, (List.append_inj' this rfl).1, h2⟩

/-- what the generator is, told by what happened since it was made -/
theorem gen_after (p q : List (Act ι)) (g : Nat) (less : Option Int) (hq : ∀ l, .make g l ∉ q) :
    ((∀ a ∈ q, notNext g a = true) ∧ (after H (p ++ .make g less :: q)).gens g = .fresh less ∧ ¬ Over H p q g less) ∨
    ((∃ a ∈ q, notNext g a = false) ∧ (after H (p ++ .make g less :: q)).gens g = .running (limit p q g less) ∧ ¬ Over H p q g less) ∨
    ((∃ a ∈ q, notNext g a = false) ∧ (after H (p ++ .make g less :: q)).gens g = .over ∧ Over H p q g less) := by
  induction q using snoc_ind with
  | h0 =>
    refine .inl ⟨nofun, ?_, ?_⟩
    · rw [after_snoc]; simp [step, St.gen]
    · rintro ⟨q1, q2, h, _⟩; cases q1 <;> cases h
  | h1 q a ih =>
    have ih := ih (fun l h => hq l (by simp [h]))
    have e : p ++ .make g less :: (q ++ [a]) = (p ++ .make g less :: q) ++ [a] := by simp
    rw [e, after_snoc]
    have hcl := after_clock H (p ++ .make g less :: q)
    rw [time_append] at hcl
    by_cases hn : a = .next g
    · subst hn
      have hf : notNext g (Act.next g : Act ι) = false := by simp [notNext]
      have hany : ∃ a ∈ q ++ [.next g], notNext g (a : Act ι) = false := ⟨.next g, by simp, hf⟩
      -- one turn with the limit
      have key : ∀ t, t = limit p (q ++ [.next g]) g less → ¬ Over H p q g less → step H (after H (p ++ .make g less :: q)) (.next g) = turn H (after H (p ++ .make g less :: q)) g t →
          ((∃ a ∈ q ++ [.next g], notNext g (a : Act ι) = false) ∧ (step H (after H (p ++ .make g less :: q)) (.next g)).1.gens g = .running (limit p (q ++ [.next g]) g less) ∧ ¬ Over H p (q ++ [.next g]) g less) ∨
          ((∃ a ∈ q ++ [.next g], notNext g (a : Act ι) = false) ∧ (step H (after H (p ++ .make g less :: q)) (.next g)).1.gens g = .over ∧ Over H p (q ++ [.next g]) g less) := by
        intro t ht ho hs
        rcases turn_gen H (after H (p ++ .make g less :: q)) (after_weak H _) g t with ⟨h1, h2⟩ | ⟨h1, h2⟩
        · exact .inr ⟨hany, by rw [hs]; exact h2, q, [], rfl, by unfold ret; rw [hs]; exact h1⟩
        · refine .inl ⟨hany, by rw [hs, ← ht]; exact h2, fun h => ?_⟩
          rcases over_snoc H h with h | ⟨_, h⟩
          · exact ho h
          · unfold ret at h; rw [hs] at h; exact h1 h
      rcases ih with ⟨h1, h2, h3⟩ | ⟨h1, h2, h3⟩ | ⟨h1, h2, h3⟩
      · right
        have hl : (q ++ [Act.next g]).takeWhile (notNext g) = q := by
          rw [List.takeWhile_append_of_pos h1]
          simp [hf]
        cases hless : less with
        | none =>
          subst hless
          refine key (after H (p ++ .make g none :: q)).clock ?_ h3 (by simp only [step, h2])
          rw [hcl]; simp [limit, hl, time]
        | some l =>
          subst hless
          exact key l (by simp [limit]) h3 (by simp only [step, h2])
      · right
        exact key (limit p q g less) (by unfold limit; rw [takeWhile_any h1]) h3 (by simp only [step, h2])
      · exact .inr (.inr ⟨hany, by simp only [step, h2], over_mono H h3 _⟩)
    · have ht : notNext g a = true := by
        cases a with
        | next g' => simp only [notNext, bne_iff_ne]; intro e; exact hn (by rw [e])
        | _ => rfl
      have hg : (step H (after H (p ++ .make g less :: q)) a).1.gens g = (after H (p ++ .make g less :: q)).gens g := by
        cases a with
        | make g' l =>
          have : g ≠ g' := fun e => hq l (by simp [e])
          simp [step, St.gen, this]
        | next g' =>
          have : g ≠ g' := fun e => hn (by rw [e])
          simp only [step]
          split
          · exact turn_other H _ _ _ _ this
          · exact turn_other H _ _ _ _ this
          · exact turn_other H _ _ _ _ this
          · rfl
        | _ => rfl
      have ho : Over H p (q ++ [a]) g less → Over H p q g less := fun h => (over_snoc H h).resolve_right (fun h => hn h.1)
      rw [hg]
      rcases ih with ⟨h1, h2, h3⟩ | ⟨⟨b, hb, h1⟩, h2, h3⟩ | ⟨⟨b, hb, h1⟩, h2, h3⟩
      · refine .inl ⟨fun b hb => ?_, h2, fun h => h3 (ho h)⟩
        rcases List.mem_append.1 hb with hb | hb
        · exact h1 b hb
        · rw [List.mem_singleton.1 hb]; exact ht
      · exact .inr (.inl ⟨⟨b, by simp [hb], h1⟩, by rw [h2]; unfold limit; rw [takeWhile_any ⟨b, hb, h1⟩], fun h => h3 (ho h)⟩)
      · exact .inr (.inr ⟨⟨b, by simp [hb], h1⟩, h2, over_mono H h3 a⟩)

/-- **C281 asked for an element.** A generator made by `pop_less_than(less)` of a `TimeBasedSetHeap` is asked for an element, whatever happened before and since it was made.  If it was over once, it stops, and the heap is left alone.  Otherwise it
takes a least entry off the heap and yields it, if there is one below the limit, and stops if there is none; the limit is what was given, or the time when the generator was first asked. -/
theorem C281_next (p q : List (Act ι)) (g : Nat) (less : Option Int) (hq : ∀ l, .make g l ∉ q) :
    let as := p ++ .make g less :: q
    let L := limit p q g less
    (Over H p q g less → ret H as (.next g) = .stop ∧ (after H (as ++ [.next g])).heap.data = (after H as).heap.data) ∧
    (¬ Over H p q g less →
      (∃ ts x, ret H as (.next g) = .entry ts x ∧ ts < L ∧ Least (ts, x) (after H as).heap.data ∧ (after H as).heap.data.Perm ((ts, x) :: (after H (as ++ [.next g])).heap.data)) ∨
      (ret H as (.next g) = .stop ∧ (after H (as ++ [.next g])).heap.data = (after H as).heap.data ∧ ∀ e ∈ (after H as).heap.data, ¬ e.1 < L)) := by
  intro as L
  rw [after_snoc]
  unfold ret
  have hh := after_weak H as
  have hcl : (after H as).clock = time p + time (Act.make g less :: q) := by rw [after_clock, time_append]
  have ht : ∀ t, t = L → step H (after H as) (.next g) = turn H (after H as) g t →
      (∃ ts x, (step H (after H as) (.next g)).2 = .entry ts x ∧ ts < L ∧ Least (ts, x) (after H as).heap.data ∧ (after H as).heap.data.Perm ((ts, x) :: (step H (after H as) (.next g)).1.heap.data)) ∨
      ((step H (after H as) (.next g)).2 = .stop ∧ (step H (after H as) (.next g)).1.heap.data = (after H as).heap.data ∧ ∀ e ∈ (after H as).heap.data, ¬ e.1 < L) := by
    intro t e hs
    rw [hs, ← e]
    exact (turn_spec H (after H as) hh g t).2.1
  rcases gen_after H p q g less hq with ⟨h1, h2, h3⟩ | ⟨h1, h2, h3⟩ | ⟨h1, h2, h3⟩
  · refine ⟨fun h => absurd h h3, fun _ => ?_⟩
    cases less with
    | none => exact ht (after H as).clock (by rw [hcl]; simp [L, limit, takeWhile_all h1, time]) (by simp only [step, as, h2])
    | some l => exact ht l (by simp [L, limit]) (by simp only [step, as, h2])
  · exact ⟨fun h => absurd h h3, fun _ => ht L rfl (by simp only [step, as, h2, L])⟩
  · refine ⟨fun _ => ?_, fun h => absurd h3 h⟩
    simp only [step, as, h2, and_self]

/-- **C281 other calls.** Calling `pop_less_than` leaves the heap alone, whatever the limit; so does time.  A call of `put` with an item only is the call of `put` with the present time and the item.  After any history no item is in the
heap twice. -/
theorem C281_calls (as : List (Act ι)) :
    (∀ g less, (after H (as ++ [.make g less])).heap = (after H as).heap) ∧ (∀ d, (after H (as ++ [.tick d])).heap = (after H as).heap) ∧
    (∀ x, ret H as (.putNow x) = ret H as (.call (.put (time as) x)) ∧ (after H (as ++ [.putNow x])).heap = (after H (as ++ [.call (.put (time as) x)])).heap) ∧
    ((after H as).heap.data.map Prod.snd).Nodup := by
  refine ⟨fun g less => ?_, fun d => ?_, fun x => ?_, (after_weak H as).2.1⟩
  · rw [after_snoc]; rfl
  · rw [after_snoc]; rfl
  · rw [after_snoc, after_snoc, ← after_clock H as]; exact ⟨rfl, rfl⟩

end

/-- two items, a generator without a limit made before they are due, asked when one is; the other is put again meanwhile, with an earlier time, and is yielded next -/
example : let H := cpython (Int × Nat)
    let as : List (Act Nat) := [.call (.put 3 0), .make 1 none, .call (.put 9 7), .tick 5]
    ret H as (.next 1) = .entry 3 0 ∧ ret H (as ++ [.next 1, .tick 9]) (.next 1) = .stop ∧ ret H (as ++ [.next 1, .call (.put 4 7)]) (.next 1) = .entry 4 7 ∧
    ret H (as ++ [.next 1, .next 1, .call (.put 4 2)]) (.next 1) = .stop ∧ ret H (as ++ [.call (.remove 0)]) (.next 1) = .stop := by decide +kernel

/-- the hypothesis of `C281_next` holds -/
example : ∀ l, Act.make 1 l ∉ ([.call (.put 9 7), .tick 5, .next 1, .call (.remove 7), .make 2 none] : List (Act Nat)) := by simp

end Verif.Heap.SetGenerators
