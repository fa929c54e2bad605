import Verif.Heap.Lemmas
/-!
# `Heap.iter_ascending` consumed step by step among other calls, C282

`iter_ascending` is a generator: the list is copied when it is first asked for an element, and between two elements anything may happen to the heap.
-/
set_option linter.unusedSectionVars false

namespace Verif.Heap.Ascending
open Verif Verif.Heap

/-- the generator of a call of `iter_ascending`: not asked yet, suspended at the `yield` with its copy, over, /repo/satella/coding/structures/heaps/base.py:102-109 -/
inductive Gen (α : Type) where
  | fresh
  | running (heap : List α)
  | over

/-- what happens: a call is made, `iter_ascending` is called, its generator is asked for an element.  (Part of the model of `Heap`, /repo/satella/coding/structures/heaps/base.py:10-133.) -/
inductive Act (α : Type) where
  | call (o : Op α)
  | make (g : Nat)
  | next (g : Nat)

/-- what is returned; `item none` is StopIteration.  (Part of the model of `Heap`, /repo/satella/coding/structures/heaps/base.py:10-133.) -/
inductive Ret (α : Type) where
  | of (r : Res α)
  | item (o : Option α)
  | unit
  deriving DecidableEq

/-- the heap and the generators.  (Part of the model of `Heap`, /repo/satella/coding/structures/heaps/base.py:10-133.) -/
structure St (α : Type) where
  data : List α
  gens : Nat → Gen α

section
variable {α : Type} [PyOrd α] [DecidableEq α] (H : Heapq α)

/-- a generator is set.  (Part of the model of `iter_ascending`, /repo/satella/coding/structures/heaps/base.py:102-109.) -/
def St.gen (s : St α) (g : Nat) (x : Gen α) : St α := { s with gens := fun h => if h = g then x else s.gens h }

/-- one turn of the loop, /repo/satella/coding/structures/heaps/base.py:108-109 -/
def turn (s : St α) (g : Nat) (heap : List α) : St α × Ret α :=
  match H.heappop heap with
  | none => (s.gen g .over, .item none)
  | some (x, rest) => (s.gen g (.running rest), .item (some x))

/-- what happens does: the list is copied when the generator is first asked, /repo/satella/coding/structures/heaps/base.py:107 -/
def step (s : St α) : Act α → St α × Ret α
  | .call o => let r := Heap.step H s.data o; ({ s with data := r.1 }, .of r.2)
  | .make g => (s.gen g .fresh, .unit)
  | .next g =>
    match s.gens g with
    | .fresh => turn H s g s.data
    | .running heap => turn H s g heap
    | .over => (s, .item none)

/-- the state after a history that began with a heap of these elements.  (Part of the model of `Heap`, /repo/satella/coding/structures/heaps/base.py:10-133.) -/
def after (l : List α) (as : List (Act α)) : St α := as.foldl (fun s a => (step H s a).1) ⟨Heap.init H l, fun _ => .over⟩

/-- what an act returns after a history.  (Part of the model of `Heap`, /repo/satella/coding/structures/heaps/base.py:10-133.) -/
def ret (l : List α) (as : List (Act α)) (a : Act α) : Ret α := (step H (after H l as) a).2

/-! ## Specification -/

/-- the generator asked for an element -/
def isNext (g : Nat) : Act α → Bool
  | .next g' => g' == g
  | _ => false

/-- what the generator gave while `q` happened after `as`, each time it was asked: an element, or none if it stopped -/
def answers (l : List α) (g : Nat) : List (Act α) → List (Act α) → List (Option α)
  | _, [] => []
  | as, a :: q => (match isNext g a, ret H l as a with | true, .item o => [o] | _, _ => []) ++ answers l g (as ++ [a]) q

/-! ## Proofs -/

theorem after_snoc (l : List α) (as : List (Act α)) (a : Act α) : after H l (as ++ [a]) = (step H (after H l as) a).1 := by simp [after]

theorem snoc_ind {β : Type _} {P : List β → Prop} (l : List β) (h0 : P []) (h1 : ∀ l a, P l → P (l ++ [a])) : P l := by
  suffices h : ∀ l : List β, P l.reverse by simpa using h l.reverse
  intro l
  induction l with
  | nil => exact h0
  | cons a l ih => simpa using h1 _ a ih

theorem answers_snoc (l : List α) (g : Nat) (as q : List (Act α)) (a : Act α) :
    answers H l g as (q ++ [a]) = answers H l g as q ++ (match isNext g a, ret H l (as ++ q) a with | true, .item o => [o] | _, _ => []) := by
  induction q generalizing as with
  | nil => simp [answers]
  | cons b q ih => simp only [List.cons_append, answers, ih, List.append_assoc]; simp

theorem turn_data (s : St α) (g : Nat) (heap : List α) : (turn H s g heap).1.data = s.data := by unfold turn; split <;> rfl

theorem turn_other (s : St α) (g h : Nat) (heap : List α) (hn : h ≠ g) : (turn H s g heap).1.gens h = s.gens h := by unfold turn; split <;> simp [St.gen, hn]

theorem next_data (s : St α) (g : Nat) : (step H s (.next g)).1.data = s.data := by
  simp only [step]
  split
  · exact turn_data H ..
  · exact turn_data H ..
  · rfl

theorem after_heap (l : List α) (as : List (Act α)) : IsHeap (after H l as).data := by
  induction as using snoc_ind with
  | h0 => exact H.heapify_heap _
  | h1 as a ih =>
    rw [after_snoc]
    cases a with
    | call o => obtain ⟨b, _, h⟩ := heap_step_sim H (after H l as).data (after H l as).data o ⟨ih, .refl _⟩; exact h.1
    | make g => exact ih
    | next g => rw [next_data]; exact ih

/-- a generator that gave `done` and has `rest` to give, of `base` -/
structure Going (base done rest : List α) : Prop where
  heap : IsHeap rest
  sorted : Sorted done
  perm : (done ++ rest).Perm base
  less : ∀ a ∈ done, ∀ b ∈ rest, PyOrd.le a b

theorem going_turn {base done rest : List α} (G : Going base done rest) (s : St α) (g : Nat) :
    ((turn H s g rest).2 = .item none ∧ rest = [] ∧ (turn H s g rest).1.gens g = .over) ∨
    ∃ x r, (turn H s g rest).2 = .item (some x) ∧ (turn H s g rest).1.gens g = .running r ∧ Going base (done ++ [x]) r := by
  unfold turn
  cases hp : H.heappop rest with
  | none => exact .inl ⟨rfl, heappop_none H hp, by simp [St.gen]⟩
  | some xr =>
    obtain ⟨x, r⟩ := xr
    obtain ⟨h1, h2, h3⟩ := pop_least H G.heap hp
    refine .inr ⟨x, r, rfl, by simp [St.gen], h3, ?_, ?_, ?_⟩
    · unfold Sorted
      rw [List.pairwise_append]
      exact ⟨G.sorted, List.pairwise_singleton _ _, fun a ha b hb => by rw [List.mem_singleton.1 hb]; exact G.less a ha x h1.1⟩
    · rw [List.append_assoc]
      exact (List.Perm.append_left done h2.symm).trans G.perm
    · intro a ha b hb
      have hb' := h2.mem_iff.2 (List.mem_cons_of_mem x hb)
      rcases List.mem_append.1 ha with ha | ha
      · exact G.less a ha b hb'
      · rw [List.mem_singleton.1 ha]; exact h1.2 b hb'

theorem takeWhile_any {β : Type _} {P : β → Bool} {q : List β} (h : ∃ a ∈ q, P a = false) (r : List β) : (q ++ r).takeWhile P = q.takeWhile P := by
  induction q with
  | nil => obtain ⟨_, h, _⟩ := h; cases h
  | cons b q ih =>
    obtain ⟨a, ha, h⟩ := h
    simp only [List.cons_append, List.takeWhile_cons]
    by_cases hb : P b = true
    · rw [if_pos hb, if_pos hb, ih ⟨a, (List.mem_cons.1 ha).resolve_left (fun e => by rw [e, hb] at h; cases h), h⟩]
    · rw [if_neg hb, if_neg hb]

/-- what was held when the generator was first asked -/
def base (l : List α) (p q : List (Act α)) (g : Nat) : List α := (after H l (p ++ .make g :: q.takeWhile (fun a => !isNext g a))).data

theorem gen_after (l : List α) (p q : List (Act α)) (g : Nat) (hq : .make g ∉ q) :
    ((∀ a ∈ q, isNext g a = false) ∧ (after H l (p ++ .make g :: q)).gens g = .fresh ∧ answers H l g (p ++ [.make g]) q = []) ∨
    ((∃ a ∈ q, isNext g a = true) ∧ ∃ done rest, (after H l (p ++ .make g :: q)).gens g = .running rest ∧ answers H l g (p ++ [.make g]) q = done.map some ∧ Going (base H l p q g) done rest) ∨
    ((∃ a ∈ q, isNext g a = true) ∧ ∃ done k, (after H l (p ++ .make g :: q)).gens g = .over ∧ answers H l g (p ++ [.make g]) q = done.map some ++ List.replicate k none ∧ Going (base H l p q g) done []) := by
  induction q using snoc_ind with
  | h0 => exact .inl ⟨nofun, by rw [after_snoc]; simp [step, St.gen], rfl⟩
  | h1 q a ih =>
    have ih := ih (fun h => hq (by simp [h]))
    have e : p ++ .make g :: (q ++ [a]) = (p ++ .make g :: q) ++ [a] := by simp
    have e' : (p ++ [.make g]) ++ q = p ++ .make g :: q := by simp
    rw [e, after_snoc, answers_snoc, e']
    have keep : (∃ a ∈ q, isNext g a = true) → base H l p (q ++ [a]) g = base H l p q g := by
      rintro ⟨b, hb, h⟩
      unfold base
      rw [takeWhile_any ⟨b, hb, by simp [h]⟩]
    by_cases hn : a = .next g
    · subst hn
      have hf : isNext g (Act.next g : Act α) = true := by simp [isNext]
      have hany : ∃ a ∈ q ++ [.next g], isNext g (a : Act α) = true := ⟨.next g, by simp, hf⟩
      right
      have hk : (∃ done rest, Going (base H l p (q ++ [.next g]) g) done rest ∧ answers H l g (p ++ [.make g]) q = done.map some ∧
          step H (after H l (p ++ .make g :: q)) (.next g) = turn H (after H l (p ++ .make g :: q)) g rest) ∨
          ((after H l (p ++ .make g :: q)).gens g = .over ∧ ∃ done k, answers H l g (p ++ [.make g]) q = done.map some ++ List.replicate k none ∧ Going (base H l p (q ++ [.next g]) g) done []) := by
        rcases ih with ⟨h1, h2, h3⟩ | ⟨h1, done, rest, h2, h3, h4⟩ | ⟨h1, done, k, h2, h3, h4⟩
        · refine .inl ⟨[], (after H l (p ++ .make g :: q)).data, ⟨after_heap H l _, List.Pairwise.nil, ?_, nofun⟩, h3, by simp only [step, h2]⟩
          have hl : (q ++ [Act.next g]).takeWhile (fun a => !isNext g a) = q := by
            rw [List.takeWhile_append_of_pos (fun a ha => by simp [h1 a ha])]
            simp [hf]
          unfold base
          rw [hl]
          exact .refl _
        · exact .inl ⟨done, rest, keep h1 ▸ h4, h3, by simp only [step, h2]⟩
        · exact .inr ⟨h2, done, k, h3, keep h1 ▸ h4⟩
      rcases hk with ⟨done, rest, G, ha, hs⟩ | ⟨h2, done, k, h3, h4⟩
      · rw [hf, ha]
        unfold ret
        rw [hs]
        rcases going_turn H G (after H l (p ++ .make g :: q)) g with ⟨h1, h2, h3⟩ | ⟨x, r, h1, h2, h3⟩
        · exact .inr ⟨hany, done, 1, h3, by rw [h1]; rfl, h2 ▸ G⟩
        · exact .inl ⟨hany, done ++ [x], r, h2, by rw [h1]; simp, h3⟩
      · refine .inr ⟨hany, done, k + 1, by simp only [step, h2], ?_, h4⟩
        rw [h3, hf]
        simp only [ret, step, h2, List.append_assoc, List.replicate_succ']
    · have ht : isNext g a = false := by
        cases a with
        | next g' => simp only [isNext, beq_eq_false_iff_ne]; intro e; exact hn (by rw [e])
        | _ => rfl
      have hg : (step H (after H l (p ++ .make g :: q)) a).1.gens g = (after H l (p ++ .make g :: q)).gens g := by
        cases a with
        | make g' =>
          have : g ≠ g' := fun e => hq (by simp [e])
          simp [step, St.gen, this]
        | next g' =>
          have : g ≠ g' := fun e => hn (by rw [e])
          simp only [step]
          split
          · exact turn_other H _ _ _ _ this
          · exact turn_other H _ _ _ _ this
          · rfl
        | call o => rfl
      rw [hg, ht]
      simp only [List.append_nil]
      rcases ih with ⟨h1, h2, h3⟩ | ⟨⟨b, hb, h1⟩, h2⟩ | ⟨⟨b, hb, h1⟩, h2⟩
      · refine .inl ⟨fun b hb => ?_, h2, h3⟩
        rcases List.mem_append.1 hb with hb | hb
        · exact h1 b hb
        · rw [List.mem_singleton.1 hb]; exact ht
      · rw [keep ⟨b, hb, h1⟩]; exact .inr (.inl ⟨⟨b, by simp [hb], h1⟩, h2⟩)
      · rw [keep ⟨b, hb, h1⟩]; exact .inr (.inr ⟨⟨b, by simp [hb], h1⟩, h2⟩)

/-- the iterator answers whenever it is asked -/
theorem answers_length (l : List α) (as q : List (Act α)) (g : Nat) : (answers H l g as q).length = (q.filter (isNext g)).length := by
  induction q generalizing as with
  | nil => rfl
  | cons a q ih =>
    simp only [answers, List.length_append, ih, List.filter_cons]
    cases hn : isNext g a with
    | false => simp
    | true =>
      cases a with
      | next g' =>
        have : ∃ o, ret H l as (.next g') = .item o := by
          simp only [ret, step]
          split
          · unfold turn; split <;> exact ⟨_, rfl⟩
          · unfold turn; split <;> exact ⟨_, rfl⟩
          · exact ⟨_, rfl⟩
        obtain ⟨o, h⟩ := this
        rw [h]
        simp [Nat.add_comm]
      | _ => simp [isNext] at hn

theorem range_take {β : Type _} (done t : List β) : done.map some = (List.range done.length).map (fun i => (done ++ t)[i]?) := by
  apply List.ext_getElem?
  intro i
  by_cases h : i < done.length
  · simp [h, List.getElem?_append_left h]
  · simp [h]

theorem range_over {β : Type _} (done : List β) (k : Nat) : done.map some ++ List.replicate k none = (List.range (done.length + k)).map (fun i => done[i]?) := by
  apply List.ext_getElem?
  intro i
  by_cases h : i < done.length
  · have : i < done.length + k := by omega
    rw [List.getElem?_append_left (by simpa using h)]
    simp [h, this]
  · rw [List.getElem?_append_right (by simpa using h)]
    by_cases h' : i < done.length + k
    · have : i - done.length < k := by omega
      simp [h, h', this]
    · have : ¬ i - done.length < k := by omega
      simp [h', this]

/-- **C282 an ascending iterator.** An iterator made by `iter_ascending` after any history of the heap, with anything happening since: let `S` be the elements that the heap held when the iterator was first asked, in ascending order, each
as often as it was there.  Then the iterator gives, when it is asked for the i-th time, the i-th of them, and stops if there are no more.  What is done to the heap afterwards makes no difference. -/
theorem C282_ascending (l : List α) (p q : List (Act α)) (g : Nat) (hq : .make g ∉ q) :
    ∃ S, Sorted S ∧ S.Perm (after H l (p ++ .make g :: q.takeWhile (fun a => !isNext g a))).data ∧
      answers H l g (p ++ [.make g]) q = (List.range (q.filter (isNext g)).length).map (fun i => S[i]?) := by
  have hlen := answers_length H l (p ++ [.make g]) q g
  have all : ∀ done rest, Going (base H l p q g) done rest → answers H l g (p ++ [.make g]) q = done.map some →
      ∃ S, Sorted S ∧ S.Perm (base H l p q g) ∧ answers H l g (p ++ [.make g]) q = (List.range (q.filter (isNext g)).length).map (fun i => S[i]?) := by
    intro done rest G ha
    obtain ⟨h1, h2⟩ := iterAscending_spec H G.heap
    refine ⟨done ++ iterAscending H rest, ?_, (List.Perm.append_left done h2).trans G.perm, ?_⟩
    · unfold Sorted
      rw [List.pairwise_append]
      exact ⟨G.sorted, h1, fun a ha b hb => G.less a ha b (h2.mem_iff.1 hb)⟩
    · rw [← hlen, ha, List.length_map]
      exact range_take done _
  rcases gen_after H l p q g hq with ⟨h1, h2, h3⟩ | ⟨_, done, rest, _, h3, h4⟩ | ⟨_, done, k, _, h3, h4⟩
  · refine all [] (base H l p q g) ⟨after_heap H l _, List.Pairwise.nil, .refl _, nofun⟩ h3
  · exact all done rest h4 h3
  · refine ⟨done, h4.sorted, by have := h4.perm; rw [List.append_nil] at this; exact this, ?_⟩
    rw [← hlen, h3, List.length_append, List.length_map, List.length_replicate]
    exact range_over done k

/-- **C282 the heap is left alone.** Calling `iter_ascending` and asking its iterator leave the heap as it is; and every call does to the bag of elements what it does without iterators around. -/
theorem C282_calls (l : List α) (as : List (Act α)) :
    (∀ g, (after H l (as ++ [.make g])).data = (after H l as).data) ∧ (∀ g, (after H l (as ++ [.next g])).data = (after H l as).data) ∧
    (∀ o, ∃ r b, ret H l as (.call o) = .of r ∧ BagSpec (after H l as).data o r b ∧ (after H l (as ++ [.call o])).data.Perm b) := by
  refine ⟨fun g => ?_, fun g => ?_, fun o => ?_⟩
  · rw [after_snoc]; rfl
  · rw [after_snoc, next_data]
  · rw [after_snoc]
    obtain ⟨b, h1, h2⟩ := heap_step_sim H (after H l as).data (after H l as).data o ⟨after_heap H l as, .refl _⟩
    exact ⟨_, b, rfl, h1, h2.2⟩

end

/-- an iterator made of a heap of two, first asked when a third is there, then again after one is popped and another pushed -/
example : let H := cpython Nat
    let q : List (Act Nat) := [.call (.push 7), .next 1, .call .pop, .call (.push 0), .next 1, .make 2, .next 2, .next 1, .next 1, .next 1]
    answers H [9, 3] 1 [.make 1] q = [some 3, some 7, some 9, none, none] ∧ answers H [9, 3] 2 [.make 1] q = [some 0] ∧ .make 1 ∉ q := by
  refine ⟨by decide +kernel, by decide +kernel, by simp⟩

end Verif.Heap.Ascending
