import Verif.MergeSeries.Model
import Verif.MergeSeries.Spec
import Verif.Heap.Lemmas
import Verif.Heap.HeapqCorrect
/-!
# C28: merge_series
-/
namespace Verif.MergeSeries
open Verif Heap

section
variable {V : Type} (H : Heapq Int)

/-- the preloaded entries and the iterator are a suffix of the series -/
def Ser.Of (s : Ser V) (l : List (Int × V)) : Prop :=
  ∃ pre, l = pre ++ s.cur :: (s.sup.toList ++ s.rest) ∧ (s.sup = none → s.rest = [])

inductive Match : List (Ser V) → List (List (Int × V)) → Prop
  | nil : Match [] []
  | cons {s l ss ls} : s.Of l → Match ss ls → Match (s :: ss) (l :: ls)

theorem latest_cur {l : List (Int × V)} {s : Ser V} {t : Int} (ho : Ordered l) (h : s.Of l) (h1 : s.cur.1 ≤ t) (h2 : ∀ y, s.sup = some y → t < y.1) :
    latest t l = some s.cur.2 := by
  obtain ⟨pre, rfl, hn⟩ := h
  have htail : ∀ x ∈ s.sup.toList ++ s.rest, t < x.1 := by
    intro x hx
    cases hs : s.sup with
    | none => simp [hs, hn hs] at hx
    | some y =>
      have hy := h2 y hs
      rw [hs] at hx
      simp only [Option.toList_some, List.singleton_append, List.mem_cons] at hx
      rcases hx with rfl | hx
      · exact hy
      · simp only [Ordered, hs, Option.toList_some, List.singleton_append, List.pairwise_append, List.pairwise_cons] at ho
        exact Int.lt_of_lt_of_le hy (ho.2.1.2.1 x hx)
  have hf : (s.sup.toList ++ s.rest).filter (fun x => decide (x.1 ≤ t)) = [] := by
    rw [List.filter_eq_nil_iff]
    intro x hx
    have := htail x hx
    simp only [decide_eq_true_eq]; omega
  unfold latest
  rw [List.filter_append, List.filter_cons_of_pos (by simpa using h1), hf]
  simp

theorem settleLoop_of (ts : Int) (rest : List (Int × V)) : ∀ (cur : Int × V) (sup : Option (Int × V)) (h : SetHeap Int) (l : List (Int × V)),
    (⟨cur, sup, rest⟩ : Ser V).Of l → (settleLoop H ts cur sup rest h).1.Of l ∧
      ((settleLoop H ts cur sup rest h).2.2 = .on → (settleLoop H ts cur sup rest h).1.cur.1 ≤ ts ∧ ∀ y, (settleLoop H ts cur sup rest h).1.sup = some y → ts < y.1) := by
  have hc : ∀ (x : Int), (if x ≤ ts then Turn.on else Turn.valueError) = .on → x ≤ ts := by
    intro x; split
    · intro _; assumption
    · intro h; cases h
  induction rest with
  | nil =>
    intro cur sup h l hl
    cases sup with
    | none => unfold settleLoop; exact ⟨hl, fun h => ⟨hc _ h, by simp⟩⟩
    | some y =>
      unfold settleLoop
      split
      · rename_i hc
        exact ⟨hl, fun _ => ⟨hc.1, fun y' hy => by cases hy; exact hc.2⟩⟩
      · obtain ⟨pre, rfl, _⟩ := hl
        exact ⟨⟨pre ++ [cur], by simp, by simp⟩, fun h => ⟨hc _ h, by simp⟩⟩
  | cons x r ih =>
    intro cur sup h l hl
    cases sup with
    | none => unfold settleLoop; exact ⟨hl, fun h => ⟨hc _ h, by simp⟩⟩
    | some y =>
      unfold settleLoop
      split
      · rename_i hc
        exact ⟨hl, fun _ => ⟨hc.1, fun y' hy => by cases hy; exact hc.2⟩⟩
      · obtain ⟨pre, rfl, _⟩ := hl
        exact ih _ _ _ _ ⟨pre ++ [cur], by simp, by simp⟩

theorem settle_of (ts : Int) (s : Ser V) (h : SetHeap Int) (l : List (Int × V)) (hl : s.Of l) : (settle H ts s h).1.Of l ∧
      ((settle H ts s h).2.2 = .on → (settle H ts s h).1.cur.1 ≤ ts ∧ ∀ y, (settle H ts s h).1.sup = some y → ts < y.1) := by
  obtain ⟨cur, sup, rest⟩ := s
  cases sup with
  | none =>
    refine ⟨hl, fun h => ⟨?_, by simp [settle]⟩⟩
    simp only [settle] at h ⊢
    split at h
    · cases h
    · omega
  | some y => exact settleLoop_of H ts rest cur (some y) h l hl

theorem assertPreloaded_match (ts : Int) (ss : List (Ser V)) : ∀ (ls : List (List (Int × V))) (h : SetHeap Int), Match ss ls → (∀ l ∈ ls, Ordered l) →
    Match (assertPreloaded H ts ss h).1 ls ∧
    ((assertPreloaded H ts ss h).2.2 = .on → ((assertPreloaded H ts ss h).1.map (·.cur.2)).map some = ls.map (latest ts)) := by
  induction ss with
  | nil => intro ls h hm ho; cases hm; exact ⟨.nil, fun _ => rfl⟩
  | cons s ss ih =>
    intro ls h hm ho
    cases hm with
    | @cons _ l _ ls hs hm =>
      have h1 := settle_of H ts s h l hs
      generalize hr : settle H ts s h = r at h1
      obtain ⟨s', h', b⟩ := r
      simp only [assertPreloaded, hr]
      cases b with
      | no => exact ⟨.cons h1.1 hm, fun h => by cases h⟩
      | valueError => exact ⟨.cons h1.1 hm, fun h => by cases h⟩
      | on =>
        obtain ⟨h2, h3⟩ := ih ls h' hm (fun l hl => ho l (by simp [hl]))
        refine ⟨.cons h1.1 h2, fun hb => ?_⟩
        have := h1.2 rfl
        simp only [List.map_cons, h3 hb]
        rw [latest_cur (ho l (by simp)) h1.1 this.1 this.2]

theorem advance_of {s s' : Ser V} {h h' : SetHeap Int} {l : List (Int × V)} (hs : s.Of l) (ha : advance H s h = some (s', h')) : s'.Of l := by
  obtain ⟨pre, rfl, hn⟩ := hs
  unfold advance at ha
  split at ha
  · cases ha
  · rename_i y hy
    split at ha
    · rename_i hr; cases ha; exact ⟨pre ++ [s.cur], by simp [hy, hr], by simp⟩
    · rename_i x r hr; cases ha; exact ⟨pre ++ [s.cur], by simp [hy, hr], by simp⟩

theorem advanceMin_match (m : Int) (ss : List (Ser V)) : ∀ (ls : List (List (Int × V))) (h : SetHeap Int) r, Match ss ls →
    advanceMin H m ss h = some r → Match r.1 ls := by
  induction ss with
  | nil => intro ls h r hm ha; cases hm; simp only [advanceMin, Option.some.injEq] at ha; subst ha; exact .nil
  | cons s ss ih =>
    intro ls h r hm ha
    cases hm with
    | cons hs hm =>
      simp only [advanceMin] at ha
      split at ha
      · cases hadv : advance H s h with
        | none => simp [hadv] at ha
        | some q =>
          obtain ⟨s', h'⟩ := q
          simp only [hadv, Option.map_eq_some_iff] at ha
          obtain ⟨q, hq, rfl⟩ := ha
          exact .cons (advance_of H hs hadv) (ih _ _ _ hm hq)
      · simp only [Option.map_eq_some_iff] at ha
        obtain ⟨q, hq, rfl⟩ := ha
        exact .cons hs (ih _ _ _ hm hq)

theorem popLoop_match (ls : List (List (Int × V))) (ho : ∀ l ∈ ls, Ordered l) (fuel : Nat) : ∀ (st : St V) r, Match st.ss ls → popLoop H fuel st = some r →
    Match r.2.ss ls ∧ ∀ t vs, r.1 = .ok (t, vs) → vs.map some = ls.map (latest t) := by
  induction fuel with
  | zero => intro st r _ h; cases h
  | succ fuel ih =>
    intro st r hm h
    simp only [popLoop] at h
    split at h
    · rename_i hp ts hpop
      have ha := assertPreloaded_match H ts st.ss ls hp hm ho
      split at h
      · rename_i ss h' heq
        rw [heq] at ha
        cases h
        refine ⟨ha.1, ?_⟩
        intro t vs hv
        cases hv
        exact ha.2 rfl
      · rename_i ss h' heq
        rw [heq] at ha
        exact ih _ _ ha.1 h
      · rename_i ss h' heq
        rw [heq] at ha
        cases h
        exact ⟨ha.1, fun _ _ h => by cases h⟩
    all_goals cases h; exact ⟨hm, fun _ _ h => by cases h⟩

theorem next_match (ls : List (List (Int × V))) (ho : ∀ l ∈ ls, Ordered l) (fuel : Nat) (st : St V) r (hm : Match st.ss ls) (h : next H fuel st = some r) :
    Match r.2.ss ls ∧ ∀ t vs, r.1 = .ok (t, vs) → vs.map some = ls.map (latest t) := by
  unfold next at h
  split at h
  · cases h; exact ⟨hm, fun _ _ h => by cases h⟩
  · rename_i st' hst
    refine popLoop_match H ls ho fuel st' r ?_ h
    unfold haveTimestamps at hst
    split at hst
    · cases hst; exact hm
    · split at hst
      · cases hst
      · split at hst
        · cases hst
        · rename_i ss h' hadv
          split at hst
          · cases hst; exact advanceMin_match H _ _ _ _ _ hm hadv
          · cases hst

theorem preload_match : ∀ (ls : List (List (Int × V))) ss, preload ls = some ss → Match ss ls
  | [], ss, h => by cases h; exact .nil
  | [] :: ls, ss, h => by cases h
  | (x :: l) :: ls, ss, h => by
    simp only [preload, Option.map_eq_some_iff] at h
    obtain ⟨ss', h, rfl⟩ := h
    refine .cons ⟨[], ?_, ?_⟩ (preload_match ls ss' h)
    · cases l <;> simp
    · cases l <;> simp

theorem consume_sound (ls : List (List (Int × V))) (ho : ∀ l ∈ ls, Ordered l) (fuel n : Nat) : ∀ (st : St V) out, Match st.ss ls → consume H fuel n st = some (.ok out) →
    ∀ p ∈ out, p.2.map some = ls.map (latest p.1) := by
  induction n with
  | zero => intro st out _ h; cases h
  | succ n ih =>
    intro st out hm h
    simp only [consume] at h
    split at h
    · cases h
    · cases h; simp
    · cases h
    · rename_i x st' hn
      have h1 := next_match H ls ho fuel st _ hm hn
      cases hc : consume H fuel n st' with
      | none => simp [hc] at h
      | some c =>
        cases c with
        | error e => simp [hc] at h
        | ok l =>
          simp only [hc, Option.some.injEq, Except.ok.injEq] at h
          subst h
          intro p hp
          rcases List.mem_cons.1 hp with rfl | hp
          · exact h1.2 _ _ rfl
          · exact ih st' l h1.1 hc p hp

/-- **C28, values.** Whatever series in time order are merged, every tuple yielded holds the values that all the series have at its timestamp. -/
theorem C28_values (fuel n : Nat) (ls : List (List (Int × V))) (ho : ∀ l ∈ ls, Ordered l) (out : List (Int × List V))
    (h : mergeSeries H fuel n ls = some (.ok out)) : ∀ p ∈ out, p.2.map some = ls.map (latest p.1) := by
  unfold mergeSeries init at h
  cases hp : preload ls with
  | none => simp only [hp] at h; cases h; simp
  | some ss =>
    simp only [hp] at h
    split at h
    · cases h
    · cases h; simp
    · rename_i st hst
      split at hst
      · cases hst
      · cases hst
        exact consume_sound H ls ho fuel n _ out (preload_match ls ss hp) h

/-- entries after the current one -/
def Ser.tail (s : Ser V) : List (Int × V) := s.sup.toList ++ s.rest

/-- the series, from the current entry on, is in strict time order -/
def Ser.Fine (s : Ser V) : Prop := Strict (s.cur :: s.tail) ∧ (s.sup = none → s.rest = [])

/-- where a series gets when asked about `ts`, if its next entry is not before `ts` -/
def stepSer (ts : Int) (s : Ser V) : Ser V :=
  match s.sup with
  | none => s
  | some y => if ts < y.1 then s else { cur := y, sup := s.rest.head?, rest := s.rest.tail }

theorem fine_step {ts : Int} {s : Ser V} (h : s.Fine) : (stepSer ts s).Fine := by
  unfold stepSer
  split
  · exact h
  · rename_i y hy
    split
    · exact h
    · obtain ⟨h1, _⟩ := h
      unfold Ser.Fine
      simp only [Ser.tail, hy, Option.toList_some, List.singleton_append, Strict, List.pairwise_cons] at h1 ⊢
      cases hr : s.rest with
      | nil => simp
      | cons x r =>
        rw [hr] at h1
        simp only [List.head?_cons, Option.toList_some, List.tail_cons, List.singleton_append]
        exact ⟨h1.2, by simp⟩

/-- one turn of assert_preloaded when the current entry is not after `ts` and the next one not before it: at most one step, which adds the timestamp of the entry after -/
theorem settle_step {ts : Int} {s : Ser V} {h : SetHeap Int} {S : Int → Prop} (hf : s.Fine) (h1 : s.cur.1 ≤ ts) (h2 : ∀ y, s.sup = some y → ts ≤ y.1) (hR : h.Rep S) :
    ∃ h' S', settle H ts s h = (stepSer ts s, h', .on) ∧ h'.Rep S' ∧
      ∀ t, S' t ↔ S t ∨ (∃ y, s.sup = some y ∧ y.1 = ts ∧ ∃ x, s.rest.head? = some x ∧ x.1 = t) := by
  obtain ⟨cur, sup, rest⟩ := s
  obtain ⟨hf1, hf2⟩ := hf
  dsimp only at *
  cases sup with
  | none =>
    refine ⟨h, S, ?_, hR, by simp⟩
    unfold settle stepSer
    simp only
    rw [if_neg (by omega)]
  | some y =>
    have hy := h2 y rfl
    by_cases hlt : ts < y.1
    · refine ⟨h, S, ?_, hR, ?_⟩
      · cases rest <;> simp [settle, settleLoop, stepSer, h1, hlt]
      · intro t; constructor
        · exact Or.inl
        · rintro (h | ⟨y', hy', he, _⟩)
          · exact h
          · cases hy'; omega
    · have hye : y.1 = ts := by omega
      cases rest with
      | nil =>
        refine ⟨h, S, ?_, hR, by simp⟩
        have : y.1 ≤ ts := by omega
        simp [settle, settleLoop, stepSer, hlt, this]
      | cons x r =>
        refine ⟨SetHeap.push H h x.1, _, ?_, SetHeap.rep_push H hR x.1, ?_⟩
        · have hx : ts < x.1 := by
            simp only [Ser.tail, Option.toList_some, List.singleton_append, Strict, List.pairwise_cons] at hf1
            have := hf1.2.1 x (by simp)
            omega
          have hyt : y.1 ≤ ts := by omega
          unfold settle settleLoop
          dsimp only
          rw [if_neg (by omega)]
          simp only [stepSer, if_neg hlt, List.head?_cons, List.tail_cons]
          cases r <;> simp [settleLoop, hyt, hx]
        · intro t; constructor
          · rintro (rfl | h)
            · exact Or.inr ⟨y, rfl, hye, x, rfl, rfl⟩
            · exact Or.inl h
          · rintro (h | ⟨_, _, _, x', hx', rfl⟩)
            · exact Or.inr h
            · cases hx'; exact Or.inl rfl

theorem assertPreloaded_step {ts : Int} : ∀ (ss : List (Ser V)) {h : SetHeap Int} {S : Int → Prop}, (∀ s ∈ ss, s.Fine) → (∀ s ∈ ss, s.cur.1 ≤ ts) →
    (∀ s ∈ ss, ∀ y, s.sup = some y → ts ≤ y.1) → h.Rep S →
    ∃ h' S', assertPreloaded H ts ss h = (ss.map (stepSer ts), h', .on) ∧ h'.Rep S' ∧
      ∀ t, S' t ↔ S t ∨ (∃ s ∈ ss, ∃ y, s.sup = some y ∧ y.1 = ts ∧ ∃ x, s.rest.head? = some x ∧ x.1 = t)
  | [], h, S, _, _, _, hR => ⟨h, S, rfl, hR, by simp⟩
  | s :: ss, h, S, hf, h1, h2, hR => by
    obtain ⟨ha, Sa, e1, r1, i1⟩ := settle_step H (hf s (by simp)) (h1 s (by simp)) (h2 s (by simp)) hR
    obtain ⟨hb, Sb, e2, r2, i2⟩ := assertPreloaded_step ss (fun s hs => hf s (by simp [hs])) (fun s hs => h1 s (by simp [hs])) (fun s hs => h2 s (by simp [hs])) r1
    refine ⟨hb, Sb, ?_, r2, ?_⟩
    · simp only [assertPreloaded, e1, e2, List.map_cons]
    · intro t
      rw [i2, i1]
      simp only [List.mem_cons, exists_eq_or_imp]
      rw [or_assoc]

/-- The state between calls: the timestamps waiting are those of the next entries, and `extra` (only at first), which none of them precedes; and no series is ahead of any of them. -/
structure Good (ss : List (Ser V)) (extra : Option Int) (S : Int → Prop) : Prop where
  fine : ∀ s ∈ ss, s.Fine
  mem : ∀ t, S t ↔ extra = some t ∨ ∃ s ∈ ss, ∃ y, s.sup = some y ∧ y.1 = t
  ahead : ∀ t, S t → ∀ s ∈ ss, s.cur.1 ≤ t
  first : ∀ e, extra = some e → ∀ s ∈ ss, ∀ y, s.sup = some y → e ≤ y.1

def pending (ss : List (Ser V)) : Nat := (ss.map (fun s => s.tail.length)).sum

theorem tail_step_len (ts : Int) {s : Ser V} : (stepSer ts s).tail.length ≤ s.tail.length ∧
    ((∃ y, s.sup = some y ∧ y.1 ≤ ts) → (stepSer ts s).tail.length < s.tail.length) := by
  unfold stepSer
  split
  · rename_i hn
    exact ⟨Nat.le_refl _, fun ⟨y, hy, _⟩ => by simp [hn] at hy⟩
  · rename_i y hy
    split
    · refine ⟨Nat.le_refl _, fun ⟨y', hy', hl⟩ => ?_⟩
      rw [hy] at hy'; cases hy'; omega
    · have : s.tail.length = s.rest.length + 1 := by simp [Ser.tail, hy]
      have h2 : ((s.rest.head?).toList ++ s.rest.tail).length = s.rest.length := by cases s.rest <;> simp
      simp only [Ser.tail] at *
      rw [this, h2]
      exact ⟨by omega, fun _ => by omega⟩

theorem pending_step (ts : Int) : ∀ (ss : List (Ser V)), pending (ss.map (stepSer ts)) ≤ pending ss ∧
    ((∃ s ∈ ss, ∃ y, s.sup = some y ∧ y.1 ≤ ts) → pending (ss.map (stepSer ts)) < pending ss)
  | [] => ⟨Nat.le_refl _, fun ⟨s, hs, _⟩ => by simp at hs⟩
  | s :: ss => by
    obtain ⟨h1, h2⟩ := pending_step ts ss
    obtain ⟨h3, h4⟩ := tail_step_len ts (s := s)
    simp only [pending, List.map_cons, List.sum_cons] at *
    refine ⟨by omega, ?_⟩
    rintro ⟨s', hs, h⟩
    rcases List.mem_cons.1 hs with rfl | hs
    · have := h4 h; omega
    · have := h2 ⟨s', hs, h⟩; omega

theorem tail_step {ts : Int} {s : Ser V} (hf : s.Fine) (h2 : ∀ y, s.sup = some y → ts ≤ y.1) :
    (∀ x ∈ (stepSer ts s).tail, ts < x.1 ∧ x ∈ s.tail) ∧ ∀ x ∈ s.tail, x.1 = ts ∨ x ∈ (stepSer ts s).tail := by
  obtain ⟨cur, sup, rest⟩ := s
  obtain ⟨hf1, hf2⟩ := hf
  cases sup with
  | none =>
    have hr : rest = [] := hf2 rfl
    subst hr
    simp [stepSer, Ser.tail]
  | some y =>
    have hy := h2 y rfl
    simp only [Ser.tail, Option.toList_some, List.singleton_append, Strict, List.pairwise_cons] at hf1
    by_cases hlt : ts < y.1
    · simp only [stepSer, if_pos hlt, Ser.tail, Option.toList_some, List.singleton_append]
      refine ⟨fun x hx => ⟨?_, hx⟩, fun x hx => Or.inr hx⟩
      rcases List.mem_cons.1 hx with rfl | hx
      · exact hlt
      · have := hf1.2.1 x hx; omega
    · have e : rest.head?.toList ++ rest.tail = rest := by cases rest <;> simp
      simp only [stepSer, if_neg hlt, Ser.tail, Option.toList_some, List.singleton_append, e]
      refine ⟨fun x hx => ⟨?_, by simp [hx]⟩, fun x hx => ?_⟩
      · have := hf1.2.1 x hx; omega
      · rcases List.mem_cons.1 hx with rfl | hx
        · left; omega
        · exact Or.inr hx

theorem good_step {ts : Int} {ss : List (Ser V)} {extra : Option Int} {S S' : Int → Prop} (g : Good ss extra S) (hS : S ts) (hmin : ∀ t, S t → ts ≤ t)
    (hS' : ∀ t, S' t ↔ (S t ∧ t ≠ ts) ∨ (∃ s ∈ ss, ∃ y, s.sup = some y ∧ y.1 = ts ∧ ∃ x, s.rest.head? = some x ∧ x.1 = t)) :
    Good (ss.map (stepSer ts)) none S' := by
  have hextra : ∀ e, extra = some e → e = ts := by
    intro e he
    rcases (g.mem ts).1 hS with h | ⟨s, hs, y, hy, rfl⟩
    · rw [he] at h; cases h; rfl
    · have := g.first e he s hs y hy
      have := hmin e ((g.mem e).2 (Or.inl he))
      omega
  have hsup : ∀ s ∈ ss, ∀ y, s.sup = some y → ts ≤ y.1 := fun s hs y hy => hmin _ ((g.mem _).2 (Or.inr ⟨s, hs, y, hy, rfl⟩))
  have hmem : ∀ t, S' t ↔ ∃ s ∈ ss.map (stepSer ts), ∃ y, s.sup = some y ∧ y.1 = t := by
    intro t
    rw [hS']
    constructor
    · rintro (⟨h, hne⟩ | ⟨s, hs, y, hy, he, x, hx, rfl⟩)
      · rcases (g.mem t).1 h with h | ⟨s, hs, y, hy, rfl⟩
        · exact absurd (hextra t h) hne
        · refine ⟨_, List.mem_map_of_mem hs, y, ?_, rfl⟩
          have := hsup s hs y hy
          simp only [stepSer, hy]
          rw [if_pos (by omega), hy]
      · refine ⟨_, List.mem_map_of_mem hs, x, ?_, rfl⟩
        simp only [stepSer, hy]
        rw [if_neg (by omega), hx]
    · rintro ⟨s', hs', y', hy', rfl⟩
      obtain ⟨s, hs, rfl⟩ := List.mem_map.1 hs'
      cases hsu : s.sup with
      | none => simp [stepSer, hsu] at hy'
      | some y =>
        simp only [stepSer, hsu] at hy'
        split at hy'
        · rename_i hlt
          rw [hsu] at hy'; cases hy'
          exact Or.inl ⟨(g.mem _).2 (Or.inr ⟨s, hs, _, hsu, rfl⟩), by omega⟩
        · have := hsup s hs y hsu
          exact Or.inr ⟨s, hs, y, hsu, by omega, y', hy', rfl⟩
  refine ⟨?_, by simpa using hmem, ?_, by simp⟩
  · intro s' hs'
    obtain ⟨s, hs, rfl⟩ := List.mem_map.1 hs'
    exact fine_step (g.fine s hs)
  · intro t ht s' hs'
    obtain ⟨s, hs, rfl⟩ := List.mem_map.1 hs'
    have htt : ts < t := by
      obtain ⟨s2, hs2, y, hy, rfl⟩ := (hmem t).1 ht
      obtain ⟨s3, hs3, rfl⟩ := List.mem_map.1 hs2
      exact ((tail_step (g.fine s3 hs3) (hsup s3 hs3)).1 y (by simp [Ser.tail, hy])).1
    have : (stepSer ts s).cur.1 ≤ ts := by
      have hc := g.ahead ts hS s hs
      unfold stepSer
      split
      · exact hc
      · split
        · exact hc
        · rename_i h; dsimp only; omega
    omega

theorem int_le_of_lt {x y : Int} (h : PyOrd.lt y x = false) : x ≤ y := by
  have : ¬ y < x := by simpa [PyOrd.lt] using h
  omega

theorem consume_good (fuel n : Nat) (hfuel : 0 < fuel) : ∀ (st : St V) (extra : Option Int) (S : Int → Prop), Good st.ss extra S → st.heap.Rep S →
    pending st.ss + extra.toList.length < n → ∃ out, consume H fuel n st = some (.ok out) ∧ (out.map (·.1)).Pairwise (· < ·) ∧
      (∀ t, t ∈ out.map (·.1) ↔ extra = some t ∨ ∃ s ∈ st.ss, ∃ x ∈ s.tail, x.1 = t) := by
  induction n with
  | zero => intro _ _ _ _ _ h; omega
  | succ n ih =>
    intro st extra S g hR hn
    obtain ⟨fuel, rfl⟩ : ∃ k, fuel = k + 1 := ⟨fuel - 1, by omega⟩
    by_cases hd : st.heap.data = []
    · have hempty : ∀ t, ¬ S t := fun t ht => by simpa [hd] using (hR.2.2 t).1 ht
      have hnone : ∀ s ∈ st.ss, s.sup = none := by
        intro s hs
        cases hsu : s.sup with
        | none => rfl
        | some y => exact absurd ((g.mem _).2 (Or.inr ⟨s, hs, y, hsu, rfl⟩)) (hempty _)
      refine ⟨[], ?_, by simp, ?_⟩
      · have : st.ss.all (fun s => s.sup.isNone) = true := by
          rw [List.all_eq_true]; intro s hs; simp [hnone s hs]
        simp [consume, next, haveTimestamps, hd, this]
      · intro t
        simp only [List.map_nil, List.not_mem_nil, false_iff, not_or]
        refine ⟨fun h => hempty t ((g.mem t).2 (Or.inl h)), ?_⟩
        rintro ⟨s, hs, x, hx, _⟩
        have h1 := hnone s hs
        simp [Ser.tail, h1, (g.fine s hs).2 h1] at hx
    · have hstep := SetHeap.step_sim H st.heap S .pop trivial hR
      obtain ⟨S1, hsp, hR1⟩ := hstep
      simp only [SetHeap.step] at hsp hR1
      rcases hsp with ⟨hno, _, _⟩ | ⟨ts, hS, hval, hmin, hS1⟩
      · obtain ⟨x, hx⟩ := List.exists_mem_of_ne_nil _ hd
        exact absurd ((hR.2.2 x).2 hx) (hno x)
      · have hmin : ∀ t, S t → ts ≤ t := fun t ht => int_le_of_lt (hmin t ht)
        have hsup : ∀ s ∈ st.ss, ∀ y, s.sup = some y → ts ≤ y.1 := fun s hs y hy => hmin _ ((g.mem _).2 (Or.inr ⟨s, hs, y, hy, rfl⟩))
        obtain ⟨h', S', e, hR', hS'⟩ := assertPreloaded_step H st.ss g.fine (g.ahead ts hS) hsup hR1
        have g' : Good (st.ss.map (stepSer ts)) none S' := good_step g hS hmin (fun t => by rw [hS', hS1])
        have hnext : next H (fuel + 1) st = some (.ok (ts, (st.ss.map (stepSer ts)).map (·.cur.2)), { ss := st.ss.map (stepSer ts), heap := h' }) := by
          have hpop : SetHeap.pop H st.heap = ((SetHeap.pop H st.heap).1, .val ts) := by rw [← hval]
          unfold next haveTimestamps
          simp only [ne_eq, hd, not_false_eq_true, if_true]
          unfold popLoop
          rw [hpop]
          simp only [e]
        have hdec : pending (st.ss.map (stepSer ts)) + (none : Option Int).toList.length < n := by
          obtain ⟨p1, p2⟩ := pending_step ts st.ss
          rcases (g.mem ts).1 hS with h | ⟨s, hs, y, hy, hyt⟩
          · simp [h] at hn; simp; omega
          · have := p2 ⟨s, hs, y, hy, by omega⟩
            simp; omega
        obtain ⟨out, ho, hp, hk⟩ := ih ⟨st.ss.map (stepSer ts), h'⟩ none S' g' hR' hdec
        refine ⟨(ts, (st.ss.map (stepSer ts)).map (·.cur.2)) :: out, ?_, ?_, ?_⟩
        · simp only [consume, hnext, ho]
        · simp only [List.map_cons, List.pairwise_cons]
          refine ⟨?_, hp⟩
          intro t ht
          rcases (hk t).1 ht with h | ⟨s', hs', x, hx, rfl⟩
          · cases h
          · obtain ⟨s, hs, rfl⟩ := List.mem_map.1 hs'
            exact ((tail_step (g.fine s hs) (hsup s hs)).1 x hx).1
        · intro t
          simp only [List.map_cons, List.mem_cons, hk]
          constructor
          · rintro (rfl | h | ⟨s', hs', x, hx, rfl⟩)
            · rcases (g.mem t).1 hS with h | ⟨s, hs, y, hy, hyt⟩
              · exact Or.inl h
              · exact Or.inr ⟨s, hs, y, by simp [Ser.tail, hy], hyt⟩
            · cases h
            · obtain ⟨s, hs, rfl⟩ := List.mem_map.1 hs'
              exact Or.inr ⟨s, hs, x, ((tail_step (g.fine s hs) (hsup s hs)).1 x hx).2, rfl⟩
          · rintro (h | ⟨s, hs, x, hx, rfl⟩)
            · left
              have h1 := hmin t ((g.mem t).2 (Or.inl h))
              rcases (g.mem ts).1 hS with h2 | ⟨s, hs, y, hy, rfl⟩
              · rw [h] at h2; cases h2; rfl
              · have := g.first t h s hs y hy; omega
            · rcases (tail_step (g.fine s hs) (hsup s hs)).2 x hx with h | h
              · exact Or.inl h
              · exact Or.inr (Or.inr ⟨_, List.mem_map_of_mem hs, x, h, rfl⟩)

theorem preload_spec : ∀ (ls : List (List (Int × V))), (∀ l ∈ ls, l ≠ []) → ∃ ss, preload ls = some ss ∧
    (∀ s ∈ ss, s.cur :: s.tail ∈ ls ∧ (s.sup = none → s.rest = [])) ∧ ∀ l ∈ ls, ∃ s ∈ ss, l = s.cur :: s.tail
  | [], _ => ⟨[], rfl, by simp, by simp⟩
  | [] :: ls, h => absurd rfl (h [] (by simp))
  | (x :: l) :: ls, h => by
    obtain ⟨ss, e, h1, h2⟩ := preload_spec ls (fun l hl => h l (by simp [hl]))
    have e2 : l.head?.toList ++ l.tail = l := by cases l <;> simp
    refine ⟨{ cur := x, sup := l.head?, rest := l.tail } :: ss, by simp [preload, e], ?_, ?_⟩
    · intro s hs
      rcases List.mem_cons.1 hs with rfl | hs
      · refine ⟨by simp [Ser.tail, e2], ?_⟩
        cases l <;> simp
      · exact ⟨by simp [(h1 s hs).1], (h1 s hs).2⟩
    · intro l' hl'
      rcases List.mem_cons.1 hl' with rfl | hl'
      · exact ⟨_, List.mem_cons_self, by simp [Ser.tail, e2]⟩
      · obtain ⟨s, hs, e⟩ := h2 l' hl'
        exact ⟨s, by simp [hs], e⟩

theorem foldl_max_spec (l : List Int) : ∀ x, (∀ y ∈ x :: l, y ≤ l.foldl max x) ∧ l.foldl max x ∈ x :: l := by
  induction l with
  | nil => intro x; simp
  | cons z l ih =>
    intro x
    obtain ⟨h1, h2⟩ := ih (max x z)
    simp only [List.foldl_cons]
    have h3 := h1 (max x z) (by simp)
    refine ⟨?_, ?_⟩
    · intro y hy
      simp only [List.mem_cons] at hy
      rcases hy with rfl | rfl | hy
      · omega
      · omega
      · exact h1 y (by simp [hy])
    · rcases List.mem_cons.1 h2 with h | h
      · rw [h]
        rcases Int.le_total x z with h | h
        · simp [Int.max_eq_right h]
        · simp [Int.max_eq_left h]
      · simp [h]

theorem maxTs_eq {l : List Int} {m : Int} (h1 : m ∈ l) (h2 : ∀ x ∈ l, x ≤ m) : maxTs l = some m := by
  cases l with
  | nil => simp at h1
  | cons x l =>
    obtain ⟨h3, h4⟩ := foldl_max_spec l x
    have := h3 m h1
    have := h2 _ h4
    simp only [maxTs, Option.some.injEq]; omega

theorem pushSups_rep : ∀ (ss : List (Ser V)) (h : SetHeap Int) (S : Int → Prop), h.Rep S →
    ∃ S', (pushSups H ss h).Rep S' ∧ ∀ t, S' t ↔ S t ∨ ∃ s ∈ ss, ∃ y, s.sup = some y ∧ y.1 = t
  | [], h, S, hR => ⟨S, hR, by simp⟩
  | s :: ss, h, S, hR => by
    cases hs : s.sup with
    | none =>
      obtain ⟨S', h1, h2⟩ := pushSups_rep ss h S hR
      refine ⟨S', ?_, ?_⟩
      · simpa [pushSups, hs] using h1
      · intro t; rw [h2]; simp [hs]
    | some y =>
      obtain ⟨S', h1, h2⟩ := pushSups_rep ss _ _ (SetHeap.rep_push H hR y.1)
      refine ⟨S', ?_, ?_⟩
      · simpa [pushSups, hs] using h1
      · intro t; rw [h2]; simp only [List.mem_cons, exists_eq_or_imp, hs, Option.some.injEq, exists_eq_left']
        constructor
        · rintro ((rfl | h) | h)
          · exact Or.inr (Or.inl rfl)
          · exact Or.inl h
          · exact Or.inr (Or.inr h)
        · rintro (h | rfl | h)
          · exact Or.inl (Or.inr h)
          · exact Or.inl (Or.inl rfl)
          · exact Or.inr h

theorem pending_le : ∀ (ls : List (List (Int × V))) ss, preload ls = some ss → pending ss ≤ (ls.map List.length).sum
  | [], ss, h => by cases h; simp [pending]
  | [] :: ls, ss, h => by cases h
  | (x :: l) :: ls, ss, h => by
    simp only [preload, Option.map_eq_some_iff] at h
    obtain ⟨ss', h, rfl⟩ := h
    have := pending_le ls ss' h
    have e2 : l.head?.toList ++ l.tail = l := by cases l <;> simp
    simp only [pending, Ser.tail, List.map_cons, List.sum_cons, e2, List.length_cons] at this ⊢
    omega

/-- **C28 (partial).** If every series has strictly increasing timestamps and no series changes a second time before the last of them starts, then merge_series yields, for every time at which a series changes once all have
started, the values of all series at that time, in increasing order, each time once.  Missing: series that change again before all have started (see `C28_raises_violates`, `C28_twice_violates`) or that have two entries with
one timestamp (`C28_equal_violates`). -/
theorem C28_merge_partial (ls : List (List (Int × V))) (m : Int) (hs : ∀ l ∈ ls, Strict l) (hm : Start ls m)
    (htogether : ∀ l ∈ ls, ∀ x y r, l = x :: y :: r → m ≤ y.1) :
    ∀ fuel n, 0 < fuel → (ls.map List.length).sum + 1 < n → ∃ out, mergeSeries H fuel n ls = some (.ok out) ∧ Merged ls m out := by
  have hne : ∀ l ∈ ls, l ≠ [] := by
    intro l hl h
    obtain ⟨x, hx, _⟩ := hm.2 l hl
    rw [h] at hx; cases hx
  obtain ⟨ss, hp, h1, h2⟩ := preload_spec ls hne
  have hmax : maxTs (ss.map (·.cur.1)) = some m := by
    apply maxTs_eq
    · obtain ⟨l, hl, x, hx, rfl⟩ := hm.1
      obtain ⟨s, hs, rfl⟩ := h2 l hl
      cases hx
      exact List.mem_map_of_mem hs
    · intro t ht
      obtain ⟨s, hs, rfl⟩ := List.mem_map.1 ht
      obtain ⟨x, hx, hle⟩ := hm.2 _ (h1 s hs).1
      cases hx; exact hle
  have hcur : ∀ s ∈ ss, s.cur.1 ≤ m := by
    intro s hs
    obtain ⟨x, hx, hle⟩ := hm.2 _ (h1 s hs).1
    cases hx; exact hle
  have hsup : ∀ s ∈ ss, ∀ y, s.sup = some y → m ≤ y.1 := fun s hs y hy => htogether _ (h1 s hs).1 s.cur y s.rest (by simp [Ser.tail, hy])
  have hR0 : (SetHeap.init H ([] : List Int)).Rep (fun _ => False) := by
    refine ⟨SetHeap.weak_init H (by simp), ?_, ?_⟩
    · intro x hx
      have : (SetHeap.init H ([] : List Int)).data = [] := List.Perm.eq_nil (H.heapify_perm [])
      have e : H.heapify ([] : List Int) = [] := this
      simp [SetHeap.init, Heap.init, e, setOf] at hx
    · intro x
      have : (SetHeap.init H ([] : List Int)).data = [] := List.Perm.eq_nil (H.heapify_perm [])
      simp [this]
  obtain ⟨S, hR, hS⟩ := pushSups_rep H ss _ _ (SetHeap.rep_push H hR0 m)
  have hS : ∀ t, S t ↔ some m = some t ∨ ∃ s ∈ ss, ∃ y, s.sup = some y ∧ y.1 = t := by
    intro t; rw [hS]; simp [eq_comm]
  have g : Good ss (some m) S := by
    refine ⟨?_, hS, ?_, ?_⟩
    · intro s hs'
      exact ⟨hs _ (h1 s hs').1, (h1 s hs').2⟩
    · intro t ht s hs'
      have h3 := hcur s hs'
      rcases (hS t).1 ht with h | ⟨s2, hs2, y, hy, rfl⟩
      · cases h; exact h3
      · have := hsup s2 hs2 y hy; omega
    · intro e he; cases he; exact hsup
  have key : ∀ fuel n, 0 < fuel → pending ss + 1 < n → ∃ out, mergeSeries H fuel n ls = some (.ok out) ∧ Merged ls m out := by
    intro fuel n hf hn
    obtain ⟨out, ho, hp1, hk⟩ := consume_good H fuel n hf ⟨ss, _⟩ (some m) S g hR (by simpa using hn)
    have hrun : mergeSeries H fuel n ls = some (.ok out) := by
      simp only [mergeSeries, init, hp, hmax]; exact ho
    refine ⟨out, hrun, hp1, ?_, C28_values H fuel n ls (fun l hl => (hs l hl).imp (fun h => Int.le_of_lt h)) out hrun⟩
    intro t
    rw [hk]
    dsimp only
    constructor
    · rintro (h | ⟨s, hs', x, hx, rfl⟩)
      · cases h
        obtain ⟨l, hl, x, hx, rfl⟩ := hm.1
        exact ⟨Int.le_refl _, l, hl, x, List.mem_of_mem_head? hx, rfl⟩
      · refine ⟨?_, _, (h1 s hs').1, x, by simp [hx], rfl⟩
        cases hsu : s.sup with
        | none => simp [Ser.tail, hsu, (h1 s hs').2 hsu] at hx
        | some y =>
          have h3 := hsup s hs' y hsu
          have h4 := hs _ (h1 s hs').1
          simp only [Ser.tail, hsu, Option.toList_some, List.singleton_append, Strict, List.pairwise_cons] at h4
          simp only [Ser.tail, hsu, Option.toList_some, List.singleton_append, List.mem_cons] at hx
          rcases hx with rfl | hx
          · exact h3
          · have := h4.2.1 x hx; omega
    · rintro ⟨hle, l, hl, x, hx, rfl⟩
      obtain ⟨s, hs', rfl⟩ := h2 l hl
      rcases List.mem_cons.1 hx with rfl | hx
      · have := hcur s hs'
        left; congr 1; omega
      · exact Or.inr ⟨s, hs', x, hx, rfl⟩
  intro fuel n hf hn
  have := pending_le ls ss hp
  exact key fuel n hf (by omega)

/-- two series that start at different times, and change at the same one -/
def exSeries : List (List (Int × Nat)) := [[(1, 10), (4, 11), (7, 12)], [(3, 20), (4, 21)], [(2, 30)]]

example : (∀ l ∈ exSeries, Strict l) ∧ Start exSeries 3 ∧ (∀ l ∈ exSeries, ∀ x y r, l = x :: y :: r → (3 : Int) ≤ y.1) := by
  refine ⟨?_, ⟨?_, ?_⟩, ?_⟩
  · intro l hl; simp only [exSeries, List.mem_cons, List.not_mem_nil, or_false] at hl; rcases hl with rfl | rfl | rfl <;> simp [Strict]
  · exact ⟨[(3, 20), (4, 21)], by simp [exSeries], (3, 20), rfl, rfl⟩
  · intro l hl; simp only [exSeries, List.mem_cons, List.not_mem_nil, or_false] at hl; rcases hl with rfl | rfl | rfl <;> exact ⟨_, rfl, by decide⟩
  · intro l hl x y r h
    simp only [exSeries, List.mem_cons, List.not_mem_nil, or_false] at hl
    rcases hl with rfl | rfl | rfl <;> cases h <;> decide

example : mergeSeries (cpython Int) 9 9 exSeries = some (.ok [(3, [10, 20, 30]), (4, [11, 21, 30]), (7, [12, 21, 30])]) := by decide +kernel

/-- **C28**: merging no series at all raises ValueError. -/
theorem C28_none (fuel n : Nat) : mergeSeries H fuel n ([] : List (List (Int × V))) = some (.error .valueError) := rfl

/-- **C28, empty series.** If one of the series is empty, nothing is yielded. -/
theorem C28_empty (ls : List (List (Int × V))) (h : [] ∈ ls) (fuel n : Nat) : mergeSeries H fuel n ls = some (.ok []) := by
  have : preload ls = none := by
    induction ls with
    | nil => simp at h
    | cons l ls ih =>
      cases l with
      | nil => rfl
      | cons x l =>
        have := ih (by simpa using h)
        simp [preload, this]
  simp [mergeSeries, init, this]

example : ([] : List (Int × Nat)) ∈ [[(1, 2)], []] := by simp

theorem settleLoop_late (ts : Int) (rest : List (Int × V)) : ∀ (cur y : Int × V) (h : SetHeap Int), ts < cur.1 → (∀ x ∈ y :: rest, ts < x.1) →
    (settleLoop H ts cur (some y) rest h).2.2 = .valueError := by
  induction rest with
  | nil =>
    intro cur y h hc hr
    have := hr y (by simp)
    unfold settleLoop
    rw [if_neg (by omega)]
    simp only
    rw [if_neg (by omega)]
  | cons x r ih =>
    intro cur y h hc hr
    unfold settleLoop
    rw [if_neg (by omega)]
    exact ih _ _ _ (hr y (by simp)) (fun z hz => hr z (List.mem_cons_of_mem _ hz))

theorem assertPreloaded_late (ts : Int) : ∀ (ss : List (Ser V)) (h : SetHeap Int) (S : Int → Prop), h.Rep S → (∀ s ∈ ss, s.Fine) → (∀ s ∈ ss, s.sup ≠ none) →
    (∀ s ∈ ss, ∀ y, s.sup = some y → ts ≤ y.1) → (∃ s ∈ ss, ts < s.cur.1) → (assertPreloaded H ts ss h).2.2 = .valueError
  | [], _, _, _, _, _, _, h => by obtain ⟨s, hs, _⟩ := h; simp at hs
  | s :: ss, h, S, hR, hf, hn, hy, hl => by
    by_cases hc : ts < s.cur.1
    · have hset : (settle H ts s h).2.2 = .valueError := by
        obtain ⟨cur, sup, rest⟩ := s
        have hf1 := (hf _ (List.mem_cons_self ..)).1
        cases sup with
        | none => exact absurd rfl (hn _ (List.mem_cons_self ..))
        | some y =>
          simp only [Ser.tail, Option.toList_some, List.singleton_append, Strict, List.pairwise_cons] at hf1
          dsimp only at hc
          refine settleLoop_late H ts rest cur y h hc (fun x hx => ?_)
          have := hf1.1 x hx
          omega
      generalize hr : settle H ts s h = r at hset
      obtain ⟨s', h', b⟩ := r
      dsimp only at hset
      subst hset
      simp only [assertPreloaded, hr]
    · obtain ⟨h', S', e, hR', _⟩ := settle_step H (hf s (by simp)) (by omega) (hy s (by simp)) hR
      have := assertPreloaded_late ts ss h' S' hR' (fun s hs => hf s (by simp [hs])) (fun s hs => hn s (by simp [hs])) (fun s hs => hy s (by simp [hs])) (by
        obtain ⟨s2, hs2, h2⟩ := hl
        rcases List.mem_cons.1 hs2 with rfl | hs2
        · exact absurd h2 hc
        · exact ⟨s2, hs2, h2⟩)
      simp only [assertPreloaded, e, this]

/-- **C28 is violated**: whenever each of several series in strict time order has at least two entries, and one of them changes a second time before the last of them starts, nothing at all is yielded, and ValueError
(which is documented for empty series) is raised.  Together with `C28_merge_partial` this tells exactly which series with at least two entries each are merged. -/
theorem C28_raises_violates (ls : List (List (Int × V))) (m : Int) (hs : ∀ l ∈ ls, Strict l) (hm : Start ls m) (hlen : ∀ l ∈ ls, 2 ≤ l.length)
    (hearly : ∃ l ∈ ls, ∃ x y r, l = x :: y :: r ∧ y.1 < m) (fuel n : Nat) (hfuel : 0 < fuel) (hn : 0 < n) :
    mergeSeries H fuel n ls = some (.error .valueError) := by
  have hne : ∀ l ∈ ls, l ≠ [] := by
    intro l hl h
    have := hlen l hl
    simp [h] at this
  obtain ⟨ss, hp, h1, h2⟩ := preload_spec ls hne
  have hsup : ∀ s ∈ ss, s.sup ≠ none := by
    intro s hs' hno
    have := hlen _ (h1 s hs').1
    simp [Ser.tail, hno, (h1 s hs').2 hno] at this
  have hmax : maxTs (ss.map (·.cur.1)) = some m := by
    apply maxTs_eq
    · obtain ⟨l, hl, x, hx, rfl⟩ := hm.1
      obtain ⟨s, hs, rfl⟩ := h2 l hl
      cases hx
      exact List.mem_map_of_mem hs
    · intro t ht
      obtain ⟨s, hs, rfl⟩ := List.mem_map.1 ht
      obtain ⟨x, hx, hle⟩ := hm.2 _ (h1 s hs).1
      cases hx; exact hle
  have hlate : ∃ s ∈ ss, s.cur.1 = m := by
    obtain ⟨l, hl, x, hx, rfl⟩ := hm.1
    obtain ⟨s, hs, rfl⟩ := h2 l hl
    cases hx
    exact ⟨s, hs, rfl⟩
  have hR0 : (SetHeap.init H ([] : List Int)).Rep (fun _ => False) := by
    refine ⟨SetHeap.weak_init H (by simp), ?_, ?_⟩
    · intro x hx
      have : (SetHeap.init H ([] : List Int)).data = [] := List.Perm.eq_nil (H.heapify_perm [])
      have e : H.heapify ([] : List Int) = [] := this
      simp [SetHeap.init, Heap.init, e, setOf] at hx
    · intro x
      have : (SetHeap.init H ([] : List Int)).data = [] := List.Perm.eq_nil (H.heapify_perm [])
      simp [this]
  obtain ⟨S, hR, hS⟩ := pushSups_rep H ss _ _ (SetHeap.rep_push H hR0 m)
  generalize hh : pushSups H ss (SetHeap.push H (SetHeap.init H []) m) = heap at hR
  have hSm : S m := (hS m).2 (Or.inl (Or.inl rfl))
  have hd : heap.data ≠ [] := fun h => by simpa [h] using (hR.2.2 m).1 hSm
  obtain ⟨S1, hsp, hR1⟩ := SetHeap.step_sim H heap S .pop trivial hR
  simp only [SetHeap.step] at hsp hR1
  rcases hsp with ⟨hno, _, _⟩ | ⟨ts, hSts, hval, hmin, hS1⟩
  · exact absurd hSm (hno m)
  have hmin : ∀ t, S t → ts ≤ t := fun t ht => int_le_of_lt (hmin t ht)
  have hpop : SetHeap.pop H heap = ((SetHeap.pop H heap).1, .val ts) := by rw [← hval]
  have hsup2 : ∀ s ∈ ss, ∀ y, s.sup = some y → ts ≤ y.1 := fun s hs y hy => hmin _ ((hS _).2 (Or.inr ⟨s, hs, y, hy, rfl⟩))
  have hts : ts < m := by
    obtain ⟨l, hl, x, y, r, rfl, hy⟩ := hearly
    obtain ⟨s, hs', e⟩ := h2 _ hl
    cases hsu : s.sup with
    | none => exact absurd hsu (hsup s hs')
    | some z =>
      simp only [Ser.tail, hsu, Option.toList_some, List.singleton_append, List.cons.injEq] at e
      have := hsup2 s hs' z hsu
      rw [← e.2.1] at this
      omega
  have hbad := assertPreloaded_late H ts ss _ S1 hR1 (fun s hs' => ⟨hs _ (h1 s hs').1, (h1 s hs').2⟩) hsup hsup2 (by
    obtain ⟨s, hs', e⟩ := hlate
    exact ⟨s, hs', by omega⟩)
  generalize hr : assertPreloaded H ts ss (SetHeap.pop H heap).1 = r at hbad
  obtain ⟨ss', h', b⟩ := r
  dsimp only at hbad
  subst hbad
  obtain ⟨fuel, rfl⟩ : ∃ k, fuel = k + 1 := ⟨fuel - 1, by omega⟩
  obtain ⟨n, rfl⟩ : ∃ k, n = k + 1 := ⟨n - 1, by omega⟩
  have hnext : next H (fuel + 1) ⟨ss, heap⟩ = some (.error .valueError, { ss := ss', heap := h' }) := by
    unfold next haveTimestamps
    simp only [ne_eq, hd, not_false_eq_true, if_true]
    unfold popLoop
    rw [hpop]
    simp only [hr]
  simp only [mergeSeries, init, hp, hmax, hh, consume, hnext]

/-- the first series changes a second time before the second one starts -/
def exEarly : List (List (Int × Nat)) := [[(1, 10), (2, 11)], [(5, 20), (7, 21)]]

example : (∀ l ∈ exEarly, Strict l) ∧ Start exEarly 5 ∧ (∀ l ∈ exEarly, 2 ≤ l.length) ∧ ∃ l ∈ exEarly, ∃ x y r, l = x :: y :: r ∧ y.1 < 5 := by
  refine ⟨?_, ⟨?_, ?_⟩, ?_, ?_⟩
  · intro l hl; simp only [exEarly, List.mem_cons, List.not_mem_nil, or_false] at hl; rcases hl with rfl | rfl <;> simp [Strict]
  · exact ⟨[(5, 20), (7, 21)], by simp [exEarly], (5, 20), rfl, rfl⟩
  · intro l hl; simp only [exEarly, List.mem_cons, List.not_mem_nil, or_false] at hl; rcases hl with rfl | rfl <;> exact ⟨_, rfl, by decide⟩
  · intro l hl; simp only [exEarly, List.mem_cons, List.not_mem_nil, or_false] at hl; rcases hl with rfl | rfl <;> decide
  · exact ⟨[(1, 10), (2, 11)], by simp [exEarly], _, _, _, rfl, by decide⟩

end

/-- **C28 is violated**: two series in strict time order, and one time is yielded twice. -/
theorem C28_twice_violates : ∃ (ls : List (List (Int × Nat))) (m : Int) (out : List (Int × List Nat)), (∀ l ∈ ls, Strict l) ∧ Start ls m ∧
    mergeSeries (cpython Int) 9 9 ls = some (.ok out) ∧ ¬ (out.map (·.1)).Nodup := by
  refine ⟨[[(5, 20)], [(1, 10), (2, 11), (5, 12)]], 5, [(5, [20, 12]), (5, [20, 12])], ?_, ⟨?_, ?_⟩, by decide +kernel, by simp⟩
  · intro l hl; simp only [List.mem_cons, List.not_mem_nil, or_false] at hl; rcases hl with rfl | rfl <;> simp [Strict]
  · exact ⟨[(5, 20)], by simp, (5, 20), rfl, rfl⟩
  · intro l hl; simp only [List.mem_cons, List.not_mem_nil, or_false] at hl; rcases hl with rfl | rfl <;> exact ⟨_, rfl, by decide⟩

/-- **C28 is violated**: a single series with two entries at one time, which is yielded twice. -/
theorem C28_equal_violates : ∃ (l : List (Int × Nat)) (out : List (Int × List Nat)), Ordered l ∧
    mergeSeries (cpython Int) 9 9 [l] = some (.ok out) ∧ ¬ (out.map (·.1)).Nodup := by
  refine ⟨[(1, 10), (2, 11), (2, 12)], [(1, [10]), (2, [12]), (2, [12])], by simp [Ordered], by decide +kernel, by simp⟩

end Verif.MergeSeries
