import Verif.PQueue.Model
import Verif.Conc.MonitorProps
/-! # C21: PeekableQueue -/
namespace Verif.PQueue
open Verif Conc

section
variable {α : Type _}

/-- what a thread's calls gave, of the items -/
def items (l : List (Res α)) : List α := l.filterMap (fun r => match r with | .item x => some x | .empty => none)

structure Inv (s : St α) : Prop where
  fifo : s.putLog = s.getLog.map (·.2) ++ s.queue
  peeks : ∀ e ∈ s.peekLog, s.putLog[e.1]? = some e.2

theorem inv_finish {s : St α} (h : Inv s) (t : Nat) (r : List (Res α)) : Inv (s.finish t r) := ⟨h.fifo, h.peeks⟩

theorem inv_take {s : St α} (h : Inv s) (t : Nat) (p timed : Bool) : Inv (s.take t p timed) := by
  unfold St.take
  cases hq : s.queue with
  | nil => exact ⟨by have := h.fifo; rwa [hq] at this, h.peeks⟩
  | cons x xs =>
    dsimp only
    cases p with
    | true =>
      rw [if_pos rfl]
      refine ⟨by have := h.fifo; rwa [hq] at this, ?_⟩
      intro e he
      rcases List.mem_append.1 he with he | he
      · exact h.peeks e he
      · rw [List.mem_singleton] at he
        subst he
        show s.putLog[s.getLog.length]? = some x
        rw [h.fifo, hq]
        rw [List.getElem?_append_right (by simp)]
        simp
    | false =>
      rw [if_neg (by simp)]
      refine ⟨?_, h.peeks⟩
      show s.putLog = (s.getLog ++ [(t, x)]).map (·.2) ++ xs
      rw [h.fifo, hq]; simp

theorem inv_step {s : St α} (h : Inv s) (e : Nat × Bool) : Inv (s.step e) := by
  have hprog : ∀ p, Inv { s with prog := p } := fun p => ⟨h.fifo, h.peeks⟩
  have hadd : ∀ (p : Nat → List (Op α)) xs, Inv (St.add { s with prog := p } e.1 xs) := by
    intro p xs
    refine ⟨?_, ?_⟩
    · show s.putLog ++ xs = s.getLog.map (·.2) ++ (s.queue ++ xs)
      rw [h.fifo, List.append_assoc]
    · intro x hx
      show (s.putLog ++ xs)[x.1]? = some x.2
      have := h.peeks x hx
      rw [List.getElem?_append_left (List.getElem?_eq_some_iff.1 this).1]
      exact this
  unfold St.step
  dsimp only
  split
  · split
    · exact h
    · split
      · exact hadd _ _
      · exact hadd _ _
      · exact inv_take (hprog _) _ _ _
      · exact inv_take (hprog _) _ _ _
  · exact ⟨h.fifo, h.peeks⟩
  · split
    · exact inv_finish h _ _
    · exact ⟨h.fifo, h.peeks⟩
  · split
    · exact ⟨h.fifo, h.peeks⟩
    · exact h
  · exact inv_take h _ _ _

theorem inv_run (es : List (Nat × Bool)) : ∀ {s : St α}, Inv s → Inv (s.run es) := by
  induction es with
  | nil => intro s h; exact h
  | cons e es ih => intro s h; exact ih (inv_step h e)

/-- **C21.** For every number of threads, every program and every schedule: the items delivered by `get`, in order of delivery, followed by
those still in the queue, are exactly the items put, in order (each item is delivered at most once, to one getter, in FIFO order, and none is lost);
and each `peek` shows the item that is delivered next: the one with as many items before it as had been delivered. -/
theorem C21_fifo_once (p : Nat → List (Op α)) (es : List (Nat × Bool)) :
    ((St.init p).run es).putLog = ((St.init p).run es).getLog.map (·.2) ++ ((St.init p).run es).queue ∧
    ∀ e ∈ ((St.init p).run es).peekLog, ((St.init p).run es).putLog[e.1]? = some e.2 := by
  have : Inv ((St.init p).run es) := inv_run es ⟨rfl, by simp [St.init]⟩
  exact ⟨this.fifo, this.peeks⟩

/-! ### records are what the threads see -/

/-- the items delivered to one thread, in order -/
def gotBy (t : Nat) (log : List (Nat × α)) : List α := log.filterMap (fun e => if e.1 = t then some e.2 else none)

/-- the thread is in a call of `peek` -/
def Pc.isPeek : Pc → Bool
  | .toWait p _ => p
  | .waiting p _ => p
  | .woken p _ => p
  | _ => false

/-- for a thread that does not peek, what its calls gave are the items delivered to it -/
structure RInv (p : Nat → List (Op α)) (t : Nat) (s : St α) : Prop where
  res : items (s.results t) = gotBy t s.getLog
  pc : (s.pc t).isPeek = false
  prog : s.prog t <:+ p t

theorem items_append (a b : List (Res α)) : items (a ++ b) = items a ++ items b := List.filterMap_append

theorem rinv_finish {p : Nat → List (Op α)} {t : Nat} {s : St α} (h : RInv p t s) (u : Nat) (r : List (Res α))
    (hr : u = t → items r = []) : RInv p t (s.finish u r) := by
  refine ⟨?_, ?_, h.prog⟩
  · show items (upd s.results u (s.results u ++ r) t) = gotBy t s.getLog
    by_cases hu : t = u
    · subst hu; rw [upd_same, items_append, h.res, hr rfl, List.append_nil]
    · rw [upd_other _ _ hu]; exact h.res
  · show (upd s.pc u .idle t).isPeek = false
    by_cases hu : t = u
    · subst hu; rw [upd_same]; rfl
    · rw [upd_other _ _ hu]; exact h.pc

theorem rinv_take {p : Nat → List (Op α)} {t : Nat} {s : St α} (h : RInv p t s) (u : Nat) (pk timed : Bool)
    (hpk : u = t → pk = false) : RInv p t (s.take u pk timed) := by
  unfold St.take
  cases hq : s.queue with
  | nil =>
    refine ⟨h.res, ?_, h.prog⟩
    show (upd s.pc u (.toWait pk timed) t).isPeek = false
    by_cases hu : t = u
    · subst hu; rw [upd_same]; exact hpk rfl
    · rw [upd_other _ _ hu]; exact h.pc
  | cons x xs =>
    dsimp only
    cases pk with
    | true =>
      rw [if_pos rfl]
      have hu : u ≠ t := fun hh => by cases hpk hh
      refine ⟨?_, ?_, h.prog⟩
      · show items (upd s.results u (s.results u ++ _) t) = gotBy t s.getLog
        rw [upd_other _ _ (Ne.symm hu)]; exact h.res
      · show (upd s.pc u .idle t).isPeek = false
        rw [upd_other _ _ (Ne.symm hu)]; exact h.pc
    | false =>
      rw [if_neg (by simp)]
      refine ⟨?_, ?_, h.prog⟩
      · show items (upd s.results u (s.results u ++ [.item x]) t) = gotBy t (s.getLog ++ [(u, x)])
        unfold gotBy
        rw [List.filterMap_append]
        by_cases hu : t = u
        · subst hu
          rw [upd_same, items_append, h.res]
          simp [items, gotBy]
        · rw [upd_other _ _ hu, h.res]
          simp [gotBy, Ne.symm hu]
      · show (upd s.pc u .idle t).isPeek = false
        by_cases hu : t = u
        · subst hu; rw [upd_same]; rfl
        · rw [upd_other _ _ hu]; exact h.pc

theorem wake_isPeek (pc : Nat → Pc) (u t : Nat) : (wake pc u t).isPeek = (pc t).isPeek := by
  unfold wake
  cases h : pc u with
  | waiting p timed =>
    dsimp only
    by_cases hu : t = u
    · subst hu; rw [upd_same, h]; rfl
    · rw [upd_other _ _ hu]
  | _ => rfl

theorem wakes_isPeek (l : List Nat) (t : Nat) : ∀ pc : Nat → Pc, (l.foldl wake pc t).isPeek = (pc t).isPeek := by
  induction l with
  | nil => intro pc; rfl
  | cons u l ih => intro pc; rw [List.foldl_cons, ih, wake_isPeek]

theorem rinv_step {p : Nat → List (Op α)} {t : Nat} (hp : ∀ timed, Op.peek timed ∉ p t) {s : St α} (h : RInv p t s)
    (e : Nat × Bool) : RInv p t (s.step e) := by
  unfold St.step
  dsimp only
  split
  · cases hpr : s.prog e.1 with
    | nil => exact h
    | cons o rest =>
      have hmem : e.1 = t → o ∈ p t := by
        intro he
        apply h.prog.subset
        rw [← he, hpr]; simp
      have hprog : RInv p t { s with prog := upd s.prog e.1 rest } := by
        refine ⟨h.res, h.pc, ?_⟩
        by_cases ht : t = e.1
        · subst ht
          dsimp only
          rw [upd_same]
          have := h.prog
          rw [hpr] at this
          exact (List.suffix_cons o rest).trans this
        · dsimp only
          rw [upd_other _ _ ht]
          exact h.prog
      have hadd : ∀ xs, RInv p t (St.add { s with prog := upd s.prog e.1 rest } e.1 xs) := by
        intro xs
        refine ⟨hprog.res, ?_, hprog.prog⟩
        show (upd s.pc e.1 (.toNotify xs.length) t).isPeek = false
        by_cases hu : t = e.1
        · rw [← hu, upd_same]; rfl
        · rw [upd_other _ _ hu]; exact h.pc
      cases o with
      | put x => exact hadd _
      | putMany xs => exact hadd _
      | get timed => exact rinv_take hprog _ _ _ (fun _ => rfl)
      | peek timed => exact rinv_take hprog _ _ _ (fun he => absurd (hmem he) (hp timed))
  · rename_i n hn
    refine rinv_finish (s := { s with waiters := s.waiters.drop n, pc := (s.waiters.take n).foldl wake s.pc }) ?_ _ _ (fun _ => rfl)
    exact ⟨h.res, by dsimp only; rw [wakes_isPeek]; exact h.pc, h.prog⟩
  · rename_i pk timed hw
    split
    · exact rinv_finish h _ _ (fun _ => rfl)
    · refine ⟨h.res, ?_, h.prog⟩
      show (upd s.pc e.1 (.waiting pk timed) t).isPeek = false
      by_cases hu : t = e.1
      · have := h.pc
        rw [hu, hw] at this
        rw [← hu, upd_same]; exact this
      · rw [upd_other _ _ hu]; exact h.pc
  · split
    · exact rinv_finish (s := { s with waiters := s.waiters.erase e.1 }) ⟨h.res, h.pc, h.prog⟩ _ _ (fun _ => rfl)
    · exact h
  · rename_i pk timed hw
    refine rinv_take h _ _ _ (fun he => ?_)
    have := h.pc
    rw [← he, hw] at this
    exact this

/-- **C21.** What a thread that only calls `get` (and `put`) receives are exactly the items delivered to it, in the order of delivery. -/
theorem C21_delivered_to_caller (p : Nat → List (Op α)) (t : Nat) (hp : ∀ timed, Op.peek timed ∉ p t) (es : List (Nat × Bool)) :
    items (((St.init p).run es).results t) = gotBy t ((St.init p).run es).getLog := by
  have : ∀ (es : List (Nat × Bool)) (s : St α), RInv p t s → RInv p t (s.run es) := by
    intro es
    induction es with
    | nil => intro s h; exact h
    | cons e es ih => intro s h; exact ih _ (rinv_step hp h e)
  exact (this es _ ⟨rfl, rfl, List.suffix_refl _⟩).res

/-- a call with a timeout -/
def Timed : Op α → Prop
  | .get timed => timed = true
  | .peek timed => timed = true
  | _ => False

/-- in a call without a timeout, or in none -/
def NotTimed : Pc → Prop
  | .toWait _ timed | .waiting _ timed | .woken _ timed => timed = false
  | _ => True

/-- the number of calls of a thread that gave Empty -/
def empties (l : List (Res α)) : Nat := (l.filter (fun r => match r with | .empty => true | .item _ => false)).length

theorem wake_notTimed (u : Nat) (pc : Nat → Pc) (t : Nat) (h : NotTimed (pc t)) : NotTimed (wake pc u t) := by
  unfold wake
  cases e : pc u with
  | waiting p b =>
    by_cases hu : t = u
    · subst hu; rw [e] at h; simp only [upd]; simpa [NotTimed] using h
    · simp only [upd, hu, if_false]; exact h
  | _ => exact h

theorem wakes_notTimed (us : List Nat) : ∀ (pc : Nat → Pc) (t : Nat), NotTimed (pc t) → NotTimed (us.foldl wake pc t) := by
  induction us with
  | nil => exact fun _ _ h => h
  | cons u us ih => exact fun pc t h => ih _ t (wake_notTimed u pc t h)

theorem take_other (s : St α) (t u : Nat) (h : t ≠ u) (p b : Bool) : (s.take u p b).results t = s.results t ∧ (s.take u p b).prog = s.prog ∧ (s.take u p b).pc t = s.pc t := by
  unfold St.take
  split
  · simp [upd, h]
  · split <;> simp [St.finish, upd, h]

theorem take_self (s : St α) (t : Nat) (p b : Bool) : empties ((s.take t p b).results t) = empties (s.results t) ∧ (s.take t p b).prog = s.prog ∧
    (b = false → NotTimed ((s.take t p b).pc t)) := by
  unfold St.take
  split
  · simp [upd, NotTimed]
  · split <;> simp [St.finish, upd, empties, NotTimed]

theorem step_other (t : Nat) (s : St α) (e : Nat × Bool) (h : t ≠ e.1) :
    (s.step e).results t = s.results t ∧ (s.step e).prog t = s.prog t ∧ (NotTimed (s.pc t) → NotTimed ((s.step e).pc t)) := by
  unfold St.step
  dsimp only
  have tk : ∀ (s' : St α) p b, (s'.results t = s.results t ∧ s'.prog t = s.prog t ∧ s'.pc t = s.pc t) →
      (s'.take e.1 p b).results t = s.results t ∧ (s'.take e.1 p b).prog t = s.prog t ∧ (NotTimed (s.pc t) → NotTimed ((s'.take e.1 p b).pc t)) := by
    intro s' p b hs
    obtain ⟨h1, h2, h3⟩ := take_other s' t e.1 h p b
    rw [h1, h2, h3, hs.2.2]
    exact ⟨hs.1, hs.2.1, id⟩
  split
  · split
    · exact ⟨rfl, rfl, id⟩
    · split
      · simp [St.add, upd, h]
      · simp [St.add, upd, h]
      · exact tk _ _ _ ⟨rfl, by simp [upd, h], rfl⟩
      · exact tk _ _ _ ⟨rfl, by simp [upd, h], rfl⟩
  · refine ⟨by simp [St.notify, St.finish, upd, h], rfl, fun hn => ?_⟩
    have := wakes_notTimed (s.waiters.take ‹_›) s.pc t hn
    simpa [St.notify, St.finish, upd, h] using this
  · split <;> simp [St.finish, upd, h]
  · split <;> simp [St.finish, upd, h]
  · exact tk _ _ _ ⟨rfl, rfl, rfl⟩

theorem step_self (t : Nat) (s : St α) (b : Bool) :
    empties ((s.step (t, b)).results t) ≤ empties (s.results t) + (if b then 1 else 0) ∧
    ((∀ o ∈ s.prog t, ¬ Timed o) → NotTimed (s.pc t) →
      empties ((s.step (t, b)).results t) = empties (s.results t) ∧ (∀ o ∈ (s.step (t, b)).prog t, ¬ Timed o) ∧ NotTimed ((s.step (t, b)).pc t)) := by
  unfold St.step
  dsimp only
  split
  · split
    · rename_i hp hq
      exact ⟨by omega, fun h1 h2 => ⟨rfl, h1, h2⟩⟩
    · rename_i o rest hq
      have hrest : (∀ o ∈ s.prog t, ¬ Timed o) → ∀ o ∈ rest, ¬ Timed o := fun h o ho => h o (by rw [hq]; simp [ho])
      have hfirst : (∀ o ∈ s.prog t, ¬ Timed o) → ¬ Timed o := fun h => h o (by rw [hq]; simp)
      cases o with
      | put x => exact ⟨by simp [St.add], fun h1 _ => ⟨rfl, by simpa [St.add, upd] using hrest h1, by simp [St.add, upd, NotTimed]⟩⟩
      | putMany x => exact ⟨by simp [St.add], fun h1 _ => ⟨rfl, by simpa [St.add, upd] using hrest h1, by simp [St.add, upd, NotTimed]⟩⟩
      | get timed =>
        obtain ⟨h1, h2, h3⟩ := take_self ({ s with prog := upd s.prog t rest } : St α) t false timed
        refine ⟨by simp only [h1]; omega, fun g1 _ => ⟨h1, ?_, h3 (by simpa [Timed] using hfirst g1)⟩⟩
        rw [h2]; simpa [upd] using hrest g1
      | peek timed =>
        obtain ⟨h1, h2, h3⟩ := take_self ({ s with prog := upd s.prog t rest } : St α) t true timed
        refine ⟨by simp only [h1]; omega, fun g1 _ => ⟨h1, ?_, h3 (by simpa [Timed] using hfirst g1)⟩⟩
        rw [h2]; simpa [upd] using hrest g1
  · simp only [St.notify, St.finish, upd]
    refine ⟨by simp, fun h1 _ => ⟨by simp, h1, by simp [NotTimed]⟩⟩
  · rename_i p timed hpc
    cases timed <;> cases b <;> simp [St.finish, upd, empties, NotTimed, hpc]
    all_goals exact fun h => h
  · rename_i p timed hpc
    cases timed <;> cases b <;> simp [St.finish, upd, empties, NotTimed, hpc]
    all_goals exact fun h => h
  · rename_i p timed hpc
    obtain ⟨h1, h2, h3⟩ := take_self s t p timed
    refine ⟨by rw [h1]; omega, fun g1 g2 => ⟨h1, by rw [h2]; exact g1, h3 ?_⟩⟩
    rw [hpc] at g2; exact g2

/-- **C21.** `get` and `peek` without a timeout never raise Empty; and a thread gets Empty at most as many times as a timeout of its has expired. -/
theorem C21_empty (p : Nat → List (Op α)) (es : List (Nat × Bool)) (t : Nat) :
    empties (((St.init p).run es).results t) ≤ es.count (t, true) ∧
    ((∀ o ∈ p t, ¬ Timed o) → Res.empty ∉ ((St.init p).run es).results t) := by
  have key : ∀ (es : List (Nat × Bool)) (s : St α), empties ((s.run es).results t) ≤ empties (s.results t) + es.count (t, true) ∧
      ((∀ o ∈ s.prog t, ¬ Timed o) → NotTimed (s.pc t) → empties ((s.run es).results t) = empties (s.results t)) := by
    intro es
    induction es with
    | nil => exact fun s => ⟨by simp [St.run], fun _ _ => rfl⟩
    | cons e es ih =>
      intro s
      obtain ⟨i1, i2⟩ := ih (s.step e)
      simp only [St.run]
      by_cases he : t = e.1
      · obtain ⟨u, b⟩ := e
        simp only at he
        subst he
        obtain ⟨h1, h2⟩ := step_self t s b
        refine ⟨?_, fun g1 g2 => ?_⟩
        · have : ((t, b) :: es).count (t, true) = es.count (t, true) + (if b then 1 else 0) := by
            cases b <;> simp
          omega
        · obtain ⟨k1, k2, k3⟩ := h2 g1 g2
          rw [i2 k2 k3, k1]
      · obtain ⟨h1, h2, h3⟩ := step_other t s e he
        refine ⟨?_, fun g1 g2 => ?_⟩
        · have := List.count_le_count_cons (a := (t, true)) (b := e) (l := es)
          rw [h1] at i1; omega
        · rw [i2 (by rw [h2]; exact g1) (h3 g2), h1]
  obtain ⟨k1, k2⟩ := key es (St.init p)
  refine ⟨by simpa [St.init, empties] using k1, fun h hm => ?_⟩
  have := k2 h (by simp [St.init, NotTimed])
  have hz : empties ((St.init p).results t) = 0 := rfl
  rw [hz] at this
  have hin : Res.empty ∈ (((St.init p).run es).results t).filter (fun r => match r with | .empty => true | .item _ => false) := List.mem_filter.2 ⟨hm, rfl⟩
  unfold empties at this
  rw [List.length_eq_zero_iff] at this
  rw [this] at hin
  simp at hin

/-- **C21.** A getter that waits, alone, gets the item put next.  (The full claim, that every blocked `get` is woken, is false: below.) -/
theorem C21_woken_partial (s : St α) (g t : Nat) (timed : Bool) (x : α) (rest : List (Op α)) (hgt : g ≠ t)
    (hg : s.pc g = .waiting false timed) (hw : s.waiters.head? = some g) (hq : s.queue = [])
    (ht : s.pc t = .idle) (hp : s.prog t = .put x :: rest) :
    (s.run [(t, false), (t, false), (g, false)]).results g = s.results g ++ [.item x] ∧
    (s.run [(t, false), (t, false), (g, false)]).queue = [] := by
  obtain ⟨ws, hws⟩ : ∃ ws, s.waiters = g :: ws := by
    cases h : s.waiters with
    | nil => rw [h] at hw; cases hw
    | cons a ws => rw [h] at hw; cases hw; exact ⟨ws, rfl⟩
  have h1 : s.step (t, false) = { s with prog := upd s.prog t rest, queue := [x], putLog := s.putLog ++ [x], pc := upd s.pc t (.toNotify 1) } := by
    simp [St.step, ht, hp, St.add, hq]
  have h2 : (s.step (t, false)).step (t, false) =
      St.finish { s with prog := upd s.prog t rest, queue := [x], putLog := s.putLog ++ [x], waiters := ws, pc := upd (upd s.pc t (.toNotify 1)) g (.woken false timed) } t [] := by
    rw [h1]
    simp [St.step, St.notify, hws, wake, upd_other _ _ hgt, hg]
  simp only [St.run, h2]
  have hpc : (St.finish { s with prog := upd s.prog t rest, queue := [x], putLog := s.putLog ++ [x], waiters := ws, pc := upd (upd s.pc t (.toNotify 1)) g (.woken false timed) } t []).pc g = .woken false timed := by
    simp [St.finish, upd_other _ _ hgt]
  simp only [St.step, hpc]
  simp [St.take, St.finish, upd_other _ _ hgt]

end

/-- the threads of the examples: 0 gets, 1 peeks, 2 puts -/
def exProg (t : Nat) : List (Op Nat) :=
  if t = 0 then [.get false, .get true] else if t = 1 then [.peek false] else if t = 2 then [.put 7, .put 8] else []

example := C21_fifo_once exProg [(0, false), (0, false), (2, false), (2, false), (0, false), (1, false), (1, false), (2, false), (2, false), (1, false)]

/-- 0 waits, 7 is put and wakes it, it gets 7; 1 waits, 8 is put, 1 sees it, 0 gets it -/
example : ((St.init exProg).run [(0, false), (0, false), (2, false), (2, false), (0, false), (1, false), (1, false), (2, false), (2, false), (1, false),
    (0, false)]).getLog = [(0, 7), (0, 8)] ∧
  ((St.init exProg).run [(0, false), (0, false), (2, false), (2, false), (0, false), (1, false), (1, false), (2, false), (2, false), (1, false),
    (0, false)]).peekLog = [(1, 8)] := by decide

example := C21_woken_partial ((St.init exProg).run [(0, false), (0, false)]) 0 2 false 7 [.put 8] (by decide) (by decide) (by decide)
  (by decide) (by decide) rfl

example : empties (((St.init (fun _ => [Op.get true, .get true, .put 3])).run [(0, false), (0, false), (0, true), (0, false), (0, true)]).results 0) = 2 := by decide
example := C21_delivered_to_caller exProg 0 (by intro timed; simp [exProg]) [(0, false), (0, false), (2, false), (2, false), (0, false)]

/-- the getter is blocked whatever runs from now on: all other threads have finished -/
theorem waits_forever {α : Type _} (s : St α) (g : Nat) (pk : Bool) (hg : s.pc g = .waiting pk false)
    (hothers : ∀ t, t ≠ g → s.pc t = .idle ∧ s.prog t = []) (es : List (Nat × Bool)) : s.run es = s := by
  induction es with
  | nil => rfl
  | cons e es ih =>
    have : s.step e = s := by
      by_cases he : e.1 = g
      · simp [St.step, he, hg]
      · obtain ⟨h1, h2⟩ := hothers _ he
        simp [St.step, h1, h2]
    rw [St.run, this, ih]

/-- **C21 is violated by a lost wake-up**: the getter finds the queue empty; before it waits, an item is put and the condition notified. The
getter then waits for ever, though an item is available, for every item and whatever runs afterwards. -/
theorem C21_lost_wakeup_violates {α : Type} (x : α) (es : List (Nat × Bool)) :
    let s := (St.init (fun t => if t = 0 then [Op.get false] else if t = 1 then [.put x] else [])).run
      ([(0, false), (1, false), (1, false), (0, false)] ++ es)
    s.pc 0 = .waiting false false ∧ s.queue = [x] := by
  intro s
  let s0 := (St.init (fun t => if t = 0 then [Op.get false] else if t = 1 then [.put x] else [])).run
      [(0, false), (1, false), (1, false), (0, false)]
  have hs : s = s0.run es := rfl
  have h1 : s0.pc 0 = .waiting false false := rfl
  have h2 : s0.queue = [x] := rfl
  have := waits_forever s0 0 false h1 (by
    intro t ht
    by_cases h : t = 1
    · subst h; exact ⟨rfl, rfl⟩
    · constructor <;>
        simp [s0, St.run, St.step, St.init, St.take, St.add, St.notify, St.finish, upd, ht, h]) es
  rw [hs, this]
  exact ⟨h1, h2⟩

/-- **C21 is violated by a `peek` that is woken instead of a `get`**: a peeker and a getter wait, one item is put; the notification wakes the peeker, and the
getter waits for ever though the item is available. -/
theorem C21_peek_takes_wakeup_violates {α : Type} (x : α) (es : List (Nat × Bool)) :
    let s := (St.init (fun t => if t = 0 then [Op.get false] else if t = 1 then [.put x] else if t = 2 then [.peek false] else [])).run
      ([(2, false), (2, false), (0, false), (0, false), (1, false), (1, false), (2, false)] ++ es)
    s.pc 0 = .waiting false false ∧ s.queue = [x] := by
  intro s
  let s0 := (St.init (fun t => if t = 0 then [Op.get false] else if t = 1 then [.put x] else if t = 2 then [.peek false] else [])).run
      [(2, false), (2, false), (0, false), (0, false), (1, false), (1, false), (2, false)]
  have hs : s = s0.run es := rfl
  have h1 : s0.pc 0 = .waiting false false := rfl
  have h2 : s0.queue = [x] := rfl
  have := waits_forever s0 0 false h1 (by
    intro t ht
    by_cases h : t = 1
    · subst h; exact ⟨rfl, rfl⟩
    · by_cases h' : t = 2
      · subst h'; exact ⟨rfl, rfl⟩
      · constructor <;>
          simp [s0, St.run, St.step, St.init, St.take, St.add, St.notify, St.finish, upd, ht, h, h', wake]) es
  rw [hs, this]
  exact ⟨h1, h2⟩

end Verif.PQueue
