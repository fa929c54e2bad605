import Verif.ThreadPool.Inv

/-!
# MetrifiedThreadPoolExecutor, C103, C104, C105
-/
namespace Verif.ThreadPool

set_option linter.unusedSimpArgs false

/-! ## Specification -/

/-- the actions of the threads that are at work: the submitting one and the workers -/
def Act.internal : Act → Bool
  | .adjust => true
  | .initOk _ => true
  | .initFail _ => true
  | .work _ => true
  | _ => false

/-- everything comes to rest: nobody can do anything except calling the executor (and waiting) -/
def Rests (s : St) : Prop := ∀ a : Act, a.internal = true → step s a = none

/-- how many of the actions are taken -/
def taken (s : St) : List Act → Nat
  | [] => 0
  | a :: l => match step s a with
    | some s' => 1 + taken s' l
    | none => taken s l

/-- the workers that execute no task, and did not end -/
def Pc.free : Pc → Bool
  | .init => true
  | .failed => true
  | .get => true
  | .got _ => true
  | _ => false

/-! ## Progress -/

def Item.weight : Item → Nat
  | .task _ => 4
  | .stop => 1

def Pc.weight : Pc → Nat
  | .init => 3
  | .failed => 2
  | .drain => 1
  | .get => 2
  | .got _ => 5
  | .running _ _ => 4
  | .ran _ _ => 3
  | .stopping => 2
  | _ => 0

def Lock.weight : Lock → Nat
  | .submitting => 4
  | _ => 0

def sumOf {α : Type} (f : α → Nat) : List α → Nat
  | [] => 0
  | a :: l => f a + sumOf f l

theorem sumOf_append {α : Type} (f : α → Nat) (l l' : List α) : sumOf f (l ++ l') = sumOf f l + sumOf f l' := by
  induction l with
  | nil => simp [sumOf]
  | cons a l ih => simp [sumOf, ih]; omega

theorem sumOf_set {α : Type} (f : α → Nat) {l : List α} {i : Nat} {a b : α} (h : l[i]? = some a) : sumOf f (l.set i b) + f a = sumOf f l + f b := by
  induction l generalizing i with
  | nil => simp at h
  | cons x l ih =>
    cases i with
    | zero => simp at h; subst h; simp [sumOf]; omega
    | succ i => simp at h; have := ih h; simp [sumOf]; omega

/-- a bound of the steps that can still be taken -/
def weight (s : St) : Nat := sumOf Item.weight s.queue + sumOf Pc.weight s.pcs + s.lock.weight

theorem weight_lt {s s' : St} {a : Act} (ha : a.internal = true) (h : step s a = some s') : weight s' < weight s := by
  cases a with
  | tick => cases ha
  | submit => cases ha
  | shutdown => cases ha
  | collect => cases ha
  | adjust =>
    simp only [step] at h
    split at h
    · rename_i hl
      cases h
      unfold adjust
      split
      · simp [weight, hl, Lock.weight]
      · split
        · simp [weight, hl, Lock.weight, sumOf_append, sumOf, Pc.weight]; omega
        · simp [weight, hl, Lock.weight]
    · cases h
  | initOk i =>
    simp only [step] at h
    split at h
    · rename_i hi
      cases h
      have := sumOf_set Pc.weight (b := .get) hi
      simp only [Pc.weight] at this
      simp only [weight]
      omega
    · cases h
  | initFail i =>
    simp only [step] at h
    split at h
    · rename_i hi
      cases h
      have := sumOf_set Pc.weight (b := .failed) hi
      simp only [Pc.weight] at this
      simp only [weight]
      omega
    · cases h
  | work i =>
    simp only [step, work] at h
    cases hi : s.pcs[i]? with
    | none => simp [hi] at h
    | some p =>
      simp only [hi] at h
      have hw := fun b => sumOf_set Pc.weight (b := b) hi
      cases p with
      | init => cases h
      | gaveUp => cases h
      | exited => cases h
      | died => cases h
      | failed =>
        dsimp only at h
        split at h
        · split at h
          · rename_i hl
            cases h
            have := hw .drain
            simp only [Pc.weight] at this
            simp only [weight, hl, Lock.weight]
            omega
          · cases h
        · cases h
          have := hw .gaveUp
          simp only [Pc.weight] at this
          simp only [weight]
          omega
      | drain =>
        cases hq : s.queue with
        | nil =>
          simp only [hq] at h
          cases h
          have := hw .gaveUp
          simp only [Pc.weight] at this
          simp only [weight, hq, Lock.weight, sumOf]
          omega
        | cons it q =>
          cases it with
          | task t => simp only [hq] at h; cases h; simp only [weight, hq, sumOf, Item.weight]; omega
          | stop => simp only [hq] at h; cases h; simp only [weight, hq, sumOf, Item.weight]; omega
      | get =>
        cases hq : s.queue with
        | nil => simp [hq] at h
        | cons it q =>
          cases it with
          | task t =>
            simp only [hq] at h
            cases h
            have := hw (.got t)
            simp only [Pc.weight] at this
            simp only [weight, hq, sumOf, Item.weight]
            omega
          | stop =>
            simp only [hq] at h
            split at h
            · cases h
              have := hw .stopping
              simp only [Pc.weight] at this
              simp only [weight, hq, sumOf, Item.weight]
              omega
            · cases h; simp only [weight, hq, sumOf, Item.weight]; omega
      | got t =>
        dsimp only at h
        split at h
        · cases h
          have := hw (.running t s.now)
          simp only [Pc.weight] at this
          simp only [weight]
          omega
        · cases h
          have := hw .died
          simp only [Pc.weight] at this
          simp only [weight]
          omega
      | running t b =>
        cases h
        have := hw (.ran t (s.now - b))
        simp only [Pc.weight] at this
        simp only [weight]
        omega
      | ran t d =>
        dsimp only at h
        split at h
        · cases h
          have := hw .get
          simp only [Pc.weight] at this
          simp only [weight]
          omega
        · cases h
          have := hw .died
          simp only [Pc.weight] at this
          simp only [weight]
          omega
      | stopping =>
        cases h
        have := hw .exited
        simp only [Pc.weight] at this
        simp only [weight, sumOf_append, sumOf, Item.weight]
        omega

/-- the threads at work take boundedly many steps, in whatever order -/
theorem taken_le (s : St) (acts : List Act) (h : ∀ a ∈ acts, a.internal = true) : taken s acts ≤ weight s := by
  induction acts generalizing s with
  | nil => simp [taken]
  | cons a l ih =>
    have ha := h a (by simp)
    have hl := fun b hb => h b (List.mem_cons_of_mem _ hb)
    simp only [taken]
    cases hs : step s a with
    | none => exact ih s hl
    | some s' =>
      have := weight_lt ha hs
      have := ih s' hl
      simp only []
      omega

/-! ## C103 -/

section
variable {s : St} {k m : Nat}

theorem Inv.nodup (h : Inv s k m) : s.submitted.Nodup := by
  unfold List.Nodup
  rw [List.pairwise_iff_getElem]
  intro i j hi hj hij e
  have h1 := h.ids i s.submitted[i] (List.getElem?_eq_getElem _)
  have h2 := h.ids j s.submitted[j] (List.getElem?_eq_getElem _)
  rw [e] at h1
  omega

theorem Inv.count_take (h : Inv s k m) (t : Task) : (s.submitted.take k).count t ≤ 1 :=
  List.nodup_iff_count.1 ((List.take_sublist k s.submitted).nodup h.nodup) t

/-- a worker that runs a task holds it -/
theorem runs_le (t : Task) (l : List Pc) : l.countP (Pc.runs t) ≤ l.countP (Pc.holds t) := by
  apply List.countP_mono_left
  intro p _ hp
  cases p <;> simp_all [Pc.runs, Pc.holds]

theorem Inv.once (h : Inv s k m) : (s.begun.map Prod.fst ++ s.failed).Nodup ∧ (∀ t ∈ s.begun.map Prod.fst ++ s.failed, t ∈ s.submitted) ∧
    (s.ended.map Prod.fst).Nodup ∧ (∀ t ∈ s.ended.map Prod.fst, t ∈ s.begun.map Prod.fst) := by
  have hc : ∀ t, (s.begun.map Prod.fst ++ s.failed).count t ≤ (s.submitted.take k).count t := by
    intro t
    have h1 := h.cons t
    have h2 := h.beg t
    have h3 := runs_le t s.pcs
    rw [List.count_append]
    omega
  refine ⟨?_, ?_, ?_, ?_⟩
  · rw [List.nodup_iff_count]
    intro t
    exact Nat.le_trans (hc t) (h.count_take t)
  · intro t ht
    have h1 := hc t
    have h2 := List.count_pos_iff.2 ht
    exact List.mem_of_mem_take (List.count_pos_iff.1 (by omega : 0 < (s.submitted.take k).count t))
  · rw [List.nodup_iff_count]
    intro t
    have h1 := h.cons t
    have h2 := h.count_take t
    omega
  · intro t ht
    have h1 := h.beg t
    have h2 := List.count_pos_iff.2 ht
    exact List.count_pos_iff.1 (by omega)

/-- the tasks that were not taken yet are the last ones submitted -/
theorem Inv.taken_iff (h : Inv s k m) {t : Task} (ht : t ∈ s.submitted) : t.id < k ↔ 0 < (s.submitted.take k).count t := by
  obtain ⟨i, hi⟩ := List.mem_iff_getElem?.1 ht
  have hid := h.ids i t hi
  subst hid
  rw [List.count_pos_iff]
  constructor
  · intro hlt
    exact List.mem_iff_getElem?.2 ⟨t.id, by rw [List.getElem?_take_of_lt hlt]; exact hi⟩
  · intro hm
    obtain ⟨j, hj⟩ := List.mem_iff_getElem?.1 hm
    have hjk : j < k := by
      have := (List.getElem?_eq_some_iff.1 hj).1
      simp at this
      omega
    rw [List.getElem?_take_of_lt hjk] at hj
    rw [h.ids j t hj]
    exact hjk

end

/-- **C103, once**: whatever the schedule, while the executor is referenced, a submitted task is begun at most once, or failed with BrokenThreadPool, never both, and nothing else is begun; what ends was begun, and ends once. -/
theorem C103_once (max : Nat) (acts : List Act) (hc : .collect ∉ acts) :
    let s := run (new max) acts
    (s.begun.map Prod.fst ++ s.failed).Nodup ∧ (∀ t ∈ s.begun.map Prod.fst ++ s.failed, t ∈ s.submitted) ∧
      (s.ended.map Prod.fst).Nodup ∧ (∀ t ∈ s.ended.map Prod.fst, t ∈ s.begun.map Prod.fst) := by
  obtain ⟨k, m, h⟩ := (Inv.new max).run hc
  exact h.once

/-- **C103, order**: a task is not begun before those submitted earlier were begun, or taken by a worker which is about to begin them (or failed). -/
theorem C103_order (max : Nat) (acts : List Act) (hc : .collect ∉ acts) (a b : Task) :
    let s := run (new max) acts
    a ∈ s.submitted → b ∈ s.begun.map Prod.fst → a.id < b.id → a ∈ s.begun.map Prod.fst ∨ a ∈ s.failed ∨ .got a ∈ s.pcs := by
  obtain ⟨k, m, h⟩ := (Inv.new max).run hc
  dsimp only
  generalize run (new max) acts = s at h ⊢
  intro ha hb hlt
  have h1 : b ∈ s.submitted := h.once.2.1 b (List.mem_append_left _ hb)
  have h2 : b.id < k := by
    rw [h.taken_iff h1]
    have := h.cons b
    have := h.beg b
    have := runs_le b s.pcs
    have := List.count_pos_iff.2 hb
    omega
  have h3 : 0 < (s.submitted.take k).count a := (h.taken_iff ha).1 (by omega)
  have h4 := h.cons a
  have h5 := h.beg a
  rw [← List.count_pos_iff, ← List.count_pos_iff]
  by_cases hg : .got a ∈ s.pcs
  · exact Or.inr (Or.inr hg)
  · have : s.pcs.countP (Pc.holds a) ≤ s.pcs.countP (Pc.runs a) := by
      apply List.countP_mono_left
      intro p hp hh
      cases p with
      | got u =>
        simp [Pc.holds] at hh
        subst hh
        exact absurd hp hg
      | _ => simp_all [Pc.runs, Pc.holds]
    by_cases hf : 0 < s.failed.count a
    · exact Or.inr (Or.inl hf)
    · exact Or.inl (by omega)

/-- **C103, threads**: there are never more threads than `max_workers`; and no thread is spared: as long as there are fewer, and no initializer has failed, no task waits without a worker that is free for it. -/
theorem C103_threads (max : Nat) (acts : List Act) (hc : .collect ∉ acts) :
    let s := run (new max) acts
    s.pcs.length ≤ max ∧
      (s.pcs.length < max → s.broken = false → s.lock ≠ .submitting → s.submitted.length - s.begun.length ≤ s.pcs.countP Pc.free) := by
  have hmax : (run (new max) acts).max = max := by
    have : ∀ (acts : List Act) (s : St), (run s acts).max = s.max := by
      intro acts
      induction acts with
      | nil => intro s; rfl
      | cons a l ih =>
        intro s
        simp only [run]
        rw [ih]
        cases hs : step s a with
        | none => rfl
        | some s' =>
          simp only [Option.getD_some]
          cases a <;> simp only [step, work, adjust] at hs <;> (repeat' split at hs) <;> first | cases hs; rfl | cases hs
    rw [this]
    rfl
  obtain ⟨k, m, h⟩ := (Inv.new max).run hc
  intro s
  refine ⟨by have := h.mx; rw [hmax] at this; exact this, ?_⟩
  intro hlt hb hl
  have hcnt := h.cnt
  have hf : (run (new max) acts).failed = [] := by
    cases e : (run (new max) acts).failed with
    | nil => rfl
    | cons a l =>
      have := h.fl (by simp [e])
      have hb' : (run (new max) acts).broken = false := hb
      simp [hb'] at this
  rw [hf] at hcnt
  have hfree : (run (new max) acts).pcs.countP Pc.free = (run (new max) acts).pcs.countP Pc.idle + (run (new max) acts).pcs.countP Pc.isGot := by
    generalize (run (new max) acts).pcs = l
    induction l with
    | nil => rfl
    | cons p l ih => simp only [List.countP_cons, ih]; cases p <;> simp [Pc.free, Pc.idle, Pc.isGot] <;> omega
  show (run (new max) acts).submitted.length - (run (new max) acts).begun.length ≤ (run (new max) acts).pcs.countP Pc.free
  rw [hfree]
  simp at hcnt
  by_cases ho : (run (new max) acts).pcs.countP Pc.out = 0
  · have := h.acc hb (by rw [hmax]; exact hlt) ho
    have hl' : (run (new max) acts).lock ≠ .submitting := hl
    simp [hl'] at this
    omega
  · have := (h.out (by omega)).2
    omega

/-- **C103, metrics**: the waiting times given to the metric are, for every task begun, the time from being submitted to being begun; and once no worker is between a task and reporting it, the executing times are, for every task that ended, the time from its beginning to its end. -/
theorem C103_metrics (max : Nat) (acts : List Act) (hc : .collect ∉ acts) :
    let s := run (new max) acts
    s.waits = s.begun.map (fun p => p.2 - p.1.submitted) ∧ (∀ p ∈ s.begun, p.1.submitted ≤ p.2) ∧
      ((∀ t d, .ran t d ∉ s.pcs) → s.execs.Perm (s.ended.map fun p => p.2.2 - p.2.1)) ∧
      (∀ p ∈ s.ended, (p.1, p.2.1) ∈ s.begun ∧ p.2.1 ≤ p.2.2) := by
  obtain ⟨k, m, h⟩ := (Inv.new max).run hc
  refine ⟨h.waits, fun p hp => (h.btm p hp).1, ?_, fun p hp => ⟨(h.ebeg p hp).1, (h.ebeg p hp).2.1⟩⟩
  intro hr
  rw [List.perm_iff_count]
  intro d
  have h0 : (run (new max) acts).pcs.countP (Pc.took d) = 0 := by
    rw [List.countP_eq_zero]
    intro p hp
    cases p with
    | ran t e => exact absurd hp (hr t e)
    | _ => simp [Pc.took]
  have := h.execs d
  omega

theorem Inv.rests {s : St} {k m : Nat} (h : Inv s k m) (hm : 0 < s.max) (hr : Rests s) : ∀ t ∈ s.submitted, t ∈ s.ended.map Prod.fst ∨ t ∈ s.failed := by
  have hlock : s.lock = .free := by
    cases hl : s.lock with
    | free => rfl
    | submitting =>
      have := hr .adjust rfl
      simp [ThreadPool.step, hl] at this
    | draining i =>
      have hi := (h.drn i).1 hl
      have := hr (.work i) rfl
      simp only [ThreadPool.step, ThreadPool.work, hi] at this
      cases hq : s.queue with
      | nil => simp [hq] at this
      | cons it q => cases it <;> simp [hq] at this
  have hpc : ∀ (i : Nat) p, s.pcs[i]? = some p → (p = .get ∧ s.queue = []) ∨ p = .exited ∨ p = .gaveUp := by
    intro i p hi
    have h1 := hr (.work i) rfl
    have h2 := hr (.initOk i) rfl
    simp only [ThreadPool.step, ThreadPool.work, hi] at h1
    cases p with
    | init => simp [ThreadPool.step, hi] at h2
    | failed => simp [h.al, hlock] at h1
    | drain => exact absurd ((h.drn i).2 hi) (by simp [hlock])
    | get =>
      cases hq : s.queue with
      | nil => exact Or.inl ⟨rfl, rfl⟩
      | cons it q =>
        cases it with
        | task t => simp [hq] at h1
        | stop => simp only [hq] at h1; split at h1 <;> cases h1
    | got t => simp [h.al] at h1
    | running t b => simp at h1
    | ran t d => simp [h.al] at h1
    | stopping => simp at h1
    | exited => exact Or.inr (Or.inl rfl)
    | gaveUp => exact Or.inr (Or.inr rfl)
    | died =>
      have := countP_pos' hi Pc.dead rfl
      have := h.dead
      omega
  intro t ht
  have hk : k = s.submitted.length := by
    have hne := h.ne hm (by intro e; simp [e] at ht) (by simp [hlock])
    cases hp : s.pcs with
    | nil => exact absurd hp hne
    | cons p l =>
      have h0 : s.pcs[0]? = some p := by simp [hp]
      rcases hpc 0 p h0 with ⟨_, hq⟩ | rfl | rfl
      · exact (h.head_nil hq).1
      · exact (h.out (countP_pos' h0 Pc.out rfl)).2
      · exact h.brk (h.gone (countP_pos' h0 Pc.gone rfl)) (by simp [hlock])
  have hc := h.cons t
  rw [hk, List.take_length] at hc
  have h0 : s.pcs.countP (Pc.holds t) = 0 := by
    rw [List.countP_eq_zero]
    intro p hp
    obtain ⟨i, hi⟩ := List.mem_iff_getElem?.1 hp
    rcases hpc i p hi with ⟨rfl, _⟩ | rfl | rfl <;> simp [Pc.holds]
  have := List.count_pos_iff.2 ht
  rw [← List.count_pos_iff, ← List.count_pos_iff]
  omega

theorem run_max (acts : List Act) (s : St) : (run s acts).max = s.max := by
  induction acts generalizing s with
  | nil => rfl
  | cons a l ih =>
    simp only [run]
    rw [ih]
    cases hs : step s a with
    | none => rfl
    | some s' =>
      simp only [Option.getD_some]
      cases a <;> simp only [step, work, adjust] at hs <;> (repeat' split at hs) <;> first | cases hs; rfl | cases hs

/-- **C103, everything is executed**: from every reachable state, if nothing more is called, the threads come to rest after finitely many steps, in whatever order they take them; and then every task that was submitted has ended, or failed as an initializer failed. -/
theorem C103_completes (max : Nat) (hm : 0 < max) (acts : List Act) (hc : .collect ∉ acts) :
    (∃ n, ∀ more : List Act, (∀ a ∈ more, a.internal = true) → taken (run (new max) acts) more ≤ n) ∧
      (Rests (run (new max) acts) → ∀ t ∈ (run (new max) acts).submitted, t ∈ (run (new max) acts).ended.map Prod.fst ∨ t ∈ (run (new max) acts).failed) := by
  refine ⟨⟨weight (run (new max) acts), fun more h => taken_le _ more h⟩, ?_⟩
  obtain ⟨k, m, h⟩ := (Inv.new max).run hc
  exact h.rests (by rw [run_max]; exact hm)

/-- **C103, BrokenThreadPool**: tasks fail only if an initializer has failed. -/
theorem C103_broken (max : Nat) (acts : List Act) (hc : .collect ∉ acts) (hi : ∀ i, .initFail i ∉ acts) : (run (new max) acts).failed = [] := by
  obtain ⟨k, m, h⟩ := (Inv.new max).run hc
  have hb : ∀ (acts : List Act) (s : St), (∀ i, .initFail i ∉ acts) → s.broken = false ∧ .failed ∉ s.pcs → (run s acts).broken = false := by
    intro acts
    induction acts with
    | nil => intro s _ h; exact h.1
    | cons a l ih =>
      intro s hi h
      simp only [run]
      apply ih _ (fun i hx => hi i (List.mem_cons_of_mem _ hx))
      cases hs : step s a with
      | none => exact h
      | some s' =>
        simp only [Option.getD_some]
        have hset : ∀ i b, b ≠ Pc.failed → .failed ∉ s.pcs.set i b := by
          intro i b hb hx
          rcases List.mem_or_eq_of_mem_set hx with hx | hx
          · exact h.2 hx
          · exact hb hx.symm
        cases a with
        | initFail i => exact absurd (List.mem_cons_self ..) (hi i)
        | work i =>
          simp only [step, work] at hs
          cases hp : s.pcs[i]? with
          | none => simp [hp] at hs
          | some p =>
            simp only [hp] at hs
            cases p with
            | failed => exact absurd (List.mem_of_getElem? hp) h.2
            | _ =>
              simp only [] at hs
              (repeat' split at hs) <;> first | cases hs; exact ⟨h.1, hset _ _ nofun⟩ | cases hs; exact h | cases hs
        | adjust =>
          simp only [step, adjust] at hs
          (repeat' split at hs) <;> first | (cases hs; exact ⟨h.1, by simp [h.2]⟩) | cases hs
        | initOk i =>
          simp only [step] at hs
          split at hs
          · cases hs; exact ⟨h.1, hset _ _ nofun⟩
          · cases hs
        | _ =>
          simp only [step] at hs
          (repeat' split at hs) <;> first | (cases hs; exact h) | cases hs
  have := hb acts (new max) hi ⟨rfl, by simp [new]⟩
  cases e : (run (new max) acts).failed with
  | nil => rfl
  | cons a l =>
    have h2 := h.fl (by simp [e])
    rw [this] at h2
    cases h2

/-! Cases that meet the hypotheses: two workers, three tasks; a failing initializer -/
def twoWorkers : List Act := [.submit, .adjust, .submit, .tick, .adjust, .submit, .adjust, .initOk 1, .work 1, .work 1, .tick, .initOk 0, .work 1, .work 0, .work 0, .work 1, .work 1, .work 0, .work 1, .work 1, .work 1, .work 0, .shutdown, .work 0, .work 0, .work 1, .work 1]
example : .collect ∉ twoWorkers ∧ ((run (new 2) twoWorkers).begun.map fun p => p.1.id) = [0, 1, 2] ∧ (run (new 2) twoWorkers).waits = [1, 2, 1] ∧
    (run (new 2) twoWorkers).execs = [1, 0, 0] ∧ (run (new 2) twoWorkers).pcs = [.exited, .exited] := by decide +kernel
example : (run (new 3) [.submit, .adjust, .initFail 0, .work 0, .work 0, .work 0]).failed = [⟨0, 0⟩] := by decide +kernel

/-! ## C104 -/

/-- **C104, violated**: once the executor is not referenced any more, no task is begun, and none fails: those that wait in the queue never complete, whatever happens. -/
theorem C104_lost_violates (s : St) (hs : s.alive = false) (hl : s.lock = .free) (hd : .drain ∉ s.pcs) (more : List Act) :
    (run s more).begun = s.begun ∧ (run s more).failed = s.failed := by
  induction more generalizing s with
  | nil => exact ⟨rfl, rfl⟩
  | cons a l ih =>
    simp only [run]
    cases hst : step s a with
    | none => exact ih s hs hl hd
    | some s' =>
      simp only [Option.getD_some]
      suffices h : s'.alive = false ∧ s'.lock = .free ∧ .drain ∉ s'.pcs ∧ s'.begun = s.begun ∧ s'.failed = s.failed by
        have := ih s' h.1 h.2.1 h.2.2.1
        rw [this.1, this.2]
        exact h.2.2.2
      have hset : ∀ i b, b ≠ Pc.drain → .drain ∉ s.pcs.set i b := by
        intro i b hb hx
        rcases List.mem_or_eq_of_mem_set hx with hx | hx
        · exact hd hx
        · exact hb hx.symm
      cases a with
      | tick => simp only [step] at hst; cases hst; exact ⟨hs, hl, hd, rfl, rfl⟩
      | submit => simp [step, hs] at hst
      | adjust => simp [step, hl] at hst
      | shutdown => simp [step, hs] at hst
      | collect => simp [step, hs] at hst
      | initOk i =>
        simp only [step] at hst
        split at hst
        · cases hst; exact ⟨hs, hl, hset _ _ nofun, rfl, rfl⟩
        · cases hst
      | initFail i =>
        simp only [step] at hst
        split at hst
        · cases hst; exact ⟨hs, hl, hset _ _ nofun, rfl, rfl⟩
        · cases hst
      | work i =>
        simp only [step, work] at hst
        cases hp : s.pcs[i]? with
        | none => simp [hp] at hst
        | some p =>
          simp only [hp, hs] at hst
          cases p with
          | drain => exact absurd (List.mem_of_getElem? hp) hd
          | _ =>
            simp only [] at hst
            (repeat' split at hst) <;> first
              | (cases hst; exact ⟨rfl, hl, hset _ _ nofun, rfl, rfl⟩)
              | (cases hst; exact ⟨hs, hl, hset _ _ nofun, rfl, rfl⟩)
              | (cases hst; exact ⟨rfl, hl, hd, rfl, rfl⟩)
              | (cases hst; exact ⟨hs, hl, hd, rfl, rfl⟩)
              | simp_all

/-- **C104, violated**, a state that meets the hypotheses: a task is submitted, and the executor is not kept.  The worker dies with the task. -/
theorem C104_dropped_violates : ∃ acts : List Act, let s := run (new 1) acts
    s.alive = false ∧ s.lock = .free ∧ .drain ∉ s.pcs ∧ s.submitted = [⟨0, 0⟩] ∧ s.begun = [] ∧ s.failed = [] ∧ s.queue = [.stop] ∧ s.pcs = [.died] :=
  ⟨[.submit, .adjust, .initOk 0, .collect, .work 0, .work 0], by decide +kernel⟩

theorem begun_step {s s' : St} {a : Act} (h : ∀ p ∈ s.begun, p.1 ∈ s.ended.map Prod.fst ∨ .running p.1 p.2 ∈ s.pcs) (hs : step s a = some s') :
    ∀ p ∈ s'.begun, p.1 ∈ s'.ended.map Prod.fst ∨ .running p.1 p.2 ∈ s'.pcs := by
  have hset : ∀ (i : Nat) (a b : Pc), s.pcs[i]? = some a → (∀ t c, a ≠ .running t c) → ∀ p ∈ s.begun, p.1 ∈ s.ended.map Prod.fst ∨ .running p.1 p.2 ∈ s.pcs.set i b := by
    intro i a b hi ha p hp
    refine (h p hp).imp id fun hm => ?_
    obtain ⟨j, hj⟩ := List.mem_iff_getElem?.1 hm
    have hij : j ≠ i := by
      intro e
      subst e
      rw [hi] at hj
      exact ha _ _ (Option.some.inj hj)
    exact List.mem_iff_getElem?.2 ⟨j, by rw [getElem?_set' hi, if_neg hij]; exact hj⟩
  cases a with
  | initOk i =>
    simp only [step] at hs
    split at hs
    · rename_i hi; cases hs; exact hset i _ _ hi nofun
    · cases hs
  | initFail i =>
    simp only [step] at hs
    split at hs
    · rename_i hi; cases hs; exact hset i _ _ hi nofun
    · cases hs
  | adjust =>
    simp only [step, adjust] at hs
    (repeat' split at hs) <;> first
      | (cases hs; exact h)
      | (cases hs; intro p hp; exact (h p hp).imp id fun hm => List.mem_append_left _ hm)
      | cases hs
  | work i =>
    simp only [step, work] at hs
    cases hp : s.pcs[i]? with
    | none => simp [hp] at hs
    | some p =>
      simp only [hp] at hs
      cases p with
      | got t =>
        dsimp only at hs
        split at hs
        · cases hs
          intro p hpm
          simp only [List.mem_append, List.mem_singleton] at hpm
          rcases hpm with hpm | rfl
          · exact hset i _ _ hp nofun p hpm
          · exact Or.inr (List.mem_iff_getElem?.2 ⟨i, by rw [getElem?_set' hp, if_pos rfl]⟩)
        · cases hs; exact hset i _ _ hp nofun
      | running t c =>
        cases hs
        intro p hpm
        rcases h p hpm with hm | hm
        · exact Or.inl (by simp at hm ⊢; exact Or.inl hm)
        · obtain ⟨j, hj⟩ := List.mem_iff_getElem?.1 hm
          by_cases hij : j = i
          · subst hij
            rw [hp] at hj
            cases hj
            exact Or.inl (by simp)
          · exact Or.inr (List.mem_iff_getElem?.2 ⟨j, by rw [getElem?_set' hp, if_neg hij]; exact hj⟩)
      | _ =>
        simp only [] at hs
        (repeat' split at hs) <;> first
          | (cases hs; exact hset i _ _ hp nofun)
          | (cases hs; exact h)
          | cases hs
  | _ =>
    simp only [step] at hs
    (repeat' split at hs) <;> first | (cases hs; exact h) | cases hs

theorem begun_run (acts : List Act) (s : St) (h : ∀ p ∈ s.begun, p.1 ∈ s.ended.map Prod.fst ∨ .running p.1 p.2 ∈ s.pcs) :
    ∀ p ∈ (run s acts).begun, p.1 ∈ (run s acts).ended.map Prod.fst ∨ .running p.1 p.2 ∈ (run s acts).pcs := by
  induction acts generalizing s with
  | nil => exact h
  | cons a l ih =>
    simp only [run]
    cases hs : step s a with
    | none => exact ih s h
    | some s' => exact ih s' (begun_step h hs)

/-- **C104** (partial: for tasks that were begun before the executor was lost). Whatever is referenced, the threads come to rest after finitely many steps, and then every task that was begun has ended. -/
theorem C104_begun_partial (max : Nat) (acts : List Act) :
    (∃ n, ∀ more : List Act, (∀ a ∈ more, a.internal = true) → taken (run (new max) acts) more ≤ n) ∧
      (Rests (run (new max) acts) → ∀ p ∈ (run (new max) acts).begun, p.1 ∈ (run (new max) acts).ended.map Prod.fst) := by
  refine ⟨⟨weight (run (new max) acts), fun more h => taken_le _ more h⟩, ?_⟩
  intro hr p hp
  rcases begun_run acts (new max) (by simp [new]) p hp with h | h
  · exact h
  · obtain ⟨i, hi⟩ := List.mem_iff_getElem?.1 h
    have := hr (.work i) rfl
    simp [step, work, hi] at this

example : (run (new 1) [.submit, .adjust, .initOk 0, .work 0, .work 0, .collect, .work 0]).ended = [(⟨0, 0⟩, 0, 0)] := by decide +kernel

/-! ## C105 -/

/-- **C105, violated**: if the initializer of a worker fails after `shutdown`, draining the queue removes the sentinel as well, and the other worker waits for ever; `shutdown` that waits for the threads does not return. -/
theorem C105_shutdown_violates : ∃ acts : List Act, .collect ∉ acts ∧ (run (new 2) acts).shutdown = true ∧ (run (new 2) acts).pcs = [.get, .gaveUp] ∧ Rests (run (new 2) acts) := by
  refine ⟨[.submit, .adjust, .submit, .adjust, .initOk 0, .work 0, .work 0, .work 0, .work 0, .work 0, .work 0, .work 0, .work 0, .shutdown, .initFail 1, .work 1, .work 1, .work 1], by decide +kernel, by decide +kernel, by decide +kernel, ?_⟩
  intro a ha
  have e : run (new 2) [.submit, .adjust, .submit, .adjust, .initOk 0, .work 0, .work 0, .work 0, .work 0, .work 0, .work 0, .work 0, .work 0, .shutdown, .initFail 1, .work 1, .work 1, .work 1] =
      { max := 2, now := 0, queue := [], pcs := [.get, .gaveUp], sem := 2, shutdown := true, broken := true, alive := true, lock := .free,
        submitted := [⟨0, 0⟩, ⟨1, 0⟩], begun := [(⟨0, 0⟩, 0), (⟨1, 0⟩, 0)], ended := [(⟨0, 0⟩, 0, 0), (⟨1, 0⟩, 0, 0)], failed := [], lost := [], waits := [0, 0], execs := [0, 0] } := rfl
  rw [e]
  cases a with
  | adjust => rfl
  | initOk i => rcases i with _ | _ | i <;> simp [step]
  | initFail i => rcases i with _ | _ | i <;> simp [step]
  | work i => rcases i with _ | _ | i <;> simp [step, work]
  | _ => cases ha

def Item.isStop : Item → Bool | .stop => true | _ => false
def Pc.isStopping : Pc → Bool | .stopping => true | _ => false
def Pc.broken : Pc → Bool | .failed => true | .drain => true | .gaveUp => true | .died => true | _ => false

/-- the sentinel is never lost, if no initializer fails -/
structure Stop (s : St) : Prop where
  al : s.alive = true
  br : s.pcs.countP Pc.broken = 0
  stop : s.shutdown = true → 0 < s.queue.countP Item.isStop + s.pcs.countP Pc.isStopping

theorem Stop.step {s s' : St} {a : Act} (h : Stop s) (hc : a ≠ .collect) (hi : ∀ i, a ≠ .initFail i) (hs : step s a = some s') : Stop s' := by
  cases a with
  | tick => simp only [ThreadPool.step] at hs; cases hs; exact ⟨h.al, h.br, h.stop⟩
  | collect => exact absurd rfl hc
  | initFail i => exact absurd rfl (hi i)
  | submit =>
    simp only [ThreadPool.step] at hs
    (repeat' split at hs)
    · cases hs; exact h
    · cases hs
      refine ⟨h.al, h.br, fun hx => ?_⟩
      have := h.stop hx
      simp only [List.countP_append]
      omega
    · cases hs
  | adjust =>
    simp only [ThreadPool.step, adjust] at hs
    (repeat' split at hs)
    · cases hs; exact ⟨h.al, h.br, h.stop⟩
    · cases hs
      refine ⟨h.al, ?_, fun hx => ?_⟩
      · simp [List.countP_append, h.br, Pc.broken]
      · have := h.stop hx
        simp only [List.countP_append]
        omega
    · cases hs; exact ⟨h.al, h.br, h.stop⟩
    · cases hs
  | shutdown =>
    simp only [ThreadPool.step] at hs
    split at hs
    · cases hs
      refine ⟨h.al, h.br, fun _ => ?_⟩
      simp [List.countP_append, Item.isStop]
      omega
    · cases hs
  | initOk i =>
    simp only [ThreadPool.step] at hs
    split at hs
    · rename_i hi
      cases hs
      have h1 := countP_set' (b := .get) hi Pc.broken
      have h2 := countP_set' (b := .get) hi Pc.isStopping
      simp [Pc.broken, Pc.isStopping] at h1 h2
      refine ⟨h.al, ?_, fun hx => ?_⟩
      · have := h.br; simp only []; omega
      · have := h.stop hx; simp only []; omega
    · cases hs
  | work i =>
    simp only [ThreadPool.step, ThreadPool.work] at hs
    cases hp : s.pcs[i]? with
    | none => simp [hp] at hs
    | some p =>
      simp only [hp, h.al] at hs
      have h1 := fun b => countP_set' (b := b) hp Pc.broken
      have h2 := fun b => countP_set' (b := b) hp Pc.isStopping
      have hbr := h.br
      cases p with
      | init => cases hs
      | exited => cases hs
      | gaveUp => cases hs
      | died => cases hs
      | failed => have := countP_pos' hp Pc.broken rfl; omega
      | drain => have := countP_pos' hp Pc.broken rfl; omega
      | get =>
        cases hq : s.queue with
        | nil => simp [hq] at hs
        | cons it q =>
          cases it with
          | task t =>
            simp only [hq] at hs
            cases hs
            have h1 := h1 (.got t)
            have h2 := h2 (.got t)
            simp [Pc.broken, Pc.isStopping] at h1 h2
            refine ⟨rfl, ?_, fun hx => ?_⟩
            · simp only []; omega
            · have := h.stop hx
              rw [hq] at this
              simp [Item.isStop] at this
              simp only []; omega
          | stop =>
            simp only [hq] at hs
            split at hs
            · cases hs
              have h1 := h1 .stopping
              have h2 := h2 .stopping
              simp [Pc.broken, Pc.isStopping] at h1 h2
              refine ⟨rfl, ?_, fun hx => ?_⟩
              · simp only []; omega
              · simp only []; omega
            · rename_i hsh
              cases hs
              exact ⟨rfl, h.br, fun hx => by simp only [] at hx; simp [hx] at hsh⟩
      | got t =>
        simp only [if_true] at hs
        cases hs
        have h1 := h1 (.running t s.now)
        have h2 := h2 (.running t s.now)
        simp [Pc.broken, Pc.isStopping] at h1 h2
        refine ⟨rfl, ?_, fun hx => ?_⟩
        · simp only []; omega
        · have := h.stop hx; simp only []; omega
      | running t c =>
        cases hs
        have h1 := h1 (.ran t (s.now - c))
        have h2 := h2 (.ran t (s.now - c))
        simp [Pc.broken, Pc.isStopping] at h1 h2
        refine ⟨rfl, ?_, fun hx => ?_⟩
        · simp only []; omega
        · have := h.stop hx; simp only []; omega
      | ran t d =>
        simp only [if_true] at hs
        cases hs
        have h1 := h1 .get
        have h2 := h2 .get
        simp [Pc.broken, Pc.isStopping] at h1 h2
        refine ⟨rfl, ?_, fun hx => ?_⟩
        · simp only []; omega
        · have := h.stop hx; simp only []; omega
      | stopping =>
        cases hs
        have h1 := h1 .exited
        simp [Pc.broken] at h1
        refine ⟨rfl, ?_, fun hx => ?_⟩
        · simp only []; omega
        · simp [List.countP_append, Item.isStop]; omega

theorem Stop.run {acts : List Act} {s : St} (h : Stop s) (hc : .collect ∉ acts) (hi : ∀ i, .initFail i ∉ acts) : Stop (run s acts) := by
  induction acts generalizing s with
  | nil => exact h
  | cons a l ih =>
    have hc' : .collect ∉ l := fun hx => hc (List.mem_cons_of_mem _ hx)
    have hi' : ∀ i, .initFail i ∉ l := fun i hx => hi i (List.mem_cons_of_mem _ hx)
    simp only [ThreadPool.run]
    cases hs : ThreadPool.step s a with
    | none => exact ih h hc' hi'
    | some s' => exact ih (h.step (by rintro rfl; simp at hc) (by rintro i rfl; exact hi i (by simp)) hs) hc' hi'

/-- **C105** (partial: if no initializer fails). After `shutdown` the threads come to rest after finitely many steps, in whatever order, and then every worker has ended, and every task submitted has been executed; so waiting for them ends. -/
theorem C105_shutdown_partial (max : Nat) (hm : 0 < max) (acts : List Act) (hc : .collect ∉ acts) (hi : ∀ i, .initFail i ∉ acts) (hsh : (run (new max) acts).shutdown = true) :
    (∃ n, ∀ more : List Act, (∀ a ∈ more, a.internal = true) → taken (run (new max) acts) more ≤ n) ∧
      (Rests (run (new max) acts) → (∀ p ∈ (run (new max) acts).pcs, p = .exited) ∧ ∀ t ∈ (run (new max) acts).submitted, t ∈ (run (new max) acts).ended.map Prod.fst) := by
  have hst : Stop (run (new max) acts) := Stop.run ⟨rfl, rfl, by simp [new]⟩ hc hi
  obtain ⟨h1, h2⟩ := C103_completes max hm acts hc
  have hf := C103_broken max acts hc hi
  refine ⟨h1, fun hr => ⟨?_, fun t ht => ?_⟩⟩
  · generalize run (new max) acts = s at *
    intro p hp
    obtain ⟨i, hpi⟩ := List.mem_iff_getElem?.1 hp
    have r1 := hr (.work i) rfl
    have r2 := hr (.initOk i) rfl
    simp only [ThreadPool.step, ThreadPool.work, hpi, hst.al] at r1
    have hb := fun h => countP_pos' hpi Pc.broken h
    have hbr := hst.br
    cases p with
    | exited => rfl
    | init => simp [ThreadPool.step, hpi] at r2
    | failed => have := hb rfl; omega
    | drain => have := hb rfl; omega
    | gaveUp => have := hb rfl; omega
    | died => have := hb rfl; omega
    | got t => simp at r1
    | running t c => simp at r1
    | ran t d => simp at r1
    | stopping => simp at r1
    | get =>
      have hq : s.queue = [] := by
        cases hq : s.queue with
        | nil => rfl
        | cons it q =>
          cases it with
          | task t => simp [hq] at r1
          | stop => simp only [hq] at r1; split at r1 <;> cases r1
      have hs := hst.stop hsh
      rw [hq] at hs
      simp only [List.countP_nil, Nat.zero_add] at hs
      obtain ⟨q, hq1, hq2⟩ := List.countP_pos_iff.1 hs
      obtain ⟨j, hj⟩ := List.mem_iff_getElem?.1 hq1
      have r3 := hr (.work j) rfl
      cases q with
      | stopping => simp [ThreadPool.step, ThreadPool.work, hj] at r3
      | _ => simp [Pc.isStopping] at hq2
  · rcases h2 hr t ht with h | h
    · exact h
    · rw [hf] at h; simp at h

example : .collect ∉ twoWorkers ∧ (∀ i, .initFail i ∉ twoWorkers) ∧ (run (new 2) twoWorkers).shutdown = true :=
  ⟨by decide, by simp [twoWorkers], by decide +kernel⟩

end Verif.ThreadPool
