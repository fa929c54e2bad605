import Verif.Conc.Monitor
/-! # C20: monitors and AtomicNumber under every schedule -/
namespace Verif.Conc
open Verif

section
variable {σ lam : Type _}

/-- Running a section without interruption. -/
def runSection : Section σ lam → σ × lam → σ × lam
  | [], x => x
  | m :: ms, x =>
    let r := m x.1 x.2
    if r.2.2 then (r.1, r.2.1) else runSection ms (r.1, r.2.1)

/-- Running sections of threads one after another, each without interruption: the shared object and all local variables. -/
def serial : List (Nat × Section σ lam) → σ × (Nat → lam) → σ × (Nat → lam)
  | [], x => x
  | (t, sec) :: rest, x =>
    let r := runSection sec (x.1, x.2 t)
    serial rest (r.1, upd x.2 t r.2)

theorem serial_append (a b : List (Nat × Section σ lam)) (x : σ × (Nat → lam)) :
    serial (a ++ b) x = serial b (serial a x) := by
  induction a generalizing x with
  | nil => rfl
  | cons y a ih => obtain ⟨t, sec⟩ := y; exact ih _

@[simp] theorem upd_same {α : Type _} (f : Nat → α) (t : Nat) (x : α) : upd f t x t = x := by simp [upd]
theorem upd_other {α : Type _} (f : Nat → α) {t u : Nat} (x : α) (h : u ≠ t) : upd f t x u = f u := by simp [upd, h]
theorem upd_upd {α : Type _} (f : Nat → α) (t : Nat) (x y : α) : upd (upd f t x) t y = upd f t y := by
  funext u; unfold upd; split <;> rfl

/-- the sections of one thread in the log -/
def ofThread (t : Nat) (log : List (Nat × Section σ lam)) : List (Section σ lam) :=
  log.filterMap (fun x => if x.1 = t then some x.2 else none)

structure Inv (v : σ) (l : Nat → lam) (p : Nat → List (Section σ lam)) (s : Sys σ lam) : Prop where
  excl : ∀ t, s.inside t ≠ none ↔ s.lock = some t
  free : s.lock = none → (s.shared, s.locals) = serial s.log (v, l)
  held : ∀ t ms, s.inside t = some ms → ∃ done sec, s.log = done ++ [(t, sec)] ∧
    runSection ms (s.shared, s.locals t) = runSection sec ((serial done (v, l)).1, (serial done (v, l)).2 t) ∧
    ∀ u, u ≠ t → s.locals u = (serial done (v, l)).2 u
  order : ∀ t, ofThread t s.log ++ s.prog t = p t

theorem inv_init (v : σ) (l : Nat → lam) (p : Nat → List (Section σ lam)) : Inv v l p (Sys.init v l p) := by
  refine ⟨?_, ?_, ?_, ?_⟩
  · intro t; simp [Sys.init]
  · intro _; rfl
  · intro t ms h; simp [Sys.init] at h
  · intro t; simp [Sys.init, ofThread]

theorem inv_step {v : σ} {l : Nat → lam} {p : Nat → List (Section σ lam)} {s : Sys σ lam} (h : Inv v l p s) (t : Nat) :
    Inv v l p (s.step t) := by
  unfold Sys.step
  cases hi : s.inside t with
  | none =>
    dsimp only
    cases hp : s.prog t with
    | nil => exact h
    | cons sec rest =>
      dsimp only
      cases hl : s.lock with
      | some u => exact h
      | none =>
        dsimp only
        have hf := h.free hl
        have hnone : ∀ u, s.inside u = none := by
          intro u
          cases hu : s.inside u with
          | none => rfl
          | some x => have := (h.excl u).1 (by rw [hu]; simp); rw [hl] at this; cases this
        refine ⟨?_, ?_, ?_, ?_⟩
        · intro u
          dsimp only
          by_cases hut : u = t
          · subst hut; simp
          · rw [upd_other _ _ hut, hnone u]
            simp [Ne.symm hut]
        · intro hh; cases hh
        · intro u ms hu
          dsimp only at hu ⊢
          by_cases hut : u = t
          · subst hut
            rw [upd_same] at hu
            cases hu
            refine ⟨s.log, sec, rfl, ?_, ?_⟩
            · rw [← hf]
            · intro w _; rw [← hf]
          · rw [upd_other _ _ hut, hnone u] at hu
            cases hu
        · intro u
          dsimp only
          have := h.order u
          unfold ofThread at this ⊢
          rw [List.filterMap_append]
          by_cases hut : u = t
          · subst hut
            rw [upd_same, ← this, hp]
            simp
          · rw [upd_other _ _ hut, ← this]
            simp [Ne.symm hut]
  | some x =>
    have hlock : s.lock = some t := (h.excl t).1 (by rw [hi]; simp)
    have hothers : ∀ u, u ≠ t → s.inside u = none := by
      intro u hut
      cases hu : s.inside u with
      | none => rfl
      | some x =>
        have := (h.excl u).1 (by rw [hu]; simp)
        rw [hlock] at this
        exact absurd (Option.some.inj this).symm hut
    obtain ⟨done, sec, h1, h2, h3⟩ := h.held t x hi
    cases x with
    | nil =>
      dsimp only
      refine ⟨?_, ?_, ?_, h.order⟩
      · intro u
        dsimp only
        by_cases hut : u = t
        · subst hut; simp
        · rw [upd_other _ _ hut, hothers u hut]; simp
      · intro _
        dsimp only
        rw [h1, serial_append]
        simp only [serial]
        rw [← h2]
        simp only [runSection, Prod.mk.injEq, true_and]
        funext u
        by_cases hut : u = t
        · subst hut; simp
        · rw [upd_other _ _ hut]; exact h3 u hut
      · intro u ms hu
        dsimp only at hu
        by_cases hut : u = t
        · subst hut; simp at hu
        · rw [upd_other _ _ hut, hothers u hut] at hu; cases hu
    | cons m ms =>
      dsimp only
      refine ⟨?_, ?_, ?_, h.order⟩
      · intro u
        dsimp only
        by_cases hut : u = t
        · subst hut; simp [hlock]
        · rw [upd_other _ _ hut]; exact h.excl u
      · intro hh
        dsimp only at hh
        rw [hlock] at hh; cases hh
      · intro u ms' hu
        dsimp only at hu ⊢
        by_cases hut : u = t
        · subst hut
          rw [upd_same] at hu
          cases hu
          refine ⟨done, sec, h1, ?_, ?_⟩
          · rw [← h2, upd_same, runSection]
            dsimp only
            split
            · simp [runSection]
            · rfl
          · intro w hw; rw [upd_other _ _ hw]; exact h3 w hw
        · rw [upd_other _ _ hut, hothers u hut] at hu; cases hu

theorem inv_run {v : σ} {l : Nat → lam} {p : Nat → List (Section σ lam)} (ts : List Nat) :
    ∀ {s : Sys σ lam}, Inv v l p s → Inv v l p (s.run ts) := by
  induction ts with
  | nil => intro s h; exact h
  | cons t ts ih => intro s h; exact ih (inv_step h t)

/-- **C20.** At most one thread is inside a monitor, for every number of threads, every program and every schedule. -/
theorem C20_mutual_exclusion (v : σ) (l : Nat → lam) (p : Nat → List (Section σ lam)) (ts : List Nat) (t u : Nat)
    (ht : ((Sys.init v l p).run ts).inside t ≠ none) (hu : ((Sys.init v l p).run ts).inside u ≠ none) : t = u := by
  have h := inv_run ts (inv_init v l p)
  have h1 := (h.excl t).1 ht
  rw [(h.excl u).1 hu] at h1
  exact (Option.some.inj h1).symm

/-- **C20.** Whenever nobody is inside, the shared object and every thread's local variables are as if the sections had been run one
after another without interruption in the order in which the lock was taken, which has each thread's sections in
the order of its program. -/
theorem C20_serializable (v : σ) (l : Nat → lam) (p : Nat → List (Section σ lam)) (ts : List Nat)
    (hq : ∀ t, ((Sys.init v l p).run ts).inside t = none) :
    (((Sys.init v l p).run ts).shared, ((Sys.init v l p).run ts).locals) = serial ((Sys.init v l p).run ts).log (v, l) ∧
    ∀ t, ofThread t ((Sys.init v l p).run ts).log ++ ((Sys.init v l p).run ts).prog t = p t := by
  have h := inv_run ts (inv_init v l p)
  refine ⟨h.free ?_, h.order⟩
  cases hl : ((Sys.init v l p).run ts).lock with
  | none => rfl
  | some t => exact absurd (hq t) ((h.excl t).2 hl)

/-- **C20.** The threads are never all stuck: while some thread is unfinished, some unfinished thread is inside, or nobody holds the lock. -/
theorem C20_no_deadlock (v : σ) (l : Nat → lam) (p : Nat → List (Section σ lam)) (ts : List Nat) :
    (∃ t, ((Sys.init v l p).run ts).inside t ≠ none) ∨ ((Sys.init v l p).run ts).lock = none := by
  have h := inv_run ts (inv_init v l p)
  cases hl : ((Sys.init v l p).run ts).lock with
  | none => exact Or.inr rfl
  | some t => exact Or.inl ⟨t, (h.excl t).2 hl⟩

end

/-! ## AtomicNumber -/

section
variable {V : Type _}

/-- the value after the updates of a list of uses; an update that raises changes nothing -/
def applyOps (v : V) : List (AOp V) → V
  | [] => v
  | .update f :: os => applyOps ((f v).getD v) os
  | .read _ :: os => applyOps v os

/-- what thread `t`'s reads give when the uses are performed one after another: `g` of the value after those before it -/
def readsOf (t : Nat) (v : V) : List (Nat × AOp V) → List V
  | [] => []
  | (_, .update f) :: os => readsOf t ((f v).getD v) os
  | (u, .read g) :: os => (if u = t then [g v] else []) ++ readsOf t v os

/-- the threads of an AtomicNumber: starting value and programs -/
def atomicInit (v : V) (p : Nat → List (AOp V)) : Sys V (ALoc V) :=
  Sys.init v (fun _ => { tmp := none, reads := [] }) (fun t => (p t).map AOp.section)

theorem runSection_op (o : AOp V) (v : V) (l : ALoc V) (hl : l.tmp = none) :
    runSection o.section (v, l) = (applyOps v [o], { l with reads := l.reads ++ readsOf 0 v [(0, o)] }) := by
  obtain ⟨tmp, reads⟩ := l
  dsimp only at hl
  subst hl
  cases o with
  | update f =>
    simp only [AOp.section, runSection, applyOps, readsOf, Option.bind_some, List.append_nil]
    have hc : f v = none ∨ ∃ w, f v = some w := by
      cases f v with
      | none => exact Or.inl rfl
      | some w => exact Or.inr ⟨w, rfl⟩
    rcases hc with hc | ⟨w, hc⟩ <;> simp [hc]
  | read g => simp [AOp.section, runSection, applyOps, readsOf]

/-- The uses in the order in which the lock was taken: every section of the log is one of a use. -/
def Uses (ops : List (Nat × AOp V)) (log : List (Nat × Section V (ALoc V))) : Prop :=
  log = ops.map (fun x => (x.1, x.2.section))

theorem serial_uses (ops : List (Nat × AOp V)) : ∀ (v : V) (l : Nat → ALoc V), (∀ t, (l t).tmp = none) →
    serial (ops.map (fun x => (x.1, x.2.section))) (v, l) =
      (applyOps v (ops.map (·.2)), fun t => { tmp := none, reads := (l t).reads ++ readsOf t v ops }) := by
  induction ops with
  | nil =>
    intro v l hl
    simp only [List.map_nil, serial, applyOps, readsOf, List.append_nil, Prod.mk.injEq, true_and]
    funext t
    have := hl t
    cases h : l t
    rw [h] at this
    simp_all
  | cons x ops ih =>
    obtain ⟨t, o⟩ := x
    intro v l hl
    simp only [List.map_cons, serial]
    rw [runSection_op o v (l t) (hl t), ih]
    · cases o with
      | update f =>
        simp only [applyOps, readsOf, List.append_nil, Prod.mk.injEq, true_and]
        funext u
        by_cases hu : u = t
        · subst hu; simp
        · rw [upd_other _ _ hu]
      | read g =>
        simp only [applyOps, readsOf, List.append_nil, Prod.mk.injEq, true_and]
        funext u
        by_cases hu : u = t
        · subst hu; simp
        · rw [upd_other _ _ hu, if_neg (Ne.symm hu)]; simp
    · intro u
      by_cases hu : u = t
      · subst hu; simp [hl u]
      · rw [upd_other _ _ hu]; exact hl u

/-- a log of sections that are uses, thread by thread, is a log of uses -/
theorem exists_uses (p : Nat → List (AOp V)) : ∀ (log : List (Nat × Section V (ALoc V))) (q : Nat → List (Section V (ALoc V))),
    (∀ t, ofThread t log ++ q t = (p t).map AOp.section) →
    ∃ ops : List (Nat × AOp V), log = ops.map (fun x => (x.1, x.2.section)) ∧
      ∀ t, ∃ rest, (ops.filterMap (fun x => if x.1 = t then some x.2 else none)) ++ rest = p t ∧ q t = rest.map AOp.section := by
  intro log
  induction log generalizing p with
  | nil =>
    intro q h
    refine ⟨[], rfl, fun t => ⟨p t, rfl, ?_⟩⟩
    have := h t
    simpa [ofThread] using this
  | cons x log ih =>
    obtain ⟨t, sec⟩ := x
    intro q h
    have ht := h t
    simp only [ofThread, List.filterMap_cons, if_true, List.cons_append] at ht
    cases hp : p t with
    | nil => rw [hp] at ht; cases ht
    | cons o os =>
      rw [hp, List.map_cons, List.cons.injEq] at ht
      obtain ⟨ops, h1, h2⟩ := ih (upd p t os) q (by
        intro u
        by_cases hu : u = t
        · subst hu; rw [upd_same]; exact ht.2
        · rw [upd_other _ _ hu, ← h u]
          simp [ofThread, Ne.symm hu])
      refine ⟨(t, o) :: ops, by rw [List.map_cons, ← h1, ← ht.1], ?_⟩
      intro u
      obtain ⟨rest, h3, h4⟩ := h2 u
      refine ⟨rest, ?_, h4⟩
      by_cases hu : u = t
      · subst hu
        rw [upd_same] at h3
        rw [hp, ← h3]; simp
      · rw [upd_other _ _ hu] at h3
        rw [← h3]; simp [Ne.symm hu]

/-- **C20.** When nobody is inside (in particular when all threads have finished), there is an order of the uses made so far, keeping
each thread's program order, such that the number's value is that of performing the updates in this order, and every thread's reads gave
the values after a prefix of them. -/
theorem C20_atomic_number (v : V) (p : Nat → List (AOp V)) (ts : List Nat)
    (hq : ∀ t, ((atomicInit v p).run ts).inside t = none) :
    ∃ ops : List (Nat × AOp V),
      (∀ t, ∃ rest, (ops.filterMap (fun x => if x.1 = t then some x.2 else none)) ++ rest = p t ∧
        (((atomicInit v p).run ts).prog t = [] → rest = [])) ∧
      ((atomicInit v p).run ts).shared = applyOps v (ops.map (·.2)) ∧
      ∀ t, (((atomicInit v p).run ts).locals t).reads = readsOf t v ops := by
  obtain ⟨h1, h2⟩ := C20_serializable v _ (fun t => (p t).map AOp.section) ts hq
  obtain ⟨ops, h3, h4⟩ := exists_uses p _ _ h2
  refine ⟨ops, ?_, ?_, ?_⟩
  · intro t
    obtain ⟨rest, h5, h6⟩ := h4 t
    refine ⟨rest, h5, fun h => ?_⟩
    have h : ((Sys.init v _ fun t => (p t).map AOp.section).run ts).prog t = [] := h
    rw [h] at h6
    simpa using h6.symm
  · rw [h3, serial_uses _ _ _ (fun _ => rfl)] at h1
    exact (Prod.mk.injEq _ _ _ _ ▸ h1).1
  · intro t
    rw [h3, serial_uses _ _ _ (fun _ => rfl)] at h1
    have := congrFun (Prod.mk.injEq _ _ _ _ ▸ h1).2 t
    unfold atomicInit
    rw [this]; simp

end

/-! ### no update is lost -/

/-- a program of additions -/
def additions (l : List Int) : List (AOp Int) := l.map (fun k => .update (fun v => some (v + k)))

/-- the sum of the numbers the threads below `n` add -/
def total (p : Nat → List Int) : Nat → Int
  | 0 => 0
  | n + 1 => total p n + (p n).sum

theorem applyOps_additions (l : List Int) (v : Int) : applyOps v (additions l) = v + l.sum := by
  induction l generalizing v with
  | nil => simp [additions, applyOps]
  | cons k l ih =>
    show applyOps (v + k) (additions l) = _
    rw [ih, List.sum_cons]; omega

theorem total_upd (p : Nat → List Int) (t : Nat) (k : Int) (os : List Int) (hp : p t = k :: os) : ∀ n,
    total p n = total (upd p t os) n + (if t < n then k else 0) := by
  intro n
  induction n with
  | zero => simp [total]
  | succ n ih =>
    simp only [total]
    rw [ih]
    by_cases h : n = t
    · subst h
      rw [upd_same, hp, List.sum_cons, if_neg (by omega), if_pos (by omega)]; omega
    · rw [upd_other _ _ h]
      by_cases h2 : t < n
      · rw [if_pos h2, if_pos (by omega)]; omega
      · rw [if_neg h2, if_neg (by omega)]; omega

/-- the value after uses that are the threads' additions, in any order -/
theorem applyOps_total (n : Nat) : ∀ (ops : List (Nat × AOp Int)) (p : Nat → List Int) (v : Int),
    (∀ t, n ≤ t → p t = []) →
    (∀ t, ops.filterMap (fun x => if x.1 = t then some x.2 else none) = additions (p t)) →
    applyOps v (ops.map (·.2)) = v + total p n := by
  intro ops
  induction ops with
  | nil =>
    intro p v _ h
    have hp : ∀ t, p t = [] := by
      intro t
      have := h t
      simpa [additions] using this.symm
    have : ∀ n, total p n = 0 := by
      intro n
      induction n with
      | zero => rfl
      | succ n ih => simp [total, ih, hp]
    simp [applyOps, this]
  | cons x ops ih =>
    obtain ⟨t, o⟩ := x
    intro p v hn h
    have ht := h t
    simp only [List.filterMap_cons, if_true] at ht
    cases hp : p t with
    | nil => rw [hp] at ht; cases ht
    | cons k os =>
      rw [hp] at ht
      simp only [additions, List.map_cons, List.cons.injEq] at ht
      have hlt : t < n := by
        rcases Nat.lt_or_ge t n with h | h
        · exact h
        · rw [hn t h] at hp; cases hp
      have hstep := ih (upd p t os) (v + k) (by
          intro u hu
          have hne : u ≠ t := by omega
          rw [upd_other _ _ hne]; exact hn u hu) (by
          intro u
          by_cases hu : u = t
          · subst hu; rw [upd_same]; exact ht.2
          · rw [upd_other _ _ hu, ← h u]; simp [Ne.symm hu])
      rw [total_upd p t k os hp n, if_pos hlt, List.map_cons, ht.1]
      show applyOps (v + k) (ops.map (·.2)) = _
      rw [hstep]; omega

/-- **C20.** `n` threads add numbers to an AtomicNumber with `+=`.  When they all have finished, under whatever schedule, the value is the
starting value plus everything they added: no update is lost. -/
theorem C20_no_lost_update (v : Int) (n : Nat) (p : Nat → List Int) (hn : ∀ t, n ≤ t → p t = []) (ts : List Nat)
    (hq : ∀ t, ((atomicInit v (fun t => additions (p t))).run ts).inside t = none)
    (hdone : ∀ t, ((atomicInit v (fun t => additions (p t))).run ts).prog t = []) :
    ((atomicInit v (fun t => additions (p t))).run ts).shared = v + total p n := by
  obtain ⟨ops, h1, h2, _⟩ := C20_atomic_number v (fun t => additions (p t)) ts hq
  rw [h2]
  apply applyOps_total n ops p v hn
  intro t
  obtain ⟨rest, h3, h4⟩ := h1 t
  rw [h4 (hdone t), List.append_nil] at h3
  exact h3

/-- a thread that is not scheduled stays where it is -/
theorem run_other {σ lam : Type _} (ts : List Nat) : ∀ (s : Sys σ lam) (t : Nat), t ∉ ts →
    (s.run ts).inside t = s.inside t ∧ (s.run ts).prog t = s.prog t := by
  induction ts with
  | nil => intro s t _; exact ⟨rfl, rfl⟩
  | cons u ts ih =>
    intro s t h
    rw [List.mem_cons, not_or] at h
    obtain ⟨h1, h2⟩ := ih (s.step u) t h.2
    have : (s.step u).inside t = s.inside t ∧ (s.step u).prog t = s.prog t := by
      unfold Sys.step
      split
      · split
        · exact ⟨rfl, rfl⟩
        · split
          · exact ⟨rfl, rfl⟩
          · exact ⟨upd_other _ _ h.1, upd_other _ _ h.1⟩
      · exact ⟨upd_other _ _ h.1, rfl⟩
      · exact ⟨upd_other _ _ h.1, rfl⟩
    exact ⟨h1.trans this.1, h2.trans this.2⟩

/-- two threads -/
def exProg (t : Nat) : List Int := if t = 0 then [1, 2] else if t = 1 then [10] else []

/-- a schedule in which the second thread tries to get in between the load and the store of the first -/
def exSched : List Nat := [0, 0, 1, 1, 0, 1, 0, 1, 1, 0, 1, 1, 0, 0, 0, 0]

example : ((atomicInit (5 : Int) (fun t => additions (exProg t))).run exSched).shared = 18 := by decide

theorem exQuiet : (∀ t, ((atomicInit (5 : Int) (fun t => additions (exProg t))).run exSched).inside t = none) ∧
    (∀ t, ((atomicInit (5 : Int) (fun t => additions (exProg t))).run exSched).prog t = []) := by
  constructor <;> intro t
  · by_cases h0 : t = 0
    · subst h0; rfl
    · by_cases h1 : t = 1
      · subst h1; rfl
      · rw [(run_other _ _ t (by simp [exSched, h0, h1])).1]; rfl
  · by_cases h0 : t = 0
    · subst h0; rfl
    · by_cases h1 : t = 1
      · subst h1; rfl
      · rw [(run_other _ _ t (by simp [exSched, h0, h1])).2]
        simp [atomicInit, Sys.init, exProg, h0, h1, additions]

example := C20_no_lost_update 5 2 exProg (by intro t ht; unfold exProg; rw [if_neg (by omega), if_neg (by omega)]) exSched
  exQuiet.1 exQuiet.2

end Verif.Conc
