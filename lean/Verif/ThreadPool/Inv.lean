import Verif.ThreadPool.Model

/-!
# MetrifiedThreadPoolExecutor: the invariant
-/
namespace Verif.ThreadPool

set_option linter.unusedSimpArgs false

theorem countP_set' {α : Type} {l : List α} {i : Nat} {a b : α} (h : l[i]? = some a) (p : α → Bool) :
    (l.set i b).countP p + (p a).toNat = l.countP p + (p b).toNat := by
  induction l generalizing i with
  | nil => simp at h
  | cons x l ih =>
    cases i with
    | zero =>
      simp at h
      subst h
      simp only [List.set_cons_zero, List.countP_cons]
      cases p x <;> cases p b <;> simp
    | succ i =>
      simp at h
      have := ih h
      simp only [List.set_cons_succ, List.countP_cons]
      omega

theorem countP_pos' {α : Type} {l : List α} {i : Nat} {a : α} (h : l[i]? = some a) (p : α → Bool) (ha : p a = true) : 0 < l.countP p := by
  rw [List.countP_pos_iff]
  exact ⟨a, List.mem_of_getElem? h, ha⟩

/-! ### Kinds of workers -/

def Pc.idle : Pc → Bool | .init => true | .failed => true | .get => true | _ => false
def Pc.out : Pc → Bool | .stopping => true | .exited => true | _ => false
def Pc.gone : Pc → Bool | .gaveUp => true | .drain => true | _ => false
def Pc.isDrain : Pc → Bool | .drain => true | _ => false
def Pc.dead : Pc → Bool | .died => true | _ => false
def Pc.isGot : Pc → Bool | .got _ => true | _ => false
def Pc.holds (t : Task) : Pc → Bool | .got u => u == t | .running u _ => u == t | _ => false
def Pc.runs (t : Task) : Pc → Bool | .running u _ => u == t | _ => false
def Pc.took (d : Nat) : Pc → Bool | .ran _ e => e == d | _ => false

structure Inv (s : St) (k m : Nat) : Prop where
  al : s.alive = true
  mx : s.pcs.length ≤ s.max
  kn : k ≤ s.submitted.length
  qu : s.queue = (s.submitted.drop k).map .task ++ List.replicate m .stop
  ids : ∀ (i : Nat) t, s.submitted[i]? = some t → t.id = i
  tm : ∀ t ∈ s.submitted, t.submitted ≤ s.now
  cons : ∀ t, (s.submitted.take k).count t = s.pcs.countP (Pc.holds t) + (s.ended.map Prod.fst).count t + s.failed.count t
  beg : ∀ t, (s.begun.map Prod.fst).count t = s.pcs.countP (Pc.runs t) + (s.ended.map Prod.fst).count t
  waits : s.waits = s.begun.map (fun p => p.2 - p.1.submitted)
  btm : ∀ p ∈ s.begun, p.1.submitted ≤ p.2 ∧ p.2 ≤ s.now
  execs : ∀ d, s.execs.count d + s.pcs.countP (Pc.took d) = (s.ended.map fun p => p.2.2 - p.2.1).count d
  rn : ∀ (i : Nat) t b, s.pcs[i]? = some (.running t b) → (t, b) ∈ s.begun
  ebeg : ∀ p ∈ s.ended, (p.1, p.2.1) ∈ s.begun ∧ p.2.1 ≤ p.2.2 ∧ p.2.2 ≤ s.now
  sub : s.lock = .submitting → s.shutdown = false ∧ s.broken = false
  drn : ∀ (i : Nat), s.lock = .draining i ↔ s.pcs[i]? = some .drain
  brk : s.broken = true → (∀ i, s.lock ≠ .draining i) → k = s.submitted.length
  gone : 0 < s.pcs.countP Pc.gone → s.broken = true
  fl : s.failed ≠ [] → s.broken = true
  out : 0 < s.pcs.countP Pc.out → s.shutdown = true ∧ k = s.submitted.length
  stp : 0 < m → s.shutdown = true
  acc : s.broken = false → s.pcs.length < s.max → s.pcs.countP Pc.out = 0 →
    s.sem + (s.submitted.length - k) = s.pcs.countP Pc.idle + (if s.lock = .submitting then 1 else 0)
  ne : 0 < s.max → s.submitted ≠ [] → s.lock ≠ .submitting → s.pcs ≠ []
  sne : 0 < s.sem → s.pcs ≠ []
  dead : s.pcs.countP Pc.dead = 0
  cnt : s.submitted.length = (s.submitted.length - k) + s.pcs.countP Pc.isGot + s.begun.length + s.failed.length

theorem Inv.new (max : Nat) : Inv (new max) 0 0 := by
  constructor <;> simp [ThreadPool.new]

/-! ### The counts after a worker's step -/

theorem set_kinds {l : List Pc} {i : Nat} {a b : Pc} (h : l[i]? = some a) :
    (l.set i b).countP Pc.idle + a.idle.toNat = l.countP Pc.idle + b.idle.toNat ∧
    (l.set i b).countP Pc.out + a.out.toNat = l.countP Pc.out + b.out.toNat ∧
    (l.set i b).countP Pc.gone + a.gone.toNat = l.countP Pc.gone + b.gone.toNat ∧
    (l.set i b).countP Pc.dead + a.dead.toNat = l.countP Pc.dead + b.dead.toNat ∧
    (l.set i b).countP Pc.isGot + a.isGot.toNat = l.countP Pc.isGot + b.isGot.toNat ∧
    (∀ t, (l.set i b).countP (Pc.holds t) + (a.holds t).toNat = l.countP (Pc.holds t) + (b.holds t).toNat) ∧
    (∀ t, (l.set i b).countP (Pc.runs t) + (a.runs t).toNat = l.countP (Pc.runs t) + (b.runs t).toNat) ∧
    (∀ d, (l.set i b).countP (Pc.took d) + (a.took d).toNat = l.countP (Pc.took d) + (b.took d).toNat) ∧
    (l.set i b).length = l.length ∧ i < l.length ∧ (l.set i b ≠ []) :=
  have hi : i < l.length := (List.getElem?_eq_some_iff.1 h).1
  ⟨countP_set' h _, countP_set' h _, countP_set' h _, countP_set' h _, countP_set' h _, fun _ => countP_set' h _, fun _ => countP_set' h _, fun _ => countP_set' h _,
    List.length_set .., hi, by
      intro e
      have := congrArg List.length e
      simp at this
      subst this
      simp at hi⟩

theorem getElem?_set' {l : List Pc} {i j : Nat} {a b : Pc} (h : l[i]? = some a) : (l.set i b)[j]? = if j = i then some b else l[j]? := by
  have hi : i < l.length := (List.getElem?_eq_some_iff.1 h).1
  rw [List.getElem?_set]
  by_cases e : i = j
  · subst e; simp [hi]
  · simp [e, Ne.symm e]

variable {s s' : St} {k m : Nat}

theorem Inv.tick (h : Inv s k m) : Inv { s with now := s.now + 1 } k m := by
  refine { h with tm := ?_, btm := ?_, ebeg := ?_ }
  · intro t ht; have := h.tm t ht; simp; omega
  · intro p hp; have := h.btm p hp; simp; omega
  · intro p hp; have := h.ebeg p hp; refine ⟨this.1, this.2.1, ?_⟩; simp; omega

theorem Inv.m_zero (h : Inv s k m) (hs : s.shutdown = false) : m = 0 := by
  have := h.stp
  cases m with
  | zero => rfl
  | succ m => simp [hs] at this

theorem Inv.submit (h : Inv s k m) (hl : s.lock = .free) (hb : s.broken = false) (hs : s.shutdown = false) :
    Inv { s with queue := s.queue ++ [.task ⟨s.submitted.length, s.now⟩], submitted := s.submitted ++ [⟨s.submitted.length, s.now⟩], lock := .submitting } k m := by
  have hm := h.m_zero hs
  have hk := h.kn
  have hout : s.pcs.countP Pc.out = 0 := by
    have := h.out
    simp [hs] at this
    rw [List.countP_eq_zero]
    intro a ha
    simp [this a ha]
  refine { h with kn := ?_, qu := ?_, ids := ?_, tm := ?_, cons := ?_, sub := ?_, drn := ?_, brk := ?_, out := ?_, acc := ?_, ne := ?_, cnt := ?_ }
  · simp; omega
  · simp [h.qu, hm, List.drop_append_of_le_length hk]
  · intro i t ht
    rcases Nat.lt_trichotomy i s.submitted.length with hi | hi | hi
    · rw [List.getElem?_append_left hi] at ht
      exact h.ids i t ht
    · subst hi
      simp at ht
      simp [← ht]
    · have hi' : (s.submitted ++ [(⟨s.submitted.length, s.now⟩ : Task)]).length ≤ i := by simp; omega
      rw [List.getElem?_eq_none hi'] at ht
      cases ht
  · intro t ht
    simp at ht
    rcases ht with ht | rfl
    · exact h.tm t ht
    · exact Nat.le_refl _
  · intro t
    rw [List.take_append_of_le_length hk]
    exact h.cons t
  · intro _; exact ⟨hs, hb⟩
  · intro i
    have := h.drn i
    simp [hl] at this
    simp [this]
  · intro hb'; simp [hb] at hb'
  · simp only []; intro ho; omega
  · intro _ hlt _
    have := h.acc hb hlt hout
    simp [hl] at this
    simp
    omega
  · intro _ _ hx; exact absurd rfl hx
  · have := h.cnt
    simp
    omega

theorem Inv.adjust (h : Inv s k m) (hl : s.lock = .submitting) : Inv (adjust s) k m := by
  obtain ⟨hs, hb⟩ := h.sub hl
  unfold ThreadPool.adjust
  by_cases h0 : 0 < s.sem
  · rw [if_pos h0]
    have hne := h.sne h0
    refine { h with sub := ?_, drn := ?_, brk := ?_, acc := ?_, ne := fun _ _ _ => hne, sne := fun _ => hne }
    · intro hx; cases hx
    · intro i
      have := h.drn i
      simp [hl] at this
      simp [this]
    · intro hb'; simp [hb] at hb'
    · intro hb' hlt ho
      have := h.acc hb' hlt ho
      simp [hl] at this
      simp
      omega
  · rw [if_neg h0]
    by_cases hlt : s.pcs.length < s.max
    · rw [if_pos hlt]
      have e : ∀ p : Pc → Bool, p .init = false → (s.pcs ++ [Pc.init]).countP p = s.pcs.countP p := by
        intro p hp; simp [List.countP_append, hp]
      refine { h with mx := ?_, cons := ?_, beg := ?_, execs := ?_, rn := ?_, sub := ?_, drn := ?_, brk := ?_, gone := ?_, out := ?_, acc := ?_, ne := ?_, sne := ?_, dead := ?_, cnt := ?_ }
      · simp; omega
      · intro t; simp only [e (Pc.holds t) rfl]; exact h.cons t
      · intro t; simp only [e (Pc.runs t) rfl]; exact h.beg t
      · intro t; simp only [e (Pc.took t) rfl]; exact h.execs t
      · intro i t b hi
        simp only [List.getElem?_append] at hi
        split at hi
        · exact h.rn i t b hi
        · rename_i hge
          cases hx : i - s.pcs.length with
          | zero => simp [hx] at hi
          | succ n => simp [hx] at hi
      · intro hx; cases hx
      · intro i
        have := h.drn i
        simp [hl] at this
        simp only [List.getElem?_append]
        split
        · simp [this]
        · cases hx : i - s.pcs.length with
          | zero => simp
          | succ n => simp
      · intro hb'; simp [hb] at hb'
      · simp only [e Pc.gone rfl]; exact h.gone
      · simp only [e Pc.out rfl]; exact h.out
      · intro hb' _ ho
        simp only [e Pc.out rfl] at ho
        have := h.acc hb' hlt ho
        simp [hl] at this
        have e2 : (s.pcs ++ [Pc.init]).countP Pc.idle = s.pcs.countP Pc.idle + 1 := by simp [List.countP_append, Pc.idle]
        simp only [e2]
        simp
        omega
      · simp
      · simp
      · simp only [e Pc.dead rfl]; exact h.dead
      · simp only [e Pc.isGot rfl]; exact h.cnt
    · rw [if_neg hlt]
      refine { h with sub := ?_, drn := ?_, brk := ?_, acc := ?_, ne := ?_ }
      · intro hx; cases hx
      · intro i
        have := h.drn i
        simp [hl] at this
        simp [this]
      · intro hb'; simp [hb] at hb'
      · intro _ hlt'; exact absurd hlt' hlt
      · intro hm _ _ hx
        simp only [] at hm hx
        rw [hx] at hlt
        exact hlt hm

theorem Inv.shutdown (h : Inv s k m) (hl : s.lock = .free) : Inv { s with shutdown := true, queue := s.queue ++ [.stop] } k (m + 1) := by
  refine { h with qu := ?_, sub := ?_, out := ?_, stp := ?_ }
  · simp only [h.qu, List.append_assoc, List.append_cancel_left_eq]
    exact List.replicate_succ'.symm
  · intro hx; simp [hl] at hx
  · intro ho; exact ⟨rfl, (h.out ho).2⟩
  · intro _; rfl

/-- a step of a worker that changes its position only, to one of the same kind -/
theorem Inv.move (h : Inv s k m) {i : Nat} {a b : Pc} (hi : s.pcs[i]? = some a) (k1 : a.idle = b.idle) (k2 : a.out = b.out) (k3 : a.gone = b.gone) (k4 : a.dead = b.dead)
    (k5 : a.isGot = b.isGot) (k6 : ∀ t, a.holds t = b.holds t) (k7 : ∀ t, a.runs t = b.runs t) (k8 : ∀ d, a.took d = b.took d) (k9 : b ≠ .drain ∧ a ≠ .drain) (k10 : ∀ t c, b ≠ .running t c) :
    Inv { s with pcs := s.pcs.set i b } k m := by
  obtain ⟨q1, q2, q3, q4, q5, q6, q7, q8, q9, q10, q11⟩ := set_kinds (b := b) hi
  refine { h with mx := ?_, cons := ?_, beg := ?_, execs := ?_, rn := ?_, drn := ?_, gone := ?_, out := ?_, acc := ?_, ne := fun _ _ _ => q11, sne := fun _ => q11, dead := ?_, cnt := ?_ }
  · simp only [q9]; exact h.mx
  · intro t; have := h.cons t; have := q6 t; rw [k6 t] at this; simp only []; omega
  · intro t; have := h.beg t; have := q7 t; rw [k7 t] at this; simp only []; omega
  · intro t; have := h.execs t; have := q8 t; rw [k8 t] at this; simp only []; omega
  · intro j t c hj
    simp only [getElem?_set' hi] at hj
    split at hj
    · exact absurd (Option.some.inj hj) (k10 t c)
    · exact h.rn j t c hj
  · intro j
    have := h.drn j
    simp only [getElem?_set' hi]
    split
    · rename_i e; subst e
      rw [this, hi]
      simp [k9.1, k9.2]
    · exact this
  · simp only []; rw [k3] at q3; have := h.gone; intro hx; apply this; omega
  · simp only []; rw [k2] at q2; have := h.out; intro hx; apply this; omega
  · simp only [q9]; intro b1 b2 b3
    rw [k1] at q1; rw [k2] at q2
    have := h.acc b1 b2 (by omega)
    omega
  · simp only []; rw [k4] at q4; have := h.dead; omega
  · simp only []; rw [k5] at q5; have := h.cnt; omega

theorem Inv.head_task (h : Inv s k m) {t : Task} {q : List Item} (hq : s.queue = .task t :: q) :
    k < s.submitted.length ∧ s.submitted[k]? = some t ∧ q = (s.submitted.drop (k + 1)).map .task ++ List.replicate m .stop ∧
      ∀ u, (s.submitted.take (k + 1)).count u = (s.submitted.take k).count u + (t == u).toNat := by
  have hk := h.kn
  have e := h.qu
  rw [hq] at e
  by_cases hlt : k < s.submitted.length
  · rw [List.drop_eq_getElem_cons hlt, List.map_cons, List.cons_append] at e
    obtain ⟨e1, e2⟩ := List.cons.inj e
    have e1 := Item.task.inj e1
    refine ⟨hlt, by simp [List.getElem?_eq_getElem hlt, e1], e2, ?_⟩
    intro u
    rw [List.take_succ_eq_append_getElem hlt, List.count_append, ← e1]
    simp only [List.count_cons, List.count_nil]
    cases hb : t == u <;> simp
  · have : k = s.submitted.length := by omega
    subst this
    cases m <;> simp [List.replicate_succ] at e

theorem Inv.head_stop (h : Inv s k m) {q : List Item} (hq : s.queue = .stop :: q) :
    k = s.submitted.length ∧ 0 < m ∧ q = (s.submitted.drop k).map .task ++ List.replicate (m - 1) .stop := by
  have hk := h.kn
  have e := h.qu
  rw [hq] at e
  by_cases hlt : k < s.submitted.length
  · rw [List.drop_eq_getElem_cons hlt, List.map_cons, List.cons_append] at e
    cases (List.cons.inj e).1
  · have : k = s.submitted.length := by omega
    subst this
    cases m with
    | zero => simp at e
    | succ m => simpa [List.replicate_succ] using e

theorem Inv.head_nil (h : Inv s k m) (hq : s.queue = []) : k = s.submitted.length ∧ m = 0 := by
  have hk := h.kn
  have e := h.qu
  rw [hq] at e
  have e2 := congrArg List.length e
  simp at e2
  omega

theorem Inv.mem_of_held (h : Inv s k m) {i : Nat} {a : Pc} {t : Task} (hi : s.pcs[i]? = some a) (ha : a.holds t = true) : t ∈ s.submitted := by
  have h1 := h.cons t
  have h2 := countP_pos' hi (Pc.holds t) ha
  have h3 : 0 < (s.submitted.take k).count t := by omega
  exact List.mem_of_mem_take (List.count_pos_iff.1 h3)

theorem Inv.work (h : Inv s k m) {i : Nat} (hw : work s i = some s') : ∃ k' m', Inv s' k' m' := by
  unfold ThreadPool.work at hw
  cases hi : s.pcs[i]? with
  | none => simp [hi] at hw
  | some a =>
  simp only [hi] at hw
  cases a with
  | init => cases hw
  | gaveUp => cases hw
  | exited => cases hw
  | died => cases hw
  | failed =>
    simp only [h.al, if_true] at hw
    split at hw
    · rename_i hl
      cases hw
      refine ⟨k, m, ?_⟩
      obtain ⟨q1, q2, q3, q4, q5, q6, q7, q8, q9, q10, q11⟩ := set_kinds (b := .drain) hi
      simp only [Pc.idle, Pc.out, Pc.gone, Pc.dead, Pc.isGot, Pc.holds, Pc.runs, Pc.took, Bool.toNat] at q1 q2 q3 q4 q5 q6 q7 q8
      refine { h with al := by simp [h.al], mx := ?_, cons := ?_, beg := ?_, execs := ?_, rn := ?_, sub := ?_, drn := ?_, brk := ?_, gone := fun _ => rfl, fl := fun _ => rfl, out := ?_, acc := ?_, ne := fun _ _ _ => q11, sne := fun _ => q11, dead := ?_, cnt := ?_ }
      · simp only [q9]; exact h.mx
      · intro t; have := h.cons t; have := q6 t; simp only []; simp at this; omega
      · intro t; have := h.beg t; have := q7 t; simp only []; simp at this; omega
      · intro t; have := h.execs t; have := q8 t; simp only []; simp at this; omega
      · intro j t c hj
        simp only [getElem?_set' hi] at hj
        split at hj
        · cases hj
        · exact h.rn j t c hj
      · intro hx; cases hx
      · intro j
        have := h.drn j
        simp only [hl, false_iff] at this
        simp only [getElem?_set' hi]
        split
        · rename_i e; subst e; simp
        · rename_i e
          simp only [reduceCtorEq, false_iff] at this
          simp [this, Ne.symm e]
      · intro _ hx; exact absurd rfl (hx i)
      · simp only []; have := h.out; simp at q2; rw [q2]; exact this
      · intro hx; cases hx
      · simp only []; have := h.dead; simp at q4; omega
      · simp only []; have := h.cnt; simp at q5; omega
    · cases hw
  | drain =>
    have hlk : s.lock = .draining i := (h.drn i).2 hi
    have hbk : s.broken = true := h.gone (countP_pos' hi Pc.gone rfl)
    cases hq : s.queue with
    | nil =>
      simp only [hq] at hw
      cases hw
      obtain ⟨hk, hm⟩ := h.head_nil hq
      refine ⟨k, m, ?_⟩
      rw [← hq]
      obtain ⟨q1, q2, q3, q4, q5, q6, q7, q8, q9, q10, q11⟩ := set_kinds (b := .gaveUp) hi
      simp only [Pc.idle, Pc.out, Pc.gone, Pc.dead, Pc.isGot, Pc.holds, Pc.runs, Pc.took, Bool.toNat] at q1 q2 q3 q4 q5 q6 q7 q8
      refine { h with al := by simp [h.al], mx := ?_, cons := ?_, beg := ?_, execs := ?_, rn := ?_, sub := ?_, drn := ?_, brk := fun _ _ => hk, gone := fun _ => hbk, fl := fun _ => hbk, out := ?_, acc := ?_, ne := fun _ _ _ => q11, sne := fun _ => q11, dead := ?_, cnt := ?_ }
      · simp only [q9]; exact h.mx
      · intro t; have := h.cons t; have := q6 t; simp only []; simp at this; omega
      · intro t; have := h.beg t; have := q7 t; simp only []; simp at this; omega
      · intro t; have := h.execs t; have := q8 t; simp only []; simp at this; omega
      · intro j t c hj
        simp only [getElem?_set' hi] at hj
        split at hj
        · cases hj
        · exact h.rn j t c hj
      · intro hx; cases hx
      · intro j
        have := h.drn j
        rw [hlk] at this
        simp only [getElem?_set' hi]
        split
        · simp
        · rename_i e
          simp only [Lock.draining.injEq, Ne.symm e, false_iff] at this
          simp [this]
      · simp only []; have := h.out; simp at q2; rw [q2]; exact this
      · intro hx; simp [hbk] at hx
      · simp only []; have := h.dead; simp at q4; omega
      · simp only []; have := h.cnt; simp at q5; omega
    | cons it q =>
      cases it with
      | task t =>
        simp only [hq] at hw
        cases hw
        obtain ⟨hk, hg, hq', hc⟩ := h.head_task hq
        refine ⟨k + 1, m, ?_⟩
        refine { h with kn := hk, qu := hq', cons := ?_, brk := ?_, fl := fun _ => hbk, out := ?_, acc := ?_, cnt := ?_ }
        · intro u
          rw [hc u]
          have := h.cons u
          simp only [List.count_append, List.count_cons, List.count_nil]
          cases hb : t == u <;> simp <;> omega
        · intro _ hx; exact absurd hlk (hx i)
        · intro ho; have := h.out ho; omega
        · intro hx; simp [hbk] at hx
        · have := h.cnt; simp; omega
      | stop =>
        simp only [hq] at hw
        cases hw
        obtain ⟨hk, hm, hq'⟩ := h.head_stop hq
        refine ⟨k, m - 1, ?_⟩
        exact { h with qu := hq', stp := fun _ => h.stp hm }
  | get =>
    cases hq : s.queue with
    | nil => simp [hq] at hw
    | cons it q =>
      cases it with
      | task t =>
        simp only [hq] at hw
        cases hw
        obtain ⟨hk, hg, hq', hc⟩ := h.head_task hq
        refine ⟨k + 1, m, ?_⟩
        obtain ⟨q1, q2, q3, q4, q5, q6, q7, q8, q9, q10, q11⟩ := set_kinds (b := .got t) hi
        simp only [Pc.idle, Pc.out, Pc.gone, Pc.dead, Pc.isGot, Pc.holds, Pc.runs, Pc.took, Bool.toNat] at q1 q2 q3 q4 q5 q6 q7 q8
        refine { h with kn := hk, qu := hq', mx := ?_, cons := ?_, beg := ?_, execs := ?_, rn := ?_, drn := ?_, brk := ?_, gone := ?_, out := ?_, acc := ?_, ne := fun _ _ _ => q11, sne := fun _ => q11, dead := ?_, cnt := ?_ }
        · simp only [q9]; exact h.mx
        · intro u
          rw [hc u]
          have := h.cons u
          have := q6 u
          simp only []
          cases hb : t == u <;> simp [hb] at this ⊢ <;> omega
        · intro t; have := h.beg t; have := q7 t; simp only []; simp at this; omega
        · intro t; have := h.execs t; have := q8 t; simp only []; simp at this; omega
        · intro j t c hj
          simp only [getElem?_set' hi] at hj
          split at hj
          · cases hj
          · exact h.rn j t c hj
        · intro j
          have := h.drn j
          simp only [getElem?_set' hi]
          split
          · rename_i e; subst e; rw [this, hi]; simp
          · exact this
        · intro b1 b2; have := h.brk b1 b2; simp only []; omega
        · simp only []; have := h.gone; simp at q3; rw [q3]; exact this
        · simp only []; intro ho
          have := (h.out (by simp at q2; omega)).2
          omega
        · simp only [q9]; intro b1 b2 b3
          simp at q1 q2
          have := h.acc b1 b2 (by omega)
          omega
        · simp only []; have := h.dead; simp at q4; omega
        · simp only []; have := h.cnt; simp at q5; omega
      | stop =>
        obtain ⟨hk, hm, hq'⟩ := h.head_stop hq
        have hs := h.stp hm
        simp only [hq, h.al, hs] at hw
        simp at hw
        cases hw
        refine ⟨k, m - 1, ?_⟩
        obtain ⟨q1, q2, q3, q4, q5, q6, q7, q8, q9, q10, q11⟩ := set_kinds (b := .stopping) hi
        simp only [Pc.idle, Pc.out, Pc.gone, Pc.dead, Pc.isGot, Pc.holds, Pc.runs, Pc.took, Bool.toNat] at q1 q2 q3 q4 q5 q6 q7 q8
        refine { h with al := by simp [h.al], sub := fun hx => by simp [(h.sub hx).1] at hs, qu := hq', mx := ?_, cons := ?_, beg := ?_, execs := ?_, rn := ?_, drn := ?_, gone := ?_, out := fun _ => ⟨rfl, hk⟩, stp := fun _ => rfl, acc := ?_, ne := fun _ _ _ => q11, sne := fun _ => q11, dead := ?_, cnt := ?_ }
        · simp only [q9]; exact h.mx
        · intro t; have := h.cons t; have := q6 t; simp only []; simp at this; omega
        · intro t; have := h.beg t; have := q7 t; simp only []; simp at this; omega
        · intro t; have := h.execs t; have := q8 t; simp only []; simp at this; omega
        · intro j t c hj
          simp only [getElem?_set' hi] at hj
          split at hj
          · cases hj
          · exact h.rn j t c hj
        · intro j
          have := h.drn j
          simp only [getElem?_set' hi]
          split
          · rename_i e; subst e; rw [this, hi]; simp
          · exact this
        · simp only []; have := h.gone; simp at q3; rw [q3]; exact this
        · simp only []; intro _ _ b3; simp at q2; omega
        · simp only []; have := h.dead; simp at q4; omega
        · simp only []; have := h.cnt; simp at q5; omega
  | got t =>
    simp only [h.al, if_true] at hw
    cases hw
    refine ⟨k, m, ?_⟩
    have hmem := h.mem_of_held hi (t := t) (by simp [Pc.holds])
    obtain ⟨q1, q2, q3, q4, q5, q6, q7, q8, q9, q10, q11⟩ := set_kinds (b := .running t s.now) hi
    simp only [Pc.idle, Pc.out, Pc.gone, Pc.dead, Pc.isGot, Pc.holds, Pc.runs, Pc.took, Bool.toNat] at q1 q2 q3 q4 q5 q6 q7 q8
    refine { h with al := by simp [h.al], mx := ?_, cons := ?_, beg := ?_, waits := ?_, btm := ?_, execs := ?_, rn := ?_, ebeg := ?_, drn := ?_, gone := ?_, out := ?_, acc := ?_, ne := fun _ _ _ => q11, sne := fun _ => q11, dead := ?_, cnt := ?_ }
    · simp only [q9]; exact h.mx
    · intro u; have := h.cons u; have := q6 u; simp only []; omega
    · intro u
      have := h.beg u
      have := q7 u
      simp only [List.map_append, List.count_append, List.map_cons, List.map_nil, List.count_cons, List.count_nil]
      cases hb : t == u <;> simp [hb] at this ⊢ <;> omega
    · simp [h.waits]
    · intro p hp
      simp at hp
      rcases hp with hp | rfl
      · exact h.btm p hp
      · exact ⟨h.tm t hmem, Nat.le_refl _⟩
    · intro t; have := h.execs t; have := q8 t; simp only []; simp at this; omega
    · intro j u c hj
      simp only [getElem?_set' hi] at hj
      split at hj
      · cases hj; simp
      · simp [h.rn j u c hj]
    · intro p hp
      have := h.ebeg p hp
      exact ⟨by simp [this.1], this.2⟩
    · intro j
      have := h.drn j
      simp only [getElem?_set' hi]
      split
      · rename_i e; subst e; rw [this, hi]; simp
      · exact this
    · simp only []; have := h.gone; simp at q3; rw [q3]; exact this
    · simp only []; have := h.out; simp at q2; rw [q2]; exact this
    · simp only [q9]; intro b1 b2 b3
      simp at q1 q2
      have := h.acc b1 b2 (by omega)
      omega
    · simp only []; have := h.dead; simp at q4; omega
    · simp only []; have := h.cnt; simp at q5; simp; omega
  | running t b =>
    simp only [] at hw
    cases hw
    refine ⟨k, m, ?_⟩
    have hb := h.rn i t b hi
    have hbt := h.btm _ hb
    obtain ⟨q1, q2, q3, q4, q5, q6, q7, q8, q9, q10, q11⟩ := set_kinds (b := .ran t (s.now - b)) hi
    simp only [Pc.idle, Pc.out, Pc.gone, Pc.dead, Pc.isGot, Pc.holds, Pc.runs, Pc.took, Bool.toNat] at q1 q2 q3 q4 q5 q6 q7 q8
    refine { h with al := by simp [h.al], mx := ?_, cons := ?_, beg := ?_, execs := ?_, rn := ?_, ebeg := ?_, drn := ?_, gone := ?_, out := ?_, acc := ?_, ne := fun _ _ _ => q11, sne := fun _ => q11, dead := ?_, cnt := ?_ }
    · simp only [q9]; exact h.mx
    · intro u
      have := h.cons u
      have := q6 u
      simp only [List.map_append, List.count_append, List.map_cons, List.map_nil, List.count_cons, List.count_nil]
      cases hb : t == u <;> simp [hb] at this ⊢ <;> omega
    · intro u
      have := h.beg u
      have := q7 u
      simp only [List.map_append, List.count_append, List.map_cons, List.map_nil, List.count_cons, List.count_nil]
      cases hb : t == u <;> simp [hb] at this ⊢ <;> omega
    · intro d
      have := h.execs d
      have := q8 d
      simp only [List.map_append, List.count_append, List.map_cons, List.map_nil, List.count_cons, List.count_nil]
      cases hb : s.now - b == d <;> simp [hb] at this ⊢ <;> omega
    · intro j u c hj
      simp only [getElem?_set' hi] at hj
      split at hj
      · cases hj
      · exact h.rn j u c hj
    · intro p hp
      simp at hp
      rcases hp with hp | rfl
      · exact h.ebeg p hp
      · exact ⟨hb, hbt.2, Nat.le_refl _⟩
    · intro j
      have := h.drn j
      simp only [getElem?_set' hi]
      split
      · rename_i e; subst e; rw [this, hi]; simp
      · exact this
    · simp only []; have := h.gone; simp at q3; rw [q3]; exact this
    · simp only []; have := h.out; simp at q2; rw [q2]; exact this
    · simp only [q9]; intro b1 b2 b3
      simp at q1 q2
      have := h.acc b1 b2 (by omega)
      omega
    · simp only []; have := h.dead; simp at q4; omega
    · simp only []; have := h.cnt; simp at q5; omega
  | ran t d =>
    simp only [h.al, if_true] at hw
    cases hw
    refine ⟨k, m, ?_⟩
    obtain ⟨q1, q2, q3, q4, q5, q6, q7, q8, q9, q10, q11⟩ := set_kinds (b := .get) hi
    simp only [Pc.idle, Pc.out, Pc.gone, Pc.dead, Pc.isGot, Pc.holds, Pc.runs, Pc.took, Bool.toNat] at q1 q2 q3 q4 q5 q6 q7 q8
    refine { h with al := by simp [h.al], mx := ?_, cons := ?_, beg := ?_, execs := ?_, rn := ?_, drn := ?_, gone := ?_, out := ?_, acc := ?_, ne := fun _ _ _ => q11, sne := fun _ => q11, dead := ?_, cnt := ?_ }
    · simp only [q9]; exact h.mx
    · intro t; have := h.cons t; have := q6 t; simp only []; simp at this; omega
    · intro t; have := h.beg t; have := q7 t; simp only []; simp at this; omega
    · intro e
      have := h.execs e
      have := q8 e
      simp only [List.count_append, List.count_cons, List.count_nil]
      cases hb : d == e <;> simp [hb] at this ⊢ <;> omega
    · intro j u c hj
      simp only [getElem?_set' hi] at hj
      split at hj
      · cases hj
      · exact h.rn j u c hj
    · intro j
      have := h.drn j
      simp only [getElem?_set' hi]
      split
      · rename_i e; subst e; rw [this, hi]; simp
      · exact this
    · simp only []; have := h.gone; simp at q3; rw [q3]; exact this
    · simp only []; have := h.out; simp at q2; rw [q2]; exact this
    · simp only [q9]; intro b1 b2 b3
      simp at q1 q2
      have := h.acc b1 b2 (by omega)
      omega
    · simp only []; have := h.dead; simp at q4; omega
    · simp only []; have := h.cnt; simp at q5; omega
  | stopping =>
    simp only [] at hw
    cases hw
    have hs := (h.out (countP_pos' hi Pc.out rfl)).1
    have h2 := h.move hi (b := .exited) rfl rfl rfl rfl rfl (fun _ => rfl) (fun _ => rfl) (fun _ => rfl) ⟨nofun, nofun⟩ (fun _ _ => nofun)
    refine ⟨k, m + 1, { h2 with qu := ?_, stp := fun _ => hs }⟩
    simp only [h.qu, List.append_assoc, List.append_cancel_left_eq]
    exact List.replicate_succ'.symm

/-- the invariant is kept by everything except losing the executor -/
theorem Inv.step (h : Inv s k m) {a : Act} (ha : a ≠ .collect) (hs : step s a = some s') : ∃ k' m', Inv s' k' m' := by
  cases a with
  | tick => simp only [ThreadPool.step] at hs; cases hs; exact ⟨_, _, h.tick⟩
  | submit =>
    simp only [ThreadPool.step] at hs
    split at hs
    · rename_i hl
      split at hs
      · cases hs; exact ⟨_, _, h⟩
      · rename_i hb
        simp at hb
        cases hs
        exact ⟨_, _, h.submit hl.1 hb.1 hb.2⟩
    · cases hs
  | adjust =>
    simp only [ThreadPool.step] at hs
    split at hs
    · rename_i hl; cases hs; exact ⟨_, _, h.adjust hl⟩
    · cases hs
  | shutdown =>
    simp only [ThreadPool.step] at hs
    split at hs
    · rename_i hl; cases hs; exact ⟨_, _, h.shutdown hl.1⟩
    · cases hs
  | collect => exact absurd rfl ha
  | initOk i =>
    simp only [ThreadPool.step] at hs
    split at hs
    · rename_i hi; cases hs
      exact ⟨_, _, h.move hi (b := .get) rfl rfl rfl rfl rfl (fun _ => rfl) (fun _ => rfl) (fun _ => rfl) ⟨nofun, nofun⟩ (fun _ _ => nofun)⟩
    · cases hs
  | initFail i =>
    simp only [ThreadPool.step] at hs
    split at hs
    · rename_i hi; cases hs
      exact ⟨_, _, h.move hi (b := .failed) rfl rfl rfl rfl rfl (fun _ => rfl) (fun _ => rfl) (fun _ => rfl) ⟨nofun, nofun⟩ (fun _ _ => nofun)⟩
    · cases hs
  | work i => exact h.work hs

theorem Inv.run {acts : List Act} (h : Inv s k m) (hc : .collect ∉ acts) : ∃ k' m', Inv (run s acts) k' m' := by
  induction acts generalizing s k m with
  | nil => exact ⟨_, _, h⟩
  | cons a l ih =>
    simp only [List.mem_cons, not_or] at hc
    simp only [ThreadPool.run]
    cases hs : ThreadPool.step s a with
    | none => exact ih h hc.2
    | some s' =>
      obtain ⟨k', m', h'⟩ := h.step (Ne.symm hc.1) hs
      exact ih h' hc.2

end Verif.ThreadPool
