import Verif.Ids.Model
import Verif.Conc.MonitorProps
import Verif.Py.Run
/-!
# C18 under every schedule: the calls of SequentialIssuer as small steps inside its monitor

`Verif.Ids.Model` treats a call as one step.  Here the bodies are split into the single accesses to the attribute `start`; between any two of them
another thread may run, as in `Verif.Conc.Monitor`.
-/
namespace Verif.Ids
open Verif Verif.Conc

/-- the local variables of a thread, and the calls that have returned to it with what they returned.  (Part of the model of `SequentialIssuer`,
/repo/satella/coding/concurrent/id_allocator.py:8-50.) -/
structure Loc where
  greater : Bool
  ret : Int
  tmp : Int
  returned : List (IOp × Int)

/-- `self.start > no_less_than`, /repo/satella/coding/concurrent/id_allocator.py:43; `issue` has no such test -/
def check : IOp → Micro Int Loc
  | .issue, s, l => (s, { l with greater := true }, false)
  | .noLessThan x, s, l => (s, { l with greater := decide (s > x) }, false)

/-- `self.start = no_less_than` in the else branch, /repo/satella/coding/concurrent/id_allocator.py:47 -/
def assign : IOp → Micro Int Loc
  | .issue, s, l => (s, l, false)
  | .noLessThan x, s, l => (if l.greater then s else x, l, false)

/-- `return self.start`: the value is computed, /repo/satella/coding/concurrent/id_allocator.py:30,44,48 -/
def load : Micro Int Loc := fun s l => (s, { l with ret := s }, false)

/-- the first half of `self.start += 1`, /repo/satella/coding/concurrent/id_allocator.py:32,50 -/
def read : Micro Int Loc := fun s l => (s, { l with tmp := s }, false)

/-- its second half, /repo/satella/coding/concurrent/id_allocator.py:32,50 -/
def store : Micro Int Loc := fun _ l => (l.tmp + 1, l, false)

/-- the call returns the value computed before, /repo/satella/coding/concurrent/id_allocator.py:30,44,48 -/
def give (o : IOp) : Micro Int Loc := fun s l => (s, { l with returned := l.returned ++ [(o, l.ret)] }, false)

/-- the body of `issue` or `no_less_than`, run holding the monitor, /repo/satella/coding/concurrent/id_allocator.py:22-50 -/
def IOp.section (o : IOp) : Section Int Loc := [check o, assign o, load, read, store, give o]

/-- any number of threads, each with the calls it makes, on a new issuer, /repo/satella/coding/concurrent/id_allocator.py:18-20 -/
def issuerInit (start : Int) (p : Nat → List IOp) : Sys Int Loc :=
  Sys.init start (fun _ => ⟨false, 0, 0, []⟩) (fun t => (p t).map IOp.section)

/-- the identifiers a thread has got.  (Part of the model of `SequentialIssuer`, /repo/satella/coding/concurrent/id_allocator.py:8-50.) -/
def ids (s : Sys Int Loc) (t : Nat) : List Int := (s.locals t).returned.map (·.2)

/-- how far a thread inside is: the steps left, what is true of its variables.  (Part of the model of `SequentialIssuer`, /repo/satella/coding/concurrent/id_allocator.py:8-50.) -/
def Stage (start : Int) (l : Loc) (others : Int → Prop) (o : IOp) : Nat → Prop
  | 0 => True
  | 1 => (l.greater = true → ∀ x, o = .noLessThan x → x < start) ∧ (l.greater = false → ∃ x, o = .noLessThan x ∧ start ≤ x)
  | 2 => ∀ x, o = .noLessThan x → x ≤ start
  | 3 => l.ret = start ∧ ∀ x, o = .noLessThan x → x ≤ l.ret
  | 4 => l.ret = start ∧ l.tmp = start ∧ ∀ x, o = .noLessThan x → x ≤ l.ret
  | 5 => start = l.ret + 1 ∧ others l.ret ∧ ∀ x, o = .noLessThan x → x ≤ l.ret
  | _ => True

structure TInv (start : Int) (s : Sys Int Loc) : Prop where
  excl : ∀ t, s.inside t ≠ none ↔ s.lock = some t
  prog : ∀ t, ∀ sec ∈ s.prog t, ∃ o : IOp, sec = o.section
  low : start ≤ s.shared
  bound : ∀ t, ∀ y ∈ ids s t, start ≤ y ∧ y < s.shared
  incr : ∀ t, (ids s t).Pairwise (· < ·)
  apart : ∀ t u, t ≠ u → ∀ y ∈ ids s t, y ∉ ids s u
  least : ∀ t x y, (IOp.noLessThan x, y) ∈ (s.locals t).returned → x ≤ y
  stage : ∀ t ms, s.inside t = some ms → ∃ o k, k ≤ 6 ∧ ms = (IOp.section o).drop k ∧
    Stage s.shared (s.locals t) (fun w => start ≤ w ∧ ∀ u, ∀ y ∈ ids s u, y < w) o k

theorem tinv_init (start : Int) (p : Nat → List IOp) : TInv start (issuerInit start p) := by
  refine ⟨?_, ?_, Int.le_refl _, ?_, ?_, ?_, ?_, ?_⟩
  · intro t; simp [issuerInit, Sys.init]
  · intro t sec h
    simp only [issuerInit, Sys.init, List.mem_map] at h
    obtain ⟨o, _, rfl⟩ := h
    exact ⟨o, rfl⟩
  all_goals simp [issuerInit, Sys.init, ids]

/-- a step inside that changes the variables of the thread but not what it was returned -/
theorem tinv_quiet {start : Int} {s : Sys Int Loc} (h : TInv start s) (t : Nat) (ms ms' : Section Int Loc) (v : Int) (l : Loc)
    (hi : s.inside t = some ms) (hr : l.returned = (s.locals t).returned) (hv : s.shared ≤ v)
    (hs : ∃ o k, k ≤ 6 ∧ ms' = (IOp.section o).drop k ∧ Stage v l (fun w => start ≤ w ∧ ∀ u, ∀ y ∈ ids s u, y < w) o k) :
    TInv start { s with shared := v, locals := upd s.locals t l, inside := upd s.inside t (some ms') } := by
  have hlock : s.lock = some t := (h.excl t).1 (by rw [hi]; simp)
  have hids : ∀ u, ids { s with shared := v, locals := upd s.locals t l, inside := upd s.inside t (some ms') } u = ids s u := by
    intro u
    simp only [ids]
    by_cases hu : u = t
    · subst hu; rw [upd_same, hr]
    · rw [upd_other _ _ hu]
  refine ⟨?_, h.prog, Int.le_trans h.low hv, ?_, ?_, ?_, ?_, ?_⟩
  · intro u
    dsimp only
    by_cases hu : u = t
    · subst hu; simp [hlock]
    · rw [upd_other _ _ hu]; exact h.excl u
  · intro u y hy
    rw [hids] at hy
    have := h.bound u y hy
    exact ⟨this.1, by dsimp only; omega⟩
  · intro u; rw [hids]; exact h.incr u
  · intro u w huw y hy; rw [hids] at hy ⊢; exact h.apart u w huw y hy
  · intro u x y hy
    dsimp only at hy
    by_cases hu : u = t
    · subst hu; rw [upd_same, hr] at hy; exact h.least u x y hy
    · rw [upd_other _ _ hu] at hy; exact h.least u x y hy
  · intro u m hu
    dsimp only at hu
    by_cases hut : u = t
    · subst hut
      rw [upd_same] at hu
      cases hu
      obtain ⟨o, k, hk, h1, h2⟩ := hs
      refine ⟨o, k, hk, h1, ?_⟩
      simp only [hids, upd_same]
      exact h2
    · rw [upd_other _ _ hut] at hu
      have := (h.excl u).1 (by rw [hu]; simp)
      rw [hlock] at this
      exact absurd (Option.some.inj this).symm hut

theorem tinv_step {start : Int} {s : Sys Int Loc} (h : TInv start s) (t : Nat) : TInv start (s.step t) := by
  unfold Sys.step
  cases hi : s.inside t with
  | none =>
    dsimp only
    cases hp : s.prog t with
    | nil => exact h
    | cons sec rest =>
      dsimp only
      cases hl : s.lock with
      | some u => exact h
      | none =>
        dsimp only
        have hnone : ∀ u, s.inside u = none := by
          intro u
          cases hu : s.inside u with
          | none => rfl
          | some x => have := (h.excl u).1 (by rw [hu]; simp); rw [hl] at this; cases this
        refine ⟨?_, ?_, h.low, h.bound, h.incr, h.apart, h.least, ?_⟩
        · intro u
          dsimp only
          by_cases hut : u = t
          · subst hut; simp
          · rw [upd_other _ _ hut, hnone u]; simp [Ne.symm hut]
        · intro u sec' hs
          dsimp only at hs
          by_cases hut : u = t
          · subst hut; rw [upd_same] at hs; exact h.prog u sec' (by rw [hp]; exact List.mem_cons_of_mem _ hs)
          · rw [upd_other _ _ hut] at hs; exact h.prog u sec' hs
        · intro u ms hu
          dsimp only at hu
          by_cases hut : u = t
          · subst hut
            rw [upd_same] at hu
            cases hu
            obtain ⟨o, ho⟩ := h.prog u sec (by rw [hp]; exact List.mem_cons_self)
            exact ⟨o, 0, by omega, ho, trivial⟩
          · rw [upd_other _ _ hut, hnone u] at hu; cases hu
  | some ms =>
    have hlock : s.lock = some t := (h.excl t).1 (by rw [hi]; simp)
    have hothers : ∀ u, u ≠ t → s.inside u = none := by
      intro u hut
      cases hu : s.inside u with
      | none => rfl
      | some x =>
        have := (h.excl u).1 (by rw [hu]; simp)
        rw [hlock] at this
        exact absurd (Option.some.inj this).symm hut
    obtain ⟨o, k, hk, hms, hst⟩ := h.stage t ms hi
    have hk' : k = 0 ∨ k = 1 ∨ k = 2 ∨ k = 3 ∨ k = 4 ∨ k = 5 ∨ k = 6 := by omega
    rcases hk' with rfl | rfl | rfl | rfl | rfl | rfl | rfl
    · subst hms
      refine tinv_quiet h t _ _ _ _ hi ?_ ?_ ⟨o, 1, by omega, by cases o <;> rfl, ?_⟩
      · cases o <;> rfl
      · cases o <;> exact Int.le_refl _
      · cases o with
        | issue => simp [check, Stage]
        | noLessThan x =>
          simp only [check, Stage, decide_eq_true_eq, decide_eq_false_iff_not, IOp.noLessThan.injEq]
          exact ⟨fun h1 y hy => by omega, fun h1 => ⟨x, rfl, by omega⟩⟩
    · subst hms
      obtain ⟨h1, h2⟩ := hst
      refine tinv_quiet h t _ _ _ _ hi ?_ ?_ ⟨o, 2, by omega, by cases o <;> rfl, ?_⟩
      · cases o <;> rfl
      · cases o with
        | issue => exact Int.le_refl _
        | noLessThan x =>
          simp only [assign]
          cases hg : (s.locals t).greater with
          | true => simp
          | false => obtain ⟨y, h3, h4⟩ := h2 hg; cases h3; simpa using h4
      · cases o with
        | issue => simp [assign, Stage]
        | noLessThan x =>
          simp only [assign, Stage, IOp.noLessThan.injEq]
          intro y hy
          cases hg : (s.locals t).greater with
          | true => have := h1 hg x rfl; simp; omega
          | false => simp; omega
    · subst hms
      refine tinv_quiet h t _ _ _ _ hi rfl (Int.le_refl _) ⟨o, 3, by omega, rfl, rfl, hst⟩
    · subst hms
      obtain ⟨h1, h2⟩ := hst
      refine tinv_quiet h t _ _ _ _ hi rfl (Int.le_refl _) ⟨o, 4, by omega, rfl, h1, rfl, h2⟩
    · subst hms
      obtain ⟨h1, h2, h3⟩ := hst
      refine tinv_quiet h t _ _ _ _ hi rfl (by show _ ≤ (s.locals t).tmp + 1; omega) ⟨o, 5, by omega, rfl, ?_, ⟨?_, ?_⟩, h3⟩
      · show (s.locals t).tmp + 1 = (s.locals t).ret + 1; omega
      · show start ≤ (s.locals t).ret; rw [h1]; exact h.low
      · intro u y hy
        show y < (s.locals t).ret
        rw [h1]; exact (h.bound u y hy).2
    · subst hms
      obtain ⟨h1, ⟨h0, h2⟩, h3⟩ := hst
      have hids : ids (s.step t) t = ids s t ++ [(s.locals t).ret] ∧ (∀ u, u ≠ t → ids (s.step t) u = ids s u) := by
        unfold Sys.step
        rw [hi]
        refine ⟨by simp [IOp.section, ids, give], fun u hu => ?_⟩
        simp only [ids]
        show ((upd s.locals t _) u).returned.map _ = _
        rw [upd_other _ _ hu]
      have hstep : s.step t = { s with locals := upd s.locals t { (s.locals t) with returned := (s.locals t).returned ++ [(o, (s.locals t).ret)] }, inside := upd s.inside t (some []) } := by
        unfold Sys.step
        rw [hi]
        simp [IOp.section, give]
      have goal : TInv start (s.step t) := by
        refine ⟨?_, ?_, ?_, ?_, ?_, ?_, ?_, ?_⟩
        · intro u
          rw [hstep]
          dsimp only
          by_cases hut : u = t
          · subst hut; simp [hlock]
          · rw [upd_other _ _ hut]; exact h.excl u
        · rw [hstep]; exact h.prog
        · rw [hstep]; exact h.low
        · intro u y hy
          have hsh : (s.step t).shared = s.shared := by rw [hstep]
          rw [hsh]
          by_cases hut : u = t
          · subst hut
            rw [hids.1, List.mem_append, List.mem_singleton] at hy
            rcases hy with hy | rfl
            · exact h.bound u y hy
            · exact ⟨h0, by omega⟩
          · rw [hids.2 u hut] at hy; exact h.bound u y hy
        · intro u
          by_cases hut : u = t
          · subst hut
            rw [hids.1, List.pairwise_append]
            exact ⟨h.incr u, by simp, fun a ha b hb => by rw [List.mem_singleton] at hb; subst hb; exact h2 u a ha⟩
          · rw [hids.2 u hut]; exact h.incr u
        · intro u w huw y hy hy'
          by_cases hut : u = t
          · subst hut
            rw [hids.1, List.mem_append, List.mem_singleton] at hy
            rw [hids.2 w (Ne.symm huw)] at hy'
            rcases hy with hy | rfl
            · exact h.apart u w huw y hy hy'
            · exact absurd (h2 w _ hy') (by omega)
          · rw [hids.2 u hut] at hy
            by_cases hwt : w = t
            · subst hwt
              rw [hids.1, List.mem_append, List.mem_singleton] at hy'
              rcases hy' with hy' | rfl
              · exact h.apart u w huw y hy hy'
              · exact absurd (h2 u _ hy) (by omega)
            · rw [hids.2 w hwt] at hy'; exact h.apart u w huw y hy hy'
        · intro u x y hy
          rw [hstep] at hy
          dsimp only at hy
          by_cases hut : u = t
          · subst hut
            simp only [upd_same, List.mem_append, List.mem_singleton, Prod.mk.injEq] at hy
            rcases hy with hy | ⟨h4, h5⟩
            · exact h.least u x y hy
            · rw [h5]; exact h3 x h4.symm
          · rw [upd_other _ _ hut] at hy; exact h.least u x y hy
        · intro u ms hu
          rw [hstep] at hu
          dsimp only at hu
          by_cases hut : u = t
          · subst hut
            rw [upd_same] at hu
            cases hu
            exact ⟨o, 6, by omega, rfl, trivial⟩
          · rw [upd_other _ _ hut, hothers u hut] at hu; cases hu
      unfold Sys.step at goal
      rw [hi] at goal
      exact goal
    · subst hms
      refine ⟨?_, h.prog, h.low, h.bound, h.incr, h.apart, h.least, ?_⟩
      · intro u
        dsimp only
        by_cases hut : u = t
        · subst hut; simp [IOp.section]
        · show upd s.inside t none u ≠ none ↔ none = some u
          rw [upd_other _ _ hut, hothers u hut]; simp
      · intro u m hu
        dsimp only [IOp.section, List.drop] at hu
        by_cases hut : u = t
        · subst hut; simp at hu
        · rw [upd_other _ _ hut, hothers u hut] at hu; cases hu

theorem tinv_run {start : Int} (ts : List Nat) : ∀ {s : Sys Int Loc}, TInv start s → TInv start (s.run ts) := by
  induction ts with
  | nil => intro s h; exact h
  | cons t ts ih => intro s h; exact ih (tinv_step h t)

/-- **C18, threads.** Any number of threads make any calls on a new issuer, and may be interrupted between any two accesses to its attribute.  At every
moment of every schedule: each thread was given strictly increasing identifiers, no identifier was given to two threads, all are at least the starting value,
and `no_less_than(x)` gave at least `x`. -/
theorem C18_threads (start : Int) (p : Nat → List IOp) (ts : List Nat) (t : Nat) :
    let got (u : Nat) := (((issuerInit start p).run ts).locals u).returned
    ((got t).map (·.2)).Pairwise (· < ·) ∧
    (∀ u, u ≠ t → ∀ y, y ∈ (got t).map (·.2) → y ∉ (got u).map (·.2)) ∧
    (∀ y, y ∈ (got t).map (·.2) → start ≤ y) ∧
    (∀ x y, (IOp.noLessThan x, y) ∈ got t → x ≤ y) := by
  have h := tinv_run ts (tinv_init start p)
  exact ⟨h.incr t, fun u hu y hy => h.apart t u (Ne.symm hu) y hy, fun y hy => (h.bound t y hy).1, fun x y hy => h.least t x y hy⟩

/-- two threads that get into each other's way -/
def exTwo : Sys Int Loc := (issuerInit 3 (fun t => if t = 0 then [.issue, .noLessThan 9] else if t = 1 then [.issue, .noLessThan 2] else [])).run
  [0, 1, 0, 0, 1, 0, 0, 0, 0, 0, 1, 1, 0, 1, 1, 1, 1, 1, 1, 0, 0, 0, 0, 0, 0, 0, 0, 1, 1, 1, 1, 1, 1, 1, 1, 1]

example : (exTwo.locals 0).returned = [(.issue, 3), (.noLessThan 9, 9)] ∧ (exTwo.locals 1).returned = [(.issue, 4), (.noLessThan 2, 10)] := ⟨rfl, rfl⟩

end Verif.Ids
