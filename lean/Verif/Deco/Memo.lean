import Verif.Deco.Retry
import Verif.Py.Run
import Verif.Conc.Monitor
/-!
# Model of cache_memoize and memoize (satella/coding/decorators/decorators.py), and C38

Any number of threads call the decorated function.  The monitor is held while the tables are looked at and changed, and released while the function itself runs; so each of the following is one step:
beginning a call (which reads the clock), looking into the tables, and storing what the function returned (together with returning it).  The clock does not go backwards.
A call has positional and keyword arguments; `key` gives the positional ones.  `dur` is cache_duration; `none` for memoize, whose entries do not expire.
-/
namespace Verif.Deco
open Verif Verif.Conc

section
variable {γ κ ν : Type} [DecidableEq κ]

/-- An entry of memoize_timestamps and memoize_values, /repo/satella/coding/decorators/decorators.py:161-162.  Ghosts: the call that computed the value, and when it began computing. -/
structure Ent (γ ν : Type) where
  ts : Int
  val : ν
  call : γ
  begun : Int

/-- where a thread is: not in a call; having read the clock (:167); computing, since a time (:173-174, :178-179).  (Part of the model of `cache_memoize`, /repo/satella/coding/decorators/decorators.py:140-187.) -/
inductive MPc (γ : Type) where
  | idle
  | entered (c : γ) (now : Int)
  | computing (c : γ) (now begun : Int)

/-- a call that returned: it was made at `now`, and returned `val`.  (Part of the model of `cache_memoize`, /repo/satella/coding/decorators/decorators.py:140-187.) -/
structure Ret (γ ν : Type) where
  call : γ
  now : Int
  val : ν

/-- a computation that finished: of a call, begun at a time, with a value.  (Part of the model of `cache_memoize`, /repo/satella/coding/decorators/decorators.py:140-187.) -/
structure Comp (γ ν : Type) where
  call : γ
  begun : Int
  val : ν

/-- The table, the clock and the threads.  Ghosts: what happened so far.  (Part of the model of `cache_memoize`, /repo/satella/coding/decorators/decorators.py:140-187.) -/
structure MSt (γ κ ν : Type) where
  table : κ → Option (Ent γ ν)
  clock : Int
  pcs : Nat → MPc γ
  rets : List (Ret γ ν)
  comps : List (Comp γ ν)

/-- nothing cached yet.  (Part of the model of `cache_memoize`, /repo/satella/coding/decorators/decorators.py:140-187.) -/
def MSt.init : MSt γ κ ν := { table := fun _ => none, clock := 0, pcs := fun _ => .idle, rets := [], comps := [] }

/-- events: time passes; a thread begins a call, looks into the tables, finishes computing.  (Part of the model of `cache_memoize`, /repo/satella/coding/decorators/decorators.py:140-187.) -/
inductive MEv (γ ν : Type) where
  | tick (d : Nat)
  | start (th : Nat) (c : γ)
  | check (th : Nat)
  | finish (th : Nat) (o : Outc ν)

/-- `memoize_timestamps[args] = now; memoize_values[args] = v`, /repo/satella/coding/decorators/decorators.py:175-176 -/
def put (t : κ → Option (Ent γ ν)) (k : κ) (e : Ent γ ν) : κ → Option (Ent γ ν) := fun k' => if k' = k then some e else t k'

variable (key : γ → κ) (dur : Option Int)

/-- `now - ts > cache_duration`, /repo/satella/coding/decorators/decorators.py:172; never for memoize -/
def stale (now ts : Int) : Bool :=
  match dur with
  | none => false
  | some d => decide (now - ts > d)

/-- One event; /repo/satella/coding/decorators/decorators.py:167-183 for cache_memoize, :212-219 for memoize.  An exception of the function leaves the tables as they are.  Events that do not fit where the thread is change nothing. -/
def MSt.step (s : MSt γ κ ν) : MEv γ ν → MSt γ κ ν
  | .tick d => { s with clock := s.clock + d }
  | .start th c =>
    match s.pcs th with
    | .idle => { s with pcs := upd s.pcs th (.entered c s.clock) }
    | _ => s
  | .check th =>
    match s.pcs th with
    | .entered c now =>
      match s.table (key c) with
      | none => { s with pcs := upd s.pcs th (.computing c now s.clock) }
      | some e =>
        if stale dur now e.ts then { s with pcs := upd s.pcs th (.computing c now s.clock) }
        else { s with pcs := upd s.pcs th .idle, rets := ⟨c, now, e.val⟩ :: s.rets }
    | _ => s
  | .finish th o =>
    match s.pcs th with
    | .computing c now b =>
      match o with
      | .val v => { s with table := put s.table (key c) ⟨now, v, c, b⟩, pcs := upd s.pcs th .idle, rets := ⟨c, now, v⟩ :: s.rets, comps := ⟨c, b, v⟩ :: s.comps }
      | .exc _ => { s with pcs := upd s.pcs th .idle }
    | _ => s

/-- all events.  (Part of the model of `cache_memoize`, /repo/satella/coding/decorators/decorators.py:140-187.) -/
def MSt.run (s : MSt γ κ ν) (evs : List (MEv γ ν)) : MSt γ κ ν := evs.foldl (fun s e => s.step key dur e) s

/-! ## C38, under all schedules -/

structure MInv (s : MSt γ κ ν) : Prop where
  table : ∀ k e, s.table k = some e → key e.call = k ∧ ⟨e.call, e.begun, e.val⟩ ∈ s.comps ∧ e.ts ≤ e.begun
  entered : ∀ th c now, s.pcs th = .entered c now → now ≤ s.clock
  computing : ∀ th c now b, s.pcs th = .computing c now b → now ≤ b
  rets : ∀ r ∈ s.rets, ∃ c ∈ s.comps, key c.call = key r.call ∧ c.val = r.val ∧ ∀ d, dur = some d → 0 ≤ d → r.now - d ≤ c.begun

theorem minv_step {s : MSt γ κ ν} (h : MInv key dur s) (e : MEv γ ν) : MInv key dur (s.step key dur e) := by
  cases e with
  | tick d =>
    exact ⟨h.table, fun th c now hh => by have := h.entered th c now hh; simp only [MSt.step]; omega, h.computing, h.rets⟩
  | start th c =>
    simp only [MSt.step]
    split
    · refine ⟨h.table, fun th' c' now hh => ?_, fun th' c' now b hh => ?_, h.rets⟩
      · simp only [upd] at hh
        split at hh
        · cases hh; exact Int.le_refl _
        · exact h.entered th' c' now hh
      · simp only [upd] at hh
        split at hh
        · cases hh
        · exact h.computing th' c' now b hh
    · exact h
  | check th =>
    simp only [MSt.step]
    split
    · rename_i c now hpc
      have hcomp : MInv key dur { s with pcs := upd s.pcs th (.computing c now s.clock) } := by
        refine ⟨h.table, fun th' c' now' hh => ?_, fun th' c' now' b hh => ?_, h.rets⟩
        · simp only [upd] at hh
          split at hh
          · cases hh
          · exact h.entered th' c' now' hh
        · simp only [upd] at hh
          split at hh
          · cases hh; exact h.entered th c now hpc
          · exact h.computing th' c' now' b hh
      split
      · exact hcomp
      · rename_i e he
        split
        · exact hcomp
        · rename_i hst
          obtain ⟨t1, t2, t3⟩ := h.table _ e he
          refine ⟨h.table, fun th' c' now' hh => ?_, fun th' c' now' b hh => ?_, fun r hr => ?_⟩
          · simp only [upd] at hh
            split at hh
            · cases hh
            · exact h.entered th' c' now' hh
          · simp only [upd] at hh
            split at hh
            · cases hh
            · exact h.computing th' c' now' b hh
          · rcases List.mem_cons.1 hr with rfl | hr
            · refine ⟨_, t2, t1, rfl, fun d hd _ => ?_⟩
              simp only [stale, hd, Bool.not_eq_true, decide_eq_false_iff_not] at hst
              dsimp only
              omega
            · exact h.rets r hr
    · exact h
  | finish th o =>
    simp only [MSt.step]
    split
    · rename_i c now b hpc
      have hb := h.computing th c now b hpc
      cases o with
      | val v =>
        refine ⟨fun k e he => ?_, fun th' c' now' hh => ?_, fun th' c' now' b' hh => ?_, fun r hr => ?_⟩
        · simp only [put] at he
          split at he
          · rename_i hk
            cases he
            exact ⟨hk.symm, List.mem_cons_self .., hb⟩
          · obtain ⟨t1, t2, t3⟩ := h.table k e he
            exact ⟨t1, List.mem_cons_of_mem _ t2, t3⟩
        · simp only [upd] at hh
          split at hh
          · cases hh
          · exact h.entered th' c' now' hh
        · simp only [upd] at hh
          split at hh
          · cases hh
          · exact h.computing th' c' now' b' hh
        · rcases List.mem_cons.1 hr with rfl | hr
          · exact ⟨_, List.mem_cons_self .., rfl, rfl, fun d _ hd => by dsimp only; omega⟩
          · obtain ⟨c', h1, h2⟩ := h.rets r hr
            exact ⟨c', List.mem_cons_of_mem _ h1, h2⟩
      | exc e =>
        refine ⟨h.table, fun th' c' now' hh => ?_, fun th' c' now' b' hh => ?_, h.rets⟩
        · simp only [upd] at hh
          split at hh
          · cases hh
          · exact h.entered th' c' now' hh
        · simp only [upd] at hh
          split at hh
          · cases hh
          · exact h.computing th' c' now' b' hh
    · exact h

/-- **C38, freshness.** Under every schedule of any number of threads, every value returned was computed by the function, for the same positional arguments, by a computation that began at most cache_duration before the call that returns it was made
(or later). -/
theorem C38_fresh (evs : List (MEv γ ν)) (r : Ret γ ν) (hr : r ∈ (MSt.run key dur MSt.init evs).rets) :
    ∃ c ∈ (MSt.run key dur MSt.init evs).comps, key c.call = key r.call ∧ c.val = r.val ∧ ∀ d, dur = some d → 0 ≤ d → r.now - d ≤ c.begun := by
  have : ∀ (evs : List (MEv γ ν)) (s : MSt γ κ ν), MInv key dur s → MInv key dur (s.run key dur evs) := by
    intro evs
    induction evs with
    | nil => exact fun s h => h
    | cons e es ih => exact fun s h => ih _ (minv_step key dur h e)
  refine (this evs MSt.init ⟨fun k e h => ?_, fun th c now h => ?_, fun th c now b h => ?_, fun r h => ?_⟩).rets r hr
  · cases h
  · cases h
  · cases h
  · cases h

/-! ## C38, one call after another -/

/-- a call: how much time passes before it, its arguments, and what the function would do -/
abbrev SCall (γ ν : Type) := Nat × γ × Outc ν

/-- what happened: was the function called, and what did the call return -/
structure SRes (ν : Type) where
  computed : Bool
  out : Outc ν
  deriving DecidableEq, Repr

/-- was the function called? -/
def MPc.isComputing : MPc γ → Bool
  | .computing _ _ _ => true
  | _ => false

/-- what a call that did not compute returned: the last value returned -/
def lastRet (s : MSt γ κ ν) (o : Outc ν) : Outc ν :=
  match s.rets with
  | r :: _ => .val r.val
  | [] => o

/-- a whole call of thread 0 -/
def seqStep (s : MSt γ κ ν) (x : SCall γ ν) : MSt γ κ ν × SRes ν :=
  let s1 := s.run key dur [.tick x.1, .start 0 x.2.1, .check 0]
  let b := (s1.pcs 0).isComputing
  (s1.run key dur [.finish 0 x.2.2], { computed := b, out := if b then x.2.2 else lastRet s1 x.2.2 })

/-- the time, and the calls that computed a value, with their time, the last first -/
structure Past (κ ν : Type) where
  now : Int
  computed : List (κ × Int × ν)

/-- The function is called exactly if it has not returned a value for the same positional arguments within cache_duration; otherwise the value is the last one. -/
def SeqSpec (p : Past κ ν) (x : SCall γ ν) (r : SRes ν) (p' : Past κ ν) : Prop :=
  p'.now = p.now + x.1 ∧
  ((∃ t v, p.computed.find? (fun c => decide (c.1 = key x.2.1)) = some (key x.2.1, t, v) ∧ (∀ d, dur = some d → p'.now - t ≤ d) ∧
      r = { computed := false, out := .val v } ∧ p'.computed = p.computed) ∨
   ((∀ c ∈ p.computed, c.1 = key x.2.1 → ∃ d, dur = some d ∧ d < p'.now - c.2.1) ∧ r = { computed := true, out := x.2.2 } ∧
      p'.computed = (match x.2.2 with | .val v => (key x.2.1, p'.now, v) :: p.computed | .exc _ => p.computed)))

/-- the table is the latest computations, whose times do not decrease -/
structure SeqRep (s : MSt γ κ ν) (p : Past κ ν) : Prop where
  clock : s.clock = p.now
  idle : s.pcs 0 = .idle
  table : ∀ k, (s.table k).map (fun e => (k, e.ts, e.val)) = p.computed.find? (fun c => decide (c.1 = k))
  sorted : p.computed.Pairwise (fun a b => b.2.1 ≤ a.2.1)
  past : ∀ c ∈ p.computed, c.2.1 ≤ p.now

theorem find_latest {k : κ} {l : List (κ × Int × ν)} (hs : l.Pairwise (fun a b => b.2.1 ≤ a.2.1)) {x : κ × Int × ν}
    (hx : l.find? (fun c => decide (c.1 = k)) = some x) : ∀ c ∈ l, c.1 = k → c.2.1 ≤ x.2.1 := by
  induction l with
  | nil => cases hx
  | cons a l ih =>
    intro c hc hk
    rw [List.find?_cons] at hx
    by_cases ha : a.1 = k
    · simp only [ha, decide_true] at hx
      cases hx
      rcases List.mem_cons.1 hc with rfl | hc
      · exact Int.le_refl _
      · exact (List.pairwise_cons.1 hs).1 c hc
    · simp only [ha, decide_false] at hx
      rcases List.mem_cons.1 hc with rfl | hc
      · exact absurd hk ha
      · exact ih (List.pairwise_cons.1 hs).2 hx c hc hk

theorem seq_sim (s : MSt γ κ ν) (p : Past κ ν) (x : SCall γ ν) (h : SeqRep s p) :
    ∃ p', SeqSpec key dur p x (seqStep key dur s x).2 p' ∧ SeqRep (seqStep key dur s x).1 p' := by
  obtain ⟨d, c, o⟩ := x
  have hcompute : (∀ c' ∈ p.computed, c'.1 = key c → ∃ d', dur = some d' ∧ d' < (p.now + d) - c'.2.1) →
      (MSt.run key dur s [.tick d, .start 0 c, .check 0] = { s with clock := s.clock + d, pcs := upd (upd s.pcs 0 (.entered c (s.clock + d))) 0 (.computing c (s.clock + d) (s.clock + d)) }) →
      ∃ p', SeqSpec key dur p (d, c, o) (seqStep key dur s (d, c, o)).2 p' ∧ SeqRep (seqStep key dur s (d, c, o)).1 p' := by
    intro hold hrun
    refine ⟨{ now := p.now + d, computed := match o with | .val v => (key c, p.now + d, v) :: p.computed | .exc _ => p.computed }, ⟨rfl, Or.inr ⟨hold, ?_, ?_⟩⟩, ?_⟩
    · simp only [seqStep, hrun]
      simp [upd, MPc.isComputing]
    · cases o <;> rfl
    · cases o with
      | exc e =>
        simp only [seqStep, hrun]
        simp only [MSt.run, List.foldl_cons, List.foldl_nil, MSt.step, upd, if_true]
        exact ⟨by simp [h.clock], by simp [upd], h.table, h.sorted, fun c' hc' => by have := h.past c' hc'; dsimp only; omega⟩
      | val v =>
        simp only [seqStep, hrun]
        simp only [MSt.run, List.foldl_cons, List.foldl_nil, MSt.step, upd, if_true]
        refine ⟨by simp [h.clock], by simp [upd], fun k => ?_, ?_, ?_⟩
        · dsimp only
          rw [List.find?_cons]
          by_cases hk : k = key c
          · subst hk; simp [h.clock, put]
          · have hk' : ¬ key c = k := fun e => hk e.symm
            simp only [put, if_neg hk, decide_eq_false hk']
            exact h.table k
        · exact List.pairwise_cons.2 ⟨fun c' hc' => by have := h.past c' hc'; dsimp only; omega, h.sorted⟩
        · intro c' hc'
          rcases List.mem_cons.1 hc' with rfl | hc'
          · exact Int.le_refl _
          · have := h.past c' hc'; dsimp only; omega
  have hrun0 : MSt.run key dur s [.tick d, .start 0 c, .check 0] =
      MSt.step key dur { s with clock := s.clock + d, pcs := upd s.pcs 0 (.entered c (s.clock + d)) } (.check 0) := by
    simp only [MSt.run, List.foldl_cons, List.foldl_nil]
    congr 1
    simp only [MSt.step, h.idle]
  have htab := h.table (key c)
  cases he : s.table (key c) with
  | none =>
    refine hcompute ?_ ?_
    · rw [he] at htab
      intro c' hc' hk
      have := List.find?_eq_none.1 htab.symm c' hc'
      simp [hk] at this
    · rw [hrun0]
      simp [MSt.step, upd, he]
  | some e =>
    rw [he] at htab
    simp only [Option.map_some] at htab
    by_cases hst : stale dur (s.clock + d) e.ts = true
    · refine hcompute ?_ ?_
      · intro c' hc' hk
        cases hd : dur with
        | none => simp [stale, hd] at hst
        | some d' =>
          simp only [stale, hd, decide_eq_true_eq] at hst
          have := find_latest h.sorted htab.symm c' hc' hk
          have := h.clock
          exact ⟨d', rfl, by dsimp only at *; omega⟩
      · rw [hrun0]
        simp [MSt.step, upd, he, hst]
    · have hrun : MSt.run key dur s [.tick d, .start 0 c, .check 0] =
          { s with clock := s.clock + d, pcs := upd (upd s.pcs 0 (.entered c (s.clock + d))) 0 .idle, rets := ⟨c, s.clock + d, e.val⟩ :: s.rets } := by
        rw [hrun0]
        simp [MSt.step, upd, he, hst]
      refine ⟨{ now := p.now + d, computed := p.computed }, ⟨rfl, Or.inl ⟨e.ts, e.val, htab.symm, ?_, ?_, rfl⟩⟩, ?_⟩
      · intro d' hd
        simp only [stale, hd, decide_eq_true_eq] at hst
        have := h.clock
        dsimp only
        omega
      · simp only [seqStep, hrun]
        simp [upd, MPc.isComputing, lastRet]
      · simp only [seqStep, hrun]
        simp only [MSt.run, List.foldl_cons, List.foldl_nil, MSt.step, upd, if_true]
        exact ⟨by simp [h.clock], by simp [upd], h.table, h.sorted, fun c' hc' => by have := h.past c' hc'; dsimp only; omega⟩

/-- **C38, one call after another.** In every sequential history, at any times, the function is called exactly when it has not returned a value for the same positional arguments within cache_duration (for memoize: ever),
and otherwise the value it returned last is returned. -/
theorem C38_sequential (xs : List (SCall γ ν)) :
    ∃ p, History (SeqSpec key dur) ⟨0, []⟩ xs (runOps (seqStep key dur) (MSt.init : MSt γ κ ν) xs).2 p := by
  obtain ⟨p, h, _⟩ := history_of_sim (spec := SeqSpec key dur) SeqRep (fun _ => True) (fun s b o _ h => seq_sim key dur s b o h) (MSt.init : MSt γ κ ν) ⟨0, []⟩ xs (fun _ _ => trivial)
    ⟨rfl, rfl, fun k => rfl, List.Pairwise.nil, fun c hc => by cases hc⟩
  exact ⟨p, h⟩

end

/-- **C38, memoize, violated** with threads: both compute, at once, although the documentation has the others wait; and they return different values. -/
theorem C38_concurrent_violates :
    let s := MSt.run (γ := Nat) (κ := Nat) (ν := Nat) id none MSt.init [.start 0 5, .start 1 5, .check 0, .check 1, .finish 0 (.val 1), .finish 1 (.val 2)]
    s.comps.length = 2 ∧ s.rets.map (·.val) = [2, 1] := by decide

/-- **C38, violated** with threads: a computation that began earlier and ends later makes the entry older, so that a value not older than cache_duration is computed again. -/
theorem C38_overwritten_violates :
    let s := MSt.run (γ := Nat) (κ := Nat) (ν := Nat) id (some 7) MSt.init
      [.start 0 5, .check 0, .tick 5, .start 1 5, .check 1, .finish 1 (.val 2), .finish 0 (.val 1), .tick 3, .start 2 5, .check 2]
    (s.pcs 2).isComputing = true ∧ (∃ c ∈ s.comps, c.begun = 5 ∧ s.clock = 8) := by
  refine ⟨rfl, ⟨5, 5, 2⟩, ?_, rfl, rfl⟩
  simp [MSt.run, MSt.step, MSt.init, upd, put, stale]

/-- **C38, keyword arguments.** They are not looked at: a call that differs in them gets the value of the other. -/
theorem C38_kwargs_violates :
    (runOps (seqStep (γ := Nat × Nat) (ν := Nat) (fun c => c.1) (some 10)) MSt.init [(0, (1, 2), .val 12), (1, (1, 3), .val 13)]).2 =
      [{ computed := true, out := .val 12 }, { computed := false, out := .val 12 }] := by decide

/-! Concrete cases. -/

example : (runOps (seqStep (γ := Nat) (ν := Nat) id (some 10)) MSt.init [(0, 1, .val 7), (10, 1, .val 8), (1, 1, .val 9), (1, 2, .exc .valueError), (1, 2, .val 3)]).2 =
    [⟨true, .val 7⟩, ⟨false, .val 7⟩, ⟨true, .val 9⟩, ⟨true, .exc .valueError⟩, ⟨true, .val 3⟩] := by decide
example : ∃ r, r ∈ (MSt.run (γ := Nat) (κ := Nat) (ν := Nat) id (some 7) MSt.init [.start 0 5, .start 1 5, .check 0, .finish 0 (.val 1), .check 1]).rets :=
  ⟨⟨5, 0, 1⟩, by simp [MSt.run, MSt.step, MSt.init, upd, put, stale]⟩

end Verif.Deco
