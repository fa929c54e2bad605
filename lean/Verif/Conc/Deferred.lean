import Verif.Py.Run
import Verif.Conc.Monitor
/-!
# Model of DeferredValue (satella/coding/concurrent/value.py), C64

Threads interleave between the statements of `set_value` and `value`.  `threading.Event` is a flag; a waiting thread goes on once the flag is set, or when its timeout is over, whenever the
schedule says so.
-/
namespace Verif.Deferred
open Verif Verif.Conc

/-- where a thread is: not in a call, in `set_value` past the test (line 36), past the assignment (line 38), or in `value` waiting for the event (line 57), or past the wait.  (Part of the model of `DeferredValue`, /repo/satella/coding/concurrent/value.py:10-60.) -/
inductive Pc where
  | idle
  | checked (v : Nat)
  | assigned (v : Nat)
  | waiting
  | woken
  deriving DecidableEq, Repr

/-- what a caller sees: its `set_value` returned or raised ValueError, its `value` gave a value or raised WouldWaitMore; `none` would be the internal marker for "no value" leaking out.  (Part of the model of `DeferredValue`, /repo/satella/coding/concurrent/value.py:10-60.) -/
inductive Ev where
  | setOk (t v : Nat)
  | setError (t v : Nat)
  | got (t : Nat) (v : Option Nat)
  | wouldWait (t : Nat)
  deriving DecidableEq, Repr

/-- `val` and `lock`, /repo/satella/coding/concurrent/value.py:26-28, where the threads are, and what the callers saw -/
structure St where
  val : Option Nat
  flag : Bool
  pcs : Nat → Pc
  log : List Ev

/-- a new DeferredValue, /repo/satella/coding/concurrent/value.py:26-28 -/
def St.init : St := ⟨none, false, fun _ => .idle, []⟩

/-- a thread calls `set_value(v)` or `value()`, goes on, or its timeout is over.  (Part of the model of `DeferredValue`, /repo/satella/coding/concurrent/value.py:10-60.) -/
inductive Act where
  | set (t v : Nat)
  | value (t : Nat)
  | go (t : Nat)
  | timeout (t : Nat)
  deriving DecidableEq, Repr

/-- one step of a thread, /repo/satella/coding/concurrent/value.py:30-61 -/
def St.step (s : St) : Act → St
  | .set t v =>
    match s.pcs t with
    | .idle =>
      if s.val.isSome then { s with log := s.log ++ [.setError t v] }
      else { s with pcs := upd s.pcs t (.checked v) }
    | _ => s
  | .value t =>
    match s.pcs t with
    | .idle =>
      if s.val.isSome then { s with log := s.log ++ [.got t s.val] }
      else { s with pcs := upd s.pcs t .waiting }
    | _ => s
  | .go t =>
    match s.pcs t with
    | .idle => s
    | .checked v => { s with val := some v, pcs := upd s.pcs t (.assigned v) }
    | .assigned v => { s with flag := true, pcs := upd s.pcs t .idle, log := s.log ++ [.setOk t v] }
    | .waiting => if s.flag then { s with pcs := upd s.pcs t .woken } else s
    | .woken => { s with pcs := upd s.pcs t .idle, log := s.log ++ [.got t s.val] }
  | .timeout t =>
    match s.pcs t with
    | .waiting => if s.flag then { s with pcs := upd s.pcs t .woken } else { s with pcs := upd s.pcs t .idle, log := s.log ++ [.wouldWait t] }
    | _ => s

/-- a schedule.  (Part of the model of `DeferredValue`, /repo/satella/coding/concurrent/value.py:10-60.) -/
def St.run (s : St) (as : List Act) : St := as.foldl St.step s

/-! ## Every schedule -/

structure Inv (s : St) : Prop where
  flag_val : s.flag = true → s.val.isSome
  assigned : ∀ t v, s.pcs t = .assigned v → s.val.isSome
  woken : ∀ t, s.pcs t = .woken → s.flag = true
  got : ∀ t v, .got t v ∈ s.log → v.isSome

theorem inv_init : Inv St.init := ⟨by simp [St.init], by simp [St.init], by simp [St.init], by simp [St.init]⟩

theorem inv_step (s : St) (a : Act) (h : Inv s) : Inv (s.step a) := by
  obtain ⟨h1, h2, h3, h4⟩ := h
  have keep : ∀ t p, (∀ v, p ≠ .assigned v) → p ≠ .woken → Inv { s with pcs := upd s.pcs t p } := by
    intro t p hp1 hp2
    refine ⟨h1, ?_, ?_, h4⟩
    · intro u v hu
      dsimp only [upd] at hu
      split at hu
      · exact absurd hu (hp1 v)
      · exact h2 u v hu
    · intro u hu
      dsimp only [upd] at hu
      split at hu
      · exact absurd hu hp2
      · exact h3 u hu
  have wake : ∀ t, s.flag = true → Inv { s with pcs := upd s.pcs t .woken } := by
    intro t hf
    refine ⟨h1, ?_, fun _ _ => hf, h4⟩
    intro u v hu
    dsimp only [upd] at hu
    split at hu
    · cases hu
    · exact h2 u v hu
  have logged : ∀ s' : St, Inv s' → ∀ e, (∀ t v, e = Ev.got t v → v.isSome) → Inv { s' with log := s'.log ++ [e] } := by
    intro s' hs e he
    refine ⟨hs.1, hs.2, hs.3, ?_⟩
    intro t v hm
    rcases List.mem_append.1 hm with hm | hm
    · exact hs.4 t v hm
    · exact he t v (List.mem_singleton.1 hm).symm
  cases a with
  | set t v =>
    simp only [St.step]
    split
    · split
      · exact logged s ⟨h1, h2, h3, h4⟩ _ (by simp)
      · exact keep t _ (by simp) (by simp)
    · exact ⟨h1, h2, h3, h4⟩
  | value t =>
    simp only [St.step]
    split
    · split
      · rename_i hv
        exact logged s ⟨h1, h2, h3, h4⟩ _ (by intro u v e; cases e; exact hv)
      · exact keep t _ (by simp) (by simp)
    · exact ⟨h1, h2, h3, h4⟩
  | go t =>
    simp only [St.step]
    split
    · exact ⟨h1, h2, h3, h4⟩
    · rename_i v hp
      refine ⟨fun _ => rfl, fun _ _ _ => rfl, ?_, h4⟩
      intro u hu
      dsimp only [upd] at hu
      split at hu
      · cases hu
      · exact h3 u hu
    · rename_i v hp
      refine ⟨fun _ => h2 t v hp, ?_, fun _ _ => rfl, ?_⟩
      · intro u w hu
        dsimp only [upd] at hu
        split at hu
        · cases hu
        · exact h2 u w hu
      · intro u w hm
        rcases List.mem_append.1 hm with hm | hm
        · exact h4 u w hm
        · simp at hm
    · split
      · rename_i hf
        exact wake t hf
      · exact ⟨h1, h2, h3, h4⟩
    · rename_i hp
      exact logged _ (keep t .idle (by simp) (by simp)) _ (by intro u v e; cases e; exact h1 (h3 t hp))
  | timeout t =>
    simp only [St.step]
    split
    · split
      · rename_i hf
        exact wake t hf
      · exact logged _ (keep t .idle (by simp) (by simp)) _ (by simp)
    · exact ⟨h1, h2, h3, h4⟩

theorem inv_run (as : List Act) (s : St) (h : Inv s) : Inv (s.run as) := by
  induction as generalizing s with
  | nil => exact h
  | cons a as ih => exact ih _ (inv_step s a h)

/-- the values that some thread has passed to `set_value` in this schedule -/
def given (as : List Act) : List Nat := as.filterMap (fun a => match a with | .set _ v => some v | _ => none)

/-- every value around was given -/
structure From (l : List Nat) (s : St) : Prop where
  val : ∀ v, s.val = some v → v ∈ l
  checked : ∀ t v, s.pcs t = .checked v → v ∈ l
  got : ∀ t v, .got t (some v) ∈ s.log → v ∈ l

theorem from_step (l : List Nat) (s : St) (a : Act) (h : From l s) (ha : ∀ t v, a = .set t v → v ∈ l) : From l (s.step a) := by
  obtain ⟨h1, h2, h3⟩ := h
  have keep : ∀ t p, (∀ v, p = Pc.checked v → v ∈ l) → From l { s with pcs := upd s.pcs t p } := by
    intro t p hp
    refine ⟨h1, ?_, h3⟩
    intro u v hu
    dsimp only [upd] at hu
    split at hu
    · exact hp v hu
    · exact h2 u v hu
  have logged : ∀ s' : St, From l s' → ∀ e, (∀ t v, e = Ev.got t (some v) → v ∈ l) → From l { s' with log := s'.log ++ [e] } := by
    intro s' hs e he
    refine ⟨hs.1, hs.2, ?_⟩
    intro t v hm
    rcases List.mem_append.1 hm with hm | hm
    · exact hs.3 t v hm
    · exact he t v (List.mem_singleton.1 hm).symm
  cases a with
  | set t v =>
    simp only [St.step]
    split
    · split
      · exact logged s ⟨h1, h2, h3⟩ _ (by simp)
      · exact keep t _ (by intro w e; cases e; exact ha t v rfl)
    · exact ⟨h1, h2, h3⟩
  | value t =>
    simp only [St.step]
    split
    · split
      · exact logged s ⟨h1, h2, h3⟩ _ (by intro u v e; injection e with _ e; exact h1 v e)
      · exact keep t _ (by simp)
    · exact ⟨h1, h2, h3⟩
  | go t =>
    simp only [St.step]
    split
    · exact ⟨h1, h2, h3⟩
    · rename_i v hp
      refine ⟨by intro w e; cases e; exact h2 t v hp, ?_, h3⟩
      intro u w hu
      dsimp only [upd] at hu
      split at hu
      · cases hu
      · exact h2 u w hu
    · rename_i v hp
      have := logged _ (keep t .idle (by simp)) (.setOk t v) (by simp)
      exact ⟨this.1, this.2, this.3⟩
    · split
      · exact keep t _ (by simp)
      · exact ⟨h1, h2, h3⟩
    · exact logged _ (keep t .idle (by simp)) _ (by intro u v e; injection e with _ e; exact h1 v e)
  | timeout t =>
    simp only [St.step]
    split
    · split
      · exact keep t _ (by simp)
      · exact logged _ (keep t .idle (by simp)) _ (by simp)
    · exact ⟨h1, h2, h3⟩

theorem from_run (l : List Nat) (as : List Act) (s : St) (h : From l s) (ha : ∀ v ∈ given as, v ∈ l) : From l (s.run as) := by
  induction as generalizing s with
  | nil => exact h
  | cons a as ih =>
    refine ih _ (from_step l s a h ?_) ?_
    · intro t v e
      subst e
      exact ha v (by simp [given])
    · intro v hv
      apply ha
      unfold given at hv ⊢
      rw [List.filterMap_cons]
      split
      · exact hv
      · exact List.mem_cons_of_mem _ hv

/-- **C64, every schedule.** A call to `value` that returns gives a value that some thread has passed to `set_value`, never the internal marker. -/
theorem C64_given (as : List Act) (t : Nat) (v : Option Nat) (h : .got t v ∈ (St.init.run as).log) : ∃ x, v = some x ∧ x ∈ given as := by
  have hs := (inv_run as _ inv_init).got t v h
  obtain ⟨x, rfl⟩ := Option.isSome_iff_exists.1 hs
  exact ⟨x, rfl, (from_run (given as) as St.init ⟨by simp [St.init], by simp [St.init], by simp [St.init]⟩ (fun v hv => hv)).got t x h⟩

/-- **C64, no lost wake-up.** Once a `set_value` has returned, a thread that waits in `value`, or calls it, returns with a value after two steps of its own, whatever the others do meanwhile; it cannot time out. -/
theorem C64_wakes (as bs cs : List Act) (t w v : Nat) (a : Act) (hw : .setOk w v ∈ (St.init.run as).log)
    (ht : ((St.init.run as).run bs).pcs t = .waiting) (ha : a = .go t ∨ a = .timeout t)
    (hc : ∀ c ∈ cs, c ≠ .go t) :
    ∃ x, .got t (some x) ∈ (((((St.init.run as).run bs).step a).run cs).step (.go t)).log := by
  have flag_run : ∀ (l : List Act) (s : St), s.flag = true → (s.run l).flag = true := by
    intro l
    induction l with
    | nil => exact fun s h => h
    | cons b l ih =>
      intro s h
      apply ih
      cases b <;> simp only [St.step] <;> split <;> first | exact h | (split <;> exact h) | rfl
  have ok_flag : ∀ (l : List Act) (s : St), (.setOk w v ∈ s.log → s.flag = true) → .setOk w v ∈ (s.run l).log → (s.run l).flag = true := by
    intro l
    induction l with
    | nil => exact fun s h h' => h h'
    | cons b l ih =>
      intro s h
      apply ih
      cases b <;> simp only [St.step] <;> split <;> first
        | exact h
        | (split <;> first | exact h | (intro hm; exact h (by simpa using hm)))
        | (intro hm; exact h (by simpa using hm))
        | (intro _; rfl)
  have hf : ((St.init.run as).run bs).flag = true := flag_run bs _ (ok_flag as St.init (by simp [St.init]) hw)
  have hi : Inv ((St.init.run as).run bs) := inv_run bs _ (inv_run as _ inv_init)
  generalize (St.init.run as).run bs = s at hf ht hi
  have h1 : (s.step a).pcs t = .woken := by
    rcases ha with rfl | rfl <;> simp [St.step, ht, hf, upd]
  have hi1 := inv_step s a hi
  generalize s.step a = s1 at h1 hi1
  have h2 : (s1.run cs).pcs t = .woken ∧ Inv (s1.run cs) := by
    clear hf ht hi
    induction cs generalizing s1 with
    | nil => exact ⟨h1, hi1⟩
    | cons c cs ih =>
      refine ih (fun c hm => hc c (List.mem_cons_of_mem _ hm)) (s1.step c) ?_ (inv_step s1 c hi1)
      have hne := hc c (List.mem_cons_self ..)
      have other : ∀ u p, u ≠ t → upd s1.pcs u p t = s1.pcs t := by
        intro u p hu
        unfold upd
        rw [if_neg (fun e => hu e.symm)]
      cases c with
      | set u x =>
        by_cases hu : u = t
        · subst hu; simp [St.step, h1]
        · simp only [St.step]
          split
          · split
            · exact h1
            · exact (other u _ hu).trans h1
          · exact h1
      | value u =>
        by_cases hu : u = t
        · subst hu; simp [St.step, h1]
        · simp only [St.step]
          split
          · split
            · exact h1
            · exact (other u _ hu).trans h1
          · exact h1
      | go u =>
        have hu : u ≠ t := fun e => hne (by rw [e])
        simp only [St.step]
        split
        · exact h1
        · exact (other u _ hu).trans h1
        · exact (other u _ hu).trans h1
        · split
          · exact (other u _ hu).trans h1
          · exact h1
        · exact (other u _ hu).trans h1
      | timeout u =>
        by_cases hu : u = t
        · subst hu; simp [St.step, h1]
        · simp only [St.step]
          split
          · split
            · exact (other u _ hu).trans h1
            · exact (other u _ hu).trans h1
          · exact h1
  obtain ⟨h3, h4⟩ := h2
  obtain ⟨x, hx⟩ := Option.isSome_iff_exists.1 (h4.flag_val (h4.woken t h3))
  exact ⟨x, by simp [St.step, h3, hx]⟩

/-! ## One setter at a time -/

/-- `set_value` is called only while no other thread is in it -/
def Alone (s : St) (a : Act) : Prop :=
  match a with
  | .set _ _ => ∀ t v, s.pcs t ≠ .checked v ∧ s.pcs t ≠ .assigned v
  | _ => True

/-- the guard holds all along the schedule -/
def AloneAll : St → List Act → Prop
  | _, [] => True
  | s, a :: as => Alone s a ∧ AloneAll (s.step a) as

/-- at most one thread is in `set_value`, and only it may have set the value -/
structure One (s : St) : Prop where
  single : ∀ t u v w, (s.pcs t = .checked v ∨ s.pcs t = .assigned v) → (s.pcs u = .checked w ∨ s.pcs u = .assigned w) → t = u
  checked : ∀ t v, s.pcs t = .checked v → s.val = none
  assigned : ∀ t v, s.pcs t = .assigned v → s.val = some v
  oks : ∀ t v, .setOk t v ∈ s.log → s.val = some v
  count : (s.log.filter (fun e => match e with | .setOk _ _ => true | _ => false)).length ≤ 1
  none_yet : (∃ t v, s.pcs t = .checked v ∨ s.pcs t = .assigned v) → ∀ t v, .setOk t v ∉ s.log
  gots : ∀ t v, .got t v ∈ s.log → v = s.val
  errors : ∀ t v, .setError t v ∈ s.log → s.val.isSome

theorem one_step (s : St) (a : Act) (h : One s) (hI : Inv s) (ha : Alone s a) : One (s.step a) := by
  have keep : ∀ t p, (∀ v, p ≠ .assigned v) → (∀ v, p ≠ .checked v) → One { s with pcs := upd s.pcs t p } := by
    intro t p hp1 hp2
    have old : ∀ u v, (upd s.pcs t p u = .checked v ∨ upd s.pcs t p u = .assigned v) → (s.pcs u = .checked v ∨ s.pcs u = .assigned v) := by
      intro u v hu
      unfold upd at hu
      split at hu
      · rcases hu with e | e
        · exact absurd e (hp2 v)
        · exact absurd e (hp1 v)
      · exact hu
    refine ⟨?_, ?_, ?_, h.oks, h.count, ?_, h.gots, h.errors⟩
    · intro x u v w hx hu
      exact h.single x u v w (old x v hx) (old u w hu)
    · intro u v hu
      dsimp only [upd] at hu
      split at hu
      · exact absurd hu (hp2 v)
      · exact h.checked u v hu
    · intro u v hu
      dsimp only [upd] at hu
      split at hu
      · exact absurd hu (hp1 v)
      · exact h.assigned u v hu
    · rintro ⟨u, v, hu⟩
      exact h.none_yet ⟨u, v, old u v hu⟩
  have logged : ∀ s' : St, One s' → ∀ e, (∀ t v, e ≠ Ev.setOk t v) → (∀ t v, e = Ev.got t v → v = s'.val) → (∀ t v, e = Ev.setError t v → s'.val.isSome) →
      One { s' with log := s'.log ++ [e] } := by
    intro s' hs e he1 he2 he3
    refine ⟨hs.single, hs.checked, hs.assigned, ?_, ?_, ?_, ?_, ?_⟩
    · intro t v hm
      rcases List.mem_append.1 hm with hm | hm
      · exact hs.oks t v hm
      · exact absurd (List.mem_singleton.1 hm).symm (he1 t v)
    · dsimp only
      rw [List.filter_append]
      cases e with
      | setOk t v => exact absurd rfl (he1 t v)
      | _ => simpa using hs.count
    · intro hx t v hm
      rcases List.mem_append.1 hm with hm | hm
      · exact hs.none_yet hx t v hm
      · exact absurd (List.mem_singleton.1 hm).symm (he1 t v)
    · intro t v hm
      rcases List.mem_append.1 hm with hm | hm
      · exact hs.gots t v hm
      · exact he2 t v (List.mem_singleton.1 hm).symm
    · intro t v hm
      rcases List.mem_append.1 hm with hm | hm
      · exact hs.errors t v hm
      · exact he3 t v (List.mem_singleton.1 hm).symm
  cases a with
  | set t v =>
    simp only [St.step]
    split
    · split
      · rename_i hv
        exact logged s h _ (by simp) (by simp) (by intro _ _ _; exact hv)
      · rename_i hv
        have hv : s.val = none := by simpa using hv
        refine ⟨?_, ?_, ?_, h.oks, h.count, ?_, h.gots, h.errors⟩
        · intro x u a b hx hu
          dsimp only [upd] at hx hu
          split at hx <;> split at hu
          · rename_i e1 e2; rw [e1, e2]
          · rcases hu with e | e
            · exact absurd e (ha u b).1
            · exact absurd e (ha u b).2
          · rcases hx with e | e
            · exact absurd e (ha x a).1
            · exact absurd e (ha x a).2
          · exact h.single x u a b hx hu
        · intro _ _ _
          exact hv
        · intro u w hu
          dsimp only [upd] at hu
          split at hu
          · cases hu
          · exact h.assigned u w hu
        · intro _ x w hm
          have := h.oks x w hm
          rw [hv] at this
          cases this
    · exact h
  | value t =>
    simp only [St.step]
    split
    · split
      · exact logged s h _ (by simp) (by intro u v e; cases e; rfl) (by simp)
      · exact keep t _ (by simp) (by simp)
    · exact h
  | go t =>
    simp only [St.step]
    split
    · exact h
    · rename_i v hp
      have hv := h.checked t v hp
      have noOk := h.none_yet ⟨t, v, Or.inl hp⟩
      refine ⟨?_, ?_, ?_, ?_, h.count, fun _ => noOk, ?_, fun _ _ _ => rfl⟩
      · intro x u a b hx hu
        dsimp only [upd] at hx hu
        split at hx <;> split at hu
        · rename_i e1 e2; rw [e1, e2]
        · rename_i e1 _; rw [e1]; exact h.single t u v b (Or.inl hp) hu
        · rename_i e1; rw [e1]; exact (h.single t x v a (Or.inl hp) hx).symm
        · exact h.single x u a b hx hu
      · intro u w hu
        dsimp only [upd] at hu
        split at hu
        · cases hu
        · rename_i hne
          exact absurd (h.single t u v w (Or.inl hp) (Or.inl hu)).symm hne
      · intro u w hu
        dsimp only [upd] at hu
        split at hu
        · cases hu; rfl
        · rename_i hne
          exact absurd (h.single t u v w (Or.inl hp) (Or.inr hu)).symm hne
      · intro x w hm
        exact absurd hm (noOk x w)
      · intro x w hm
        have := h.gots x w hm
        rw [hv] at this
        have hs := hI.got x w hm
        rw [this] at hs
        cases hs
    · rename_i v hp
      have hv := h.assigned t v hp
      have noOk := h.none_yet ⟨t, v, Or.inr hp⟩
      have none_in : ∀ u w, ¬ (upd s.pcs t .idle u = .checked w ∨ upd s.pcs t .idle u = .assigned w) := by
        intro u w hu
        unfold upd at hu
        split at hu
        · simp at hu
        · rename_i hne
          exact hne (h.single t u v w (Or.inr hp) hu).symm
      refine ⟨?_, ?_, ?_, ?_, ?_, ?_, ?_, ?_⟩
      · intro x u a b hx _
        exact absurd hx (none_in x a)
      · intro u w hu
        exact absurd (Or.inl hu) (none_in u w)
      · intro u w hu
        exact absurd (Or.inr hu) (none_in u w)
      · intro x w hm
        rcases List.mem_append.1 hm with hm | hm
        · exact h.oks x w hm
        · cases List.mem_singleton.1 hm
          exact hv
      · dsimp only
        rw [List.filter_append]
        have : s.log.filter (fun e => match e with | .setOk _ _ => true | _ => false) = [] := by
          rw [List.filter_eq_nil_iff]
          intro e he
          cases e with
          | setOk x w => exact absurd he (noOk x w)
          | _ => simp
        rw [this]
        simp
      · rintro ⟨u, w, hu⟩
        exact absurd hu (none_in u w)
      · intro x w hm
        rcases List.mem_append.1 hm with hm | hm
        · exact h.gots x w hm
        · simp at hm
      · intro x w hm
        rcases List.mem_append.1 hm with hm | hm
        · exact h.errors x w hm
        · simp at hm
    · split
      · exact keep t _ (by simp) (by simp)
      · exact h
    · exact logged _ (keep t .idle (by simp) (by simp)) _ (by simp) (by intro u v e; cases e; rfl) (by simp)
  | timeout t =>
    simp only [St.step]
    split
    · split
      · exact keep t _ (by simp) (by simp)
      · exact logged _ (keep t .idle (by simp) (by simp)) _ (by simp) (by simp) (by simp)
    · exact h

/-- **C64** (partial: calls to `set_value` do not overlap). At most one `set_value` returns, every other one raises ValueError, and only after the value is there; every `value` that returns gives the one value that was set. -/
theorem C64_single_partial (as : List Act) (h : AloneAll St.init as) :
    ((St.init.run as).log.filter (fun e => match e with | .setOk _ _ => true | _ => false)).length ≤ 1 ∧
    (∀ t u v w, .got t v ∈ (St.init.run as).log → .got u w ∈ (St.init.run as).log → v = w) ∧
    (∀ t u v w, .got t v ∈ (St.init.run as).log → .setOk u w ∈ (St.init.run as).log → v = some w) ∧
    (∀ t v, .setError t v ∈ (St.init.run as).log → (St.init.run as).val.isSome) := by
  have hone : One (St.init.run as) := by
    have : ∀ (l : List Act) (s : St), One s → Inv s → AloneAll s l → One (s.run l) := by
      intro l
      induction l with
      | nil => exact fun s h _ _ => h
      | cons a l ih => exact fun s h hi hl => ih _ (one_step s a h hi hl.1) (inv_step s a hi) hl.2
    refine this as _ ?_ inv_init h
    constructor <;> simp [St.init]
  refine ⟨hone.count, ?_, ?_, hone.errors⟩
  · intro t u v w h1 h2
    rw [hone.gots t v h1, hone.gots u w h2]
  · intro t u v w h1 h2
    rw [hone.gots t v h1, hone.oks u w h2]

/-- **C64, violated by two setters**: neither of two overlapping calls raises ValueError, and two calls to `value` give different values. -/
theorem C64_two_setters_violates : ∃ as, (.setOk 1 10 ∈ (St.init.run as).log ∧ .setOk 2 20 ∈ (St.init.run as).log) ∧
    .got 3 (some 10) ∈ (St.init.run as).log ∧ .got 3 (some 20) ∈ (St.init.run as).log :=
  ⟨[.set 1 10, .set 2 20, .go 1, .go 1, .value 3, .go 2, .go 2, .value 3], by decide⟩

/-! Cases that meet the hypotheses -/

example : AloneAll St.init [.value 3, .set 1 10, .go 1, .go 1, .go 3, .set 2 20, .go 3] := by
  simp [AloneAll, Alone, St.step, St.init, upd]
  constructor
  · intro t
    split <;> simp
  · intro t
    split
    · simp
    · split <;> simp_all
example : (St.init.run [.value 3, .set 1 10, .go 1, .go 1, .go 3, .set 2 20, .go 3]).log = [.setOk 1 10, .setError 2 20, .got 3 (some 10)] := by decide
example : .setOk 1 10 ∈ (St.init.run [.value 3, .set 1 10, .go 1, .go 1]).log ∧ ((St.init.run [.value 3, .set 1 10, .go 1, .go 1]).run [.set 2 5]).pcs 3 = .waiting := by decide

end Verif.Deferred
