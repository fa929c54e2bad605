import Verif.Conc.Terminable
/-!
# Life of a CPUTimeAwareIntervalTerminableThread (satella/instrumentation/cpu_time/concurrency.py), C236

The surroundings are those of C67 (`Terminable.Env`).  How long the thread sleeps between loops (C139) is a parameter, `slept i left`, of which the theorems take what C139 proves: between
`left - sooner` and `left`.
-/
namespace Verif.CpuThread
open Verif Terminable

/-! ## Model -/

/-- the `while` loop of `run`, /repo/satella/instrumentation/cpu_time/concurrency.py:79-91, from round `i` on, at time `now`; `starts` are the times at which `loop` was called.  The flag is looked at before each
  loop, and during the sleep, where a request (`req (i + 1)`) raises SystemExit: the thread then ends just as it does when it looks at the flag next.  `on_overrun` takes no time. -/
def loops (E : Env) (seconds : Int) (slept : Nat → Int → Int) : Nat → Nat → Int → List Int → List Ev → Option (End × List Int)
  | 0, _, _, _, _ => none
  | fuel + 1, i, now, starts, trace =>
    if E.req i then some (finish E none true trace, starts)
    else
      match E.loop i with
      | .normal =>
        let left := seconds - E.time i
        if left > 0 then loops E seconds slept fuel (i + 1) (now + E.time i + slept i left) (starts ++ [now]) (trace ++ [.loop, .sleep left])
        else if left < 0 then
          match E.overrun i with
          | .normal => loops E seconds slept fuel (i + 1) (now + E.time i) (starts ++ [now]) (trace ++ [.loop, .overrun])
          | .sysExit => some (finish E none (E.req (i + 1)) (trace ++ [.loop, .overrun]), starts ++ [now])
          | o => some (finish E (some o) (E.req (i + 1)) (trace ++ [.loop, .overrun]), starts ++ [now])
        else loops E seconds slept fuel (i + 1) (now + E.time i) (starts ++ [now]) (trace ++ [.loop])
      | o => some (raised E o (E.req (i + 1)) (trace ++ [.loop]), starts ++ [now])

/-- `CPUTimeAwareIntervalTerminableThread.run`, /repo/satella/instrumentation/cpu_time/concurrency.py:68-93.  SystemExit is not caught here, but ends a thread without a traceback (threading of the standard library). -/
def run (E : Env) (seconds : Int) (slept : Nat → Int → Int) (fuel : Nat) : Option (End × List Int) :=
  match E.prepare with
  | .normal => loops E seconds slept fuel 0 0 [] [.prepare]
  | o => some (raised E o (E.req 0) [.prepare], [])

/-! ## Specification -/

/-- what comes after a `loop` that ended normally -/
def after (E : Env) (seconds : Int) (i : Nat) : List Ev :=
  if E.time i < seconds then [.sleep (seconds - E.time i)] else if seconds < E.time i then [.overrun] else []

/-- the first `k` rounds -/
def rounds (E : Env) (seconds : Int) (k : Nat) : List Ev := (List.range k).flatMap (fun i => .loop :: after E seconds i)

/-- all went well in a round: `loop`, and `on_overrun` if it was called -/
def Fine (E : Env) (seconds : Int) (i : Nat) : Prop := E.loop i = .normal ∧ (seconds < E.time i → E.overrun i = .normal)

/-- the thread ended with this, or with what `cleanup` raised -/
def Died (E : Env) (e : End) (o : Option Out) : Prop := (E.cleanup = .normal → e.died = o) ∧ (E.cleanup ≠ .normal → e.died = some E.cleanup)

/-- after an exception, given by `o`, the thread shows as terminating if and only if it was one of `terminate_on`, or termination was requested -/
def Marked (E : Env) (o : Out) (req : Bool) (e : End) : Prop := e.flag = true ↔ (∃ n, o = .exc n ∧ E.on (.exc n) = true) ∨ req = true

/-- why, and how, a thread ended that called `loop` `k` times -/
inductive Why (E : Env) (seconds : Int) : Nat → End → Prop
  /-- `prepare` raised -/
  | prepare (e) : E.prepare ≠ .normal → e.trace = [.prepare, .cleanup] → (Quiet E E.prepare → Died E e none) → (¬ Quiet E E.prepare → Died E e (some E.prepare)) → Marked E E.prepare (E.req 0) e → Why E seconds 0 e
  /-- the last `loop` raised -/
  | loop (j e) : E.prepare = .normal → E.loop j ≠ .normal → (∀ i, i < j → Fine E seconds i) → e.trace = .prepare :: (rounds E seconds j ++ [.loop, .cleanup]) →
      (Quiet E (E.loop j) → Died E e none) → (¬ Quiet E (E.loop j) → Died E e (some (E.loop j))) → Marked E (E.loop j) (E.req (j + 1)) e → Why E seconds (j + 1) e
  /-- `on_overrun` raised after it; `terminate_on` does not matter for this -/
  | overrun (j e) : E.prepare = .normal → E.loop j = .normal → seconds < E.time j → E.overrun j ≠ .normal → (∀ i, i < j → Fine E seconds i) → e.trace = .prepare :: (rounds E seconds (j + 1) ++ [.cleanup]) →
      (E.overrun j = .sysExit → Died E e none) → (E.overrun j ≠ .sysExit → Died E e (some (E.overrun j))) → e.flag = E.req (j + 1) → Why E seconds (j + 1) e
  /-- termination was requested -/
  | asked (k e) : E.prepare = .normal → (∀ i, i < k → Fine E seconds i) → E.req k = true → e.flag = true → e.trace = .prepare :: (rounds E seconds k ++ [.cleanup]) → Died E e none → Why E seconds k e

/-! ## Proofs -/

theorem rounds_succ (E : Env) (seconds : Int) (k : Nat) : rounds E seconds (k + 1) = rounds E seconds k ++ .loop :: after E seconds k := by
  unfold rounds
  rw [List.range_succ, List.flatMap_append]
  simp

theorem finish_died (E : Env) (o : Option Out) (f : Bool) (t : List Ev) : Died E (finish E o f t) o := by
  unfold finish Died
  constructor
  · intro h; simp [h]
  · intro h; simp [h]

theorem raised_died' (E : Env) (o : Out) (f : Bool) (t : List Ev) (hc : Catchable E) (ho : o ≠ .normal) :
    (Quiet E o → Died E (raised E o f t) none) ∧ (¬ Quiet E o → Died E (raised E o f t) (some o)) := by
  constructor
  · rintro (rfl | hq)
    · exact finish_died E none f t
    · cases o with
      | normal => exact absurd rfl ho
      | exc n => simp only [raised, hq, if_true]; exact finish_died E none true t
      | sysExit => exact finish_died E none f t
      | base n => rw [hc n] at hq; cases hq
  · intro hq
    cases o with
    | normal => exact absurd rfl ho
    | exc n =>
      have : ¬ E.on (.exc n) = true := fun h => hq (Or.inr h)
      simp only [raised, if_neg this]
      exact finish_died E _ f t
    | sysExit => exact absurd (Or.inl rfl) hq
    | base n => exact finish_died E _ f t

theorem raised_marked (E : Env) (o : Out) (f : Bool) (t : List Ev) : Marked E o f (raised E o f t) := by
  unfold Marked
  cases o with
  | exc n =>
    simp only [raised]
    split
    · rename_i h; simp [finish, h]
    · rename_i h; simp [finish, h]
  | _ => simp [raised, finish]

/-- what holds of the times at which loops begin: as in the theorem, and up to the current round at `now` -/
structure Times (E : Env) (seconds sooner : Int) (i : Nat) (now : Int) (starts : List Int) : Prop where
  len : starts.length = i
  first : (starts ++ [now])[0]? = some 0
  gaps : ∀ (j : Nat) a b, (starts ++ [now])[j]? = some a → (starts ++ [now])[j + 1]? = some b → b - a ≤ max seconds (E.time j) ∧ max (seconds - sooner) (E.time j) ≤ b - a

theorem Times.next {E : Env} {seconds sooner : Int} {i : Nat} {now now' : Int} {starts : List Int} (h : Times E seconds sooner i now starts)
    (h1 : now' - now ≤ max seconds (E.time i)) (h2 : max (seconds - sooner) (E.time i) ≤ now' - now) : Times E seconds sooner (i + 1) now' (starts ++ [now]) := by
  obtain ⟨l, f, g⟩ := h
  refine ⟨by simp [l], ?_, ?_⟩
  · rw [List.getElem?_append_left (by simp)]; exact f
  · intro j a b ha hb
    by_cases hj : j = i
    · subst hj
      rw [List.getElem?_append_left (by simp [l])] at ha
      have e1 : (starts ++ [now])[j]? = some now := by rw [List.getElem?_append_right (by omega)]; simp [l]
      have e2 : (starts ++ [now] ++ [now'])[j + 1]? = some now' := by rw [List.getElem?_append_right (by simp [l])]; simp [l]
      rw [e1] at ha
      rw [e2] at hb
      cases ha; cases hb
      exact ⟨h1, h2⟩
    · have hlt : j + 1 < (starts ++ [now]).length := by
        have hb' : j + 1 < (starts ++ [now] ++ [now']).length := by
          rcases Nat.lt_or_ge (j + 1) (starts ++ [now] ++ [now']).length with h | h
          · exact h
          · rw [List.getElem?_eq_none h] at hb; cases hb
        simp only [List.length_append, List.length_cons, List.length_nil] at hb' ⊢
        omega
      rw [List.getElem?_append_left (by omega)] at ha
      rw [List.getElem?_append_left hlt] at hb
      exact g j a b ha hb

theorem loops_spec (E : Env) (hc : Catchable E) (seconds sooner : Int) (hs : 0 ≤ sooner) (slept : Nat → Int → Int) (hsl : ∀ i left, 0 < left → 0 ≤ slept i left ∧ left - sooner ≤ slept i left ∧ slept i left ≤ left)
    (hp : E.prepare = .normal) : ∀ (fuel i : Nat) (now : Int) (starts : List Int) (e : End) (out : List Int), (∀ j, j < i → Fine E seconds j) → (∀ j, j < i → E.req j = false) →
    Times E seconds sooner i now starts → loops E seconds slept fuel i now starts (.prepare :: rounds E seconds i) = some (e, out) →
    Why E seconds out.length e ∧ (∀ j, j < out.length → E.req j = false) ∧ (∀ x, out[0]? = some x → x = 0) ∧
      ∀ (j : Nat) a b, out[j]? = some a → out[j + 1]? = some b → b - a ≤ max seconds (E.time j) ∧ max (seconds - sooner) (E.time j) ≤ b - a := by
  intro fuel
  induction fuel with
  | zero => intro i now starts e out _ _ _ h; cases h
  | succ fuel ih =>
    intro i now starts e out hf hr ht h
    have first : ∀ x, (starts ++ [now])[0]? = some x → x = 0 := by intro x hx; rw [ht.first] at hx; cases hx; rfl
    have len' : (starts ++ [now]).length = i + 1 := by simp [ht.len]
    simp only [loops] at h
    by_cases hq : E.req i = true
    · rw [if_pos hq] at h
      simp only [Option.some.injEq, Prod.mk.injEq] at h
      obtain ⟨rfl, rfl⟩ := h
      rw [ht.len]
      refine ⟨.asked i _ hp hf hq rfl (by simp [finish]) (finish_died E _ _ _), hr, ?_, ?_⟩
      · intro x hx
        refine first x ?_
        rw [List.getElem?_append_left ?_]
        · exact hx
        · rcases Nat.lt_or_ge 0 starts.length with h | h
          · exact h
          · rw [List.getElem?_eq_none h] at hx; cases hx
      · intro j a b ha hb
        have hlt : j + 1 < starts.length := by
          rcases Nat.lt_or_ge (j + 1) starts.length with h | h
          · exact h
          · rw [List.getElem?_eq_none h] at hb; cases hb
        refine ht.gaps j a b ?_ ?_
        · rw [List.getElem?_append_left (by omega)]; exact ha
        · rw [List.getElem?_append_left hlt]; exact hb
    · rw [if_neg hq] at h
      have hq : E.req i = false := by simpa using hq
      have hr' : ∀ j, j < i + 1 → E.req j = false := by
        intro j hj
        by_cases e : j = i
        · rw [e]; exact hq
        · exact hr j (by omega)
      have hf' : Fine E seconds i → ∀ j, j < i + 1 → Fine E seconds j := by
        intro h j hj
        by_cases e : j = i
        · rw [e]; exact h
        · exact hf j (by omega)
      have bad : ∀ o, E.loop i = o → o ≠ .normal → some (raised E o (E.req (i + 1)) (.prepare :: rounds E seconds i ++ [.loop]), starts ++ [now]) = some (e, out) →
          Why E seconds out.length e ∧ (∀ j, j < out.length → E.req j = false) ∧ (∀ x, out[0]? = some x → x = 0) ∧
          ∀ (j : Nat) a b, out[j]? = some a → out[j + 1]? = some b → b - a ≤ max seconds (E.time j) ∧ max (seconds - sooner) (E.time j) ≤ b - a := by
        intro o ho hon h
        simp only [Option.some.injEq, Prod.mk.injEq] at h
        obtain ⟨rfl, rfl⟩ := h
        rw [len']
        obtain ⟨d1, d2⟩ := raised_died' E o (E.req (i + 1)) (.prepare :: rounds E seconds i ++ [.loop]) hc hon
        refine ⟨.loop i _ hp (by rw [ho]; exact hon) hf ?_ (by rw [ho]; exact d1) (by rw [ho]; exact d2) (by rw [ho]; exact raised_marked E o _ _), hr', first, ht.gaps⟩
        rw [raised_trace]; simp
      cases hl : E.loop i with
      | exc n => rw [hl] at h; exact bad _ hl (by simp) h
      | sysExit => rw [hl] at h; exact bad _ hl (by simp) h
      | base n => rw [hl] at h; exact bad _ hl (by simp) h
      | normal =>
        rw [hl] at h
        dsimp only at h
        split at h
        · rename_i hleft
          have ⟨b0, b1, b2⟩ := hsl i (seconds - E.time i) hleft
          have hfi : Fine E seconds i := ⟨hl, fun h => by omega⟩
          have htr : .prepare :: rounds E seconds i ++ [.loop, .sleep (seconds - E.time i)] = .prepare :: rounds E seconds (i + 1) := by
            rw [rounds_succ]; simp [after, show E.time i < seconds by omega]
          rw [htr] at h
          exact ih (i + 1) _ _ e out (hf' hfi) hr' (ht.next (by omega) (by omega)) h
        · split at h
          · rename_i h1 h2
            have htr : .prepare :: rounds E seconds i ++ [.loop, .overrun] = .prepare :: rounds E seconds (i + 1) := by
              rw [rounds_succ]; simp [after, show ¬ E.time i < seconds by omega, show seconds < E.time i by omega]
            rw [htr] at h
            cases ho : E.overrun i with
            | normal =>
              rw [ho] at h
              exact ih (i + 1) _ _ e out (hf' ⟨hl, fun _ => ho⟩) hr' (ht.next (by omega) (by omega)) h
            | sysExit =>
              rw [ho] at h
              simp only [Option.some.injEq, Prod.mk.injEq] at h
              obtain ⟨rfl, rfl⟩ := h
              rw [len']
              exact ⟨.overrun i _ hp hl (by omega) (by simp [ho]) hf (by simp [finish]) (fun _ => finish_died E _ _ _) (fun h => absurd ho h) rfl, hr', first, ht.gaps⟩
            | exc n =>
              rw [ho] at h
              simp only [Option.some.injEq, Prod.mk.injEq] at h
              obtain ⟨rfl, rfl⟩ := h
              rw [len']
              exact ⟨.overrun i _ hp hl (by omega) (by simp [ho]) hf (by simp [finish]) (fun h => by rw [ho] at h; cases h) (fun _ => by rw [ho]; exact finish_died E _ _ _) rfl, hr', first, ht.gaps⟩
            | base n =>
              rw [ho] at h
              simp only [Option.some.injEq, Prod.mk.injEq] at h
              obtain ⟨rfl, rfl⟩ := h
              rw [len']
              exact ⟨.overrun i _ hp hl (by omega) (by simp [ho]) hf (by simp [finish]) (fun h => by rw [ho] at h; cases h) (fun _ => by rw [ho]; exact finish_died E _ _ _) rfl, hr', first, ht.gaps⟩
          · rename_i h1 h2
            have htr : .prepare :: rounds E seconds i ++ [.loop] = .prepare :: rounds E seconds (i + 1) := by
              rw [rounds_succ]; simp [after, show ¬ E.time i < seconds by omega, show ¬ seconds < E.time i by omega]
            rw [htr] at h
            exact ih (i + 1) _ _ e out (hf' ⟨hl, fun h => by omega⟩) hr' (ht.next (by omega) (by omega)) h

/-- **C236, life.** A thread that ends has called `prepare` first, then `loop` some number of times, each followed by a sleep of the rest of the interval or, exactly if it took longer, by
`on_overrun`, and `cleanup` once and last.  It began no `loop` once termination was requested, and ended since one of these raised or since termination was requested, without a traceback if
that was SystemExit or, but for `on_overrun`, an exception of `terminate_on`.  (`Catchable`: that names no exceptions outside of Exception.)
The first loop begins at once, and each next one not later than the interval after the one before, or when that one ends if it takes longer, and not sooner than that by more than `sooner`. -/
theorem C236_life (E : Env) (hc : Catchable E) (seconds sooner : Int) (hs : 0 ≤ sooner) (slept : Nat → Int → Int) (hsl : ∀ i left, 0 < left → 0 ≤ slept i left ∧ left - sooner ≤ slept i left ∧ slept i left ≤ left)
    (fuel : Nat) (e : End) (starts : List Int) (h : run E seconds slept fuel = some (e, starts)) :
    Why E seconds starts.length e ∧ (∀ j, j < starts.length → E.req j = false) ∧ (∀ x, starts[0]? = some x → x = 0) ∧
      ∀ (j : Nat) a b, starts[j]? = some a → starts[j + 1]? = some b → b - a ≤ max seconds (E.time j) ∧ max (seconds - sooner) (E.time j) ≤ b - a := by
  have bad : ∀ o, E.prepare = o → o ≠ .normal → some (raised E o (E.req 0) [.prepare], ([] : List Int)) = some (e, starts) →
      Why E seconds starts.length e ∧ (∀ j, j < starts.length → E.req j = false) ∧ (∀ x, starts[0]? = some x → x = 0) ∧
      ∀ (j : Nat) a b, starts[j]? = some a → starts[j + 1]? = some b → b - a ≤ max seconds (E.time j) ∧ max (seconds - sooner) (E.time j) ≤ b - a := by
    intro o ho hon h
    simp only [Option.some.injEq, Prod.mk.injEq] at h
    obtain ⟨rfl, rfl⟩ := h
    obtain ⟨d1, d2⟩ := raised_died' E o (E.req 0) [.prepare] hc hon
    exact ⟨.prepare _ (by rw [ho]; exact hon) (by rw [raised_trace]; rfl) (by rw [ho]; exact d1) (by rw [ho]; exact d2) (by rw [ho]; exact raised_marked E o _ _), by simp, by simp, by simp⟩
  unfold run at h
  cases hp : E.prepare with
  | exc n => rw [hp] at h; exact bad _ hp (by simp) h
  | sysExit => rw [hp] at h; exact bad _ hp (by simp) h
  | base n => rw [hp] at h; exact bad _ hp (by simp) h
  | normal =>
    rw [hp] at h
    exact loops_spec E hc seconds sooner hs slept hsl hp fuel 0 0 [] e starts (by simp) (by simp) ⟨rfl, rfl, by simp⟩ h

/-- **C236, termination.** Once termination is requested the thread ends, if its methods do: at the latest when the round in which it is requested is over. -/
theorem C236_terminates (E : Env) (seconds : Int) (slept : Nat → Int → Int) (k : Nat) (hr : E.req k = true) : ∃ e starts, run E seconds slept (k + 1) = some (e, starts) ∧ starts.length ≤ k := by
  have key : ∀ d i now (starts : List Int) trace, i + d = k → starts.length = i → ∃ e out, loops E seconds slept (d + 1) i now starts trace = some (e, out) ∧ out.length ≤ k := by
    intro d
    induction d with
    | zero =>
      intro i now starts trace hi hl
      obtain rfl : i = k := by omega
      exact ⟨finish E none true trace, starts, by simp only [loops, hr, if_true], by omega⟩
    | succ d ih =>
      intro i now starts trace hi hl
      have step' : ∀ now now' trace, ∃ e out, loops E seconds slept (d + 1) (i + 1) now' (starts ++ [now]) trace = some (e, out) ∧ out.length ≤ k := fun now now' trace => ih (i + 1) now' _ trace (by omega) (by simp [hl])
      have hlen : (starts ++ [now]).length ≤ k := by simp [hl]; omega
      rw [loops]
      split
      · exact ⟨_, _, rfl, by omega⟩
      · split
        · dsimp only
          split
          · exact step' _ _ _
          · split
            · split
              · exact step' _ _ _
              · exact ⟨_, _, rfl, hlen⟩
              · exact ⟨_, _, rfl, hlen⟩
            · exact step' _ _ _
        · exact ⟨_, _, rfl, hlen⟩
  unfold run
  split
  · exact key k 0 0 [] _ (by omega) rfl
  · exact ⟨_, _, rfl, by simp⟩

/-! Cases that meet the hypotheses -/

/-- loops of 3, 12 and 10 time units, then a request -/
def sample : Env := { on := fun o => o == .exc 1, prepare := .normal, loop := fun _ => .normal, overrun := fun _ => .normal, cleanup := .normal, req := fun i => i == 3, time := fun i => if i = 0 then 3 else if i = 1 then 12 else 10 }

example : run sample 10 (fun _ left => left - 1) 9 = some (⟨none, true, [.prepare, .loop, .sleep 7, .loop, .overrun, .loop, .cleanup]⟩, [0, 9, 21]) := by decide
example : Catchable sample := fun n => by simp [sample]
example : ∀ (i : Nat) (left : Int), 0 < left → 0 ≤ (fun (_ : Nat) (left : Int) => left - 1) i left ∧ left - 1 ≤ (fun (_ : Nat) (left : Int) => left - 1) i left ∧ (fun (_ : Nat) (left : Int) => left - 1) i left ≤ left := by
  intro i left h; dsimp only; omega
/-- an exception of `terminate_on` ends it without a traceback when `loop` raises it, with one when `on_overrun` does -/
example : (run { sample with loop := fun _ => .exc 1 } 10 (fun _ left => left) 9).map (fun r => r.1.died) = some none ∧
    (run { sample with overrun := fun _ => .exc 1 } 10 (fun _ left => left) 9).map (fun r => r.1.died) = some (some (.exc 1)) := by decide

end Verif.CpuThread
