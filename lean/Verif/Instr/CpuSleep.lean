/-!
# Sleeping that looks at the CPU (satella/instrumentation/cpu_time), C139, C140

Times are rationals, and reading the occupancy factor takes no time.
-/
namespace Verif.CpuSleep

/-! ## Model -/

/-- how a call goes: it returned, with all the times given to time.sleep in order; it raised ValueError; it did not end within the fuel.  /repo/satella/instrumentation/cpu_time/collector.py:150-184 -/
inductive Out
  | done (awoken : Bool) (sleeps : List Rat)
  | valueError
  | running
deriving DecidableEq

/-- `of > of_above`, /repo/satella/instrumentation/cpu_time/collector.py:173-174 -/
def isAbove (above : Option Rat) (x : Rat) : Bool :=
  match above with
  | none => false
  | some a => x > a

/-- `of < of_below`, /repo/satella/instrumentation/cpu_time/collector.py:177-178 -/
def isBelow (below : Option Rat) (x : Rat) : Bool :=
  match below with
  | none => false
  | some b => x < b

/-- a sleep put in front of the others, /repo/satella/instrumentation/cpu_time/collector.py:170 -/
def Out.after (t : Rat) : Out → Out
  | .done b l => .done b (t :: l)
  | o => o

/-- the loop, `of i` is the `i`-th factor that was read; /repo/satella/instrumentation/cpu_time/collector.py:168-183 -/
def loop (below above : Option Rat) (check : Rat) (of : Nat → Rat) : Nat → Nat → Rat → Out
  | 0, _, _ => .running
  | fuel + 1, i, s =>
    if s > 0 then
      let t := min s check
      if t < 0 then .valueError
      else if isAbove above (of i) then .done true [t]
      else if isBelow below (of i) then .done true [t]
      else if s - t ≤ 0 then .done false [t]
      else (loop below above check of fuel (i + 1) (s - t)).after t
    else .done false []

/-- `sleep_cpu_aware`, time.sleep of a negative time raises ValueError.  /repo/satella/instrumentation/cpu_time/collector.py:150-184 -/
def sleepCpuAware (below above : Option Rat) (check : Rat) (of : Nat → Rat) (fuel : Nat) (s : Rat) : Out :=
  if below = none ∧ above = none then if s < 0 then .valueError else .done false [s]
  else loop below above check of fuel 0 s

/-- how sleep_cpu_aware went when the thread called it: whether it was awoken and how long it slept; /repo/satella/instrumentation/cpu_time/concurrency.py:57 -/
structure Nap where
  awoken : Bool
  slept : Rat

/-- `__sleep_waiting_for_cpu`: `term i` is `_terminating` before the `i`-th nap, `nap i d` is the `i`-th nap that is to take `d`; gives the time slept, `none` when it did not end within the fuel.  /repo/satella/instrumentation/cpu_time/concurrency.py:54-59 -/
def waiting (wake : Rat) (term : Nat → Bool) (nap : Nat → Rat → Nap) : Nat → Nat → Rat → Option Rat
  | 0, _, _ => none
  | fuel + 1, i, h =>
    if h > 0 ∧ term i = false then
      let d := min wake h
      if (nap i d).awoken then some (nap i d).slept
      else (waiting wake term nap fuel (i + 1) (h - d)).map ((nap i d).slept + ·)
    else some 0

/-- `__sleep`: `safe d` is how long safe_sleep(d) slept and whether it returned True, which is when the thread is being terminated; /repo/satella/instrumentation/cpu_time/concurrency.py:61-66 -/
def sleep (sooner wake : Rat) (safe : Rat → Nap) (term : Nat → Bool) (nap : Nat → Rat → Nap) (fuel : Nat) (h : Rat) : Option Rat :=
  if h > sooner then
    let r := safe (h - sooner)
    if r.awoken then some r.slept
    else (waiting wake term nap fuel 0 sooner).map (r.slept + ·)
  else waiting wake term nap fuel 0 h

/-- what follows a `loop()` that took `measured`, /repo/satella/instrumentation/cpu_time/concurrency.py:87-91 -/
inductive After
  | sleeps (h : Rat)
  | overrun (measured : Rat)
  | nothing
deriving DecidableEq

/-- the decision after each loop, /repo/satella/instrumentation/cpu_time/concurrency.py:87-91 -/
def after (seconds measured : Rat) : After :=
  if seconds - measured > 0 then .sleeps (seconds - measured)
  else if seconds - measured < 0 then .overrun measured
  else .nothing

/-- `seconds` as given: a number, or a string with the time it stands for; /repo/satella/instrumentation/cpu_time/concurrency.py:28-31 -/
inductive Seconds
  | num (s : Rat)
  | str (s : Rat)

/-- `max_sooner or seconds * 0.1`: `none` is TypeError, of a string times a float.  /repo/satella/instrumentation/cpu_time/concurrency.py:33 -/
def sooner (given : Option Rat) (seconds : Seconds) : Option Rat :=
  match given with
  | some m => if m = 0 then dflt seconds else some m
  | none => dflt seconds
where
  /-- `seconds * 0.1`, /repo/satella/instrumentation/cpu_time/concurrency.py:33 -/
  dflt : Seconds → Option Rat
    | .num s => some (s * (1 / 10))
    | .str _ => none

/-! ## Specification -/

/-- the factor is one that ends the sleep -/
def Wakes (below above : Option Rat) (x : Rat) : Prop := (∃ a, above = some a ∧ x > a) ∨ ∃ b, below = some b ∧ x < b

/-- a sleep of `s` that looks at the factor after each `check`, as seen from outside -/
structure Slept (below above : Option Rat) (check : Rat) (of : Nat → Rat) (s : Rat) (awoken : Bool) (l : List Rat) : Prop where
  /-- times slept at once are positive and at most `check` -/
  each : ∀ t ∈ l, 0 < t ∧ t ≤ check
  /-- the factor is looked at each `check`; only the last sleep may be shorter -/
  period : ∀ (i : Nat), i + 1 < l.length → l[i]? = some check
  /-- never longer than asked -/
  most : l.sum ≤ s
  /-- exactly as long, with no factor that ends the sleep, if not awoken -/
  full : awoken = false → l.sum = s ∧ ∀ i, i < l.length → ¬ Wakes below above (of i)
  /-- otherwise the last factor ends the sleep, and is the first such -/
  early : awoken = true → ∃ n, l.length = n + 1 ∧ Wakes below above (of n) ∧ ∀ i, i < n → ¬ Wakes below above (of i)

/-! ## Proofs: sleep_cpu_aware -/

theorem wakes_iff (below above : Option Rat) (x : Rat) : Wakes below above x ↔ isAbove above x = true ∨ isBelow below x = true := by
  cases below <;> cases above <;> simp [Wakes, isAbove, isBelow]

theorem loop_spec (below above : Option Rat) (check : Rat) (hc : 0 < check) (n : Nat) : ∀ (of : Nat → Rat) (i : Nat) (s : Rat), 0 ≤ s → s ≤ n * check →
    ∃ b l, (∀ fuel, n < fuel → loop below above check of fuel i s = .done b l) ∧ Slept below above check (fun j => of (i + j)) s b l := by
  induction n with
  | zero =>
    intro of i s h0 hs
    have hs0 : s = 0 := by simp at hs; grind
    subst hs0
    refine ⟨false, [], fun fuel hf => ?_, ⟨by simp, by simp, by simp, by simp, by simp⟩⟩
    cases fuel with
    | zero => omega
    | succ fuel => simp [loop]
  | succ n ih =>
    intro of i s h0 hs
    by_cases hpos : s > 0
    · have ht0 : 0 < min s check := by grind
      have htc : min s check ≤ check := by grind
      have hts : min s check ≤ s := by grind
      have hnn : ¬ min s check < 0 := by grind
      by_cases hw : isAbove above (of i) = true ∨ isBelow below (of i) = true
      · refine ⟨true, [min s check], fun fuel hf => ?_, ⟨by simp [ht0, htc], by simp, by simpa [Rat.add_zero] using hts, by simp, fun _ => ⟨0, rfl, (wakes_iff _ _ _).2 (by simpa using hw), by simp⟩⟩⟩
        cases fuel with
        | zero => omega
        | succ fuel => rcases hw with hw | hw <;> simp [loop, hpos, hnn, hw]
      · have hw1 : isAbove above (of i) = false := by
          cases h : isAbove above (of i) <;> simp_all
        have hw2 : isBelow below (of i) = false := by
          cases h : isBelow below (of i) <;> simp_all
        have hnw : ¬ Wakes below above (of i) := fun h => hw ((wakes_iff _ _ _).1 h)
        by_cases hle : s - min s check ≤ 0
        · have heq : min s check = s := by grind
          refine ⟨false, [min s check], fun fuel hf => ?_, ⟨by simp [ht0, htc], by simp, by simpa [Rat.add_zero] using hts, fun _ => ⟨by simpa [Rat.add_zero] using heq, fun j hj => ?_⟩, by simp⟩⟩
          · cases fuel with
            | zero => omega
            | succ fuel => simp [loop, hpos, hnn, hw1, hw2, hle]
          · simp at hj; subst hj; simpa using hnw
        · have heq : min s check = check := by grind
          obtain ⟨b, l, hl, hS⟩ := ih of (i + 1) (s - check) (by grind) (by
            have : ((n + 1 : Nat) : Rat) * check = n * check + check := by
              rw [Rat.natCast_add]; grind
            grind)
          refine ⟨b, check :: l, fun fuel hf => ?_, ⟨?_, ?_, ?_, ?_, ?_⟩⟩
          · cases fuel with
            | zero => omega
            | succ fuel =>
              rw [heq] at hle hnn
              simp [loop, hpos, heq, hnn, hw1, hw2, hle, hl fuel (by omega), Out.after]
          · intro t ht
            rcases List.mem_cons.1 ht with rfl | ht
            · exact ⟨hc, Rat.le_refl⟩
            · exact hS.each t ht
          · intro j hj
            cases j with
            | zero => rfl
            | succ j => simpa using hS.period j (by simpa using hj)
          · have := hS.most
            simp only [List.sum_cons]; grind
          · intro hb
            obtain ⟨h1, h2⟩ := hS.full hb
            refine ⟨by simp only [List.sum_cons]; grind, fun j hj => ?_⟩
            cases j with
            | zero => simpa using hnw
            | succ j =>
              have := h2 j (by simpa using hj)
              rwa [show i + 1 + j = i + (j + 1) by omega] at this
          · intro hb
            obtain ⟨m, h1, h2, h3⟩ := hS.early hb
            refine ⟨m + 1, by simp [h1], by rwa [show i + 1 + m = i + (m + 1) by omega] at h2, fun j hj => ?_⟩
            cases j with
            | zero => simpa using hnw
            | succ j =>
              have := h3 j (by omega)
              rwa [show i + 1 + j = i + (j + 1) by omega] at this
    · have hs0 : s = 0 := by grind
      subst hs0
      refine ⟨false, [], fun fuel hf => ?_, ⟨by simp, by simp, by simp, by simp, by simp⟩⟩
      cases fuel with
      | zero => omega
      | succ fuel => simp [loop]

/-- every time is reached by enough checks -/
theorem exists_checks (s check : Rat) (hc : 0 < check) : ∃ n : Nat, s ≤ n * check := by
  refine ⟨(s / check).ceil.toNat, ?_⟩
  have h1 : s / check ≤ ((s / check).ceil : Rat) := Rat.le_ceil
  have h2 : (((s / check).ceil : Int) : Rat) ≤ (((s / check).ceil.toNat : Nat) : Rat) := by
    rw [← Rat.intCast_natCast]
    exact Rat.intCast_le_intCast.2 (by omega)
  have h3 : s / check ≤ (((s / check).ceil.toNat : Nat) : Rat) := Rat.le_trans h1 h2
  have h4 := Rat.mul_le_mul_of_nonneg_right h3 (Rat.le_of_lt hc)
  rwa [Rat.div_mul_cancel (by grind)] at h4

/-- **C139 (sleeping)**: with a positive check_each, a sleep with a threshold ends, after the time asked for if no factor read was past a threshold, and otherwise at the first factor that was, and tells which; factors are read each check_each, and no sleep is longer than asked. -/
theorem C139_sleep (below above : Option Rat) (check s : Rat) (of : Nat → Rat) (ht : ¬ (below = none ∧ above = none)) (hc : 0 < check) (hs : 0 ≤ s) :
    ∃ n b l, (∀ fuel, n < fuel → sleepCpuAware below above check of fuel s = .done b l) ∧ Slept below above check of s b l := by
  obtain ⟨n, hn⟩ := exists_checks s check hc
  obtain ⟨b, l, h1, h2⟩ := loop_spec below above check hc n of 0 s hs hn
  exact ⟨n, b, l, fun fuel hf => by simp [sleepCpuAware, ht, h1 fuel hf], by simpa using h2⟩

/-- **C139 (plain sleep)**: without thresholds it is one sleep, of the time asked for, and False is returned. -/
theorem C139_plain (check s : Rat) (of : Nat → Rat) (fuel : Nat) (hs : 0 ≤ s) : sleepCpuAware none none check of fuel s = .done false [s] := by
  have : ¬ s < 0 := by grind
  simp [sleepCpuAware, this]

/-- **C139 (negative time)**: without thresholds, a negative time is refused as time.sleep refuses it: ValueError, and nothing is slept. -/
theorem C139_negative (check s : Rat) (of : Nat → Rat) (fuel : Nat) (hs : s < 0) : sleepCpuAware none none check of fuel s = .valueError := by
  simp [sleepCpuAware, hs]

example : sleepCpuAware none none 1 (fun _ => 0) 0 (-1) = .valueError := by decide +kernel

example : sleepCpuAware (some (1 / 2)) none 1 (fun i => if i < 2 then 3 / 4 else 1 / 4) 10 5 = .done true [1, 1, 1] := by decide +kernel
example : sleepCpuAware (some (1 / 2)) none 1 (fun _ => 3 / 4) 10 (5 / 2) = .done false [1, 1, 1 / 2] := by decide +kernel

/-! ## Proofs: the thread -/

/-- what C139_sleep says about naps of a given time: not awoken, they take all of it, and never more -/
structure Naps (nap : Nat → Rat → Nap) : Prop where
  nonneg : ∀ i d, 0 ≤ d → 0 ≤ (nap i d).slept
  most : ∀ i d, 0 ≤ d → (nap i d).slept ≤ d
  full : ∀ i d, 0 ≤ d → (nap i d).awoken = false → (nap i d).slept = d

theorem waiting_spec (wake : Rat) (hw : 0 < wake) (term : Nat → Bool) (nap : Nat → Rat → Nap) (hn : Naps nap) (n : Nat) : ∀ (i : Nat) (h : Rat), 0 ≤ h → h ≤ n * wake →
    ∃ r, (∀ fuel, n < fuel → waiting wake term nap fuel i h = some r) ∧ 0 ≤ r ∧ r ≤ h ∧ ((∀ j, term j = false) → (∀ j d, (nap j d).awoken = false) → r = h) := by
  induction n with
  | zero =>
    intro i h h0 hs
    have hs0 : h = 0 := by simp at hs; grind
    subst hs0
    refine ⟨0, fun fuel hf => ?_, by grind, by grind, fun _ _ => rfl⟩
    cases fuel with
    | zero => omega
    | succ fuel => simp [waiting]
  | succ n ih =>
    intro i h h0 hs
    by_cases hpos : h > 0 ∧ term i = false
    · have hd0 : 0 ≤ min wake h := by grind
      cases haw : (nap i (min wake h)).awoken with
      | true =>
        have := hn.most i _ hd0
        refine ⟨(nap i (min wake h)).slept, fun fuel hf => ?_, hn.nonneg i _ hd0, by grind, fun _ h2 => by rw [h2] at haw; simp at haw⟩
        cases fuel with
        | zero => omega
        | succ fuel => simp [waiting, hpos, haw]
      | false =>
        have hfull := hn.full i _ hd0 haw
        obtain ⟨r, h1, h2, h3, h4⟩ := ih (i + 1) (h - min wake h) (by grind) (by
          have : ((n + 1 : Nat) : Rat) * wake = n * wake + wake := by
            rw [Rat.natCast_add]; grind
          have hnw : 0 ≤ (n : Rat) * wake := Rat.mul_nonneg (by exact_mod_cast Nat.zero_le n) (Rat.le_of_lt hw)
          grind)
        refine ⟨(nap i (min wake h)).slept + r, fun fuel hf => ?_, by grind, by grind, fun a b => by have := h4 a b; grind⟩
        cases fuel with
        | zero => omega
        | succ fuel => simp [waiting, hpos, haw, h1 fuel (by omega)]
    · refine ⟨0, fun fuel hf => ?_, by grind, h0, fun a _ => by
        have : ¬ h > 0 := fun hh => hpos ⟨hh, a i⟩
        grind⟩
      cases fuel with
      | zero => omega
      | succ fuel => simp only [waiting, if_neg hpos]

/-- **C139 (the thread)**: between loops a thread sleeps at most the rest of its interval, and at least that less max_sooner unless it is being terminated; all of it if the CPU never gets below the percentile. -/
theorem C139_thread (soon wake h : Rat) (safe : Rat → Nap) (term : Nat → Bool) (nap : Nat → Rat → Nap) (hs : 0 ≤ soon) (hw : 0 < wake) (hh : 0 ≤ h) (hn : Naps nap) (hsafe : Naps (fun _ => safe)) :
    ∃ n r, (∀ fuel, n < fuel → sleep soon wake safe term nap fuel h = some r) ∧ 0 ≤ r ∧ r ≤ h ∧
      ((∀ d, (safe d).awoken = false) → h - soon ≤ r) ∧
      ((∀ d, (safe d).awoken = false) → (∀ j, term j = false) → (∀ j d, (nap j d).awoken = false) → r = h) := by
  by_cases hgt : h > soon
  · cases haw : (safe (h - soon)).awoken with
    | true =>
      have h1 := hsafe.most 0 (h - soon) (by grind)
      have h2 := hsafe.nonneg 0 (h - soon) (by grind)
      exact ⟨0, (safe (h - soon)).slept, fun fuel _ => by simp [sleep, hgt, haw], h2, by grind, fun c => by rw [c] at haw; simp at haw, fun c => by rw [c] at haw; simp at haw⟩
    | false =>
      have h1 := hsafe.full 0 (h - soon) (by grind) haw
      obtain ⟨n, hn'⟩ := exists_checks soon wake hw
      obtain ⟨r, a1, a2, a3, a4⟩ := waiting_spec wake hw term nap hn n 0 soon hs hn'
      refine ⟨n, (safe (h - soon)).slept + r, fun fuel hf => by simp [sleep, hgt, haw, a1 fuel hf], by grind, by grind, fun _ => by grind, fun _ b c => by have := a4 b c; grind⟩
  · obtain ⟨n, hn'⟩ := exists_checks h wake hw
    obtain ⟨r, a1, a2, a3, a4⟩ := waiting_spec wake hw term nap hn n 0 h hh hn'
    exact ⟨n, r, fun fuel hf => by simp [sleep, hgt, a1 fuel hf], a2, a3, fun _ => by grind, fun _ b c => a4 b c⟩

/-- **C139 (overruns)**: after a loop the thread sleeps the rest of its interval if there is any, and on_overrun is called with the time of the loop exactly when it took longer than the interval. -/
theorem C139_after (seconds measured : Rat) : (∀ m, after seconds measured = .overrun m ↔ (seconds < measured ∧ m = measured)) ∧
    (∀ h, after seconds measured = .sleeps h ↔ (measured < seconds ∧ measured + h = seconds)) := by
  unfold after
  split
  · exact ⟨fun m => by constructor <;> intro h <;> grind, fun h => by constructor <;> intro h' <;> grind⟩
  · split
    · exact ⟨fun m => by constructor <;> intro h <;> grind, fun h => by constructor <;> intro h' <;> grind⟩
    · exact ⟨fun m => by constructor <;> intro h <;> grind, fun h => by constructor <;> intro h' <;> grind⟩

/-- naps that take all of their time -/
example : Naps (fun _ d => ⟨false, d⟩) := ⟨fun _ _ h => h, fun _ _ _ => Rat.le_refl, fun _ _ _ _ => rfl⟩
/-- naps that are awoken half way -/
example : Naps (fun _ d => ⟨true, d / 2⟩) := ⟨fun _ d h => by grind, fun _ d h => by grind, fun _ _ _ h => by simp at h⟩
example : sleep 2 3 (fun d => ⟨false, d⟩) (fun _ => false) (fun _ d => ⟨true, d / 2⟩) 5 10 = some 9 := by decide +kernel

/-! ## C140 -/

/-- **C140 (violation), no checking interval**: with check_each of 0 the call never ends, however short the sleep, while factors are within thresholds. -/
theorem C140_check_each_violates (below above : Option Rat) (s : Rat) (of : Nat → Rat) (ht : ¬ (below = none ∧ above = none)) (hs : 0 < s) (hw : ∀ i, ¬ Wakes below above (of i)) (fuel : Nat) :
    sleepCpuAware below above 0 of fuel s = .running := by
  have h : ∀ fuel i, loop below above 0 of fuel i s = .running := by
    intro fuel
    induction fuel with
    | zero => intro i; rfl
    | succ fuel ih =>
      intro i
      have h1 : isAbove above (of i) = false := by
        cases h : isAbove above (of i)
        · rfl
        · exact absurd ((wakes_iff _ _ _).2 (Or.inl h)) (hw i)
      have h2 : isBelow below (of i) = false := by
        cases h : isBelow below (of i)
        · rfl
        · exact absurd ((wakes_iff _ _ _).2 (Or.inr h)) (hw i)
      have h3 : min s 0 = 0 := by grind
      have h4 : ¬ (0 : Rat) < 0 := by grind
      have h5 : ¬ s - 0 ≤ 0 := by grind
      simp only [loop, gt_iff_lt, hs, ↓reduceIte, h3, h4, h1, h2, h5, Bool.false_eq_true]
      rw [show s - 0 = s by grind, ih]
      rfl
  simp [sleepCpuAware, ht, h]

/-- **C140 (violation), time strings**: a thread whose interval is a time string, without max_sooner, cannot be made: TypeError. -/
theorem C140_time_string_violates : ∀ s, sooner none (.str s) = none := fun _ => rfl

/-- **C140 (violation), max_sooner of zero**: a thread that must not be called earlier at all is called up to 10% earlier. -/
theorem C140_zero_sooner_violates : ∀ s, sooner (some 0) (.num s) = some (s / 10) := by
  intro s
  simp only [sooner, sooner.dflt, ↓reduceIte]
  congr 1
  grind

/-- **C140 (partial)**: with a max_sooner that is not zero the thread may be called as much earlier as it says, and 10% of the interval without one, if the interval is a number. -/
theorem C140_sooner_partial : (∀ m secs, m ≠ 0 → sooner (some m) secs = some m) ∧ ∀ s, ∃ r, sooner none (.num s) = some r ∧ r * 10 = s :=
  ⟨fun m secs h => by simp [sooner, h], fun s => ⟨s * (1 / 10), rfl, by grind⟩⟩

example : sleepCpuAware (some (1 / 2)) none 0 (fun _ => 3 / 4) 100 1 = .running := by decide +kernel
example : sooner (some 2) (.str 10) = some 2 := by decide +kernel

end Verif.CpuSleep
