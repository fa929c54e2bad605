/-!
# Statistics of CPU use (satella/instrumentation/cpu_time/collector.py), C141, C142

Times and CPU times are rationals.
-/
namespace Verif.CpuStats

/-! ## Occupancy factor: model -/

/-- what was read: CPU time used so far, and time.monotonic(); /repo/satella/instrumentation/cpu_time/collector.py:192-206 -/
structure Reading where
  used : Rat
  time : Rat
deriving DecidableEq

/-- `previous_cf` and `previous_timestamp`, set together; /repo/satella/instrumentation/cpu_time/collector.py:187-188 -/
abbrev Prev := Option (Rat × Rat)

/-- `_calculate_occupancy_factor` with what it read; /repo/satella/instrumentation/cpu_time/collector.py:206-219 -/
def attempt (cpus : Rat) (p : Prev) (x : Reading) : Prev × Option Rat :=
  let f := x.used / cpus
  match p with
  | none => (some (f, x.time), none)
  | some (cf, ts) =>
    let delta := x.time - ts
    if delta = 0 then (p, none)
    else (some (f, x.time), some ((f - cf) / delta))

/-- results of a history of calls of `_calculate_occupancy_factor`, by any callers, one after another; /repo/satella/instrumentation/cpu_time/collector.py:191-219 -/
def results (cpus : Rat) : Prev → List Reading → List (Option Rat)
  | _, [] => []
  | p, x :: xs => (attempt cpus p x).2 :: results cpus (attempt cpus p x).1 xs

/-- `calculate_occupancy_factor`, given what each of its attempts would read; `none` if all attempts were in vain.  /repo/satella/instrumentation/cpu_time/collector.py:235-239 -/
def calculate (cpus : Rat) : Prev → List Reading → Prev × Option Rat
  | p, [] => (p, none)
  | p, x :: xs =>
    match attempt cpus p x with
    | (p', some r) => (p', some r)
    | (p', none) => calculate cpus p' xs

/-- the fields of psutil.cpu_times() on Linux, all since boot; `user` includes `guest` there.  /repo/satella/instrumentation/cpu_time/collector.py:192-196 -/
structure Times where
  user : Rat := 0
  nice : Rat := 0
  system : Rat := 0
  irq : Rat := 0
  softirq : Rat := 0
  steal : Rat := 0
  guest : Rat := 0
  guestNice : Rat := 0

/-- `used` on Linux, /repo/satella/instrumentation/cpu_time/collector.py:196 -/
def Times.used (c : Times) : Rat := c.user + c.nice + c.system + c.irq + c.softirq + c.steal + c.guest + c.guestNice

/-! ## Percentiles: model -/

/-- how far the profile thread is in `_recalculate`, with the data it collected and values it computed; /repo/satella/instrumentation/cpu_time/collector.py:108-114 -/
inductive Pc (D V : Type)
  | idle
  | computed (d : List D) (vs : List V)
  | stored (d : List D)
  | marked (d : List D)

/-- fields of the profile thread, /repo/satella/instrumentation/cpu_time/collector.py:43-47 -/
structure Prof (D P V : Type) where
  data : List D := []
  requested : List P
  values : List V := []
  regenerated : Bool := false
  pc : Pc D V := .idle

/-- a call by another thread, or a step of the profile thread; `d` is the data that it collected, used by the first step.  Simplification: a call by another thread is one step.  /repo/satella/instrumentation/cpu_time/collector.py:85-114 -/
inductive Op (D P : Type)
  | request (p : P)
  | ask (p : P)
  | tick (d : List D)

/-- what `percentile` gives, /repo/satella/instrumentation/cpu_time/collector.py:90-96 -/
inductive Res (V : Type)
  | none
  | zero
  | value (v : V)
  | indexError
deriving DecidableEq

section
variable {D P V : Type} [DecidableEq P] (pct : List D → P → V)

/-- `percentile`, /repo/satella/instrumentation/cpu_time/collector.py:90-96 -/
def Prof.percentile (s : Prof D P V) (p : P) : Res V :=
  if s.data.isEmpty then .zero
  else if p ∈ s.requested ∧ s.regenerated = true then
    match s.values[s.requested.idxOf p]? with
    | some v => .value v
    | none => .indexError
  else .value (pct s.data p)

/-- `request_percentile`, /repo/satella/instrumentation/cpu_time/collector.py:85-88 -/
def Prof.request (s : Prof D P V) (p : P) : Prof D P V :=
  if p ∈ s.requested then s else { s with requested := s.requested ++ [p], regenerated := false }

/-- a step of `_recalculate`; computing all percentiles is one.  /repo/satella/instrumentation/cpu_time/collector.py:108-114 -/
def Prof.tick (s : Prof D P V) (d : List D) : Prof D P V :=
  match s.pc with
  | .idle => { s with pc := .computed d (s.requested.map (pct d)) }
  | .computed d vs => { s with values := vs, pc := .stored d }
  | .stored d => { s with regenerated := true, pc := .marked d }
  | .marked d => { s with data := d, pc := .idle }

/-- one operation, /repo/satella/instrumentation/cpu_time/collector.py:85-114 -/
def Prof.step (s : Prof D P V) : Op D P → Prof D P V × Res V
  | .request p => (s.request p, .none)
  | .ask p => (s, s.percentile pct p)
  | .tick d => (s.tick pct d, .none)

/-- the state after operations, /repo/satella/instrumentation/cpu_time/collector.py:85-114 -/
def Prof.run (s : Prof D P V) (ops : List (Op D P)) : Prof D P V := ops.foldl (fun s o => (s.step pct o).1) s

/-- `_recalculate` without anything in between, /repo/satella/instrumentation/cpu_time/collector.py:101-114 -/
def recalculate (d : List D) : List (Op D P) := [.tick d, .tick d, .tick d, .tick d]
end

/-! ## Own usage: model -/

/-- a measure: when, and the value of each field; /repo/satella/instrumentation/cpu_time/collector.py:63 -/
structure Measure where
  time : Rat
  times : Nat → Rat

/-- the loop of `save_load`, /repo/satella/instrumentation/cpu_time/collector.py:60-62 -/
def trim (window : Rat) : List Measure → List Measure
  | [] => []
  | m :: l =>
    match l.getLast? with
    | none => [m]
    | some e => if (m :: l).length > 3 ∧ m.time < e.time - window then trim window l else m :: l

/-- `save_load`, /repo/satella/instrumentation/cpu_time/collector.py:59-64 -/
def saveLoad (window : Rat) (q : List Measure) (m : Measure) : List Measure := trim window q ++ [m]

/-- `get_own_cpu_usage`, with the measures after it; /repo/satella/instrumentation/cpu_time/collector.py:66-83 -/
def ownUsage (q : List Measure) : List Measure × Option (Nat → Rat) :=
  match q.reverse with
  | c :: p :: r => if c.time - p.time = 0 then (r.reverse ++ [c], none) else (q, some (fun f => (c.times f - p.times f) / (c.time - p.time)))
  | _ => (q, none)

/-- calls: a measure by the profile thread, and get_own_cpu_usage; /repo/satella/instrumentation/cpu_time/collector.py:59-83 -/
inductive UOp
  | save (m : Measure)
  | get

/-- measures kept after calls, /repo/satella/instrumentation/cpu_time/collector.py:59-83 -/
def usageRun (window : Rat) (q : List Measure) (ops : List UOp) : List Measure :=
  ops.foldl (fun q o => match o with
    | .save m => saveLoad window q m
    | .get => (ownUsage q).1) q

/-! ## Specification -/

/-- the `j`-th call is the one that the `i`-th is measured from: the last one that returned a factor, or else the first -/
def Base (rs : List (Option Rat)) (j i : Nat) : Prop := j < i ∧ (j = 0 ∨ ∃ r, rs[j]? = some (some r)) ∧ ∀ (k : Nat), j < k → k < i → rs[k]? = some none

/-- measures that were made, in order -/
def saves (ops : List UOp) : List Measure := ops.filterMap (fun o => match o with | .save m => some m | .get => none)

/-! ## Proofs: occupancy -/

theorem results_spec (cpus : Rat) (hc : cpus ≠ 0) (u0 t0 : Rat) : ∀ (xs : List Reading) (i : Nat) (x : Reading), xs[i]? = some x →
    ∃ u t, ((u = u0 ∧ t = t0 ∧ (∀ k, k < i → (results cpus (some (u0 / cpus, t0)) xs)[k]? = some none)) ∨
        ∃ j y, xs[j]? = some y ∧ u = y.used ∧ t = y.time ∧ j < i ∧ (∃ r, (results cpus (some (u0 / cpus, t0)) xs)[j]? = some (some r)) ∧ ∀ k, j < k → k < i → (results cpus (some (u0 / cpus, t0)) xs)[k]? = some none) ∧
      ((x.time = t ∧ (results cpus (some (u0 / cpus, t0)) xs)[i]? = some none) ∨
        (x.time ≠ t ∧ ∃ r, (results cpus (some (u0 / cpus, t0)) xs)[i]? = some (some r) ∧ r * (cpus * (x.time - t)) = x.used - u)) := by
  intro xs
  induction xs generalizing u0 t0 with
  | nil => intro i x h; simp at h
  | cons y xs ih =>
    intro i x h
    by_cases hd : y.time - t0 = 0
    · have hatt : attempt cpus (some (u0 / cpus, t0)) y = (some (u0 / cpus, t0), none) := by simp [attempt, hd]
      simp only [results, hatt]
      cases i with
      | zero =>
        simp at h; subst h
        exact ⟨u0, t0, Or.inl ⟨rfl, rfl, by intro k hk; omega⟩, Or.inl ⟨by grind, rfl⟩⟩
      | succ i =>
        obtain ⟨u, t, h1, h2⟩ := ih u0 t0 i x (by simpa using h)
        refine ⟨u, t, ?_, by simpa using h2⟩
        rcases h1 with ⟨a, b, c⟩ | ⟨j, z, a, b, c, d, e, f⟩
        · refine Or.inl ⟨a, b, fun k hk => ?_⟩
          cases k with
          | zero => rfl
          | succ k => simpa using c k (by omega)
        · refine Or.inr ⟨j + 1, z, by simpa using a, b, c, by omega, by simpa using e, fun k h1 h2 => ?_⟩
          cases k with
          | zero => omega
          | succ k => simpa using f k (by omega) (by omega)
    · have hatt : attempt cpus (some (u0 / cpus, t0)) y = (some (y.used / cpus, y.time), some ((y.used / cpus - u0 / cpus) / (y.time - t0))) := by simp [attempt, hd]
      simp only [results, hatt]
      cases i with
      | zero =>
        simp at h; subst h
        refine ⟨u0, t0, Or.inl ⟨rfl, rfl, by intro k hk; omega⟩, Or.inr ⟨by grind, _, rfl, ?_⟩⟩
        have h1 : (y.used / cpus - u0 / cpus) / (y.time - t0) * (y.time - t0) = y.used / cpus - u0 / cpus := Rat.div_mul_cancel hd
        have h2 : y.used / cpus * cpus = y.used := Rat.div_mul_cancel hc
        have h3 : u0 / cpus * cpus = u0 := Rat.div_mul_cancel hc
        grind
      | succ i =>
        obtain ⟨u, t, h1, h2⟩ := ih y.used y.time i x (by simpa using h)
        refine ⟨u, t, Or.inr ?_, by simpa using h2⟩
        rcases h1 with ⟨a, b, c⟩ | ⟨j, z, a, b, c, d, e, f⟩
        · refine ⟨0, y, rfl, a, b, by omega, ⟨_, rfl⟩, fun k h1 h2 => ?_⟩
          cases k with
          | zero => omega
          | succ k => simpa using c k (by omega)
        · refine ⟨j + 1, z, by simpa using a, b, c, by omega, by simpa using e, fun k h1 h2 => ?_⟩
          cases k with
          | zero => omega
          | succ k => simpa using f k (by omega) (by omega)

/-- **C141 (occupancy factor)**: in any history of readings one after another, each but the first gives the CPU time used since the last one that gave a factor (or the first), divided by the number of CPUs and the time passed, and nothing if no time passed. -/
theorem C141_occupancy (cpus : Rat) (hc : cpus ≠ 0) (xs : List Reading) : (∀ x, xs[0]? = some x → (results cpus none xs)[0]? = some none) ∧
    ∀ (i : Nat) x, xs[i + 1]? = some x → ∃ j y, Base (results cpus none xs) j (i + 1) ∧ xs[j]? = some y ∧
      ((x.time = y.time ∧ (results cpus none xs)[i + 1]? = some none) ∨
        (x.time ≠ y.time ∧ ∃ r, (results cpus none xs)[i + 1]? = some (some r) ∧ r * (cpus * (x.time - y.time)) = x.used - y.used)) := by
  cases xs with
  | nil => exact ⟨by simp, by simp⟩
  | cons z xs =>
    have hr : results cpus none (z :: xs) = none :: results cpus (some (z.used / cpus, z.time)) xs := rfl
    rw [hr]
    refine ⟨fun _ _ => rfl, fun i x hx => ?_⟩
    obtain ⟨u, t, h1, h2⟩ := results_spec cpus hc z.used z.time xs i x (by simpa using hx)
    rcases h1 with ⟨rfl, rfl, c⟩ | ⟨j, y, a, rfl, rfl, d, e, f⟩
    · refine ⟨0, z, ⟨by omega, Or.inl rfl, fun k hk hk' => ?_⟩, rfl, by simpa using h2⟩
      cases k with
      | zero => omega
      | succ k => simpa using c k (by omega)
    · refine ⟨j + 1, y, ⟨by omega, Or.inr (by simpa using e), fun k hk hk' => ?_⟩, by simpa using a, by simpa using h2⟩
      cases k with
      | zero => omega
      | succ k => simpa using f k (by omega) (by omega)

/-- **C141 (range)**: the factor is between 0 and 1 if the CPU time used since any earlier reading is not negative, nor more than all CPUs have. -/
theorem C141_range (cpus : Rat) (hc : 0 < cpus) (xs : List Reading)
    (hx : ∀ (i j : Nat) x y, j < i → xs[i]? = some x → xs[j]? = some y → y.time ≤ x.time ∧ y.used ≤ x.used ∧ x.used - y.used ≤ cpus * (x.time - y.time))
    (i : Nat) (r : Rat) (hr : (results cpus none xs)[i]? = some (some r)) : 0 ≤ r ∧ r ≤ 1 := by
  have hlen : ∀ (p : Prev) (l : List Reading), (results cpus p l).length = l.length := by
    intro p l
    induction l generalizing p with
    | nil => rfl
    | cons x l ih => simp [results, ih]
  obtain ⟨x, hxi⟩ : ∃ x, xs[i]? = some x := by
    have : i < (results cpus none xs).length := by
      rcases Nat.lt_or_ge i (results cpus none xs).length with h | h
      · exact h
      · rw [List.getElem?_eq_none h] at hr; simp at hr
    rw [hlen] at this
    exact ⟨xs[i], by simp [this]⟩
  cases i with
  | zero =>
    rw [(C141_occupancy cpus (by grind) xs).1 x hxi] at hr
    simp at hr
  | succ i =>
    obtain ⟨j, y, hb, hy, h | ⟨hne, r', hr', he⟩⟩ := (C141_occupancy cpus (by grind) xs).2 i x hxi
    · rw [h.2] at hr; simp at hr
    · rw [hr] at hr'
      obtain rfl : r = r' := by simpa using hr'
      obtain ⟨h1, h2, h3⟩ := hx (i + 1) j x y hb.1 hxi hy
      have hpos : 0 < cpus * (x.time - y.time) := Rat.mul_pos hc (by grind)
      constructor
      · rcases Rat.le_total (a := 0) (b := r) with h | h
        · exact h
        · rcases (Rat.le_iff_lt_or_eq.1 h) with h | h
          · have := Rat.mul_lt_mul_of_pos_right h hpos
            grind
          · grind
      · rcases Rat.le_total (a := r) (b := 1) with h | h
        · exact h
        · rcases (Rat.le_iff_lt_or_eq.1 h) with h | h
          · have := Rat.mul_lt_mul_of_pos_right h hpos
            grind
          · grind

/-- **C141 (blocking)**: calculate_occupancy_factor returns at its second attempt at the latest, if time passes between attempts. -/
theorem C141_returns (cpus : Rat) (p : Prev) (x y : Reading) (h : x.time < y.time) : ∃ r, (calculate cpus p [x, y]).2 = some r := by
  have hyx : ¬ y.time - x.time = 0 := by grind
  match p with
  | none => exact ⟨_, by simp [calculate, attempt, hyx]; rfl⟩
  | some (cf, ts) =>
    by_cases hd : x.time - ts = 0
    · have hy : ¬ y.time - ts = 0 := by grind
      exact ⟨_, by simp [calculate, attempt, hd, hy]; rfl⟩
    · exact ⟨_, by simp [calculate, attempt, hd]; rfl⟩

example : results 2 none [⟨0, 0⟩, ⟨1, 1⟩, ⟨1, 1⟩, ⟨4, 3⟩] = [none, some (1 / 2), none, some (3 / 4)] := by decide +kernel

/-! ## Proofs: percentiles -/

section
variable {D P V : Type} [DecidableEq P] (pct : List D → P → V)

/-- what happened so far: the number of steps of recalculations, and the data of the last one completed and of the last one started -/
structure Past (D : Type) where
  ticks : Nat := 0
  completed : List D := []
  current : List D := []

/-- a recalculation has four steps; it collects data before the first, and publishes them with the last -/
def Past.next (h : Past D) : Op D P → Past D
  | .tick d =>
    if h.ticks % 4 = 0 then { h with ticks := h.ticks + 1, current := d }
    else if h.ticks % 4 = 3 then { h with ticks := h.ticks + 1, completed := h.current }
    else { h with ticks := h.ticks + 1 }
  | _ => h

/-- what happened in a history -/
def past (ops : List (Op D P)) : Past D := ops.foldl Past.next {}

/-- no percentile is requested during a recalculation -/
def Quiet (ops : List (Op D P)) : Prop := ∀ pre p post, ops = pre ++ .request p :: post → (past pre).ticks % 4 = 0

/-- values stored are percentiles requested, of these data; `full` if all of them -/
def Vals (full : Prop) (s : Prof D P V) (vs : List V) (d : List D) : Prop := ∃ k, k ≤ s.requested.length ∧ (full → k = s.requested.length) ∧ vs = (s.requested.take k).map (pct d)

/-- invariant of the profile thread -/
def Inv (full : Prop) (h : Past D) (s : Prof D P V) : Prop :=
  s.data = h.completed ∧
  match s.pc with
  | .idle => h.ticks % 4 = 0 ∧ (s.regenerated = true → Vals pct full s s.values s.data)
  | .computed d vs => h.ticks % 4 = 1 ∧ d = h.current ∧ Vals pct full s vs d ∧ (s.regenerated = true → Vals pct full s s.values s.data)
  | .stored d => h.ticks % 4 = 2 ∧ d = h.current ∧ Vals pct full s s.values d
  | .marked d => h.ticks % 4 = 3 ∧ d = h.current ∧ Vals pct full s s.values d

omit [DecidableEq P] in
theorem Inv.tick (full : Prop) (h : Past D) (s : Prof D P V) (hI : Inv pct full h s) (d : List D) : Inv pct full (h.next (.tick d : Op D P)) (s.tick pct d) := by
  obtain ⟨data, req, values, reg, pc⟩ := s
  cases pc with
  | idle =>
    obtain ⟨h1, h2, h3⟩ := hI
    simp only [Past.next, h2, ↓reduceIte, Prof.tick, Inv]
    exact ⟨h1, by omega, trivial, ⟨req.length, Nat.le_refl _, fun _ => rfl, by simp⟩, h3⟩
  | computed d' vs =>
    obtain ⟨h1, h2, h3, h4, h5⟩ := hI
    simp only [Past.next, h2, Prof.tick, Inv]
    exact ⟨h1, by simp; omega, h3, h4⟩
  | stored d' =>
    obtain ⟨h1, h2, h3, h4⟩ := hI
    simp only [Past.next, h2, Prof.tick, Inv]
    exact ⟨h1, by simp; omega, h3, h4⟩
  | marked d' =>
    obtain ⟨h1, h2, h3, h4⟩ := hI
    simp only [Past.next, h2, Prof.tick, Inv]
    exact ⟨h3, by simp; omega, fun _ => h4⟩

omit [DecidableEq P] in
theorem Vals.request (s : Prof D P V) (p : P) (vs : List V) (d : List D) (h : Vals pct False s vs d) : Vals pct False { s with requested := s.requested ++ [p], regenerated := false } vs d := by
  obtain ⟨k, h1, _, h3⟩ := h
  exact ⟨k, by simp; omega, by simp, by rw [h3, List.take_append_of_le_length h1]⟩

theorem Inv.request (full : Prop) (h : Past D) (s : Prof D P V) (hI : Inv pct full h s) (p : P) (hf : full → h.ticks % 4 = 0) (hd : full ∨ (full ↔ False)) : Inv pct full h (s.request p) := by
  unfold Prof.request
  split
  · exact hI
  · rcases hd with hd | hd
    · obtain ⟨data, req, values, reg, pc⟩ := s
      have h0 := hf hd
      cases pc with
      | idle => exact ⟨hI.1, hI.2.1, by simp⟩
      | computed d' vs => have := hI.2.1; omega
      | stored d' => have := hI.2.1; omega
      | marked d' => have := hI.2.1; omega
    · have e : full = False := propext hd
      subst e
      obtain ⟨data, req, values, reg, pc⟩ := s
      cases pc with
      | idle => exact ⟨hI.1, hI.2.1, by simp⟩
      | computed d' vs => exact ⟨hI.1, hI.2.1, hI.2.2.1, Vals.request pct _ p _ _ hI.2.2.2.1, by simp⟩
      | stored d' => exact ⟨hI.1, hI.2.1, hI.2.2.1, Vals.request pct _ p _ _ hI.2.2.2⟩
      | marked d' => exact ⟨hI.1, hI.2.1, hI.2.2.1, Vals.request pct _ p _ _ hI.2.2.2⟩

omit [DecidableEq P] in
theorem past_append (a b : List (Op D P)) : past (a ++ b) = b.foldl Past.next (past a) := by simp [past]

theorem run_append (s : Prof D P V) (a b : List (Op D P)) : s.run pct (a ++ b) = (s.run pct a).run pct b := by simp [Prof.run]

theorem Inv.run (full : Prop) (hd : full ∨ (full ↔ False)) (req : List P) (pre ops : List (Op D P)) (hq : full → Quiet (pre ++ ops))
    (hI : Inv pct full (past pre) (Prof.run pct { requested := req } pre)) : Inv pct full (past (pre ++ ops)) (Prof.run pct { requested := req } (pre ++ ops)) := by
  induction ops generalizing pre with
  | nil => simpa using hI
  | cons o ops ih =>
    have h1 : Inv pct full (past (pre ++ [o])) (Prof.run pct { requested := req } (pre ++ [o])) := by
      rw [past_append, run_append]
      cases o with
      | request p => exact Inv.request pct full _ _ hI p (fun hf => hq hf pre p ops rfl) hd
      | ask p => exact hI
      | tick d => exact Inv.tick pct full _ _ hI d
    have := ih (pre ++ [o]) (by simpa using hq) h1
    simpa using this

theorem Inv.init (full : Prop) (req : List P) : Inv pct full (past ([] : List (Op D P))) (Prof.run pct { requested := req } []) := ⟨rfl, rfl, by simp [Prof.run]⟩

theorem take_get (l : List P) (f : P → V) (p : P) (hp : p ∈ l) (k : Nat) :
    ((l.take k).map f)[l.idxOf p]? = if l.idxOf p < k then some (f p) else none := by
  have hlt : l.idxOf p < l.length := List.idxOf_lt_length_iff.2 hp
  have hg : l[l.idxOf p]? = some p := by simp [hlt]
  simp only [List.getElem?_map, List.getElem?_take]
  split
  · simp [hg]
  · rfl

theorem ask_spec (full : Prop) (h : Past D) (s : Prof D P V) (hI : Inv pct full h s) (p : P) :
    (h.completed = [] → s.percentile pct p = .zero) ∧ (h.completed ≠ [] → (s.percentile pct p = .value (pct h.completed p) ∨ (h.ticks % 4 ≠ 0 ∧ s.percentile pct p = .value (pct h.current p))) ∨ (¬ full ∧ s.percentile pct p = .indexError)) := by
  have hdata : s.data = h.completed := hI.1
  refine ⟨fun he => by simp [Prof.percentile, hdata, he], fun hne => ?_⟩
  have hne' : s.data.isEmpty = false := by
    rw [hdata]
    cases hc : h.completed with
    | nil => exact absurd hc hne
    | cons a l => rfl
  simp only [Prof.percentile, hne', Bool.false_eq_true, ↓reduceIte]
  by_cases hp : p ∈ s.requested ∧ s.regenerated = true
  · have key : ∀ d, Vals pct full s s.values d → s.values[s.requested.idxOf p]? = some (pct d p) ∨ (¬ full ∧ s.values[s.requested.idxOf p]? = none) := by
      intro d ⟨k, h1, h2, h3⟩
      rw [h3, take_get _ _ _ hp.1]
      have hlt : s.requested.idxOf p < s.requested.length := List.idxOf_lt_length_iff.2 hp.1
      split
      · exact Or.inl rfl
      · rename_i hk
        exact Or.inr ⟨fun hf => hk (by rw [h2 hf]; exact hlt), rfl⟩
    have fin : ∀ d, Vals pct full s s.values d → (d = h.completed ∨ (h.ticks % 4 ≠ 0 ∧ d = h.current)) →
        ((match s.values[s.requested.idxOf p]? with | some v => Res.value v | none => .indexError) = .value (pct h.completed p) ∨ (h.ticks % 4 ≠ 0 ∧ (match s.values[s.requested.idxOf p]? with | some v => Res.value v | none => .indexError) = .value (pct h.current p))) ∨
        (¬ full ∧ (match s.values[s.requested.idxOf p]? with | some v => Res.value v | none => .indexError) = .indexError) := by
      intro d hv hd
      rcases key d hv with e | ⟨hf, e⟩
      · rw [e]
        rcases hd with rfl | ⟨hn, rfl⟩
        · exact Or.inl (Or.inl rfl)
        · exact Or.inl (Or.inr ⟨hn, rfl⟩)
      · rw [e]
        exact Or.inr ⟨hf, rfl⟩
    rw [if_pos hp]
    obtain ⟨data, req, values, reg, pc⟩ := s
    cases pc with
    | idle => exact fin _ (hI.2.2 hp.2) (Or.inl hdata)
    | computed d vs => exact fin _ (hI.2.2.2.2 hp.2) (Or.inl hdata)
    | stored d => exact fin d hI.2.2.2 (Or.inr ⟨by have := hI.2.1; omega, hI.2.2.1⟩)
    | marked d => exact fin d hI.2.2.2 (Or.inr ⟨by have := hI.2.1; omega, hI.2.2.1⟩)
  · rw [if_neg hp, hdata]
    exact Or.inl (Or.inl rfl)

/-- a call that is not interrupted: a request, or a recalculation with the data it collected -/
inductive Call (D P : Type)
  | request (p : P)
  | recalc (d : List D)

/-- operations of a call -/
def Call.ops : Call D P → List (Op D P)
  | .request p => [.request p]
  | .recalc d => recalculate d

/-- data of the last recalculation -/
def lastData : List (Call D P) → List D
  | [] => []
  | .recalc d :: cs => if cs.any (fun c => match c with | .recalc _ => true | _ => false) then lastData cs else d
  | .request _ :: cs => lastData cs

omit [DecidableEq P] in
theorem lastData_concat (cs : List (Call D P)) (c : Call D P) : lastData (cs ++ [c]) = match c with | .recalc d => d | .request _ => lastData cs := by
  induction cs with
  | nil => cases c <;> rfl
  | cons b cs ih =>
    cases b with
    | request p => simpa [lastData] using ih
    | recalc d =>
      simp only [List.cons_append, lastData, List.any_append, ih]
      cases c <;> simp

omit [DecidableEq P] in
theorem past_calls (cs : List (Call D P)) : (past (cs.flatMap Call.ops)).completed = lastData cs ∧ (past (cs.flatMap Call.ops)).ticks % 4 = 0 := by
  generalize hn : cs.length = n
  induction n generalizing cs with
  | zero =>
    obtain rfl := List.length_eq_zero_iff.1 hn
    exact ⟨rfl, rfl⟩
  | succ n ih =>
    obtain ⟨cs', c, rfl⟩ : ∃ cs' c, cs = cs' ++ [c] := by
      rcases List.eq_nil_or_concat cs with rfl | ⟨a, b, rfl⟩
      · simp at hn
      · exact ⟨a, b, by simp⟩
    obtain ⟨h1, h2⟩ := ih cs' (by simpa using hn)
    simp only [List.flatMap_append, past_append, lastData_concat]
    cases c with
    | request p => exact ⟨h1, h2⟩
    | recalc d =>
      simp only [List.flatMap_cons, List.flatMap_nil, Call.ops, recalculate, List.append_nil, List.foldl_cons, List.foldl_nil]
      generalize past (cs'.flatMap Call.ops) = h at h2
      obtain ⟨t, a, b⟩ := h
      have h2 : t % 4 = 0 := h2
      have e1 : (t + 1) % 4 = 1 := by omega
      have e2 : (t + 1 + 1) % 4 = 2 := by omega
      have e3 : (t + 1 + 1 + 1) % 4 = 3 := by omega
      simp [Past.next, h2, e1, e2, e3]
      omega

theorem Inv.calls (req : List P) (cs : List (Call D P)) : Inv pct True (past (cs.flatMap Call.ops)) (Prof.run pct { requested := req } (cs.flatMap Call.ops)) := by
  generalize hn : cs.length = n
  induction n generalizing cs with
  | zero =>
    obtain rfl := List.length_eq_zero_iff.1 hn
    exact Inv.init pct True req
  | succ n ih =>
    obtain ⟨cs', c, rfl⟩ : ∃ cs' c, cs = cs' ++ [c] := by
      rcases List.eq_nil_or_concat cs with rfl | ⟨a, b, rfl⟩
      · simp at hn
      · exact ⟨a, b, by simp⟩
    have h := ih cs' (by simpa using hn)
    rw [List.flatMap_append, past_append, run_append]
    cases c with
    | request p => exact Inv.request pct True _ _ h p (fun _ => (past_calls cs').2) (Or.inl trivial)
    | recalc d =>
      exact Inv.tick pct True _ _ (Inv.tick pct True _ _ (Inv.tick pct True _ _ (Inv.tick pct True _ _ h d) d) d) d

/-- **C141 (percentiles)**: after any requests and recalculations, one after another, the percentile asked for is that of the data of the last recalculation, requested before or not, and 0 if there are none. -/
theorem C141_percentile (req : List P) (cs : List (Call D P)) (p : P) :
    (lastData cs = [] → ((Prof.run pct { requested := req } (cs.flatMap Call.ops)).step pct (.ask p)).2 = .zero) ∧
    (lastData cs ≠ [] → ((Prof.run pct { requested := req } (cs.flatMap Call.ops)).step pct (.ask p)).2 = .value (pct (lastData cs) p)) := by
  obtain ⟨h1, h2⟩ := past_calls cs
  obtain ⟨a, b⟩ := ask_spec pct True _ _ (Inv.calls pct req cs) p
  rw [h1] at a b
  refine ⟨a, fun hne => ?_⟩
  rcases b hne with (e | ⟨hn, _⟩) | ⟨hf, _⟩
  · exact e
  · exact absurd h2 hn
  · exact absurd trivial hf

/-- **C142 (partial), percentiles**: with recalculations at any moment, but no requests during them, the percentile is that of the data of the last one completed, or of the one in progress. -/
theorem C142_percentile_partial (req : List P) (ops : List (Op D P)) (hq : Quiet ops) (p : P) :
    ((past ops).completed = [] → ((Prof.run pct { requested := req } ops).step pct (.ask p)).2 = .zero) ∧
    ((past ops).completed ≠ [] → ((Prof.run pct { requested := req } ops).step pct (.ask p)).2 = .value (pct (past ops).completed p) ∨
      ((past ops).ticks % 4 ≠ 0 ∧ ((Prof.run pct { requested := req } ops).step pct (.ask p)).2 = .value (pct (past ops).current p))) := by
  have h := Inv.run pct True (Or.inl trivial) req [] ops (fun _ => hq) (Inv.init pct True req)
  obtain ⟨a, b⟩ := ask_spec pct True _ _ h p
  refine ⟨a, fun hne => ?_⟩
  rcases b hne with e | ⟨hf, _⟩
  · exact e
  · exact absurd trivial hf

/-- **C142 (partial), any schedule**: whatever the schedule, the percentile is never that of anything else; the only other outcome is IndexError. -/
theorem C142_schedule_partial (req : List P) (ops : List (Op D P)) (p : P) (v : V) (hv : ((Prof.run pct { requested := req } ops).step pct (.ask p)).2 = .value v) :
    v = pct (past ops).completed p ∨ v = pct (past ops).current p := by
  have h := Inv.run pct False (Or.inr Iff.rfl) req [] ops (by simp) (Inv.init pct False req)
  obtain ⟨a, b⟩ := ask_spec pct False _ _ h p
  have hs : ((Prof.run pct { requested := req } ops).step pct (.ask p)).2 = (Prof.run pct { requested := req } ops).percentile pct p := rfl
  rw [hs] at hv
  by_cases hne : (past ops).completed = []
  · have := a hne
    simp only [List.nil_append] at this
    rw [hv] at this
    simp at this
  · have := b hne
    simp only [List.nil_append] at this
    rw [hv] at this
    rcases this with (e | ⟨_, e⟩) | ⟨_, e⟩
    · exact Or.inl (by simpa using e)
    · exact Or.inr (by simpa using e)
    · simp at e

end

/-- what a percentile gives for these examples: the entry at that index -/
def entry (d : List Nat) (p : Nat) : Nat := d.getD p 0

example : lastData ([.recalc [1, 2], .request 1, .recalc [3, 4], .request 0] : List (Call Nat Nat)) = [3, 4] := rfl
example : ((Prof.run entry { requested := [0] } ([Call.recalc [1, 2], .request 1, .recalc [3, 4]].flatMap Call.ops)).step entry (.ask 1)).2 = .value 4 := by decide
example : Quiet ([.tick [1], .tick [1], .ask 0] : List (Op Nat Nat)) := by
  intro pre p post h
  exact absurd (show (Op.request p : Op Nat Nat) ∈ [.tick [1], .tick [1], .ask 0] by rw [h]; simp) (by simp)

/-- **C142 (violation), a request during recalculation**: a percentile requested after the others were computed, but before the result is marked as ready, raises IndexError when asked for, until the next recalculation. -/
theorem C142_request_violates : ∃ (ops : List (Op Nat Nat)) (p : Nat), (past ops).ticks % 4 = 0 ∧ (past ops).completed ≠ [] ∧
    ((Prof.run entry { requested := [0] } ops).step entry (.ask p)).2 = .indexError :=
  ⟨[.tick [5], .tick [5], .request 1, .tick [5], .tick [5]], 1, by decide, by decide, by decide⟩

/-! ## Proofs: own usage -/

theorem trim_spec (window : Rat) (q : List Measure) : ∃ a, q = a ++ trim window q ∧ (3 ≤ q.length → 3 ≤ (trim window q).length) ∧ (q.length < 3 → trim window q = q) := by
  induction q with
  | nil => exact ⟨[], rfl, by simp, fun _ => rfl⟩
  | cons m l ih =>
    unfold trim
    split
    · rename_i h
      simp at h
      subst h
      exact ⟨[], rfl, by simp, fun _ => rfl⟩
    · split
      · rename_i hc
        obtain ⟨a, h1, h2, _⟩ := ih
        have hl : 3 ≤ l.length := by have := hc.1; simp at this; omega
        refine ⟨m :: a, by rw [List.cons_append, ← h1], fun _ => h2 hl, fun h => by simp at h; omega⟩
      · exact ⟨[], rfl, id, fun _ => rfl⟩

/-- **C141, the window**: what is dropped from the measures kept is older than the window, counted back from the last one; and the oldest one kept is not, or there are only three. -/
theorem C141_window (window : Rat) (q : List Measure) (c : Measure) :
    ∃ a, q ++ [c] = a ++ trim window (q ++ [c]) ∧ (∀ m ∈ a, m.time < c.time - window) ∧
      ((trim window (q ++ [c])).length ≤ 3 ∨ ∃ m, (trim window (q ++ [c])).head? = some m ∧ ¬ m.time < c.time - window) := by
  induction q with
  | nil => exact ⟨[], rfl, by simp, Or.inl (by simp [trim])⟩
  | cons m l ih =>
    have hl : (l ++ [c]).getLast? = some c := by simp
    simp only [List.cons_append, trim, hl]
    split
    · rename_i hc
      obtain ⟨a, h1, h2, h3⟩ := ih
      exact ⟨m :: a, by rw [List.cons_append, ← h1], by simpa using ⟨hc.2, h2⟩, h3⟩
    · rename_i hc
      refine ⟨[], rfl, by simp, ?_⟩
      by_cases h : (m :: (l ++ [c])).length > 3
      · exact Or.inr ⟨m, rfl, fun h' => hc ⟨h, h'⟩⟩
      · exact Or.inl (by omega)

theorem usage_inv (window : Rat) (ops : List UOp) (hinc : (saves ops).Pairwise (fun a b => a.time < b.time)) :
    ∃ a, saves ops = a ++ usageRun window [] ops ∧ (2 ≤ (saves ops).length → 2 ≤ (usageRun window [] ops).length) ∧ ((saves ops).length < 2 → usageRun window [] ops = saves ops) := by
  generalize hn : ops.length = n
  induction n generalizing ops with
  | zero =>
    obtain rfl := List.length_eq_zero_iff.1 hn
    exact ⟨[], rfl, by simp [saves], fun _ => rfl⟩
  | succ n ih =>
    obtain ⟨os, o, rfl⟩ : ∃ os o, ops = os ++ [o] := by
      rcases List.eq_nil_or_concat ops with rfl | ⟨a, b, rfl⟩
      · simp at hn
      · exact ⟨a, b, by simp⟩
    have hsv : saves (os ++ [o]) = saves os ++ saves [o] := by simp [saves]
    rw [hsv] at hinc ⊢
    obtain ⟨a, h1, h2, h3⟩ := ih os (List.pairwise_append.1 hinc).1 (by simpa using hn)
    have hrun : usageRun window [] (os ++ [o]) = usageRun window (usageRun window [] os) [o] := by simp [usageRun]
    rw [hrun]
    generalize hq : usageRun window [] os = q at h1 h2 h3
    cases o with
    | save m =>
      have e1 : saves [.save m] = [m] := rfl
      have e2 : usageRun window q [.save m] = trim window q ++ [m] := rfl
      rw [e1, e2]
      obtain ⟨b, t1, t2, t3⟩ := trim_spec window q
      refine ⟨a ++ b, by rw [h1, List.append_assoc, List.append_assoc, ← List.append_assoc b, ← t1], fun hl => ?_, fun hl => ?_⟩
      · rcases Nat.lt_or_ge q.length 3 with h | h
        · rw [t3 h]
          simp only [List.length_append, List.length_cons, List.length_nil] at hl ⊢
          rcases Nat.lt_or_ge (saves os).length 2 with h' | h'
          · rw [h3 h']; omega
          · have := h2 h'; omega
        · have := t2 h
          simp; omega
      · simp only [List.length_append, List.length_cons, List.length_nil] at hl
        have : q = saves os := h3 (by omega)
        rw [this] at t3 ⊢
        rw [t3 (by omega)]
    | get =>
      have e1 : saves [UOp.get] = [] := rfl
      have e2 : usageRun window q [.get] = (ownUsage q).1 := rfl
      rw [e1, e2, List.append_nil]
      have hsame : (ownUsage q).1 = q := by
        unfold ownUsage
        split
        · rename_i c p r hr
          have hq' : q = r.reverse ++ [p, c] := by
            have := congrArg List.reverse hr
            simpa using this
          have hlt : p.time < c.time := by
            rw [e1, List.append_nil, h1, hq'] at hinc
            have := (List.pairwise_append.1 (List.pairwise_append.1 hinc).2.1).2.1
            simpa using this
          have hz : ¬ c.time - p.time = 0 := by grind
          simp [hz]
        · rfl
      rw [hsame]
      exact ⟨a, h1, h2, h3⟩

/-- **C141 (own usage)**: after any measures, at increasing times, and calls in between, get_own_cpu_usage gives for every field its growth between the last two measures divided by the time between them, and None if there were not two. -/
theorem C141_own_usage (window : Rat) (ops : List UOp) (hinc : (saves ops).Pairwise (fun a b => a.time < b.time)) :
    ((saves ops).length < 2 → (ownUsage (usageRun window [] ops)).2 = none) ∧
    ∀ a p c, saves ops = a ++ [p, c] → ∃ u, (ownUsage (usageRun window [] ops)).2 = some u ∧ ∀ f, u f * (c.time - p.time) = c.times f - p.times f := by
  obtain ⟨b, h1, h2, h3⟩ := usage_inv window ops hinc
  refine ⟨fun hl => ?_, fun a p c hs => ?_⟩
  · rw [h3 hl]
    match hsv : saves ops with
    | [] => rfl
    | [m] => rfl
    | m :: m' :: r => rw [hsv] at hl; simp at hl; omega
  · have hlt : p.time < c.time := by
      rw [hs] at hinc
      simpa using (List.pairwise_append.1 hinc).2.1
    have hz : ¬ c.time - p.time = 0 := by grind
    have hlen := h2 (by rw [hs]; simp)
    have hrev : ∃ r, (usageRun window [] ops).reverse = c :: p :: r := by
      have hr : (usageRun window [] ops).reverse ++ b.reverse = c :: p :: a.reverse := by
        have := congrArg List.reverse (hs.symm.trans h1)
        simpa using this.symm
      match hm : (usageRun window [] ops).reverse with
      | [] => have := congrArg List.length hm; simp at this; rw [this] at hlen; simp at hlen
      | [x] => have := congrArg List.length hm; simp at this; omega
      | x :: y :: r =>
        rw [hm] at hr
        simp at hr
        exact ⟨r, by rw [hr.1, hr.2.1]⟩
    obtain ⟨r, hr⟩ := hrev
    refine ⟨fun f => (c.times f - p.times f) / (c.time - p.time), by simp [ownUsage, hr, hz], fun f => Rat.div_mul_cancel hz⟩

/-- **C141 (own usage, no time passed)**: if the last two measures are of the same time, None is given, and the next call gives the growth since the one before them. -/
theorem C141_own_usage_again (q : List Measure) (m p c : Measure) (h : m.time < c.time) (hp : p.time = c.time) :
    (ownUsage (q ++ [m, p, c])).2 = none ∧ ∃ u, (ownUsage (ownUsage (q ++ [m, p, c])).1).2 = some u ∧ ∀ f, u f * (c.time - m.time) = c.times f - m.times f := by
  have hz : c.time - p.time = 0 := by grind
  have hz' : ¬ c.time - m.time = 0 := by grind
  have h1 : ownUsage (q ++ [m, p, c]) = (q ++ [m, c], none) := by simp [ownUsage, hz]
  rw [h1]
  refine ⟨rfl, fun f => (c.times f - m.times f) / (c.time - m.time), by simp [ownUsage, hz'], fun f => Rat.div_mul_cancel hz'⟩

example : ∃ m p c : Measure, m.time < c.time ∧ p.time = c.time := ⟨⟨1, fun _ => 0⟩, ⟨2, fun _ => 1⟩, ⟨2, fun _ => 1⟩, by decide +kernel, rfl⟩

example : (saves [.save ⟨1, fun _ => 5⟩, .get, .save ⟨3, fun _ => 6⟩, .get]).Pairwise (fun a b => a.time < b.time) := by
  simp [saves]; decide +kernel

/-! ## C142 -/

/-- **C142 (violation), guests**: CPU time of virtual machines is counted twice: on a host with one CPU that runs a guest for a whole second the factor is 2. -/
theorem C142_guest_violates : ∃ a b : Times, b.user - a.user = 1 ∧ b.guest - a.guest = 1 ∧ b.nice = a.nice ∧ b.system = a.system ∧ b.irq = a.irq ∧ b.softirq = a.softirq ∧ b.steal = a.steal ∧ b.guestNice = a.guestNice ∧
    results 1 none [⟨a.used, 0⟩, ⟨b.used, 1⟩] = [none, some 2] :=
  ⟨{}, { user := 1, guest := 1 }, by decide +kernel, by decide +kernel, rfl, rfl, rfl, rfl, rfl, rfl, by decide +kernel⟩

/-- **C142 (kinds of CPU time)**, partial: apart from guests, every kind of CPU time that is not idling counts, and counts once. -/
theorem C142_kinds_partial (a b : Times) (h1 : b.guest = a.guest) (h2 : b.guestNice = a.guestNice) : results 1 none [⟨a.used, 0⟩, ⟨b.used, 1⟩] =
    [none, some ((b.user - a.user) + (b.nice - a.nice) + (b.system - a.system) + (b.irq - a.irq) + (b.softirq - a.softirq) + (b.steal - a.steal))] := by
  simp [results, attempt, Times.used, h1, h2]
  grind

/-- where a thread is in `_calculate_occupancy_factor`: not in it, read CPU times, or read the clock too; the rest is one step.  /repo/satella/instrumentation/cpu_time/collector.py:192, :206, :207-219 -/
inductive TPc
  | idle
  | used (u : Rat)
  | timed (u t : Rat)

/-- two threads that calculate the factor, /repo/satella/instrumentation/cpu_time/collector.py:187-219 -/
structure TSt where
  prev : Prev := none
  a : TPc := .idle
  b : TPc := .idle

/-- a step of a thread, with what it would read now; /repo/satella/instrumentation/cpu_time/collector.py:192-219 -/
def TPc.step (cpus : Rat) (p : Prev) (x : Reading) : TPc → Prev × TPc × Option Rat
  | .idle => (p, .used x.used, none)
  | .used u => (p, .timed u x.time, none)
  | .timed u t => ((attempt cpus p ⟨u, t⟩).1, .idle, (attempt cpus p ⟨u, t⟩).2)

/-- a schedule: which thread makes a step (True is the first), and what it would read; gives factors returned.  /repo/satella/instrumentation/cpu_time/collector.py:191-219 -/
def schedule (cpus : Rat) : TSt → List (Bool × Reading) → List Rat
  | _, [] => []
  | s, (true, x) :: r =>
    let q := s.a.step cpus s.prev x
    q.2.2.toList ++ schedule cpus { s with prev := q.1, a := q.2.1 } r
  | s, (false, x) :: r =>
    let q := s.b.step cpus s.prev x
    q.2.2.toList ++ schedule cpus { s with prev := q.1, b := q.2.1 } r

/-- **C142 (violation), threads**: of two threads that calculate the factor, the one that was interrupted between reading CPU times and the clock gets a negative one, although CPU time used and the clock only grow, and the CPU was half used all the time. -/
theorem C142_threads_violates : ∃ turns : List Bool,
    let xs : List (Bool × Reading) := turns.zipIdx.map (fun (t, i) => (t, ⟨(i : Rat) / 2, (i : Rat)⟩))
    ∃ r ∈ schedule 1 {} xs, r < 0 := by
  refine ⟨[true, true, true, true, false, false, false, true, true], -1 / 4, ?_, by decide +kernel⟩
  decide +kernel

end Verif.CpuStats
