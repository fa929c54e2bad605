import Verif.Cache.Props
import Verif.Cache.LRUProps
import Verif.Py.Run
import Verif.Writeback.Model

/-!
# Caches with metrics (satella/instrumentation/metrics/structures/cache_dict.py), C121, C122

The counters are numbers.  All metrics are given, and their levels allow RUNTIME.  How long the value getter takes is left out.
-/
namespace Verif.Cache

open Verif

section
variable {K V : Type} [DecidableEq K] (E : Env V)

/-! ## Model -/

/-- a MetrifiedCacheDict: a CacheDict, and the values of `cache_hits`, `cache_miss` and `refreshes`; /repo/satella/instrumentation/metrics/structures/cache_dict.py:48-54 -/
structure MSt (K V : Type) where
  base : St K V
  hits : Nat
  misses : Nat
  refreshes : Nat

/-- `__getitem__` before that of CacheDict, at a reading `th` of the clock; /repo/satella/instrumentation/metrics/structures/cache_dict.py:56-62 -/
def MSt.look (s : MSt K V) (k : K) (th : Int) : MSt K V :=
  if St.hasInfo E s.base k th then { s with hits := s.hits + 1 } else { s with misses := s.misses + 1 }

/-- `value_getter_replacement` counts every answer of the getter, even an exception; /repo/satella/instrumentation/metrics/structures/cache_dict.py:36-41 -/
def MSt.asked (s : MSt K V) : MSt K V := { s with refreshes := s.refreshes + 1 }

/-- one call on a MetrifiedCacheDict: as on a CacheDict; `th` is the reading of `time_getter` in `has_info_about`, just before a lookup.  The getter answers within `get` if it is asked, and before `complete` and `refresh`.  /repo/satella/instrumentation/metrics/structures/cache_dict.py:25-63 -/
def mstep (s : MSt K V) (c : Int × Op K V) : MSt K V × Res V :=
  let r := step E s.base c.2
  match c.2 with
  | .get k _ _ _ =>
    let s1 := s.look E k c.1
    let s2 := if r.2.asked then s1.asked else s1
    ({ s2 with base := r.1 }, r.2)
  | .lookup k _ => ({ s.look E k c.1 with base := r.1 }, r.2)
  | .complete _ _ _ => ({ s.asked with base := r.1 }, r.2)
  | .refresh _ _ _ => ({ s.asked with base := r.1 }, r.2)
  | _ => ({ s with base := r.1 }, r.2)

/-- a new MetrifiedCacheDict with new metrics, /repo/satella/instrumentation/metrics/structures/cache_dict.py:25-54 -/
def MSt.empty : MSt K V := { base := St.empty, hits := 0, misses := 0, refreshes := 0 }

/-! ## Specification -/

/-- the call is a lookup -/
def IsLookup : Op K V → Bool
  | .get _ _ _ _ => true
  | .lookup _ _ => true
  | _ => false

/-- the getter answered in this call -/
def Answered (o : Op K V) (r : Res V) : Bool :=
  match o with
  | .get _ _ _ _ => r.asked
  | .complete _ _ _ => true
  | .refresh _ _ _ => true
  | _ => false

/-- the reading of the clock in the lookup itself, if it is one -/
def Reading : Op K V → Option Int
  | .get _ now _ _ => some now
  | .lookup _ now => some now
  | _ => none

/-- a lookup that did not ask the getter -/
def FromMemory (o : Op K V) (r : Res V) : Bool := IsLookup o && !r.asked

/-! ## Proofs -/

/-- every entry and every remembered failure has a time -/
def Timed (s : St K V) : Prop :=
  (∀ k, Dict.has s.data k = true → Dict.has s.ts k = true) ∧ (∀ k ∈ s.missed, Dict.has s.ts k = true) ∧ (E.failures = none → s.missed = [])

omit E in
theorem has_set {α : Type} (d : Dict K α) (k x : K) (v : α) : Dict.has (Dict.set d k v) x = (decide (k = x) || Dict.has d x) := by
  simp only [Dict.has, Dict.get?_set]
  by_cases h : k = x <;> simp [h]

omit E in
theorem has_del {α : Type} (d : Dict K α) (k x : K) : Dict.has (Dict.del d k) x = (decide (k ≠ x) && Dict.has d x) := by
  simp only [Dict.has, Dict.get?_del]
  by_cases h : k = x <;> simp [h]

theorem Timed.set {s : St K V} (h : Timed E s) (k : K) (v : V) (t : Int) : Timed E (St.set s k v t) := by
  obtain ⟨h1, h2, h3⟩ := h
  refine ⟨fun x => ?_, fun x => ?_, fun hf => by simp [St.set, h3 hf]⟩
  · simp only [St.set, has_set, Bool.or_eq_true, decide_eq_true_eq]
    exact fun h => h.imp_right (h1 x)
  · simp only [St.set, has_set, List.mem_filter, Bool.or_eq_true, decide_eq_true_eq]
    exact fun h => Or.inr (h2 x h.1)

theorem Timed.feed {s : St K V} (h : Timed E s) (k : K) (v : V) (st : Option Int) (t : Int) : Timed E (St.feed s k v st t) := by
  obtain ⟨h1, h2, h3⟩ := h
  refine ⟨fun x => ?_, fun x => ?_, fun hf => by simp [St.feed, h3 hf]⟩
  · simp only [St.feed, has_set, Bool.or_eq_true, decide_eq_true_eq]
    exact fun h => h.imp_right (h1 x)
  · simp only [St.feed, has_set, Bool.or_eq_true, decide_eq_true_eq]
    exact fun h => Or.inr (h2 x h)

theorem Timed.del {s : St K V} (h : Timed E s) (k : K) : Timed E (St.del s k).1 := by
  obtain ⟨h1, h2, h3⟩ := h
  unfold St.del
  by_cases hd : Dict.has s.data k = true
  · simp only [hd, h1 k hd, ↓reduceIte]
    refine ⟨fun x => ?_, fun x => ?_, fun hf => by simp [h3 hf]⟩
    · simp only [has_del, Bool.and_eq_true, decide_eq_true_eq]
      exact fun h => ⟨h.1, h1 x h.2⟩
    · simp only [has_del, List.mem_filter, Bool.and_eq_true, decide_eq_true_eq]
      exact fun h => ⟨fun e => h.2 e.symm, h2 x h.1⟩
  · simp only [hd]
    exact ⟨h1, h2, h3⟩

theorem Timed.onFailure {s : St K V} (h : Timed E s) (k : K) (t : Int) : Timed E (St.onFailure E s k t) := by
  have hd := h.del E k
  unfold St.onFailure St.invalidate
  dsimp only
  cases hf : E.failures with
  | none => simpa [hf] using hd
  | some i =>
    obtain ⟨h1, h2, h3⟩ := hd
    simp only [Option.isSome_some, ↓reduceIte]
    refine ⟨fun x => ?_, fun x => ?_, fun hf' => by simp [hf] at hf'⟩
    · simp only [has_set, Bool.or_eq_true, decide_eq_true_eq]
      exact fun h => Or.inr (h1 x h)
    · simp only [has_set, mem_setAdd, Bool.or_eq_true, decide_eq_true_eq]
      rintro (h | h)
      · exact Or.inl h.symm
      · exact Or.inr (h2 x h)

theorem Timed.step {s : St K V} (h : Timed E s) (o : Op K V) : Timed E (Cache.step E s o).1 := by
  have hc : ∀ k g t, Timed E (St.complete E s k g t).1 := by
    intro k g t
    cases g with
    | ok v => exact h.set E k v t
    | keyError => exact h.onFailure E k t
    | other n => exact h
  cases o with
  | get k now g t =>
    simp only [Cache.step]
    obtain ⟨x, hx⟩ : ∃ x, (St.lookup E s k now).out = x := ⟨_, rfl⟩
    simp only [hx]
    cases x <;> first | exact hc k g t | exact h
  | lookup k now => exact h
  | complete k g t => exact hc k g t
  | refresh k g t => have := hc k g t; cases g <;> exact this
  | set k v t => exact h.set E k v t
  | feed k v st t => exact h.feed E k v st t
  | del k =>
    have := h.del E k
    simp only [Cache.step]
    generalize St.del s k = p at *
    obtain ⟨p1, p2⟩ := p
    cases p2 <;> exact this
  | invalidate k => exact h.del E k
  | hasInfo k t => exact h

theorem timed_empty : Timed E (St.empty : St K V) := ⟨by simp [St.empty, Dict.has], by simp [St.empty], fun _ => rfl⟩

/-- the two tests of expiration agree -/
theorem look_iff {s : St K V} (h : Timed E s) (hf : E.failures = none ∨ E.failures = some E.expiration) (k : K) (th now : Int) (hle : th ≤ now) :
    (St.hasInfo E s k th = false → (St.lookup E s k now).asked = true) ∧ (th = now → (St.hasInfo E s k th = true → (St.lookup E s k now).asked = false)) := by
  obtain ⟨h1, h2, h3⟩ := h
  have h1 := h1 k
  have h2 := h2 k
  unfold St.hasInfo St.lookup
  by_cases hm : k ∈ s.missed
  · -- a remembered failure
    have hff : E.failures = some E.expiration := by
      rcases hf with hf | hf
      · rw [h3 hf] at hm; cases hm
      · exact hf
    have ht := h2 hm
    simp only [Dict.has] at ht
    obtain ⟨t, ht⟩ := Option.isSome_iff_exists.1 ht
    simp only [hm, hff, ht, not_true_eq_false, decide_false, Bool.and_false, Bool.false_eq_true, ↓reduceIte, Option.isSome_some, decide_true, Bool.and_self]
    by_cases hd : Dict.has s.data k = true <;> simp only [hd, Bool.false_eq_true, ↓reduceIte, decide_eq_true_eq, decide_eq_false_iff_not]
    all_goals
      by_cases hx : now - t > E.expiration
      · simp only [hx, ↓reduceIte]
        exact ⟨fun _ => trivial, fun e h => by omega⟩
      · simp only [hx, ↓reduceIte]
        exact ⟨fun h => by omega, fun _ _ => trivial⟩
  · by_cases hd : Dict.has s.data k = true
    · have ht := h1 hd
      simp only [Dict.has] at ht
      obtain ⟨t, ht⟩ := Option.isSome_iff_exists.1 ht
      obtain ⟨v, hv⟩ := Option.isSome_iff_exists.1 (show (Dict.get? s.data k).isSome = true from hd)
      simp only [hm, hd, ht, hv, Bool.not_true, Bool.false_and, Bool.false_eq_true, ↓reduceIte, decide_eq_true_eq, decide_eq_false_iff_not]
      by_cases hx : now - t > E.expiration
      · simp only [hx, ↓reduceIte]
        exact ⟨fun _ => trivial, fun e h => by omega⟩
      · simp only [hx, ↓reduceIte]
        refine ⟨fun h => by omega, fun _ _ => ?_⟩
        split <;> rfl
    · simp [hm, hd]

theorem hasInfo_exact {s : St K V} (h : Timed E s) (hf : E.failures = none ∨ E.failures = some E.expiration) (k : K) (now : Int) :
    St.hasInfo E s k now = !(St.lookup E s k now).asked := by
  obtain ⟨a, b⟩ := look_iff E h hf k now now (by omega)
  cases hi : St.hasInfo E s k now with
  | false => rw [a hi]; rfl
  | true => rw [b rfl hi]; rfl

theorem step_get_asked (s : St K V) (k : K) (now : Int) (g : Got V) (t : Int) : (Cache.step E s (.get k now g t)).2.asked = (St.lookup E s k now).asked := by
  simp only [Cache.step]
  obtain ⟨x, hx⟩ : ∃ x, (St.lookup E s k now).out = x := ⟨_, rfl⟩
  simp only [hx]
  cases x <;> rfl

/-- the number of calls of a history with a property of the call and its result -/
def tally (P : Op K V → Res V → Bool) (cs : List (Int × Op K V)) (rs : List (Res V)) : Nat := ((cs.zip rs).filter (fun x => P x.1.2 x.2)).length

omit [DecidableEq K] in
theorem tally_cons (P : Op K V → Res V → Bool) (c : Int × Op K V) (cs : List (Int × Op K V)) (r : Res V) (rs : List (Res V)) :
    tally P (c :: cs) (r :: rs) = (if P c.2 r then 1 else 0) + tally P cs rs := by
  simp only [tally, List.zip_cons_cons, List.filter_cons]
  split <;> simp <;> omega

theorem mstep_base (s : MSt K V) (c : Int × Op K V) : (mstep E s c).1.base = (Cache.step E s.base c.2).1 ∧ (mstep E s c).2 = (Cache.step E s.base c.2).2 := by
  obtain ⟨th, o⟩ := c
  cases o <;> exact ⟨rfl, rfl⟩

theorem mstep_counts (s : MSt K V) (c : Int × Op K V) :
    (mstep E s c).1.hits + (mstep E s c).1.misses = s.hits + s.misses + (if IsLookup c.2 then 1 else 0) ∧
    (mstep E s c).1.refreshes = s.refreshes + (if Answered c.2 (mstep E s c).2 then 1 else 0) := by
  obtain ⟨th, o⟩ := c
  cases o with
  | get k now g t =>
    simp only [mstep, MSt.look, MSt.asked, IsLookup, Answered]
    refine ⟨?_, ?_⟩
    · split <;> split <;> simp <;> omega
    · split <;> split <;> simp_all
  | lookup k now =>
    simp only [mstep, MSt.look, IsLookup, Answered]
    refine ⟨?_, ?_⟩ <;> split <;> simp <;> omega
  | _ => simp [mstep, MSt.asked, IsLookup, Answered]

theorem mstep_hits (s : MSt K V) (h : Timed E s.base) (hf : E.failures = none ∨ E.failures = some E.expiration) (c : Int × Op K V) (hc : ∀ now, Reading c.2 = some now → c.1 = now) :
    (mstep E s c).1.hits = s.hits + (if FromMemory c.2 (mstep E s c).2 then 1 else 0) := by
  obtain ⟨th, o⟩ := c
  cases o with
  | get k now g t =>
    obtain rfl : th = now := hc now rfl
    have := hasInfo_exact E h hf k th
    simp only [mstep, MSt.look, MSt.asked, FromMemory, IsLookup, step_get_asked, Bool.true_and]
    rw [this]
    cases (St.lookup E s.base k th).asked <;> simp
  | lookup k now =>
    obtain rfl : th = now := hc now rfl
    have := hasInfo_exact E h hf k th
    simp only [mstep, MSt.look, FromMemory, IsLookup, Cache.step, Bool.true_and]
    rw [this]
    cases (St.lookup E s.base k th).asked <;> simp
  | _ => simp [mstep, MSt.asked, FromMemory, IsLookup]

/-- **C121, a cache with metrics is the same cache**: every call gives the same result as on a CacheDict without metrics. -/
theorem C121_same_cache (cs : List (Int × Op K V)) : (runOps (mstep E) MSt.empty cs).2 = (runOps (step E) St.empty (cs.map (·.2))).2 := by
  have key : ∀ (cs : List (Int × Op K V)) (s : MSt K V), (runOps (mstep E) s cs).2 = (runOps (step E) s.base (cs.map (·.2))).2 := by
    intro cs
    induction cs with
    | nil => intro s; rfl
    | cons c cs ih =>
      intro s
      obtain ⟨h1, h2⟩ := mstep_base E s c
      simp only [runOps, List.map_cons]
      rw [ih, h1, h2]
  exact key cs MSt.empty

/-- **C121, counters**: after any calls, each lookup was counted once, as a hit or as a miss, and `refreshes` is the number of answers of the value getter, of which an exception is one. -/
theorem C121_counts (cs : List (Int × Op K V)) :
    let f := runOps (mstep E) MSt.empty cs
    f.1.hits + f.1.misses = tally (fun o _ => IsLookup o) cs f.2 ∧ f.1.refreshes = tally Answered cs f.2 := by
  have key : ∀ (cs : List (Int × Op K V)) (s : MSt K V),
      (runOps (mstep E) s cs).1.hits + (runOps (mstep E) s cs).1.misses = s.hits + s.misses + tally (fun o _ => IsLookup o) cs (runOps (mstep E) s cs).2 ∧
      (runOps (mstep E) s cs).1.refreshes = s.refreshes + tally Answered cs (runOps (mstep E) s cs).2 := by
    intro cs
    induction cs with
    | nil => intro s; exact ⟨rfl, rfl⟩
    | cons c cs ih =>
      intro s
      obtain ⟨h1, h2⟩ := mstep_counts E s c
      obtain ⟨h3, h4⟩ := ih (mstep E s c).1
      simp only [runOps, tally_cons]
      exact ⟨by omega, by omega⟩
  have := key cs MSt.empty
  simpa [MSt.empty] using this

/-- **C121, hits**: if failures are not cached, or for as long as values, and the clock does not move between the two readings of a lookup, then hits are exactly the lookups answered without the value getter. -/
theorem C121_hits (hf : E.failures = none ∨ E.failures = some E.expiration) (cs : List (Int × Op K V)) (hc : ∀ c ∈ cs, ∀ now, Reading c.2 = some now → c.1 = now) :
    (runOps (mstep E) MSt.empty cs).1.hits = tally FromMemory cs (runOps (mstep E) MSt.empty cs).2 := by
  have key : ∀ (cs : List (Int × Op K V)) (s : MSt K V), Timed E s.base → (∀ c ∈ cs, ∀ now, Reading c.2 = some now → c.1 = now) →
      (runOps (mstep E) s cs).1.hits = s.hits + tally FromMemory cs (runOps (mstep E) s cs).2 := by
    intro cs
    induction cs with
    | nil => intro s _ _; rfl
    | cons c cs ih =>
      intro s ht hc
      have h1 := mstep_hits E s ht hf c (hc c (by simp))
      have h2 := ih (mstep E s c).1 (by rw [(mstep_base E s c).1]; exact ht.step E c.2) (fun d hd => hc d (by simp [hd]))
      simp only [runOps, tally_cons]
      omega
  have := key cs MSt.empty (timed_empty E) hc
  simpa [MSt.empty] using this

/-- **C121, misses**: if the clock only moves forward between the two readings, still every lookup counted as a miss did ask the getter. -/
theorem C121_miss_asks (hf : E.failures = none ∨ E.failures = some E.expiration) (cs : List (Int × Op K V)) (th : Int) (k : K) (now : Int) (hle : th ≤ now) :
    let s := (runOps (mstep E) MSt.empty cs).1
    (mstep E s (th, .lookup k now)).1.misses = s.misses + 1 → (mstep E s (th, .lookup k now)).2.asked = true := by
  intro s
  have ht : Timed E s.base := by
    have key : ∀ (cs : List (Int × Op K V)) (s : MSt K V), Timed E s.base → Timed E (runOps (mstep E) s cs).1.base := by
      intro cs
      induction cs with
      | nil => intro s h; exact h
      | cons c cs ih =>
        intro s h
        simp only [runOps]
        exact ih _ (by rw [(mstep_base E s c).1]; exact h.step E c.2)
    exact key cs MSt.empty (timed_empty E)
  have hl := (look_iff E ht hf k th now hle).1
  simp only [mstep, MSt.look, Cache.step]
  split
  · intro h; simp at h
  · next hi => intro _; exact hl (by simpa using hi)

end

/-- failures are not cached -/
def someEnv : Env Nat := { stale := 5, expiration := 10, failures := none, default := none }
/-- a miss, a hit, a miss after expiration, with an exception of the getter -/
def someCalls : List (Int × Op Nat Nat) := [(0, .get 1 0 (.ok 7) 0), (3, .get 1 3 (.ok 8) 3), (20, .get 1 20 .keyError 20)]
example : someEnv.failures = none ∨ someEnv.failures = some someEnv.expiration := Or.inl rfl
example : ∀ c ∈ someCalls, ∀ now, Reading c.2 = some now → c.1 = now := by decide
example : (runOps (mstep someEnv) MSt.empty someCalls).1.hits = 1 ∧ (runOps (mstep someEnv) MSt.empty someCalls).1.misses = 2 ∧ (runOps (mstep someEnv) MSt.empty someCalls).1.refreshes = 2 := by decide

/-! ## C122: where the metrics mislead -/

/-- **C122 (violation), cached failures**: with failures cached for a shorter time than values, a lookup that has to ask the getter again is counted as a hit. -/
theorem C122_failures_violates : ∃ (E : Env Nat) (cs : List (Int × Op Nat Nat)), E.Ok ∧ (∀ c ∈ cs, ∀ now, Reading c.2 = some now → c.1 = now) ∧
    (runOps (mstep E) MSt.empty cs).1.hits = 1 ∧ tally FromMemory cs (runOps (mstep E) MSt.empty cs).2 = 0 :=
  ⟨{ stale := 5, expiration := 10, failures := some 2, default := none }, [(0, .get 1 0 .keyError 0), (5, .get 1 5 (.ok 3) 5)], by simp [Env.Ok], by decide, by decide, by decide⟩

/-- **C122 (violation), cached failures**: with failures cached for longer than values, a lookup answered from memory is counted as a miss. -/
theorem C122_failures_miss_violates : ∃ (E : Env Nat) (cs : List (Int × Op Nat Nat)), E.Ok ∧ (∀ c ∈ cs, ∀ now, Reading c.2 = some now → c.1 = now) ∧
    (runOps (mstep E) MSt.empty cs).1.hits = 0 ∧ tally FromMemory cs (runOps (mstep E) MSt.empty cs).2 = 1 :=
  ⟨{ stale := 5, expiration := 10, failures := some 20, default := none }, [(0, .get 1 0 .keyError 0), (15, .get 1 15 (.ok 3) 15)], by simp [Env.Ok], by decide, by decide, by decide⟩

section
variable {K V : Type} [DecidableEq K]

/-- the number of calls of `evict` in `make_room`, each of which counts one eviction: /repo/satella/instrumentation/metrics/structures/cache_dict.py:112-115, with make_room of /repo/satella/coding/structures/dictionaries/cache_dict.py:265-270 -/
def roomEvictions (maxSize : Nat) (s : LSt K V) : Nat :=
  if s.base.data.length > maxSize - 1 then
    match _h : s.lru with
    | [] => 0
    | _ :: _ => 1 + roomEvictions maxSize (LSt.evict s)
  else 0
termination_by s.lru.length
decreasing_by
  unfold LSt.evict
  rw [_h]
  simp only [LRU.evict]
  refine Nat.lt_of_le_of_lt (LSt.invalidate_lru_le _ _) ?_
  simp

/-- the evictions counted by one call on a MetrifiedLRUCacheDict: `make_room` is called by assignments, and by `feed` of a new key; /repo/satella/coding/structures/dictionaries/cache_dict.py:296-320, /repo/satella/instrumentation/metrics/structures/cache_dict.py:112-115 -/
def evictions (E : Env V) (maxSize : Nat) (s : LSt K V) : Op K V → Nat
  | .get k now (.ok _) _ => if (St.lookup E s.base k now).out matches .block then roomEvictions maxSize { s with lru := LRU.markAsUsed s.lru k } else 0
  | .complete _ (.ok _) _ => roomEvictions maxSize s
  | .refresh _ (.ok _) _ => roomEvictions maxSize s
  | .set _ _ _ => roomEvictions maxSize s
  | .feed k _ _ _ => if Dict.has s.base.data k then 0 else roomEvictions maxSize s
  | _ => 0

/-- the calls on a MetrifiedLRUCacheDict, with the evictions counted; `none` if a call never returns.  /repo/satella/instrumentation/metrics/structures/cache_dict.py:66-124 -/
def lmrun (E : Env V) (maxSize : Nat) : LSt K V × Nat → List (Op K V) → Option (LSt K V × Nat)
  | p, [] => some p
  | p, o :: os =>
    match lstep E maxSize p.1 o with
    | some (s', _) => lmrun E maxSize (s', p.2 + evictions E maxSize p.1 o) os
    | none => none

/-- the call stores a value, for which room is needed; if the value comes from the getter, `asked` says whether it was asked -/
def NeedsRoom (o : Op K V) (asked : Bool) (known : Bool) : Bool :=
  match o with
  | .get _ _ _ _ => asked
  | .set _ _ _ => true
  | .refresh _ _ _ => true
  | .feed _ _ _ _ => !known
  | _ => false

/-- the key of a call -/
def keyOf : Op K V → K
  | .get k _ _ _ => k
  | .lookup k _ => k
  | .complete k _ _ => k
  | .refresh k _ _ => k
  | .set k _ _ => k
  | .feed k _ _ _ => k
  | .del k => k
  | .invalidate k => k
  | .hasInfo k _ => k

/-- calls in which no getter fails, and lookups are not interleaved -/
def NoFailure : Op K V → Prop
  | .get _ _ (.ok _) _ => True
  | .refresh _ (.ok _) _ => True
  | .set _ _ _ => True
  | .feed _ _ _ _ => True
  | .del _ => True
  | .invalidate _ => True
  | .hasInfo _ _ => True
  | _ => False

/-- how many evictions there should be: one for each call that stores a value when the cache is full -/
def expected (E : Env V) (maxSize : Nat) : LSt K V → List (Op K V) → Nat
  | _, [] => 0
  | s, o :: os =>
    match lstep E maxSize s o with
    | some (s', r) => (if NeedsRoom o r.asked (Dict.has s.base.data (keyOf o)) ∧ s.base.data.length = maxSize then 1 else 0) + expected E maxSize s' os
    | none => 0

theorem roomEvictions_eq {maxSize : Nat} (n : Nat) :
    ∀ s : LSt K V, s.lru.length = n → LInv maxSize s → s.lru.Nodup → (∀ x ∈ s.lru, x ∈ Dict.keys s.base.data ∨ s.lru.getLast? = some x) →
      roomEvictions maxSize s = s.base.data.length - (maxSize - 1) := by
  induction n with
  | zero =>
    intro s hn hI _ _
    have hl : s.lru = [] := List.length_eq_zero_iff.1 hn
    have hd : s.base.data = [] := by
      cases hd : s.base.data with
      | nil => rfl
      | cons p d =>
        have := hI.1 p.1 (by rw [hd]; simp [Dict.keys])
        rw [hl] at this; simp at this
    rw [roomEvictions, if_neg (by rw [hd]; simp), hd]
    simp
  | succ n ih =>
    intro s hn hI hnd hsub
    by_cases hfull : s.base.data.length > maxSize - 1
    · cases hl : s.lru with
      | nil => simp [hl] at hn
      | cons k l =>
        obtain ⟨e1, e2, e3⟩ := evict_cons hl hnd hI.2.1
        have hnd' : l.Nodup := by rw [hl] at hnd; exact (List.nodup_cons.1 hnd).2
        have hkl : k ∉ l := by rw [hl] at hnd; exact (List.nodup_cons.1 hnd).1
        have hI' : LInv maxSize (LSt.evict s) := by
          refine ⟨?_, ?_, ?_, ?_⟩
          · rw [e1, e2]
            intro x hx
            rw [mem_keys_del'] at hx
            have := hI.1 x hx.1
            rw [hl] at this
            rcases List.mem_cons.1 this with h | h
            · exact absurd h hx.2
            · exact h
          · rw [e1]
            intro x hx
            rw [mem_keys_del'] at hx
            rw [e3 x hx.2]; exact hI.2.1 x hx.1
          · rw [e1]; exact Dict.wf_del hI.2.2.1 k
          · rw [e1]; exact Nat.le_trans (Dict.length_del_le _ _) hI.2.2.2
        -- the oldest key has a value
        have hk : k ∈ Dict.keys s.base.data := by
          rcases hsub k (by rw [hl]; simp) with h | h
          · exact h
          · rw [hl] at h
            cases l with
            | nil =>
              cases hd : s.base.data with
              | nil => rw [hd] at hfull; simp at hfull
              | cons p d =>
                have := hI.1 p.1 (by rw [hd]; simp [Dict.keys])
                rw [hl, List.mem_singleton] at this
                simp [Dict.keys, this]
            | cons y l =>
              exfalso
              rw [List.getLast?_cons_cons] at h
              exact hkl (List.mem_of_getLast? h)
        have hlen := length_del_mem hI.2.2.1 hk
        have hsub' : ∀ x ∈ (LSt.evict s).lru, x ∈ Dict.keys (LSt.evict s).base.data ∨ (LSt.evict s).lru.getLast? = some x := by
          rw [e1, e2]
          intro x hx
          have hxk : x ≠ k := fun e => hkl (e ▸ hx)
          rcases hsub x (by rw [hl]; simp [hx]) with h | h
          · exact Or.inl (mem_keys_del'.2 ⟨h, hxk⟩)
          · right
            rw [hl] at h
            cases l with
            | nil => cases hx
            | cons y l => rwa [List.getLast?_cons_cons] at h
        have := ih (LSt.evict s) (by rw [e2]; simp [hl] at hn; exact hn) hI' (by rw [e2]; exact hnd') hsub'
        rw [roomEvictions, if_pos hfull]
        split
        · rename_i hc; simp [hl] at hc
        · rw [this, e1]
          omega
    · rw [roomEvictions, if_neg hfull]
      omega

/-- the invariant of a cache for which no getter failed -/
structure Clean (maxSize : Nat) (s : LSt K V) : Prop where
  good : Good maxSize s
  missed : s.base.missed = []
  sub : ∀ x ∈ s.lru, x ∈ Dict.keys s.base.data

theorem missed_del {s : St K V} (h : s.missed = []) (k : K) : (St.del s k).1.missed = [] := by
  unfold St.del
  split
  · split <;> simp [h]
  · exact h

theorem missed_invalidate {s : LSt K V} (h : s.base.missed = []) (k : K) : (LSt.invalidate s k).base.missed = [] := by
  have := missed_del h k
  unfold LSt.invalidate LSt.del
  generalize St.del s.base k = p at *
  obtain ⟨b, e⟩ := p
  cases e with
  | some e => dsimp only; split <;> exact this
  | none => dsimp only; split <;> split <;> exact this

theorem missed_makeRoom {maxSize : Nat} (n : Nat) : ∀ s s' : LSt K V, s.lru.length = n → s.base.missed = [] → LSt.makeRoom maxSize s = some s' → s'.base.missed = [] := by
  induction n using Nat.strongRecOn with
  | _ n ih =>
    intro s s' hn h hs
    rw [LSt.makeRoom] at hs
    split at hs
    · split at hs
      · cases hs
      · next k l hl =>
        refine ih (LSt.evict s).lru.length ?_ (LSt.evict s) s' rfl ?_ hs
        · unfold LSt.evict
          rw [hl]
          simp only [LRU.evict]
          refine Nat.lt_of_le_of_lt (LSt.invalidate_lru_le _ _) ?_
          rw [← hn, hl]
          simp
        · unfold LSt.evict
          rw [hl]
          simp only [LRU.evict]
          exact missed_invalidate (s := { s with lru := l }) h k
    · cases hs; exact h

/-- storing a value -/
theorem Clean.store {maxSize : Nat} (hm : 0 < maxSize) {s : LSt K V} (hg : Good maxSize s) (hmi : s.base.missed = []) (k : K) (v : V) (t : Int) (hsub : ∀ x ∈ s.lru, x ∈ Dict.keys s.base.data ∨ x = k) :
    ∃ s', LSt.set maxSize s k v t = some s' ∧ Clean maxSize s' := by
  obtain ⟨s1, h1, h2, h3, h4⟩ := makeRoom_spec hm _ s rfl hg.1 hg.2
  have hset : LSt.set maxSize s k v t = some { base := St.set s1.base k v t, lru := LRU.markAsUsed s1.lru k } := by simp only [LSt.set, h1]
  obtain ⟨s2, h5, h6⟩ := hg.set hm k v t
  rw [hset] at h5
  cases h5
  refine ⟨_, hset, h6, ?_, ?_⟩
  · have := missed_makeRoom _ s s1 rfl hmi h1
    simp [St.set, this]
  · intro x hx
    rw [mem_markAsUsed] at hx
    show x ∈ Dict.keys (Dict.set s1.base.data k v)
    rw [Dict.mem_keys_set]
    rcases hx with hx | hx
    · obtain ⟨gone, g1, g2⟩ := h4.oldest_first
      rcases hsub x (by rw [g1]; simp [hx]) with h | h
      · right
        refine (g2 x).2 ⟨h, fun hgone => ?_⟩
        have hnd := hg.2
        rw [g1, List.nodup_append] at hnd
        exact hnd.2.2 x hgone x hx rfl
      · exact Or.inl h
    · exact Or.inl hx

theorem clean_lookup (E : Env V) {maxSize : Nat} {s : LSt K V} (h : Clean maxSize s) (k : K) (now : Int) (ho : (St.lookup E s.base k now).out ≠ .block) : k ∈ Dict.keys s.base.data := by
  apply Classical.byContradiction
  intro hk
  have hd : Dict.has s.base.data k = false := by
    rw [Bool.eq_false_iff]; intro hc; exact hk ((Dict.get?_isSome_iff _ _).1 hc)
  exact ho (by simp [St.lookup, hd, h.missed])

theorem asked_block (E : Env V) (s : St K V) (k : K) (now : Int) : (St.lookup E s k now).asked = true ↔ (St.lookup E s k now).out = .block := by
  unfold St.lookup missOut
  repeat' split
  all_goals simp

theorem room_count {maxSize : Nat} (hm : 0 < maxSize) {s : LSt K V} (h : Clean maxSize s) : roomEvictions maxSize s = if s.base.data.length = maxSize then 1 else 0 := by
  rw [roomEvictions_eq _ s rfl h.good.1 h.good.2 (fun x hx => Or.inl (h.sub x hx))]
  have := h.good.1.2.2.2
  split <;> omega

theorem lstep_clean (E : Env V) {maxSize : Nat} (hm : 0 < maxSize) {s : LSt K V} (h : Clean maxSize s) (o : Op K V) (ho : NoFailure o) :
    ∃ s' r, lstep E maxSize s o = some (s', r) ∧ Clean maxSize s' ∧
      evictions E maxSize s o = if NeedsRoom o r.asked (Dict.has s.base.data (keyOf o)) ∧ s.base.data.length = maxSize then 1 else 0 := by
  cases o with
  | get k now g t =>
    cases g with
    | ok v =>
      by_cases hb : (St.lookup E s.base k now).out = .block
      · have ha := (asked_block E s.base k now).2 hb
        have hg := h.good.mark k
        obtain ⟨s1, h1, h2⟩ := Clean.store hm hg (by exact h.missed) k v t (fun x hx => by
          rcases mem_markAsUsed.1 hx with hx | hx
          · exact Or.inl (h.sub x hx)
          · exact Or.inr hx)
        refine ⟨{ s1 with lru := LRU.add s1.lru k }, { out := .val v, asked := true, scheduled := (St.lookup E s.base k now).scheduled }, ?_, ⟨h2.good.add k, h2.missed, ?_⟩, ?_⟩
        · simp only [lstep, hb, LSt.complete, h1, Option.map_some, ha]
        · intro x hx
          rcases mem_add.1 hx with hx | hx
          · exact h2.sub x hx
          · -- the key has just been stored
            subst hx
            obtain ⟨s2, g1, _⟩ := makeRoom_spec hm _ _ rfl hg.1 hg.2
            simp only [LSt.set, g1, Option.some.injEq] at h1
            subst h1
            exact Dict.mem_keys_set.2 (Or.inl rfl)
        · have hr := roomEvictions_eq _ _ rfl hg.1 hg.2 (fun x hx => by
            rcases mem_markAsUsed.1 hx with hx | hx
            · exact Or.inl (h.sub x hx)
            · exact Or.inr (by rw [hx]; exact last_markAsUsed _ _))
          simp only [evictions, hb, NeedsRoom, hr, ↓reduceIte, true_and]
          clear hr
          have := h.good.1.2.2.2
          split <;> omega
      · have ha : (St.lookup E s.base k now).asked = false := by
          rw [Bool.eq_false_iff]; intro hc; exact hb ((asked_block E s.base k now).1 hc)
        refine ⟨{ s with lru := LRU.markAsUsed s.lru k }, St.lookup E s.base k now, ?_, ⟨h.good.mark k, h.missed, ?_⟩, ?_⟩
        · simp only [lstep]
        · intro x hx
          rcases mem_markAsUsed.1 hx with hx | hx
          · exact h.sub x hx
          · rw [hx]; exact clean_lookup E h k now hb
        · simp only [evictions, NeedsRoom, ha]
          generalize (St.lookup E s.base k now).out = q at hb
          cases q <;> simp_all
    | keyError => cases ho
    | other n => cases ho
  | lookup k now => cases ho
  | complete k g t => cases ho
  | refresh k g t =>
    cases g with
    | ok v =>
      obtain ⟨s1, h1, h2⟩ := Clean.store hm h.good h.missed k v t (fun x hx => Or.inl (h.sub x hx))
      exact ⟨s1, { out := .unit }, by simp only [lstep, LSt.refresh, h1, Option.map_some], h2, by simp [evictions, NeedsRoom, room_count hm h]⟩
    | keyError => cases ho
    | other n => cases ho
  | set k v t =>
    obtain ⟨s1, h1, h2⟩ := Clean.store hm h.good h.missed k v t (fun x hx => Or.inl (h.sub x hx))
    exact ⟨s1, { out := .unit }, by simp only [lstep, h1, Option.map_some], h2, by simp [evictions, NeedsRoom, room_count hm h]⟩
  | feed k v stamp t =>
    obtain ⟨s', r, h1, h2⟩ := h.good.step E hm (.feed k v stamp t)
    refine ⟨s', r, h1, ⟨h2, ?_, ?_⟩, ?_⟩
    · simp only [lstep, LSt.feed] at h1
      split at h1
      · cases h1
      · next s1 hs1 =>
        simp only [Option.map_some, Option.some.injEq, Prod.mk.injEq] at h1
        rw [← h1.1]
        show s1.base.missed = []
        split at hs1
        · cases hs1; exact h.missed
        · exact missed_makeRoom _ s s1 rfl h.missed hs1
    · simp only [lstep, LSt.feed] at h1
      split at h1
      · cases h1
      · next s1 hs1 =>
        simp only [Option.map_some, Option.some.injEq, Prod.mk.injEq] at h1
        rw [← h1.1]
        intro x hx
        show x ∈ Dict.keys (Dict.set s1.base.data k v)
        rw [Dict.mem_keys_set]
        rcases mem_add.1 hx with hx | hx
        · right
          split at hs1
          · cases hs1; exact h.sub x hx
          · obtain ⟨s2, g1, _, _, g4⟩ := makeRoom_spec hm _ s rfl h.good.1 h.good.2
            rw [hs1] at g1
            cases g1
            obtain ⟨gone, w1, w2⟩ := g4.oldest_first
            refine (w2 x).2 ⟨h.sub x (by rw [w1]; simp [hx]), fun hgone => ?_⟩
            have hnd := h.good.2
            rw [w1, List.nodup_append] at hnd
            exact hnd.2.2 x hgone x hx rfl
        · exact Or.inl hx
    · simp only [evictions, NeedsRoom, keyOf, room_count hm h]
      by_cases hk : Dict.has s.base.data k = true <;> simp [hk]
  | del k =>
    have hi : Clean maxSize (LSt.invalidate s k) := by
      obtain ⟨e1, e2, _⟩ := invalidate_eq s k h.good.1.2.1
      refine ⟨h.good.invalidate k, missed_invalidate h.missed k, ?_⟩
      rw [e1, e2]
      intro x hx
      obtain ⟨a, b⟩ := (lruRemove_mem x).1 hx
      exact mem_keys_del'.2 ⟨h.sub x a, b⟩
    by_cases hd : Dict.has s.base.data k = true
    · have hk := (Dict.get?_isSome_iff _ _).1 hd
      have ht := h.good.1.2.1 k hk
      have hl := h.good.1.1 k hk
      have hee : k ∉ LRU.erase s.lru k := by simp [LRU.erase]
      have e : LSt.del s k = (LSt.invalidate s k, none) := by
        simp [LSt.invalidate, LSt.del, St.del, hd, ht, lruRemove, hl, hee]
      exact ⟨_, _, by simp only [lstep, e]; rfl, hi, by simp [evictions, NeedsRoom]⟩
    · have e : LSt.del s k = (s, some .keyError) := by
        simp [LSt.del, St.del, hd]
      exact ⟨_, _, by simp only [lstep, e]; rfl, h, by simp [evictions, NeedsRoom]⟩
  | invalidate k =>
    obtain ⟨e1, e2, _⟩ := invalidate_eq s k h.good.1.2.1
    refine ⟨LSt.invalidate s k, _, rfl, ⟨h.good.invalidate k, missed_invalidate h.missed k, ?_⟩, by simp [evictions, NeedsRoom]⟩
    rw [e1, e2]
    intro x hx
    obtain ⟨a, b⟩ := (lruRemove_mem x).1 hx
    exact mem_keys_del'.2 ⟨h.sub x a, b⟩
  | hasInfo k t => exact ⟨s, _, rfl, h, by simp [evictions, NeedsRoom]⟩

/-- **C122, evictions (partial)**: as long as no getter fails and lookups do not overlap, the counter of evictions is the number of calls that stored a value when the cache was full. -/
theorem C122_evictions_partial (E : Env V) (maxSize : Nat) (hm : 0 < maxSize) (ops : List (Op K V)) (ho : ∀ o ∈ ops, NoFailure o) :
    ∃ s, lmrun E maxSize (LSt.empty, 0) ops = some (s, expected E maxSize LSt.empty ops) := by
  have key : ∀ (ops : List (Op K V)) (s : LSt K V) (n : Nat), Clean maxSize s → (∀ o ∈ ops, NoFailure o) → ∃ s', lmrun E maxSize (s, n) ops = some (s', n + expected E maxSize s ops) := by
    intro ops
    induction ops with
    | nil => intro s n _ _; exact ⟨s, rfl⟩
    | cons o ops ih =>
      intro s n h ho
      obtain ⟨s1, r, h1, h2, h3⟩ := lstep_clean E hm h o (ho o (by simp))
      obtain ⟨s2, h4⟩ := ih s1 (n + evictions E maxSize s o) h2 (fun o' h' => ho o' (by simp [h']))
      refine ⟨s2, ?_⟩
      simp only [lmrun, expected, h1, h4]
      rw [h3]
      congr 2
      omega
  obtain ⟨s, h⟩ := key ops LSt.empty 0 ⟨good_empty maxSize, rfl, by simp [LSt.empty]⟩ ho
  exact ⟨s, by rw [h, Nat.zero_add]⟩

end

example : ∀ o ∈ ([.set 1 1 0, .get 2 0 (.ok 5) 0, .feed 3 3 none 0, .del 3] : List (Op Nat Nat)), NoFailure o := by simp [NoFailure]

/-- **C122 (violation), evictions**: one assignment to a full cache counts two evictions, as a key whose lookup failed has a place among the used ones. -/
theorem C122_evictions_violates : ∃ (E : Env Nat) (ops : List (Op Nat Nat)), (lmrun E 1 (LSt.empty, 0) ops).map (·.2) = some 2 ∧ expected E 1 LSt.empty ops = 1 :=
  ⟨{ stale := 10, expiration := 60, failures := none, default := none }, [.get 1 0 (.other 0) 0, .set 2 20 1, .set 3 30 2], by
    simp [lmrun, evictions, roomEvictions, lstep, LSt.set, LSt.makeRoom, LSt.empty, St.empty, St.set, LRU.markAsUsed, Dict.set,
      St.lookup, Dict.has, Dict.get?, LSt.complete, LSt.evict, LRU.evict, LSt.invalidate, LSt.del, St.del, Dict.del, lruRemove], by
    simp [expected, NeedsRoom, lstep, LSt.set, LSt.makeRoom, LSt.empty, St.empty, St.set, LRU.markAsUsed, Dict.set,
      St.lookup, Dict.has, Dict.get?, LSt.complete, LSt.evict, LRU.evict, LSt.invalidate, LSt.del, St.del, Dict.del, lruRemove]⟩

end Verif.Cache

namespace Verif.Writeback

open Verif

section
variable {K V : Type} [DecidableEq K]

/-- `__getitem__` of MetrifiedExclusiveWritebackCache counts a hit: /repo/satella/instrumentation/metrics/structures/cache_dict.py:141-147; `in_cache` is looked at before `_operate` -/
def countsHit (s : St K V) (k : K) : Bool := decide (k ∈ s.inCache)

/-- **C122, hits of a write-back cache (partial)**: except at every 101st operation, a lookup counted as a hit is answered at once, and one counted as a miss reads the storage. -/
theorem C122_writeback_partial (E : Env) (s : St K V) (k : K) (hw : s.waiting = none) (ho : s.operations < 100) :
    (countsHit s k = true ↔ (step E s (.get k)).2 ≠ .pending) := by
  have hop : s.operate = { s with operations := s.operations + 1 } := by
    unfold St.operate
    rw [if_neg (by omega)]
  simp only [countsHit, step, hw, Option.isSome_none, Bool.false_eq_true, ↓reduceIte, St.client, hop, decide_eq_true_eq]
  by_cases hk : k ∈ s.inCache
  · simp only [hk, not_true_eq_false, ↓reduceIte, true_iff]
    split <;> simp
  · simp [hk]

/-- **C122 (violation), write-back cache**: at the 101st operation a lookup of a key known to be absent is counted as a hit, and still reads the storage. -/
theorem C122_writeback_violates : ∃ (E : Env) (ops : List (Op Nat Nat)), let s := (runOps (step E) (St.init (fun _ => none)) ops).1
    s.waiting = none ∧ countsHit s 1 = true ∧ (step E s (.get 1)).2 = .pending :=
  ⟨{ workers := 1, canDelete := true, storeKeyErrors := true }, [.get 1, .start, .finish 0] ++ List.replicate 99 (.get 1), by decide +kernel⟩

example : (St.init (fun _ => none) : St Nat Nat).waiting = none ∧ (St.init (fun _ => none) : St Nat Nat).operations < 100 := by decide

end

/-- what `entries_waiting` reports: its `callable` was set to the length of the queue at the construction of the cache, a number; zero is no callable, and a number cannot be called.  /repo/satella/instrumentation/metrics/structures/cache_dict.py:138-139, /repo/satella/instrumentation/metrics/metric_types/callable.py:45-46 -/
def entriesWaiting (atConstruction : Nat) (_now : Nat) : Except Exc (List Nat) :=
  if atConstruction = 0 then .ok [] else .error .typeError

/-- **C122 (violation), entries_waiting**: it never reports the number of waiting entries: it reports nothing if the queue was empty when the cache was made, and raises TypeError otherwise. -/
theorem C122_entries_waiting_violates (atConstruction now : Nat) :
    entriesWaiting atConstruction now ≠ .ok [now] ∧ entriesWaiting 0 now = .ok [] ∧ (0 < atConstruction → entriesWaiting atConstruction now = .error .typeError) := by
  refine ⟨by unfold entriesWaiting; split <;> simp, rfl, fun h => ?_⟩
  simp [entriesWaiting, Nat.pos_iff_ne_zero.1 h]

end Verif.Writeback
