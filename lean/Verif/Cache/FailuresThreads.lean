import Verif.Cache.Threads
/-!
# A CacheDict that remembers failures, used by several threads (satella/coding/structures/dictionaries/cache_dict.py); C279

As in `Verif.Cache.Threads`, but with `cache_failures_interval`: keys the value getter has not are remembered in `cache_missed`.  Every access to `data`, to `timestamp_data`, to `cache_missed` and to the clock is a step, and
so is the answer of the value getter; a refresh in the background is a call of its own, which may happen at any time.  There is no `default_value_factory`.
-/
namespace Verif.Cache.Failures
open Verif
open Verif.Conc (upd upd_same upd_other)
open Verif.Cache.Threads (Call snoc_ind snoc_split)

/-! ## Model -/

/-- what a call gives; `nothing` is None, returned by a lookup.  (Part of the model of `CacheDict`, /repo/satella/coding/structures/dictionaries/cache_dict.py:48-249.) -/
inductive Res where
  | unit
  | val (v : Nat)
  | nothing
  | keyError
  deriving DecidableEq, Repr

/-- where a thread is.  In `__getitem__`, /repo/satella/coding/structures/dictionaries/cache_dict.py:215-234: before each test of line 216, before line 219, before line 220, before line 222, before line 206, before `self.data[key]` (232, 234).
Waiting for the value getter, :148-150, :178-182.  In `__setitem__`, :246-249: before line 246, before taking the time, before writing it, before line 249.  In `__delitem__`, :237-240: before each deletion.
In `_on_failure`, :168-169: before line 168, before taking the time, before writing it. -/
inductive Pc where
  | idle
  | look (k : Nat)
  | look2 (k : Nat)
  | stamp (k : Nat)
  | clock (k : Nat) (ts : Int)
  | miss (k : Nat) (ts now : Int)
  | empty (k : Nat) (ts now : Int)
  | read (k : Nat)
  | wait (k : Nat)
  | put (k v : Nat)
  | time (k v : Nat)
  | write (k v : Nat) (ts : Int)
  | unmiss (k v : Nat)
  | dropData (k : Nat)
  | dropTs (k : Nat)
  | dropMiss (k : Nat)
  | failAdd (k : Nat)
  | failTime (k : Nat)
  | failWrite (k : Nat) (ts : Int)
  deriving DecidableEq, Repr

/-- what is seen: a call begins, the value getter answers a thread (none: KeyError), a call ends.  (Part of the model of `CacheDict`, /repo/satella/coding/structures/dictionaries/cache_dict.py:48-249.) -/
inductive Ev where
  | began (t : Nat) (c : Call)
  | got (t : Nat) (k : Nat) (o : Option Nat)
  | ended (t : Nat) (c : Call) (r : Res)
  deriving DecidableEq, Repr

/-- `data`, `timestamp_data` and `cache_missed`, /repo/satella/coding/structures/dictionaries/cache_dict.py:135-137, the clock, the threads with the calls they are in, and what was seen (not in the code) -/
structure St where
  data : Nat → Option Nat := fun _ => none
  ts : Nat → Option Int := fun _ => none
  missed : Nat → Bool := fun _ => false
  clock : Int := 0
  pc : Nat → Pc := fun _ => .idle
  now : Nat → Call := fun _ => .get 0
  log : List Ev := []

/-- what happens: a thread makes a call; the value getter answers a thread; a thread goes on by a step; time passes.  (Part of the model of `CacheDict`, /repo/satella/coding/structures/dictionaries/cache_dict.py:48-249.) -/
inductive Act where
  | call (t : Nat) (c : Call)
  | answer (t : Nat) (o : Option Nat)
  | go (t : Nat)
  | tick (d : Nat)
  deriving DecidableEq, Repr

/-- where a call begins, /repo/satella/coding/structures/dictionaries/cache_dict.py:178, :203, :216, :237, :246 -/
def entry : Call → Pc
  | .get k => .look k
  | .set k v => .put k v
  | .refresh k => .wait k
  | .invalidate k => .dropData k
  | .del k => .dropData k

/-- what a call gives after it stored a value, /repo/satella/coding/structures/dictionaries/cache_dict.py:157-158, :186 -/
def stored (v : Nat) : Call → Res
  | .get _ => .val v
  | _ => .unit

/-- a thread goes on.  (Part of the model of `CacheDict`, /repo/satella/coding/structures/dictionaries/cache_dict.py:48-249.) -/
def St.at_ (s : St) (t : Nat) (p : Pc) : St := { s with pc := upd s.pc t p }

/-- a call ends.  (Part of the model of `CacheDict`, /repo/satella/coding/structures/dictionaries/cache_dict.py:48-249.) -/
def St.finish (s : St) (t : Nat) (r : Res) : St := { s with pc := upd s.pc t .idle, log := s.log ++ [.ended t (s.now t) r] }

/-- after a key was removed, or not found: one who failed to get the value remembers this, /repo/satella/coding/structures/dictionaries/cache_dict.py:166-167; an invalidation silences KeyError, :191; a deletion does not -/
def St.removed (s : St) (t k : Nat) (found : Bool) : St :=
  match s.now t with
  | .get _ => s.at_ t (.failAdd k)
  | .refresh _ => s.at_ t (.failAdd k)
  | .del _ => s.finish t (if found then .unit else .keyError)
  | _ => s.finish t .unit

/-- A step of a thread: `__getitem__`, /repo/satella/coding/structures/dictionaries/cache_dict.py:205-234, `__setitem__`, :246-249, `__delitem__`, :237-240, `_on_failure`, :166-169 (then a lookup raises, :156) -/
def go (expiration failures : Int) (s : St) (t : Nat) : St :=
  match s.pc t with
  | .idle => s
  | .look k => if s.data k = none then s.at_ t (.look2 k) else s.at_ t (.stamp k)
  | .look2 k => if s.missed k then s.at_ t (.stamp k) else s.at_ t (.wait k)
  | .stamp k =>
    match s.ts k with
    | none => s.finish t .keyError
    | some ts => s.at_ t (.clock k ts)
  | .clock k ts => s.at_ t (.miss k ts s.clock)
  | .miss k ts now => if s.missed k then s.at_ t (.empty k ts now) else if now - ts > expiration then s.at_ t (.wait k) else s.at_ t (.read k)
  | .empty k ts now => if s.missed k then (if now - ts > failures then s.at_ t (.wait k) else s.finish t .keyError) else s.finish t .nothing
  | .read k =>
    match s.data k with
    | none => s.finish t .keyError
    | some v => s.finish t (.val v)
  | .wait _ => s
  | .put k v => { s with data := upd s.data k (some v) }.at_ t (.time k v)
  | .time k v => s.at_ t (.write k v s.clock)
  | .write k v ts => { s with ts := upd s.ts k (some ts) }.at_ t (.unmiss k v)
  | .unmiss k v => { s with missed := upd s.missed k false }.finish t (stored v (s.now t))
  | .dropData k =>
    match s.data k with
    | none => s.removed t k false
    | some _ => { s with data := upd s.data k none }.at_ t (.dropTs k)
  | .dropTs k =>
    match s.ts k with
    | none => s.removed t k false
    | some _ => { s with ts := upd s.ts k none }.at_ t (.dropMiss k)
  | .dropMiss k => { s with missed := upd s.missed k false }.removed t k true
  | .failAdd k => { s with missed := upd s.missed k true }.at_ t (.failTime k)
  | .failTime k => s.at_ t (.failWrite k s.clock)
  | .failWrite k ts => { s with ts := upd s.ts k (some ts) }.finish t (match s.now t with | .get _ => .keyError | _ => .unit)

/-- what happens does: a thread in a call makes no other; the value getter answers those who wait, /repo/satella/coding/structures/dictionaries/cache_dict.py:148-157, :180-186 -/
def step (expiration failures : Int) (s : St) : Act → St
  | .call t c =>
    if s.pc t = .idle then { s with pc := upd s.pc t (entry c), now := upd s.now t c, log := s.log ++ [.began t c] } else s
  | .answer t o =>
    match s.pc t with
    | .wait k => St.at_ { s with log := s.log ++ [.got t k o] } t (match o with | some v => .put k v | none => .dropData k)
    | _ => s
  | .go t => go expiration failures s t
  | .tick d => { s with clock := s.clock + d }

/-- a new cache, and everything that happens to it, /repo/satella/coding/structures/dictionaries/cache_dict.py:120-140 -/
def run (expiration failures : Int) (as : List Act) : St := as.foldl (step expiration failures) {}

/-! ## Specification -/

/-- the value getter gave the value for the key, or it was assigned to it -/
def Given (log : List Ev) (k v : Nat) : Prop := (∃ u, Ev.got u k (some v) ∈ log) ∨ ∃ u, Ev.began u (.set k v) ∈ log

/-- a call of the thread is underway -/
def Calling (log : List Ev) (t : Nat) (c : Call) : Prop := ∃ a b, log = a ++ .began t c :: b ∧ ∀ c' r, Ev.ended t c' r ∉ b

/-- the lookup of `k` by `t`, which is underway, met a call of another thread for the same key: at some moment both were underway -/
def Met (log : List Ev) (t k : Nat) : Prop :=
  ∃ p q u c, log = p ++ q ∧ (∀ c' r, Ev.ended t c' r ∉ q) ∧ Calling p t (.get k) ∧ u ≠ t ∧ Calling p u c ∧ c.key = k

/-! ## Proofs -/

theorem run_snoc (e f : Int) (as : List Act) (a : Act) : run e f (as ++ [a]) = step e f (run e f as) a := by simp [run]

theorem calling_snoc {log : List Ev} {t : Nat} {c : Call} (h : Calling log t c) {e : Ev} (he : ∀ c' r, e ≠ .ended t c' r) : Calling (log ++ [e]) t c := by
  obtain ⟨a, b, rfl, hb⟩ := h
  refine ⟨a, b ++ [e], by simp, ?_⟩
  intro c' r hx
  rcases List.mem_append.1 hx with h | h
  · exact hb c' r h
  · exact he c' r (List.mem_singleton.1 h).symm

theorem met_snoc {log : List Ev} {t k : Nat} (h : Met log t k) {e : Ev} (he : ∀ c' r, e ≠ .ended t c' r) : Met (log ++ [e]) t k := by
  obtain ⟨p, q, u, c, rfl, hq, h⟩ := h
  refine ⟨p, q ++ [e], u, c, by simp, ?_, h⟩
  intro c' r hx
  rcases List.mem_append.1 hx with h | h
  · exact hq c' r h
  · exact he c' r (List.mem_singleton.1 h).symm

theorem given_mono {log : List Ev} {k v : Nat} (h : Given log k v) (es : List Ev) : Given (log ++ es) k v :=
  h.imp (fun ⟨u, hu⟩ => ⟨u, List.mem_append_left _ hu⟩) (fun ⟨u, hu⟩ => ⟨u, List.mem_append_left _ hu⟩)

/-- the call a thread is in, where it is in it, and what it has -/
def PcOk (log : List Ev) (c : Call) : Pc → Prop
  | .idle => True
  | .look k | .look2 k | .stamp k | .read k => c = .get k
  | .clock k _ => c = .get k
  | .miss k _ _ | .empty k _ _ => c = .get k
  | .wait k => c.key = k
  | .put k v | .time k v | .unmiss k v => c.key = k ∧ Given log k v
  | .write k v _ => c.key = k ∧ Given log k v
  | .dropData k | .dropTs k | .dropMiss k | .failAdd k | .failTime k => c.key = k
  | .failWrite k _ => c.key = k

theorem pcOk_mono {log : List Ev} {c : Call} {p : Pc} (h : PcOk log c p) (es : List Ev) : PcOk (log ++ es) c p := by
  cases p <;> first | exact h | exact ⟨h.1, given_mono h.2 es⟩

/-- what always holds -/
structure Inv (s : St) : Prop where
  call : ∀ t, s.pc t ≠ .idle → Calling s.log t (s.now t)
  ok : ∀ t, PcOk s.log (s.now t) (s.pc t)
  given : ∀ k v, s.data k = some v → Given s.log k v
  empty : ∀ t k x y, s.pc t = .empty k x y → s.missed k = true ∨ Met s.log t k
  vals : ∀ pre post t k v, s.log = pre ++ .ended t (.get k) (.val v) :: post → Given pre k v
  nones : ∀ pre post t k, s.log = pre ++ .ended t (.get k) .nothing :: post → Met pre t k

theorem inv_init : Inv {} where
  call := fun t h => absurd rfl h
  ok := fun _ => trivial
  given := fun k v h => by cases h
  empty := fun t k x y h => by cases h
  vals := fun pre post t k v h => by cases pre <;> cases h
  nones := fun pre post t k h => by cases pre <;> cases h

/-- others who found the key missed still do, or met the thread that goes on -/
theorem empty_other {s : St} (I : Inv s) {t : Nat} (ht : s.pc t ≠ .idle) {missed' : Nat → Bool} (hm : ∀ k, missed' k = true ∨ missed' k = s.missed k ∨ (s.now t).key = k)
    {u k : Nat} {x y : Int} (hu : u ≠ t) (h : s.pc u = .empty k x y) : missed' k = true ∨ Met s.log u k := by
  rcases I.empty u k x y h with h1 | h1
  · rcases hm k with h2 | h2 | h2
    · exact .inl h2
    · exact .inl (h2.trans h1)
    · have h3 := I.ok u
      have h4 := I.call u (by rw [h]; nofun)
      rw [h] at h3
      rw [show s.now u = .get k from h3] at h4
      exact .inr ⟨s.log, [], t, s.now t, by simp, nofun, h4, hu.symm, I.call t ht, h2⟩
  · exact .inr h1

theorem Inv.move {s s' : St} {t : Nat} {p : Pc} (I : Inv s) (ht : s.pc t ≠ .idle) (hpc : s'.pc = upd s.pc t p) (hnow : s'.now = s.now) (hlog : s'.log = s.log)
    (hok : PcOk s.log (s.now t) p) (hg : ∀ k v, s'.data k = some v → s.data k = some v ∨ Given s.log k v)
    (hm : ∀ k, s'.missed k = true ∨ s'.missed k = s.missed k ∨ (s.now t).key = k) (he : ∀ k x y, p = .empty k x y → s'.missed k = true) : Inv s' where
  call := by
    intro u hu
    rw [hnow, hlog]
    by_cases e : u = t
    · subst e; exact I.call u ht
    · rw [hpc, upd_other _ _ e] at hu; exact I.call u hu
  ok := by
    intro u
    rw [hnow, hpc, hlog]
    by_cases e : u = t
    · subst e; rw [upd_same]; exact hok
    · rw [upd_other _ _ e]; exact I.ok u
  given := by
    intro k v h
    rw [hlog]
    rcases hg k v h with h | h
    · exact I.given k v h
    · exact h
  empty := by
    intro u k x y h
    rw [hlog]
    by_cases e : u = t
    · subst e; rw [hpc, upd_same] at h; exact .inl (he k x y h)
    · rw [hpc, upd_other _ _ e] at h; exact empty_other I ht hm e h
  vals := by rw [hlog]; exact I.vals
  nones := by rw [hlog]; exact I.nones

theorem Inv.finish {s s' : St} {t : Nat} {r : Res} (I : Inv s) (ht : s.pc t ≠ .idle) (hpc : s'.pc = upd s.pc t .idle) (hnow : s'.now = s.now) (hlog : s'.log = s.log ++ [.ended t (s.now t) r])
    (hg : s'.data = s.data) (hm : ∀ k, s'.missed k = true ∨ s'.missed k = s.missed k ∨ (s.now t).key = k)
    (hv : ∀ k v, s.now t = .get k → r = .val v → Given s.log k v) (hn : ∀ k, s.now t = .get k → r = .nothing → Met s.log t k) : Inv s' where
  call := by
    intro u hu
    rw [hnow, hlog]
    by_cases e : u = t
    · subst e; rw [hpc, upd_same] at hu; exact absurd rfl hu
    · rw [hpc, upd_other _ _ e] at hu; exact calling_snoc (I.call u hu) (fun c' r' h => by cases h; exact e rfl)
  ok := by
    intro u
    rw [hnow, hpc, hlog]
    by_cases e : u = t
    · subst e; rw [upd_same]; trivial
    · rw [upd_other _ _ e]; exact pcOk_mono (I.ok u) _
  given := by
    intro k v h
    rw [hlog]
    exact given_mono (I.given k v (hg ▸ h)) _
  empty := by
    intro u k x y h
    rw [hlog]
    by_cases e : u = t
    · subst e; rw [hpc, upd_same] at h; cases h
    · rw [hpc, upd_other _ _ e] at h
      exact (empty_other I ht hm e h).imp id (fun h => met_snoc h (fun c' r' h => by cases h; exact e rfl))
  vals := by
    intro pre post u k v h
    rw [hlog] at h
    rcases snoc_split h with ⟨rfl, h, _⟩ | ⟨post', h⟩
    · rw [Ev.ended.injEq] at h; exact hv k v h.2.1 h.2.2
    · exact I.vals pre post' u k v h
  nones := by
    intro pre post u k h
    rw [hlog] at h
    rcases snoc_split h with ⟨rfl, h, _⟩ | ⟨post', h⟩
    · rw [Ev.ended.injEq] at h
      obtain ⟨rfl, h1, h2⟩ := h
      exact hn k h1 h2
    · exact I.nones pre post' u k h

/-- something is seen of a thread that begins a call, or is answered -/
theorem Inv.say {s s' : St} {t : Nat} {p : Pc} {c : Call} {e : Ev} (I : Inv s) (hpc : s'.pc = upd s.pc t p) (hnow : s'.now = upd s.now t c) (hlog : s'.log = s.log ++ [e]) (hd : s'.data = s.data) (hm : s'.missed = s.missed)
    (he : ∀ u c r, e ≠ .ended u c r) (hc : Calling (s.log ++ [e]) t c) (hok : PcOk (s.log ++ [e]) c p) (hp : ∀ k x y, p ≠ .empty k x y) : Inv s' where
  call := by
    intro u hu
    rw [hnow, hlog]
    by_cases h : u = t
    · subst h; rw [upd_same]; exact hc
    · rw [hpc, upd_other _ _ h] at hu; rw [upd_other _ _ h]; exact calling_snoc (I.call u hu) (he u)
  ok := by
    intro u
    rw [hnow, hpc, hlog]
    by_cases h : u = t
    · subst h; simp only [upd_same]; exact hok
    · simp only [upd_other _ _ h]; exact pcOk_mono (I.ok u) _
  given := by intro k v h; rw [hlog]; exact given_mono (I.given k v (hd ▸ h)) _
  empty := by
    intro u k x y h
    rw [hlog, hm]
    by_cases hu : u = t
    · subst hu; rw [hpc, upd_same] at h; exact absurd h (hp k x y)
    · rw [hpc, upd_other _ _ hu] at h; exact (I.empty u k x y h).imp id (fun h => met_snoc h (he u))
  vals := by
    intro pre post u k v h
    rw [hlog] at h
    rcases snoc_split h with ⟨_, h, _⟩ | ⟨post', h⟩
    · exact absurd h (he _ _ _)
    · exact I.vals pre post' u k v h
  nones := by
    intro pre post u k h
    rw [hlog] at h
    rcases snoc_split h with ⟨_, h, _⟩ | ⟨post', h⟩
    · exact absurd h (he _ _ _)
    · exact I.nones pre post' u k h

/-- the end of a removal -/
theorem Inv.remove {s : St} {m : Nat → Bool} {t k : Nat} {found : Bool} (I : Inv s) (ht : s.pc t ≠ .idle) (hk : (s.now t).key = k)
    (hm : ∀ k, m k = true ∨ m k = s.missed k ∨ (s.now t).key = k) : Inv (St.removed { s with missed := m } t k found) := by
  unfold St.removed
  dsimp only
  cases hn : s.now t with
  | get k' => exact I.move (t := t) (p := .failAdd k) ht rfl rfl rfl hk (fun _ _ h => .inl h) hm nofun
  | refresh k' => exact I.move (t := t) (p := .failAdd k) ht rfl rfl rfl hk (fun _ _ h => .inl h) hm nofun
  | del k' => exact I.finish (t := t) (r := if found then .unit else .keyError) ht rfl rfl rfl rfl hm (fun _ _ h => by rw [hn] at h; cases h) (fun _ h => by rw [hn] at h; cases h)
  | invalidate k' => exact I.finish (t := t) (r := .unit) ht rfl rfl rfl rfl hm (fun _ _ h => by rw [hn] at h; cases h) (fun _ h => by rw [hn] at h; cases h)
  | set k' v => exact I.finish (t := t) (r := .unit) ht rfl rfl rfl rfl hm (fun _ _ h => by rw [hn] at h; cases h) (fun _ h => by rw [hn] at h; cases h)

theorem upd_missed {m : Nat → Bool} {k : Nat} {b : Bool} {c : Call} (h : c.key = k) (k' : Nat) : upd m k b k' = true ∨ upd m k b k' = m k' ∨ c.key = k' := by
  by_cases e : k' = k
  · exact .inr (.inr (h.trans e.symm))
  · rw [upd_other _ _ e]; exact .inr (.inl rfl)

theorem inv_go {e f : Int} {s : St} (I : Inv s) (t : Nat) : Inv (go e f s t) := by
  have hc := I.ok t
  have same : ∀ k, s.missed k = true ∨ s.missed k = s.missed k ∨ (s.now t).key = k := fun _ => .inr (.inl rfl)
  cases hpc : s.pc t with
  | idle => simpa only [go, hpc] using I
  | wait k => simpa only [go, hpc] using I
  | look k =>
    have hi : s.pc t ≠ .idle := by rw [hpc]; nofun
    rw [hpc] at hc
    simp only [go, hpc]
    by_cases hd : s.data k = none
    · rw [if_pos hd]; exact I.move (t := t) (p := .look2 k) hi rfl rfl rfl hc (fun _ _ h => .inl h) same nofun
    · rw [if_neg hd]; exact I.move (t := t) (p := .stamp k) hi rfl rfl rfl hc (fun _ _ h => .inl h) same nofun
  | look2 k =>
    have hi : s.pc t ≠ .idle := by rw [hpc]; nofun
    rw [hpc] at hc
    simp only [go, hpc]
    by_cases hd : s.missed k = true
    · rw [if_pos hd]; exact I.move (t := t) (p := .stamp k) hi rfl rfl rfl hc (fun _ _ h => .inl h) same nofun
    · rw [if_neg hd]; exact I.move (t := t) (p := .wait k) hi rfl rfl rfl (by rw [show s.now t = .get k from hc]; rfl) (fun _ _ h => .inl h) same nofun
  | stamp k =>
    have hi : s.pc t ≠ .idle := by rw [hpc]; nofun
    rw [hpc] at hc
    simp only [go, hpc]
    cases hs : s.ts k with
    | none => exact I.finish (t := t) (r := .keyError) hi rfl rfl rfl rfl same (fun _ _ _ h => by cases h) (fun _ _ h => by cases h)
    | some ts => exact I.move (t := t) (p := .clock k ts) hi rfl rfl rfl hc (fun _ _ h => .inl h) same nofun
  | clock k ts =>
    have hi : s.pc t ≠ .idle := by rw [hpc]; nofun
    rw [hpc] at hc
    simp only [go, hpc]
    exact I.move (t := t) (p := .miss k ts s.clock) hi rfl rfl rfl hc (fun _ _ h => .inl h) same nofun
  | miss k ts now =>
    have hi : s.pc t ≠ .idle := by rw [hpc]; nofun
    rw [hpc] at hc
    simp only [go, hpc]
    by_cases hd : s.missed k = true
    · rw [if_pos hd]; exact I.move (t := t) (p := .empty k ts now) hi rfl rfl rfl hc (fun _ _ h => .inl h) same (fun _ _ _ h => by cases h; exact hd)
    · rw [if_neg hd]
      by_cases hx : now - ts > e
      · rw [if_pos hx]; exact I.move (t := t) (p := .wait k) hi rfl rfl rfl (by rw [show s.now t = .get k from hc]; rfl) (fun _ _ h => .inl h) same nofun
      · rw [if_neg hx]; exact I.move (t := t) (p := .read k) hi rfl rfl rfl hc (fun _ _ h => .inl h) same nofun
  | empty k ts now =>
    have hi : s.pc t ≠ .idle := by rw [hpc]; nofun
    rw [hpc] at hc
    simp only [go, hpc]
    by_cases hd : s.missed k = true
    · rw [if_pos hd]
      by_cases hx : now - ts > f
      · rw [if_pos hx]; exact I.move (t := t) (p := .wait k) hi rfl rfl rfl (by rw [show s.now t = .get k from hc]; rfl) (fun _ _ h => .inl h) same nofun
      · rw [if_neg hx]; exact I.finish (t := t) (r := .keyError) hi rfl rfl rfl rfl same (fun _ _ _ h => by cases h) (fun _ _ h => by cases h)
    · rw [if_neg hd]
      refine I.finish (t := t) (r := .nothing) hi rfl rfl rfl rfl same (fun _ _ _ h => by cases h) (fun k' h _ => ?_)
      rw [show s.now t = .get k from hc] at h
      cases h
      exact (I.empty t k ts now hpc).resolve_left hd
  | read k =>
    have hi : s.pc t ≠ .idle := by rw [hpc]; nofun
    rw [hpc] at hc
    simp only [go, hpc]
    cases hs : s.data k with
    | none => exact I.finish (t := t) (r := .keyError) hi rfl rfl rfl rfl same (fun _ _ _ h => by cases h) (fun _ _ h => by cases h)
    | some v =>
      refine I.finish (t := t) (r := .val v) hi rfl rfl rfl rfl same (fun k' v' h h' => ?_) (fun _ _ h => by cases h)
      rw [show s.now t = .get k from hc] at h
      cases h; cases h'
      exact I.given k v hs
  | put k v =>
    have hi : s.pc t ≠ .idle := by rw [hpc]; nofun
    rw [hpc] at hc
    simp only [go, hpc]
    refine I.move (t := t) (p := .time k v) hi rfl rfl rfl hc (fun k' v' h => ?_) same nofun
    simp only [St.at_] at h
    by_cases e : k' = k
    · subst e; rw [upd_same] at h; cases h; exact .inr hc.2
    · rw [upd_other _ _ e] at h; exact .inl h
  | time k v =>
    have hi : s.pc t ≠ .idle := by rw [hpc]; nofun
    rw [hpc] at hc
    simp only [go, hpc]
    exact I.move (t := t) (p := .write k v s.clock) hi rfl rfl rfl hc (fun _ _ h => .inl h) same nofun
  | write k v ts =>
    have hi : s.pc t ≠ .idle := by rw [hpc]; nofun
    rw [hpc] at hc
    simp only [go, hpc]
    exact I.move (t := t) (p := .unmiss k v) hi rfl rfl rfl hc (fun _ _ h => .inl h) same nofun
  | unmiss k v =>
    have hi : s.pc t ≠ .idle := by rw [hpc]; nofun
    rw [hpc] at hc
    simp only [go, hpc]
    refine I.finish (t := t) (r := stored v (s.now t)) hi rfl rfl rfl rfl (upd_missed hc.1) (fun k' v' h h' => ?_) (fun k' h h' => by rw [h] at h'; cases h')
    rw [h] at h'
    cases h'
    have : k' = k := by have := hc.1; rw [h] at this; exact this
    subst this
    exact hc.2
  | dropData k =>
    have hi : s.pc t ≠ .idle := by rw [hpc]; nofun
    rw [hpc] at hc
    simp only [go, hpc]
    cases hs : s.data k with
    | none => exact I.remove (m := s.missed) hi hc same
    | some v =>
      refine I.move (t := t) (p := .dropTs k) hi rfl rfl rfl hc (fun k' v' h => ?_) same nofun
      simp only [St.at_] at h
      by_cases e : k' = k
      · subst e; rw [upd_same] at h; cases h
      · rw [upd_other _ _ e] at h; exact .inl h
  | dropTs k =>
    have hi : s.pc t ≠ .idle := by rw [hpc]; nofun
    rw [hpc] at hc
    simp only [go, hpc]
    cases hs : s.ts k with
    | none => exact I.remove (m := s.missed) hi hc same
    | some v => exact I.move (t := t) (p := .dropMiss k) hi rfl rfl rfl hc (fun _ _ h => .inl h) same nofun
  | dropMiss k =>
    have hi : s.pc t ≠ .idle := by rw [hpc]; nofun
    rw [hpc] at hc
    simp only [go, hpc]
    exact I.remove (m := upd s.missed k false) hi hc (upd_missed hc)
  | failAdd k =>
    have hi : s.pc t ≠ .idle := by rw [hpc]; nofun
    rw [hpc] at hc
    simp only [go, hpc]
    exact I.move (t := t) (p := .failTime k) hi rfl rfl rfl hc (fun _ _ h => .inl h) (upd_missed hc) nofun
  | failTime k =>
    have hi : s.pc t ≠ .idle := by rw [hpc]; nofun
    rw [hpc] at hc
    simp only [go, hpc]
    exact I.move (t := t) (p := .failWrite k s.clock) hi rfl rfl rfl hc (fun _ _ h => .inl h) same nofun
  | failWrite k ts =>
    have hi : s.pc t ≠ .idle := by rw [hpc]; nofun
    simp only [go, hpc]
    exact I.finish (t := t) (r := match s.now t with | .get _ => .keyError | _ => .unit) hi rfl rfl rfl rfl same (fun _ _ h h' => by rw [h] at h'; cases h') (fun _ h h' => by rw [h] at h'; cases h')

theorem inv_step {e f : Int} {s : St} (I : Inv s) (a : Act) : Inv (step e f s a) := by
  cases a with
  | call t c =>
    unfold step
    dsimp only
    split
    · refine I.say (t := t) (p := entry c) (c := c) (e := .began t c) rfl rfl rfl rfl rfl nofun ⟨s.log, [], rfl, nofun⟩ ?_ (by cases c <;> nofun)
      cases c with
      | set k v => exact ⟨rfl, .inr ⟨t, by simp⟩⟩
      | _ => rfl
    · exact I
  | answer t o =>
    cases hpc : s.pc t with
    | wait k =>
      have hc := I.ok t
      rw [hpc] at hc
      simp only [step, hpc]
      refine I.say (t := t) (p := match o with | some v => .put k v | none => .dropData k) (c := s.now t) (e := .got t k o) rfl ?_ rfl rfl rfl nofun (calling_snoc (I.call t (by rw [hpc]; nofun)) nofun) ?_ (by cases o <;> nofun)
      · funext u
        by_cases e : u = t
        · subst e; rw [upd_same]; rfl
        · rw [upd_other _ _ e]; rfl
      · cases o with
        | none => exact hc
        | some v => exact ⟨hc, .inl ⟨t, by simp⟩⟩
    | _ => simpa only [step, hpc] using I
  | go t => exact inv_go I t
  | tick d => exact ⟨I.call, I.ok, I.given, I.empty, I.vals, I.nones⟩

theorem inv_run (e f : Int) (as : List Act) : Inv (run e f as) := by
  induction as using snoc_ind with
  | h0 => exact inv_init
  | h1 as a ih => rw [run_snoc]; exact inv_step ih a

/-- **C279 whose values.** Also when failures are remembered, and whatever threads do: a value returned by a lookup was given for that key by the value getter, or assigned to it, before. -/
theorem C279_values (expiration failures : Int) (as : List Act) (pre post : List Ev) (t k v : Nat) (h : (run expiration failures as).log = pre ++ .ended t (.get k) (.val v) :: post) : Given pre k v :=
  (inv_run expiration failures as).vals pre post t k v h

/-- **C279 who gets None.** A lookup returns None, as if that were the value, only if it met a call of another thread for the same key.  Missing: that none does; see below. -/
theorem C279_none_partial (expiration failures : Int) (as : List Act) (pre post : List Ev) (t k : Nat) (h : (run expiration failures as).log = pre ++ .ended t (.get k) .nothing :: post) : Met pre t k :=
  (inv_run expiration failures as).nones pre post t k h

/-- **C279 None.** The value getter had not the key, and this is remembered.  A thread looks it up; before it looks a second time whether the key is missed (line 206), another has assigned it 5.  The lookup returns None, which is neither KeyError nor a
value of the key. -/
theorem C279_none_violates : (run 60 60 [.call 1 (.get 7), .go 1, .go 1, .answer 1 none, .go 1, .go 1, .go 1, .go 1, .call 2 (.get 7), .go 2, .go 2, .go 2, .go 2, .go 2, .call 1 (.set 7 5), .go 1, .go 1, .go 1, .go 1, .go 2]).log =
    [.began 1 (.get 7), .got 1 7 none, .ended 1 (.get 7) .keyError, .began 2 (.get 7), .began 1 (.set 7 5), .ended 1 (.set 7 5) .unit, .ended 2 (.get 7) .nothing] := by decide +kernel

/-- a failure is remembered, for 60 seconds; then the value getter is asked again, and has the key; later it is found in memory, and is deleted -/
example : (run 90 60 [.call 1 (.get 7), .go 1, .go 1, .answer 1 none, .go 1, .go 1, .go 1, .go 1, .tick 60, .call 2 (.get 7), .go 2, .go 2, .go 2, .go 2, .go 2, .go 2,
      .tick 1, .call 2 (.get 7), .go 2, .go 2, .go 2, .go 2, .go 2, .go 2, .answer 2 (some 5), .go 2, .go 2, .go 2, .go 2, .tick 90, .call 1 (.get 7), .go 1, .go 1, .go 1, .go 1, .go 1,
      .call 1 (.del 7), .go 1, .go 1, .go 1, .call 1 (.del 7), .go 1, .call 1 (.invalidate 7), .go 1]).log =
    [.began 1 (.get 7), .got 1 7 none, .ended 1 (.get 7) .keyError, .began 2 (.get 7), .ended 2 (.get 7) .keyError, .began 2 (.get 7), .got 2 7 (some 5), .ended 2 (.get 7) (.val 5),
      .began 1 (.get 7), .ended 1 (.get 7) (.val 5), .began 1 (.del 7), .ended 1 (.del 7) .unit, .began 1 (.del 7), .ended 1 (.del 7) .keyError, .began 1 (.invalidate 7), .ended 1 (.invalidate 7) .unit] := by decide +kernel

end Verif.Cache.Failures
