import Verif.Conc.MonitorProps
/-!
# A CacheDict used by several threads (satella/coding/structures/dictionaries/cache_dict.py); C276, C277, C278

Threads look up, assign, delete and invalidate, while others do; nothing is locked.  Every access to `data`, to `timestamp_data`, and to the clock is a step, and so is the answer of the value getter.
A refresh in the background is a call of its own, which may happen at any time (the code makes it after a stale value was looked up, so this is more than can happen).  Failures are not cached
(`cache_failures_interval` is None, so `cache_missed` stays empty), and there is no `default_value_factory`.  Times are integers; `time_getter` is the clock.  `expiration` is the interval.
-/
namespace Verif.Cache.Threads
open Verif
open Verif.Conc (upd upd_same upd_other)

/-! ## Model -/

/-- calls: `d[k]`, `d[k] = v`, a refresh in the background, `d.invalidate(k)`, `del d[k]`, /repo/satella/coding/structures/dictionaries/cache_dict.py:171-249 -/
inductive Call where
  | get (k : Nat)
  | set (k v : Nat)
  | refresh (k : Nat)
  | invalidate (k : Nat)
  | del (k : Nat)
  deriving DecidableEq, Repr

/-- what a call gives.  (Part of the model of `CacheDict`, /repo/satella/coding/structures/dictionaries/cache_dict.py:48-249.) -/
inductive Res where
  | unit
  | val (v : Nat)
  | keyError
  deriving DecidableEq, Repr

/-- where a thread is.  In `__getitem__`, /repo/satella/coding/structures/dictionaries/cache_dict.py:215-234: before line 216, before line 219, before line 220, before `self.data[key]` (232, 234).
In `get_value_block`, :142-158, or the task of `schedule_a_fetch`, :178-186: waiting for the value getter.  In `__setitem__`, :246-247: before line 246, before taking the time, before writing the timestamp.
In `__delitem__`, :237-238: before line 237, before line 238. -/
inductive Pc where
  | idle
  | look (k : Nat)
  | stamp (k : Nat)
  | clock (k : Nat) (ts : Int)
  | read (k : Nat)
  | wait (k : Nat)
  | put (k v : Nat)
  | time (k v : Nat)
  | write (k v : Nat) (ts : Int)
  | dropData (k : Nat)
  | dropTs (k : Nat)
  deriving DecidableEq, Repr

/-- what is seen: a call begins, the value getter answers a thread (none: KeyError), a call ends.  (Part of the model of `CacheDict`, /repo/satella/coding/structures/dictionaries/cache_dict.py:48-249.) -/
inductive Ev where
  | began (t : Nat) (c : Call)
  | got (t : Nat) (k : Nat) (o : Option Nat)
  | ended (t : Nat) (c : Call) (r : Res)
  deriving DecidableEq, Repr

/-- `data` and `timestamp_data`, /repo/satella/coding/structures/dictionaries/cache_dict.py:135-136, the clock, the threads with the calls they are in, what was seen, and when (not in the code) -/
structure St where
  data : Nat → Option Nat := fun _ => none
  ts : Nat → Option Int := fun _ => none
  clock : Int := 0
  pc : Nat → Pc := fun _ => .idle
  now : Nat → Call := fun _ => .get 0
  log : List Ev := []
  times : List Int := []

/-- what happens: a thread makes a call; the value getter answers a thread; a thread goes on by a step; time passes.  (Part of the model of `CacheDict`, /repo/satella/coding/structures/dictionaries/cache_dict.py:48-249.) -/
inductive Act where
  | call (t : Nat) (c : Call)
  | answer (t : Nat) (o : Option Nat)
  | go (t : Nat)
  | tick (d : Nat)
  deriving DecidableEq, Repr

/-- where a call begins, /repo/satella/coding/structures/dictionaries/cache_dict.py:178, :203, :216, :237, :246 -/
def entry : Call → Pc
  | .get k => .look k
  | .set k v => .put k v
  | .refresh k => .wait k
  | .invalidate k => .dropData k
  | .del k => .dropData k

/-- what a call gives after it stored a value, /repo/satella/coding/structures/dictionaries/cache_dict.py:157-158, :186 -/
def stored (v : Nat) : Call → Res
  | .get _ => .val v
  | _ => .unit

/-- what a call gives after it removed a key (or did not find it): a lookup raises, :156; an invalidation silences KeyError, /repo/satella/coding/structures/dictionaries/cache_dict.py:191; a deletion does not -/
def removed (found : Bool) : Call → Res
  | .get _ => .keyError
  | .del _ => if found then .unit else .keyError
  | _ => .unit

/-- a thread goes on.  (Part of the model of `CacheDict`, /repo/satella/coding/structures/dictionaries/cache_dict.py:48-249.) -/
def St.at_ (s : St) (t : Nat) (p : Pc) : St := { s with pc := upd s.pc t p }

/-- a call ends.  (Part of the model of `CacheDict`, /repo/satella/coding/structures/dictionaries/cache_dict.py:48-249.) -/
def St.finish (s : St) (t : Nat) (r : Res) : St := { s with pc := upd s.pc t .idle, log := s.log ++ [.ended t (s.now t) r], times := s.times ++ [s.clock] }

/-- A step of a thread: `__getitem__`, /repo/satella/coding/structures/dictionaries/cache_dict.py:215-234, `__setitem__`, :246-247, `__delitem__`, :237-238 -/
def go (expiration : Int) (s : St) (t : Nat) : St :=
  match s.pc t with
  | .idle => s
  | .look k => if s.data k = none then s.at_ t (.wait k) else s.at_ t (.stamp k)
  | .stamp k =>
    match s.ts k with
    | none => s.finish t .keyError
    | some ts => s.at_ t (.clock k ts)
  | .clock k ts => if s.clock - ts > expiration then s.at_ t (.wait k) else s.at_ t (.read k)
  | .read k =>
    match s.data k with
    | none => s.finish t .keyError
    | some v => s.finish t (.val v)
  | .wait _ => s
  | .put k v => { s with data := upd s.data k (some v) }.at_ t (.time k v)
  | .time k v => s.at_ t (.write k v s.clock)
  | .write k v ts => { s with ts := upd s.ts k (some ts) }.finish t (stored v (s.now t))
  | .dropData k =>
    match s.data k with
    | none => s.finish t (removed false (s.now t))
    | some _ => { s with data := upd s.data k none }.at_ t (.dropTs k)
  | .dropTs k =>
    match s.ts k with
    | none => s.finish t (removed false (s.now t))
    | some _ => { s with ts := upd s.ts k none }.finish t (removed true (s.now t))

/-- what happens does: a thread in a call makes no other; the value getter answers those who wait, /repo/satella/coding/structures/dictionaries/cache_dict.py:148-157, :180-186 -/
def step (expiration : Int) (s : St) : Act → St
  | .call t c =>
    if s.pc t = .idle then { s with pc := upd s.pc t (entry c), now := upd s.now t c, log := s.log ++ [.began t c], times := s.times ++ [s.clock] } else s
  | .answer t o =>
    match s.pc t with
    | .wait k => St.at_ { s with log := s.log ++ [.got t k o], times := s.times ++ [s.clock] } t (match o with | some v => .put k v | none => .dropData k)
    | _ => s
  | .go t => go expiration s t
  | .tick d => { s with clock := s.clock + d }

/-- a new cache, and everything that happens to it, /repo/satella/coding/structures/dictionaries/cache_dict.py:120-140 -/
def run (expiration : Int) (as : List Act) : St := as.foldl (step expiration) {}

/-! ## Specification -/

/-- whose event it is -/
def Ev.thread : Ev → Nat
  | .began t _ => t
  | .got t _ _ => t
  | .ended t _ _ => t

/-- the key of a call -/
def Call.key : Call → Nat
  | .get k => k
  | .set k _ => k
  | .refresh k => k
  | .invalidate k => k
  | .del k => k

/-- the value getter gave the value for the key, or it was assigned to it -/
def Given (log : List Ev) (k v : Nat) : Prop := (∃ u, Ev.got u k (some v) ∈ log) ∨ ∃ u, Ev.began u (.set k v) ∈ log

/-- the last that was seen of the thread -/
def LastOf (log : List Ev) (t : Nat) (e : Ev) : Prop := e.thread = t ∧ ∃ a b, log = a ++ e :: b ∧ ∀ x ∈ b, x.thread ≠ t

/-- a call of the thread is underway -/
def Calling (log : List Ev) (t : Nat) (c : Call) : Prop := ∃ a b, log = a ++ .began t c :: b ∧ ∀ c' r, Ev.ended t c' r ∉ b

/-- the lookup of `k` by `t`, which is underway, met a call of another thread for the same key: at some moment both were underway -/
def Met (log : List Ev) (t k : Nat) : Prop :=
  ∃ p q u c, log = p ++ q ∧ (∀ c' r, Ev.ended t c' r ∉ q) ∧ Calling p t (.get k) ∧ u ≠ t ∧ Calling p u c ∧ c.key = k

/-- when the lookup of `k` by `t`, which is underway, began, no call for the key had ended but with KeyError -/
def First (log : List Ev) (t k : Nat) : Prop :=
  ∃ a b, log = a ++ .began t (.get k) :: b ∧ (∀ c' r, Ev.ended t c' r ∉ b) ∧ ∀ u c r, Ev.ended u c r ∈ a → c.key = k → r = .keyError

/-- the value getter has the key, and nobody deletes or invalidates it -/
def Kept (log : List Ev) (k : Nat) : Prop := ∀ u, Ev.got u k none ∉ log ∧ Ev.began u (.invalidate k) ∉ log ∧ Ev.began u (.del k) ∉ log

/-- the value was given for the key to a call of the thread, by the value getter or as what to assign, and the call is still underway -/
def Gives (log : List Ev) (u k v : Nat) : Prop := LastOf log u (.got u k (some v)) ∨ LastOf log u (.began u (.set k v))

/-- no two calls that have a value to store for the key are ever underway at once -/
def Apart (log : List Ev) (k : Nat) : Prop := ∀ p q, log = p ++ q → ∀ u w v v', Gives p u k v → Gives p w k v' → u = w

/-- a call of the thread that is to remove the key is underway: the value getter had not the key, or it is to be invalidated or deleted -/
def Removes (log : List Ev) (u k : Nat) : Prop := LastOf log u (.got u k none) ∨ LastOf log u (.began u (.invalidate k)) ∨ LastOf log u (.began u (.del k))

/-- calls that are to remove the key and calls that have a value to store for it are never underway at once -/
def Separate (log : List Ev) (k : Nat) : Prop := ∀ p q, log = p ++ q → ∀ u w v, Gives p u k v → ¬ Removes p w k

/-! ## Proofs -/

theorem run_snoc (expiration : Int) (as : List Act) (a : Act) : run expiration (as ++ [a]) = step expiration (run expiration as) a := by simp [run]

theorem snoc_ind {α : Type} {P : List α → Prop} (h0 : P []) (h1 : ∀ l a, P l → P (l ++ [a])) (l : List α) : P l := by
  have : ∀ l : List α, P l.reverse := by
    intro l
    induction l with
    | nil => exact h0
    | cons a l ih => rw [List.reverse_cons]; exact h1 _ _ ih
  simpa using this l.reverse

theorem snoc_split {α : Type} {l pre post : List α} {a x : α} (h : l ++ [a] = pre ++ x :: post) : (pre = l ∧ a = x ∧ post = []) ∨ ∃ post', l = pre ++ x :: post' := by
  induction post using snoc_ind with
  | h0 =>
    have := List.append_inj' (t₁ := [a]) (t₂ := [x]) h rfl
    exact .inl ⟨this.1.symm, by simpa using this.2, rfl⟩
  | h1 post b _ =>
    have : l ++ [a] = (pre ++ x :: post) ++ [b] := by rw [h]; simp
    exact .inr ⟨post, (List.append_inj' this rfl).1⟩

theorem lastOf_snoc {log : List Ev} {t : Nat} {e x : Ev} (h : LastOf log t e) (hx : x.thread ≠ t) : LastOf (log ++ [x]) t e := by
  obtain ⟨h1, a, b, rfl, hb⟩ := h
  refine ⟨h1, a, b ++ [x], by simp, ?_⟩
  intro y hy
  rcases List.mem_append.1 hy with h | h
  · exact hb y h
  · rw [List.mem_singleton.1 h]; exact hx

theorem lastOf_mem {log : List Ev} {t : Nat} {e : Ev} (h : LastOf log t e) : e ∈ log := by obtain ⟨_, a, b, rfl, _⟩ := h; simp

theorem lastOf_eq {log : List Ev} {t : Nat} {e x : Ev} (h : LastOf log t e) (h' : LastOf log t x) : e = x := by
  obtain ⟨h1, a, b, rfl, hb⟩ := h
  obtain ⟨h2, a', b', he, hb'⟩ := h'
  rcases List.append_eq_append_iff.1 he with ⟨c, hc1, hc2⟩ | ⟨c, hc1, hc2⟩
  · cases c with
    | nil => simp at hc2; exact hc2.1
    | cons y c =>
      simp only [List.cons_append, List.cons.injEq] at hc2
      exact absurd h2 (hb x (by rw [hc2.2]; simp))
  · cases c with
    | nil => simp at hc2; exact hc2.1.symm
    | cons y c =>
      simp only [List.cons_append, List.cons.injEq] at hc2
      exact absurd h1 (hb' e (by rw [hc2.2]; simp))

theorem calling_snoc {log : List Ev} {t : Nat} {c : Call} (h : Calling log t c) {e : Ev} (he : ∀ c' r, e ≠ .ended t c' r) : Calling (log ++ [e]) t c := by
  obtain ⟨a, b, rfl, hb⟩ := h
  refine ⟨a, b ++ [e], by simp, ?_⟩
  intro c' r hx
  rcases List.mem_append.1 hx with h | h
  · exact hb c' r h
  · exact he c' r (List.mem_singleton.1 h).symm

theorem met_snoc {log : List Ev} {t k : Nat} (h : Met log t k) {e : Ev} (he : ∀ c' r, e ≠ .ended t c' r) : Met (log ++ [e]) t k := by
  obtain ⟨p, q, u, c, rfl, hq, h⟩ := h
  refine ⟨p, q ++ [e], u, c, by simp, ?_, h⟩
  intro c' r hx
  rcases List.mem_append.1 hx with h | h
  · exact hq c' r h
  · exact he c' r (List.mem_singleton.1 h).symm

theorem first_snoc {log : List Ev} {t k : Nat} (h : First log t k) {e : Ev} (he : ∀ c' r, e ≠ .ended t c' r) : First (log ++ [e]) t k := by
  obtain ⟨a, b, rfl, hb, h⟩ := h
  refine ⟨a, b ++ [e], by simp, ?_, h⟩
  intro c' r hx
  rcases List.mem_append.1 hx with h | h
  · exact hb c' r h
  · exact he c' r (List.mem_singleton.1 h).symm

theorem given_mono {log : List Ev} {k v : Nat} (h : Given log k v) (es : List Ev) : Given (log ++ es) k v :=
  h.imp (fun ⟨u, hu⟩ => ⟨u, List.mem_append_left _ hu⟩) (fun ⟨u, hu⟩ => ⟨u, List.mem_append_left _ hu⟩)

/-- the call a thread is in, and where it is in it -/
def PcOk (c : Call) : Pc → Prop
  | .idle => True
  | .look k | .stamp k | .read k => c = .get k
  | .clock k _ => c = .get k
  | .wait k => c = .get k ∨ c = .refresh k
  | .put k v | .time k v => c = .get k ∨ c = .refresh k ∨ c = .set k v
  | .write k v _ => c = .get k ∨ c = .refresh k ∨ c = .set k v
  | .dropData k | .dropTs k => c = .get k ∨ c = .refresh k ∨ c = .invalidate k ∨ c = .del k

/-- the last that was seen of a thread -/
def lastEv (t : Nat) (c : Call) : Pc → Option Ev
  | .idle => none
  | .put k v | .time k v => some (match c with | .set _ _ => .began t c | _ => .got t k (some v))
  | .write k v _ => some (match c with | .set _ _ => .began t c | _ => .got t k (some v))
  | .dropData k | .dropTs k => some (match c with | .invalidate _ => .began t c | .del _ => .began t c | _ => .got t k none)
  | _ => some (.began t c)

/-- the result of a lookup that asked the value getter -/
def answered : Option Nat → Res
  | some v => .val v
  | none => .keyError

/-- what always holds -/
structure Inv (s : St) : Prop where
  call : ∀ t, s.pc t ≠ .idle → Calling s.log t (s.now t)
  ok : ∀ t, PcOk (s.now t) (s.pc t)
  last : ∀ t e, lastEv t (s.now t) (s.pc t) = some e → LastOf s.log t e
  given : ∀ k v, s.data k = some v → Given s.log k v
  vals : ∀ pre post t k v, s.log = pre ++ .ended t (.get k) (.val v) :: post → Given pre k v
  fetched : ∀ pre post t k r o, s.log = pre ++ .ended t (.get k) r :: post → LastOf pre t (.got t k o) → r = answered o

theorem inv_init : Inv {} where
  call := fun t h => absurd rfl h
  ok := fun _ => trivial
  last := fun t e h => by cases h
  given := fun k v h => by cases h
  vals := fun pre post t k v h => by cases pre <;> cases h
  fetched := fun pre post t k r o h => by cases pre <;> cases h

theorem Inv.move {s s' : St} {t : Nat} {p : Pc} (I : Inv s) (ht : s.pc t ≠ .idle) (hpc : s'.pc = upd s.pc t p) (hnow : s'.now = s.now) (hlog : s'.log = s.log)
    (hok : PcOk (s.now t) p) (hlast : lastEv t (s.now t) p = lastEv t (s.now t) (s.pc t)) (hg : ∀ k v, s'.data k = some v → s.data k = some v ∨ Given s.log k v) : Inv s' where
  call := by
    intro u hu
    rw [hnow, hlog]
    by_cases e : u = t
    · subst e; exact I.call u ht
    · rw [hpc, upd_other _ _ e] at hu; exact I.call u hu
  ok := by
    intro u
    rw [hnow, hpc]
    by_cases e : u = t
    · subst e; rw [upd_same]; exact hok
    · rw [upd_other _ _ e]; exact I.ok u
  last := by
    intro u e he
    rw [hnow, hpc] at he
    rw [hlog]
    by_cases hu : u = t
    · subst hu; rw [upd_same, hlast] at he; exact I.last u e he
    · rw [upd_other _ _ hu] at he; exact I.last u e he
  given := by
    intro k v h
    rw [hlog]
    rcases hg k v h with h | h
    · exact I.given k v h
    · exact h
  vals := by rw [hlog]; exact I.vals
  fetched := by rw [hlog]; exact I.fetched

theorem Inv.finish {s s' : St} {t : Nat} {r : Res} (I : Inv s) (ht : s.pc t ≠ .idle) (hpc : s'.pc = upd s.pc t .idle) (hnow : s'.now = s.now) (hlog : s'.log = s.log ++ [.ended t (s.now t) r])
    (hg : ∀ k v, s'.data k = some v → s.data k = some v)
    (hv : ∀ k v, s.now t = .get k → r = .val v → Given s.log k v)
    (hf : ∀ k o, s.now t = .get k → LastOf s.log t (.got t k o) → r = answered o) : Inv s' where
  call := by
    intro u hu
    rw [hnow, hlog]
    by_cases e : u = t
    · subst e; rw [hpc, upd_same] at hu; exact absurd rfl hu
    · rw [hpc, upd_other _ _ e] at hu; exact calling_snoc (I.call u hu) (fun c' r' h => by cases h; exact e rfl)
  ok := by
    intro u
    rw [hnow, hpc]
    by_cases e : u = t
    · subst e; rw [upd_same]; trivial
    · rw [upd_other _ _ e]; exact I.ok u
  last := by
    intro u e he
    rw [hnow, hpc] at he
    rw [hlog]
    by_cases hu : u = t
    · subst hu; rw [upd_same] at he; cases he
    · rw [upd_other _ _ hu] at he; exact lastOf_snoc (I.last u e he) (fun h => hu h.symm)
  given := by
    intro k v h
    rw [hlog]
    exact given_mono (I.given k v (hg k v h)) _
  vals := by
    intro pre post u k v h
    rw [hlog] at h
    rcases snoc_split h with ⟨rfl, h, _⟩ | ⟨post', h⟩
    · rw [Ev.ended.injEq] at h
      exact hv k v h.2.1 h.2.2
    · exact I.vals pre post' u k v h
  fetched := by
    intro pre post u k r' o h hl
    rw [hlog] at h
    rcases snoc_split h with ⟨rfl, h, _⟩ | ⟨post', h⟩
    · rw [Ev.ended.injEq] at h
      obtain ⟨rfl, h2, rfl⟩ := h
      exact hf k o h2 hl
    · exact I.fetched pre post' u k r' o h hl

theorem inv_call {s : St} (I : Inv s) (t : Nat) (c : Call) :
    Inv { s with pc := upd s.pc t (entry c), now := upd s.now t c, log := s.log ++ [.began t c], times := s.times ++ [s.clock] } where
  call := by
    intro u hu
    dsimp only at hu ⊢
    by_cases e : u = t
    · subst e; rw [upd_same]; exact ⟨s.log, [], rfl, nofun⟩
    · rw [upd_other _ _ e] at hu ⊢; exact calling_snoc (I.call u hu) nofun
  ok := by
    intro u
    dsimp only
    by_cases e : u = t
    · subst e; simp only [upd_same]; cases c <;> simp [entry, PcOk]
    · simp only [upd_other _ _ e]; exact I.ok u
  last := by
    intro u e he
    dsimp only at he ⊢
    by_cases hu : u = t
    · subst hu
      simp only [upd_same] at he
      have : e = .began u c := by cases c <;> simp [entry, lastEv] at he <;> exact he.symm
      rw [this]; exact ⟨rfl, s.log, [], rfl, nofun⟩
    · simp only [upd_other _ _ hu] at he; exact lastOf_snoc (I.last u e he) (fun h => hu h.symm)
  given := fun k v h => given_mono (I.given k v h) _
  vals := by
    intro pre post u k v h
    rcases snoc_split h with ⟨_, h, _⟩ | ⟨post', h⟩
    · cases h
    · exact I.vals pre post' u k v h
  fetched := by
    intro pre post u k r' o h hl
    rcases snoc_split h with ⟨_, h, _⟩ | ⟨post', h⟩
    · cases h
    · exact I.fetched pre post' u k r' o h hl

theorem inv_answer {s : St} (I : Inv s) (t k : Nat) (o : Option Nat) (hpc : s.pc t = .wait k) :
    Inv (St.at_ { s with log := s.log ++ [.got t k o], times := s.times ++ [s.clock] } t (match o with | some v => .put k v | none => .dropData k)) := by
  have hc := I.ok t
  rw [hpc] at hc
  constructor
  · intro u hu
    simp only [St.at_] at hu ⊢
    by_cases e : u = t
    · subst e; exact calling_snoc (I.call u (by rw [hpc]; nofun)) nofun
    · rw [upd_other _ _ e] at hu; exact calling_snoc (I.call u hu) nofun
  · intro u
    simp only [St.at_]
    by_cases e : u = t
    · subst e
      simp only [upd_same]
      rcases hc with hc | hc <;> rw [hc] <;> cases o <;> simp [PcOk]
    · simp only [upd_other _ _ e]; exact I.ok u
  · intro u e he
    simp only [St.at_] at he ⊢
    by_cases hu : u = t
    · subst hu
      simp only [upd_same] at he
      have : e = .got u k o := by
        rcases hc with hc | hc <;> rw [hc] at he <;> cases o <;> simp [lastEv] at he <;> exact he.symm
      rw [this]; exact ⟨rfl, s.log, [], rfl, nofun⟩
    · simp only [upd_other _ _ hu] at he; exact lastOf_snoc (I.last u e he) (fun h => hu h.symm)
  · exact fun k v h => given_mono (I.given k v h) _
  · intro pre post u k v h
    rcases snoc_split h with ⟨_, h, _⟩ | ⟨post', h⟩
    · cases h
    · exact I.vals pre post' u k v h
  · intro pre post u k r' o h hl
    rcases snoc_split h with ⟨_, h, _⟩ | ⟨post', h⟩
    · cases h
    · exact I.fetched pre post' u k r' o h hl

/-- what was stored was given -/
theorem given_of_last {s : St} {t k v : Nat} (hc : s.now t = .get k ∨ s.now t = .refresh k ∨ s.now t = .set k v)
    (hl : LastOf s.log t (match s.now t with | .set _ _ => .began t (s.now t) | _ => .got t k (some v))) : Given s.log k v := by
  rcases hc with h | h | h <;> rw [h] at hl
  · exact .inl ⟨t, lastOf_mem hl⟩
  · exact .inl ⟨t, lastOf_mem hl⟩
  · exact .inr ⟨t, lastOf_mem hl⟩

theorem inv_go {expiration : Int} {s : St} (I : Inv s) (t : Nat) : Inv (go expiration s t) := by
  have hc := I.ok t
  have hl := I.last t
  cases hpc : s.pc t with
  | idle => simpa only [go, hpc] using I
  | look k =>
    have hi : s.pc t ≠ .idle := by rw [hpc]; nofun
    rw [hpc] at hc
    simp only [go, hpc]
    by_cases hd : s.data k = none
    · rw [if_pos hd]; exact I.move (t := t) (p := .wait k) hi rfl rfl rfl (.inl hc) (by rw [hpc]; rfl) (fun _ _ h => .inl h)
    · rw [if_neg hd]; exact I.move (t := t) (p := .stamp k) hi rfl rfl rfl hc (by rw [hpc]; rfl) (fun _ _ h => .inl h)
  | stamp k =>
    have hi : s.pc t ≠ .idle := by rw [hpc]; nofun
    rw [hpc] at hc hl
    simp only [go, hpc]
    cases hs : s.ts k with
    | none => exact I.finish (t := t) (r := .keyError) hi rfl rfl rfl (fun _ _ h => h) (fun _ _ _ h => by cases h) (fun k' o _ h => by cases lastOf_eq h (hl _ rfl))
    | some ts => exact I.move (t := t) (p := .clock k ts) hi rfl rfl rfl hc (by rw [hpc]; rfl) (fun _ _ h => .inl h)
  | clock k ts =>
    have hi : s.pc t ≠ .idle := by rw [hpc]; nofun
    rw [hpc] at hc
    simp only [go, hpc]
    by_cases hd : s.clock - ts > expiration
    · rw [if_pos hd]; exact I.move (t := t) (p := .wait k) hi rfl rfl rfl (.inl hc) (by rw [hpc]; rfl) (fun _ _ h => .inl h)
    · rw [if_neg hd]; exact I.move (t := t) (p := .read k) hi rfl rfl rfl hc (by rw [hpc]; rfl) (fun _ _ h => .inl h)
  | read k =>
    have hi : s.pc t ≠ .idle := by rw [hpc]; nofun
    rw [hpc] at hc hl
    simp only [go, hpc]
    cases hs : s.data k with
    | none => exact I.finish (t := t) (r := .keyError) hi rfl rfl rfl (fun _ _ h => h) (fun _ _ _ h => by cases h) (fun k' o _ h => by cases lastOf_eq h (hl _ rfl))
    | some v =>
      refine I.finish (t := t) (r := .val v) hi rfl rfl rfl (fun _ _ h => h) (fun k' v' h h' => ?_) (fun k' o _ h => by cases lastOf_eq h (hl _ rfl))
      rw [hc] at h; cases h; cases h'
      exact I.given k v hs
  | wait k => simpa only [go, hpc] using I
  | put k v =>
    have hi : s.pc t ≠ .idle := by rw [hpc]; nofun
    rw [hpc] at hc hl
    simp only [go, hpc]
    refine I.move (t := t) (p := .time k v) hi rfl rfl rfl hc (by rw [hpc]; rfl) (fun k' v' h => ?_)
    simp only [St.at_] at h
    by_cases e : k' = k
    · subst e; rw [upd_same] at h; cases h; exact .inr (given_of_last hc (hl _ rfl))
    · rw [upd_other _ _ e] at h; exact .inl h
  | time k v =>
    have hi : s.pc t ≠ .idle := by rw [hpc]; nofun
    rw [hpc] at hc
    simp only [go, hpc]
    exact I.move (t := t) (p := .write k v s.clock) hi rfl rfl rfl hc (by rw [hpc]; rfl) (fun _ _ h => .inl h)
  | write k v ts =>
    have hi : s.pc t ≠ .idle := by rw [hpc]; nofun
    rw [hpc] at hc hl
    simp only [go, hpc]
    refine I.finish (t := t) (r := stored v (s.now t)) hi rfl rfl rfl (fun _ _ h => h) (fun k' v' h h' => ?_) (fun k' o h hlo => ?_)
    · rw [h] at hc h'
      cases h'
      have hk : k' = k := by rcases hc with h | h | h <;> cases h; rfl
      subst hk
      exact given_of_last (.inl h) (hl _ rfl)
    · have h2 := lastOf_eq hlo (hl _ rfl)
      rw [h] at h2 ⊢
      cases h2
      rfl
  | dropData k =>
    have hi : s.pc t ≠ .idle := by rw [hpc]; nofun
    rw [hpc] at hc hl
    simp only [go, hpc]
    cases hs : s.data k with
    | none =>
      refine I.finish (t := t) (r := removed false (s.now t)) hi rfl rfl rfl (fun _ _ h => h) (fun k' v' h h' => by rw [h] at h'; cases h') (fun k' o h hlo => ?_)
      have h2 := lastOf_eq hlo (hl _ rfl)
      rw [h] at h2 ⊢
      cases h2
      rfl
    | some v =>
      refine I.move (t := t) (p := .dropTs k) hi rfl rfl rfl hc (by rw [hpc]; rfl) (fun k' v' h => ?_)
      simp only [St.at_] at h
      by_cases e : k' = k
      · subst e; rw [upd_same] at h; cases h
      · rw [upd_other _ _ e] at h; exact .inl h
  | dropTs k =>
    have hi : s.pc t ≠ .idle := by rw [hpc]; nofun
    rw [hpc] at hc hl
    simp only [go, hpc]
    cases hs : s.ts k with
    | none =>
      refine I.finish (t := t) (r := removed false (s.now t)) hi rfl rfl rfl (fun _ _ h => h) (fun k' v' h h' => by rw [h] at h'; cases h') (fun k' o h hlo => ?_)
      have h2 := lastOf_eq hlo (hl _ rfl)
      rw [h] at h2 ⊢
      cases h2
      rfl
    | some v =>
      refine I.finish (t := t) (r := removed true (s.now t)) hi rfl rfl rfl (fun _ _ h => h) (fun k' v' h h' => by rw [h] at h'; cases h') (fun k' o h hlo => ?_)
      have h2 := lastOf_eq hlo (hl _ rfl)
      rw [h] at h2 ⊢
      cases h2
      rfl

theorem inv_step {expiration : Int} {s : St} (I : Inv s) (a : Act) : Inv (step expiration s a) := by
  cases a with
  | call t c =>
    unfold step
    dsimp only
    split
    · exact inv_call I t c
    · exact I
  | answer t o =>
    cases hpc : s.pc t <;> simp only [step, hpc] <;> first | exact I | exact inv_answer I t _ o hpc
  | go t => exact inv_go I t
  | tick d => exact ⟨I.call, I.ok, I.last, I.given, I.vals, I.fetched⟩

theorem inv_run (expiration : Int) (as : List Act) : Inv (run expiration as) := by
  induction as using snoc_ind with
  | h0 => exact inv_init
  | h1 as a ih => rw [run_snoc]; exact inv_step ih a

/-- **C276 whose values.** Whatever threads do with a CacheDict, and however they interleave: a value returned by a lookup was given for that key by the value getter, or assigned to it, before. -/
theorem C276_values (expiration : Int) (as : List Act) (pre post : List Ev) (t k v : Nat) (h : (run expiration as).log = pre ++ .ended t (.get k) (.val v) :: post) : Given pre k v :=
  (inv_run expiration as).vals pre post t k v h

/-- **C276 those who ask.** A lookup that asked the value getter gives what it answered to that lookup, the value or KeyError, whatever others stored or removed meanwhile. -/
theorem C276_answered (expiration : Int) (as : List Act) (pre post : List Ev) (t k : Nat) (r : Res) (o : Option Nat)
    (h : (run expiration as).log = pre ++ .ended t (.get k) r :: post) (hl : LastOf pre t (.got t k o)) :
    (∀ v, o = some v → r = .val v) ∧ (o = none → r = .keyError) := by
  have := (inv_run expiration as).fetched pre post t k r o h hl
  exact ⟨fun v e => by rw [this, e]; rfl, fun e => by rw [this, e]; rfl⟩

/-! ### Keys that are kept -/

/-- a call for the key ended, but with KeyError -/
def Held (log : List Ev) (k : Nat) : Prop := ∃ u c r, Ev.ended u c r ∈ log ∧ c.key = k ∧ r ≠ .keyError

/-- a thread is between writing a value and its time -/
def Storing (s : St) (k : Nat) : Prop := ∃ u v, s.pc u = .time k v ∨ ∃ ts, s.pc u = .write k v ts

/-- where the value is in memory -/
def hasData (k : Nat) : Pc → Prop
  | .stamp k' | .read k' => k' = k
  | .clock k' _ | .time k' _ => k' = k
  | .write k' _ _ => k' = k
  | _ => False

/-- where the time is in memory -/
def hasTs (k : Nat) : Pc → Prop
  | .read k' => k' = k
  | .clock k' _ => k' = k
  | _ => False

/-- what holds for a key that is kept -/
structure Keep (k : Nat) (s : St) : Prop where
  one : s.ts k ≠ none ∨ s.data k = none ∨ Storing s k
  look : ∀ t, s.pc t = .stamp k → s.ts k ≠ none ∨ (Met s.log t k ∧ First s.log t k)
  held : Held s.log k → s.ts k ≠ none ∧ s.data k ≠ none
  data : ∀ t, hasData k (s.pc t) → s.data k ≠ none
  ts : ∀ t, hasTs k (s.pc t) → s.ts k ≠ none
  evs : ∀ pre post t, s.log = pre ++ .ended t (.get k) .keyError :: post → Met pre t k ∧ First pre t k

theorem kept_mono {log : List Ev} {k : Nat} {es : List Ev} (h : Kept (log ++ es) k) : Kept log k :=
  fun u => ⟨fun hm => (h u).1 (List.mem_append_left _ hm), fun hm => (h u).2.1 (List.mem_append_left _ hm), fun hm => (h u).2.2 (List.mem_append_left _ hm)⟩

/-- nobody is removing a key that is kept -/
theorem not_removing {s : St} (I : Inv s) {k : Nat} (h : Kept s.log k) (t : Nat) : s.pc t ≠ .dropData k ∧ s.pc t ≠ .dropTs k := by
  have hc := I.ok t
  have hl := I.last t
  constructor <;> intro e <;> rw [e] at hc hl <;> rcases hc with hc | hc | hc | hc <;> rw [hc] at hl
  · exact (h t).1 (lastOf_mem (hl _ rfl))
  · exact (h t).1 (lastOf_mem (hl _ rfl))
  · exact (h t).2.1 (lastOf_mem (hl _ rfl))
  · exact (h t).2.2 (lastOf_mem (hl _ rfl))
  · exact (h t).1 (lastOf_mem (hl _ rfl))
  · exact (h t).1 (lastOf_mem (hl _ rfl))
  · exact (h t).2.1 (lastOf_mem (hl _ rfl))
  · exact (h t).2.2 (lastOf_mem (hl _ rfl))

theorem keep_init (k : Nat) : Keep k {} where
  one := .inr (.inl rfl)
  look := fun t h => by cases h
  held := fun ⟨_, _, _, h, _⟩ => by cases h
  data := fun t h => h.elim
  ts := fun t h => h.elim
  evs := fun pre post t h => by cases pre <;> cases h

/-- a thread not storing goes on; the memory of the key stays, or is set -/
theorem Keep.move {k : Nat} {s s' : St} {t : Nat} {p : Pc} {es : List Ev} (K : Keep k s) (hpc : s'.pc = upd s.pc t p) (hlog : s'.log = s.log ++ es)
    (hes : ∀ e ∈ es, ∀ u c r, e = .ended u c r → u = t ∧ p ≠ .stamp k ∧ (c.key = k → r ≠ .keyError → s'.ts k ≠ none ∧ s'.data k ≠ none))
    (hd : s'.data k = s.data k ∨ (s'.data k ≠ none ∧ Storing s' k)) (ht : s'.ts k = s.ts k ∨ s'.ts k ≠ none)
    (hst : s'.ts k ≠ none ∨ (∀ v, s.pc t ≠ .time k v ∧ ∀ ts, s.pc t ≠ .write k v ts) ∨ Storing s' k)
    (hl : p = .stamp k → s'.ts k ≠ none ∨ (Met s'.log t k ∧ First s'.log t k))
    (hpd : hasData k p → s'.data k ≠ none) (hpt : hasTs k p → s'.ts k ≠ none)
    (hev : ∀ pre post u, s'.log = pre ++ .ended u (.get k) .keyError :: post → (∃ post', s.log = pre ++ .ended u (.get k) .keyError :: post') ∨ (Met pre u k ∧ First pre u k)) : Keep k s' := by
  have hd' : s.data k ≠ none → s'.data k ≠ none := by
    intro h
    rcases hd with e | e
    · rw [e]; exact h
    · exact e.1
  have ht' : s.ts k ≠ none → s'.ts k ≠ none := by
    intro h
    rcases ht with e | e
    · rw [e]; exact h
    · exact e
  constructor
  · rcases hst with h | h | h
    · exact .inl h
    · rcases hd with e | e
      · rcases K.one with h1 | h1 | ⟨u, v, h1⟩
        · exact .inl (ht' h1)
        · exact .inr (.inl (e.trans h1))
        · have hu : u ≠ t := by
            intro e
            subst e
            rcases h1 with h1 | ⟨ts, h1⟩
            · exact (h v).1 h1
            · exact (h v).2 ts h1
          refine .inr (.inr ⟨u, v, ?_⟩)
          rw [hpc, upd_other _ _ hu]; exact h1
      · exact .inr (.inr e.2)
    · exact .inr (.inr h)
  · intro u hu
    by_cases e : u = t
    · subst e; rw [hpc, upd_same] at hu; exact hl hu
    · rw [hpc, upd_other _ _ e] at hu
      rcases K.look u hu with h | ⟨h1, h2⟩
      · exact .inl (ht' h)
      · refine .inr ?_
        rw [hlog]
        have hes' : ∀ x ∈ es, ∀ c' r, x ≠ Ev.ended u c' r := fun x hx c' r hxe => e (hes x hx u c' r hxe).1
        clear hev hl hlog hes
        induction es using snoc_ind with
        | h0 => simpa using ⟨h1, h2⟩
        | h1 l a ih =>
          have := ih (fun x hx => hes' x (by simp [hx]))
          rw [← List.append_assoc]
          exact ⟨met_snoc this.1 (hes' a (by simp)), first_snoc this.2 (hes' a (by simp))⟩
  · rintro ⟨u, c, r, hm, hk, hr⟩
    rw [hlog] at hm
    rcases List.mem_append.1 hm with h | h
    · have := K.held ⟨u, c, r, h, hk, hr⟩
      exact ⟨ht' this.1, hd' this.2⟩
    · exact (hes _ h u c r rfl).2.2 hk hr
  · intro u hu
    by_cases e : u = t
    · subst e; rw [hpc, upd_same] at hu; exact hpd hu
    · rw [hpc, upd_other _ _ e] at hu; exact hd' (K.data u hu)
  · intro u hu
    by_cases e : u = t
    · subst e; rw [hpc, upd_same] at hu; exact hpt hu
    · rw [hpc, upd_other _ _ e] at hu; exact ht' (K.ts u hu)
  · intro pre post u h
    rcases hev pre post u h with ⟨post', h⟩ | h
    · exact K.evs pre post' u h
    · exact h

/-- a thread goes on without a word, and without touching the memory of the key -/
theorem Keep.quiet {k : Nat} {s s' : St} {t : Nat} {p : Pc} (K : Keep k s) (hpc : s'.pc = upd s.pc t p) (hlog : s'.log = s.log)
    (hd : s'.data k = s.data k) (ht : s'.ts k = s.ts k)
    (hst : (∀ v, s.pc t ≠ .time k v ∧ ∀ ts, s.pc t ≠ .write k v ts) ∨ Storing s' k)
    (hl : p = .stamp k → s.ts k ≠ none ∨ (Met s.log t k ∧ First s.log t k))
    (hpd : hasData k p → s.data k ≠ none) (hpt : hasTs k p → s.ts k ≠ none) : Keep k s' :=
  K.move (t := t) (p := p) (es := []) hpc (by simpa using hlog) (fun _ h => by cases h) (.inl hd) (.inl ht) (.inr hst)
    (fun h => by rw [ht, hlog]; exact hl h) (fun h => by rw [hd]; exact hpd h) (fun h => by rw [ht]; exact hpt h) (fun _ post _ h => .inl ⟨post, by rw [← hlog]; exact h⟩)

/-- a call ends -/
theorem Keep.ends {k : Nat} {s s' : St} {t : Nat} {r : Res} (K : Keep k s) (hpc : s'.pc = upd s.pc t .idle) (hlog : s'.log = s.log ++ [.ended t (s.now t) r])
    (hd : s'.data k = s.data k) (ht : s'.ts k = s.ts k ∨ s'.ts k ≠ none)
    (hst : s'.ts k ≠ none ∨ (∀ v, s.pc t ≠ .time k v ∧ ∀ ts, s.pc t ≠ .write k v ts))
    (hok : (s.now t).key = k → r ≠ .keyError → s'.ts k ≠ none ∧ s'.data k ≠ none)
    (hev : s.now t = .get k → r = .keyError → Met s.log t k ∧ First s.log t k) : Keep k s' := by
  refine K.move (t := t) (p := .idle) (es := [.ended t (s.now t) r]) hpc hlog ?_ (.inl hd) ht (hst.imp id .inl) (fun h => by cases h) (fun h => h.elim) (fun h => h.elim) ?_
  · intro e he u c r' h
    rw [List.mem_singleton.1 he, Ev.ended.injEq] at h
    obtain ⟨rfl, rfl, rfl⟩ := h
    exact ⟨rfl, nofun, hok⟩
  · intro pre post u h
    rw [hlog] at h
    rcases snoc_split h with ⟨rfl, h, _⟩ | h
    · rw [Ev.ended.injEq] at h
      obtain ⟨rfl, h2, h3⟩ := h
      exact .inr (hev h2 h3)
    · exact .inl h

theorem keep_say {k : Nat} {s s' : St} {t : Nat} {p : Pc} {e : Ev} (K : Keep k s) (hpc : s'.pc = upd s.pc t p) (hlog : s'.log = s.log ++ [e]) (he : ∀ u c r, e ≠ .ended u c r)
    (hd : s'.data = s.data) (ht : s'.ts = s.ts) (hst : ∀ v, s.pc t ≠ .time k v ∧ ∀ ts, s.pc t ≠ .write k v ts)
    (hl : p ≠ .stamp k) (hpd : ¬ hasData k p) (hpt : ¬ hasTs k p) : Keep k s' := by
  refine K.move (t := t) (p := p) (es := [e]) hpc hlog ?_ (.inl (by rw [hd])) (.inl (by rw [ht])) (.inr (.inl hst)) (fun h => absurd h hl) (fun h => absurd h hpd) (fun h => absurd h hpt) ?_
  · intro x hx u c r h
    rw [List.mem_singleton.1 hx] at h
    exact absurd h (he u c r)
  · intro pre post u h
    rw [hlog] at h
    rcases snoc_split h with ⟨_, h, _⟩ | h
    · exact absurd h (he _ _ _)
    · exact .inl h

theorem keep_go {expiration : Int} {s : St} (I : Inv s) {k : Nat} (hk : Kept s.log k) (K : Keep k s) (t : Nat) : Keep k (go expiration s t) := by
  have hc := I.ok t
  have hca := I.call t
  cases hpc : s.pc t with
  | idle => simpa only [go, hpc] using K
  | wait k => simpa only [go, hpc] using K
  | look k' =>
    have hst : ∀ v, s.pc t ≠ .time k v ∧ ∀ ts, s.pc t ≠ .write k v ts := by rw [hpc]; exact fun _ => ⟨nofun, fun _ => nofun⟩
    rw [hpc] at hc hca
    simp only [go, hpc]
    by_cases hd : s.data k' = none
    · rw [if_pos hd]; exact K.quiet (t := t) (p := .wait k') rfl rfl rfl rfl (.inl hst) (fun h => by cases h) (fun h => h.elim) (fun h => h.elim)
    · rw [if_neg hd]
      refine K.quiet (t := t) (p := .stamp k') rfl rfl rfl rfl (.inl hst) (fun h => ?_) (fun h => by cases h; exact hd) (fun h => h.elim)
      cases h
      have hca := hca nofun
      rw [hc] at hca
      rcases K.one with h1 | h1 | ⟨u, v, h1⟩
      · exact .inl h1
      · exact absurd h1 hd
      · by_cases hts : s.ts k = none
        · refine .inr ⟨⟨s.log, [], u, s.now u, by simp, nofun, hca, ?_, I.call u ?_, ?_⟩, ?_⟩
          · intro e; subst e
            rcases h1 with h1 | ⟨ts, h1⟩ <;> rw [hpc] at h1 <;> cases h1
          · intro e
            rcases h1 with h1 | ⟨ts, h1⟩ <;> rw [e] at h1 <;> cases h1
          · have ho := I.ok u
            rcases h1 with h1 | ⟨ts, h1⟩ <;> rw [h1] at ho <;> rcases ho with h | h | h <;> rw [h] <;> rfl
          · obtain ⟨a, b, hab, hb⟩ := hca
            refine ⟨a, b, hab, hb, fun u c r hm hck => ?_⟩
            by_cases hr : r = .keyError
            · exact hr
            · exact absurd hts (K.held ⟨u, c, r, by rw [hab]; simp [hm], hck, hr⟩).1
        · exact .inl hts
  | stamp k' =>
    have hst : ∀ v, s.pc t ≠ .time k v ∧ ∀ ts, s.pc t ≠ .write k v ts := by rw [hpc]; exact fun _ => ⟨nofun, fun _ => nofun⟩
    rw [hpc] at hc
    simp only [go, hpc]
    cases hs : s.ts k' with
    | none =>
      refine K.ends (t := t) (r := .keyError) rfl rfl rfl (.inl rfl) (.inr hst) (fun _ h => absurd rfl h) (fun h _ => ?_)
      rw [hc] at h; cases h
      rcases K.look t hpc with h | h
      · exact absurd hs h
      · exact h
    | some ts =>
      exact K.quiet (t := t) (p := .clock k' ts) rfl rfl rfl rfl (.inl hst) (fun h => by cases h) (fun h => by cases h; exact K.data t (by rw [hpc]; rfl)) (fun h => by cases h; rw [hs]; nofun)
  | clock k' ts =>
    have hst : ∀ v, s.pc t ≠ .time k v ∧ ∀ ts, s.pc t ≠ .write k v ts := by rw [hpc]; exact fun _ => ⟨nofun, fun _ => nofun⟩
    simp only [go, hpc]
    by_cases hd : s.clock - ts > expiration
    · rw [if_pos hd]; exact K.quiet (t := t) (p := .wait k') rfl rfl rfl rfl (.inl hst) (fun h => by cases h) (fun h => h.elim) (fun h => h.elim)
    · rw [if_neg hd]
      exact K.quiet (t := t) (p := .read k') rfl rfl rfl rfl (.inl hst) (fun h => by cases h) (fun h => by cases h; exact K.data t (by rw [hpc]; rfl)) (fun h => by cases h; exact K.ts t (by rw [hpc]; rfl))
  | read k' =>
    have hst : ∀ v, s.pc t ≠ .time k v ∧ ∀ ts, s.pc t ≠ .write k v ts := by rw [hpc]; exact fun _ => ⟨nofun, fun _ => nofun⟩
    rw [hpc] at hc
    simp only [go, hpc]
    cases hs : s.data k' with
    | none =>
      refine K.ends (t := t) (r := .keyError) rfl rfl rfl (.inl rfl) (.inr hst) (fun _ h => absurd rfl h) (fun h _ => ?_)
      rw [hc] at h; cases h
      exact absurd hs (K.data t (by rw [hpc]; rfl))
    | some v =>
      refine K.ends (t := t) (r := .val v) rfl rfl rfl (.inl rfl) (.inr hst) (fun h _ => ?_) (fun _ h => by cases h)
      rw [hc] at h; cases h
      exact ⟨K.ts t (by rw [hpc]; rfl), K.data t (by rw [hpc]; rfl)⟩
  | put k' v =>
    have hst : ∀ v, s.pc t ≠ .time k v ∧ ∀ ts, s.pc t ≠ .write k v ts := by rw [hpc]; exact fun _ => ⟨nofun, fun _ => nofun⟩
    simp only [go, hpc]
    by_cases e : k' = k
    · subst e
      have h1 : Storing (St.at_ { s with data := upd s.data k' (some v) } t (.time k' v)) k' := ⟨t, v, .inl (by simp only [St.at_, upd_same])⟩
      have h2 : (St.at_ { s with data := upd s.data k' (some v) } t (.time k' v)).data k' ≠ none := by simp only [St.at_, upd_same]; nofun
      exact K.move (t := t) (p := .time k' v) (es := []) rfl (by simp [St.at_]) (fun _ h => by cases h) (.inr ⟨h2, h1⟩) (.inl rfl) (.inr (.inr h1)) (fun h => by cases h) (fun _ => h2) (fun h => h.elim)
        (fun _ post _ h => .inl ⟨post, h⟩)
    · exact K.quiet (t := t) (p := .time k' v) rfl rfl (by simp only [St.at_]; rw [upd_other _ _ (Ne.symm e)]) rfl (.inl hst) (fun h => by cases h) (fun h => absurd h e) (fun h => h.elim)
  | time k' v =>
    simp only [go, hpc]
    refine K.quiet (t := t) (p := .write k' v s.clock) rfl rfl rfl rfl ?_ (fun h => by cases h) (fun h => by cases h; exact K.data t (by rw [hpc]; rfl)) (fun h => h.elim)
    by_cases e : k' = k
    · subst e; exact .inr ⟨t, v, .inr ⟨s.clock, by simp only [St.at_, upd_same]⟩⟩
    · refine .inl fun v' => ?_
      rw [hpc]; exact ⟨fun h => by cases h; exact e rfl, fun _ => nofun⟩
  | write k' v ts =>
    rw [hpc] at hc
    simp only [go, hpc]
    by_cases e : k' = k
    · subst e
      have h2 : ({ s with ts := upd s.ts k' (some ts) }.finish t (stored v (s.now t))).ts k' ≠ none := by simp only [St.finish, upd_same]; nofun
      refine K.ends (t := t) (r := stored v (s.now t)) rfl rfl rfl (.inr h2) (.inl h2) (fun _ _ => ⟨h2, K.data t (by rw [hpc]; rfl)⟩) (fun h h' => ?_)
      rw [h] at h'; cases h'
    · refine K.ends (t := t) (r := stored v (s.now t)) rfl rfl rfl (.inl (by simp only [St.finish]; rw [upd_other _ _ (Ne.symm e)])) (.inr fun v' => ?_) (fun h _ => ?_) (fun h h' => ?_)
      · rw [hpc]; exact ⟨nofun, fun _ h => by cases h; exact e rfl⟩
      · exfalso
        rcases hc with h' | h' | h' <;> rw [h'] at h <;> exact e h
      · rw [h] at h'; cases h'
  | dropData k' =>
    have hst : ∀ v, s.pc t ≠ .time k v ∧ ∀ ts, s.pc t ≠ .write k v ts := by rw [hpc]; exact fun _ => ⟨nofun, fun _ => nofun⟩
    have e : k' ≠ k := fun h => (not_removing I hk t).1 (by rw [hpc, h])
    have hkey : (s.now t).key ≠ k := by
      rw [hpc] at hc
      intro h
      rcases hc with h' | h' | h' | h' <;> rw [h'] at h <;> exact e h
    simp only [go, hpc]
    cases hs : s.data k' with
    | none => exact K.ends (t := t) (r := removed false (s.now t)) rfl rfl rfl (.inl rfl) (.inr hst) (fun h _ => absurd h hkey) (fun h _ => absurd (by rw [h]; rfl) hkey)
    | some v =>
      exact K.quiet (t := t) (p := .dropTs k') rfl rfl (by simp only [St.at_]; rw [upd_other _ _ (Ne.symm e)]) rfl (.inl hst) (fun h => by cases h) (fun h => h.elim) (fun h => h.elim)
  | dropTs k' =>
    have hst : ∀ v, s.pc t ≠ .time k v ∧ ∀ ts, s.pc t ≠ .write k v ts := by rw [hpc]; exact fun _ => ⟨nofun, fun _ => nofun⟩
    have e : k' ≠ k := fun h => (not_removing I hk t).2 (by rw [hpc, h])
    have hkey : (s.now t).key ≠ k := by
      rw [hpc] at hc
      intro h
      rcases hc with h' | h' | h' | h' <;> rw [h'] at h <;> exact e h
    simp only [go, hpc]
    cases hs : s.ts k' with
    | none => exact K.ends (t := t) (r := removed false (s.now t)) rfl rfl rfl (.inl rfl) (.inr hst) (fun h _ => absurd h hkey) (fun h _ => absurd (by rw [h]; rfl) hkey)
    | some v =>
      exact K.ends (t := t) (r := removed true (s.now t)) rfl rfl rfl (.inl (by simp only [St.finish]; rw [upd_other _ _ (Ne.symm e)])) (.inr hst) (fun h _ => absurd h hkey) (fun h _ => absurd (by rw [h]; rfl) hkey)

theorem keep_step {expiration : Int} {s : St} (I : Inv s) {k : Nat} (hk : Kept s.log k) (K : Keep k s) (a : Act) : Keep k (step expiration s a) := by
  cases a with
  | call t c =>
    unfold step
    dsimp only
    split
    · rename_i h
      refine keep_say K (t := t) (p := entry c) (e := .began t c) rfl rfl nofun rfl rfl (by rw [h]; exact fun _ => ⟨nofun, fun _ => nofun⟩) ?_ ?_ ?_ <;> cases c <;> first | nofun | exact id
    · exact K
  | answer t o =>
    cases hpc : s.pc t with
    | wait k' =>
      simp only [step, hpc]
      refine keep_say K (t := t) (p := match o with | some v => .put k' v | none => .dropData k') (e := .got t k' o) rfl rfl nofun rfl rfl (by rw [hpc]; exact fun _ => ⟨nofun, fun _ => nofun⟩) ?_ ?_ ?_ <;>
        cases o <;> first | nofun | exact id
    | _ => simpa only [step, hpc] using K
  | go t => exact keep_go I hk K t
  | tick d => exact ⟨K.one, K.look, K.held, K.data, K.ts, K.evs⟩

theorem log_grows (expiration : Int) (s : St) (a : Act) : ∃ es, (step expiration s a).log = s.log ++ es := by
  cases a with
  | call t c =>
    unfold step
    dsimp only
    split
    · exact ⟨_, rfl⟩
    · exact ⟨[], by simp⟩
  | answer t o => cases hpc : s.pc t <;> simp only [step, hpc] <;> first | exact ⟨_, rfl⟩ | exact ⟨[], by simp⟩
  | go t =>
    simp only [step, go]
    cases s.pc t with
    | idle => exact ⟨[], by simp⟩
    | look k => dsimp only; split <;> exact ⟨[], by simp [St.at_]⟩
    | stamp k => dsimp only; cases s.ts k <;> first | exact ⟨_, rfl⟩ | exact ⟨[], by simp [St.at_]⟩
    | clock k ts => dsimp only; split <;> exact ⟨[], by simp [St.at_]⟩
    | read k => dsimp only; cases s.data k <;> exact ⟨_, rfl⟩
    | wait k => exact ⟨[], by simp⟩
    | put k v => exact ⟨[], by simp [St.at_]⟩
    | time k v => exact ⟨[], by simp [St.at_]⟩
    | write k v ts => exact ⟨_, rfl⟩
    | dropData k => dsimp only; cases s.data k <;> first | exact ⟨_, rfl⟩ | exact ⟨[], by simp [St.at_]⟩
    | dropTs k => dsimp only; cases s.ts k <;> exact ⟨_, rfl⟩
  | tick d => exact ⟨[], by simp [step]⟩

theorem keep_run (expiration : Int) (as : List Act) (k : Nat) (hk : Kept (run expiration as).log k) : Keep k (run expiration as) := by
  induction as using snoc_ind with
  | h0 => exact keep_init k
  | h1 as a ih =>
    rw [run_snoc] at hk ⊢
    obtain ⟨es, he⟩ := log_grows expiration (run expiration as) a
    rw [he] at hk
    exact keep_step (inv_run expiration as) (kept_mono hk) (ih (kept_mono hk)) a

/-- **C277 keys that are kept.** Guard: the value getter has the key whenever it is asked, and nobody deletes or invalidates it.  A lookup of such a key raises KeyError only if it met a call of another thread
for the same key, and no call for it had ended (but with KeyError) when the lookup began; so once a lookup, an assignment or a refresh of the key is over, no later lookup raises.  The full claim, that a lookup raises
only if the value getter has not the key or somebody deletes it, is violated: see the theorems below. -/
theorem C277_kept_partial (expiration : Int) (as : List Act) (k : Nat) (hk : Kept (run expiration as).log k) (pre post : List Ev) (t : Nat)
    (h : (run expiration as).log = pre ++ .ended t (.get k) .keyError :: post) : Met pre t k ∧ First pre t k :=
  (keep_run expiration as k hk).evs pre post t h

/-- **C277 looked up while being fetched.** Two threads look up a key, the value getter has it, and nobody removes it: the second finds the value, not yet its time, and raises KeyError (line 219). -/
theorem C277_fetched_violates : let as : List Act := [.call 1 (.get 7), .go 1, .answer 1 (some 5), .go 1, .call 2 (.get 7), .go 2, .go 2, .go 1, .go 1]
    Kept (run 60 as).log 7 ∧ (run 60 as).log = [.began 1 (.get 7), .got 1 7 (some 5), .began 2 (.get 7), .ended 2 (.get 7) .keyError, .ended 1 (.get 7) (.val 5)] := by
  refine ⟨fun u => ?_, by decide +kernel⟩
  rw [show (run 60 [.call 1 (.get 7), .go 1, .answer 1 (some 5), .go 1, .call 2 (.get 7), .go 2, .go 2, .go 1, .go 1]).log =
    [.began 1 (.get 7), .got 1 7 (some 5), .began 2 (.get 7), .ended 2 (.get 7) .keyError, .ended 1 (.get 7) (.val 5)] by decide +kernel]
  simp

/-- what happens when one thread invalidates a key while another refreshes it: the refresh falls between the two deletions -/
def race : List Act :=
  [.call 1 (.set 7 5), .go 1, .go 1, .go 1, .call 1 (.invalidate 7), .call 2 (.refresh 7), .answer 2 (some 6), .go 1, .go 2, .go 2, .go 2, .go 1]

theorem race_end : (run 60 race).log = [.began 1 (.set 7 5), .ended 1 (.set 7 5) .unit, .began 1 (.invalidate 7), .began 2 (.refresh 7), .got 2 7 (some 6), .ended 2 (.refresh 7) .unit, .ended 1 (.invalidate 7) .unit] ∧
    (run 60 race).data 7 = some 6 ∧ (run 60 race).ts 7 = none ∧ (run 60 race).pc 1 = .idle ∧ (run 60 race).pc 2 = .idle := by decide +kernel

/-- **C277 spoilt for ever.** One thread invalidates a key while it is refreshed by another; both calls end.  From then on every lookup, however many and though no other call is underway, raises KeyError without
asking the value getter, which has the key. -/
theorem C277_spoilt_violates (n : Nat) :
    (run 60 (race ++ (List.replicate n [.call 1 (.get 7), .go 1, .go 1]).flatten)).log =
      (run 60 race).log ++ (List.replicate n [.began 1 (.get 7), .ended 1 (.get 7) .keyError]).flatten := by
  have key : ∀ n (s : St), s.data 7 = some 6 → s.ts 7 = none → s.pc 1 = .idle →
      ((List.replicate n [Act.call 1 (.get 7), .go 1, .go 1]).flatten.foldl (step 60) s).log = s.log ++ (List.replicate n [Ev.began 1 (.get 7), .ended 1 (.get 7) .keyError]).flatten := by
    intro n
    induction n with
    | zero => intro s _ _ _; simp
    | succ n ih =>
      intro s hd ht hp
      rw [List.replicate_succ, List.flatten_cons, List.foldl_append, List.replicate_succ, List.flatten_cons, ← List.append_assoc]
      have e : [Act.call 1 (.get 7), .go 1, .go 1].foldl (step 60) s =
          { s with pc := upd (upd (upd s.pc 1 (.look 7)) 1 (.stamp 7)) 1 .idle, now := upd s.now 1 (.get 7), log := s.log ++ [.began 1 (.get 7), .ended 1 (.get 7) .keyError], times := s.times ++ [s.clock, s.clock] } := by
        simp [step, go, hp, hd, ht, entry, St.at_, St.finish]
      rw [e]
      exact ih _ hd ht (by simp)
  have := key n (run 60 race) race_end.2.1 race_end.2.2.1 race_end.2.2.2.1
  simpa only [run, List.foldl_append] using this

theorem gives_of_last {s : St} {t k v : Nat} (hc : s.now t = .get k ∨ s.now t = .refresh k ∨ s.now t = .set k v)
    (hl : LastOf s.log t (match s.now t with | .set _ _ => .began t (s.now t) | _ => .got t k (some v))) : Gives s.log t k v := by
  rcases hc with h | h | h <;> rw [h] at hl
  · exact .inl hl
  · exact .inl hl
  · exact .inr hl

/-! ### Removals apart from storing -/

/-- a lookup of the key that found it in memory -/
def found (k : Nat) : Pc → Prop
  | .stamp k' | .read k' => k' = k
  | .clock k' _ => k' = k
  | _ => False

/-- what holds while a key is never removed and stored at once -/
structure Sep (k : Nat) (s : St) : Prop where
  one : s.ts k ≠ none ∨ s.data k = none ∨ Storing s k
  drop : ∀ u, s.pc u = .dropTs k → s.data k = none
  look : ∀ t, s.pc t = .stamp k → s.ts k ≠ none ∨ Met s.log t k
  data : ∀ t, found k (s.pc t) → s.data k ≠ none ∨ Met s.log t k
  evs : ∀ pre post t, s.log = pre ++ .ended t (.get k) .keyError :: post → LastOf pre t (.got t k none) ∨ Met pre t k

theorem sep_init (k : Nat) : Sep k {} where
  one := .inr (.inl rfl)
  drop := fun _ h => by cases h
  look := fun t h => by cases h
  data := fun t h => h.elim
  evs := fun pre post t h => by cases pre <;> cases h

theorem removes_of_pc {s : St} (I : Inv s) {u k : Nat} (h : s.pc u = .dropTs k) : Removes s.log u k := by
  have hc := I.ok u
  have hl := I.last u
  rw [h] at hc hl
  rcases hc with hc | hc | hc | hc <;> rw [hc] at hl
  · exact .inl (hl _ rfl)
  · exact .inl (hl _ rfl)
  · exact .inr (.inl (hl _ rfl))
  · exact .inr (.inr (hl _ rfl))

/-- the key of the call a lookup is in -/
theorem found_get {s : St} (I : Inv s) {u k : Nat} (h : found k (s.pc u)) : s.now u = .get k ∧ Calling s.log u (.get k) := by
  have hc := I.ok u
  have hca := I.call u
  cases hpc : s.pc u with
  | stamp k' => rw [hpc] at h hc hca; cases h; exact ⟨hc, hc ▸ hca nofun⟩
  | read k' => rw [hpc] at h hc hca; cases h; exact ⟨hc, hc ▸ hca nofun⟩
  | clock k' x => rw [hpc] at h hc hca; cases h; exact ⟨hc, hc ▸ hca nofun⟩
  | _ => rw [hpc] at h; exact h.elim

/-- a thread goes on -/
theorem Sep.move {k : Nat} {s s' : St} {t : Nat} {p : Pc} {es : List Ev} (I : Inv s) (S : Sep k s) (hi : s.pc t ≠ .idle ∨ (s'.data k = s.data k ∧ s'.ts k = s.ts k)) (hpc : s'.pc = upd s.pc t p) (hlog : s'.log = s.log ++ es)
    (hes : ∀ e ∈ es, ∀ u c r, e = .ended u c r → u = t)
    (h1 : s'.ts k ≠ none ∨ s'.data k = none ∨ Storing s' k)
    (hdrop : ∀ u, u ≠ t → s.pc u = .dropTs k → s.data k = none → s'.data k = none) (hdp : p = .dropTs k → s'.data k = none)
    (hd : s'.data k ≠ none ∨ s'.data k = s.data k ∨ (s.now t).key = k) (ht : s'.ts k ≠ none ∨ s'.ts k = s.ts k ∨ (s.now t).key = k)
    (hl : p = .stamp k → s'.ts k ≠ none ∨ Met s'.log t k) (hpd : found k p → s'.data k ≠ none ∨ Met s'.log t k)
    (hev : ∀ pre post u, s'.log = pre ++ .ended u (.get k) .keyError :: post → (∃ post', s.log = pre ++ .ended u (.get k) .keyError :: post') ∨ LastOf pre u (.got u k none) ∨ Met pre u k) : Sep k s' := by
  have mono : ∀ u, u ≠ t → Met s.log u k → Met s'.log u k := by
    intro u hu h
    rw [hlog]
    have hes' : ∀ x ∈ es, ∀ c' r, x ≠ Ev.ended u c' r := fun x hx c' r hxe => hu (hes x hx u c' r hxe)
    clear hev hl hlog hes hpd
    induction es using snoc_ind with
    | h0 => simpa using h
    | h1 l a ih =>
      rw [← List.append_assoc]
      exact met_snoc (ih (fun x hx => hes' x (by simp [hx]))) (hes' a (by simp))
  have meets : ∀ u, u ≠ t → s.pc t ≠ .idle → found k (s.pc u) → (s.now t).key = k → Met s'.log u k := fun u hu hi h hk =>
    mono u hu ⟨s.log, [], t, s.now t, by simp, nofun, (found_get I h).2, hu.symm, I.call t hi, hk⟩
  constructor
  · exact h1
  · intro u hu
    by_cases e : u = t
    · subst e; rw [hpc, upd_same] at hu; exact hdp hu
    · rw [hpc, upd_other _ _ e] at hu; exact hdrop u e hu (S.drop u hu)
  · intro u hu
    by_cases e : u = t
    · subst e; rw [hpc, upd_same] at hu; exact hl hu
    · rw [hpc, upd_other _ _ e] at hu
      rcases S.look u hu with h | h
      · rcases hi with hi | hi
        · rcases ht with h' | h' | h'
          · exact .inl h'
          · exact .inl (h' ▸ h)
          · exact .inr (meets u e hi (by rw [hu]; rfl) h')
        · exact .inl (hi.2 ▸ h)
      · exact .inr (mono u e h)
  · intro u hu
    by_cases e : u = t
    · subst e; rw [hpc, upd_same] at hu; exact hpd hu
    · rw [hpc, upd_other _ _ e] at hu
      rcases S.data u hu with h | h
      · rcases hi with hi | hi
        · rcases hd with h' | h' | h'
          · exact .inl h'
          · exact .inl (h' ▸ h)
          · exact .inr (meets u e hi hu h')
        · exact .inl (hi.1 ▸ h)
      · exact .inr (mono u e h)
  · intro pre post u h
    rcases hev pre post u h with ⟨post', h⟩ | h
    · exact S.evs pre post' u h
    · exact h

/-- one of the threads still stores the key, if it is another that goes on -/
theorem one_other {k : Nat} {s s' : St} {t : Nat} {p : Pc} (S : Sep k s) (hpc : s'.pc = upd s.pc t p) (hd : s'.data k = s.data k) (ht : s'.ts k = s.ts k)
    (hst : ∀ v, s.pc t ≠ .time k v ∧ ∀ x, s.pc t ≠ .write k v x) : s'.ts k ≠ none ∨ s'.data k = none ∨ Storing s' k := by
  rcases S.one with h | h | ⟨u, v, h⟩
  · exact .inl (ht ▸ h)
  · exact .inr (.inl (hd ▸ h))
  · have hu : u ≠ t := by
      intro e
      subst e
      rcases h with h | ⟨x, h⟩
      · exact (hst v).1 h
      · exact (hst v).2 x h
    exact .inr (.inr ⟨u, v, by rw [hpc, upd_other _ _ hu]; exact h⟩)

/-- a thread goes on without a word, and without touching the memory of the key -/
theorem Sep.quiet {k : Nat} {s s' : St} {t : Nat} {p : Pc} (I : Inv s) (S : Sep k s) (hi : s.pc t ≠ .idle) (hpc : s'.pc = upd s.pc t p) (hlog : s'.log = s.log)
    (hd : s'.data k = s.data k) (ht : s'.ts k = s.ts k) (hst : (∀ v, s.pc t ≠ .time k v ∧ ∀ x, s.pc t ≠ .write k v x) ∨ Storing s' k) (hdp : p ≠ .dropTs k)
    (hl : p = .stamp k → s.ts k ≠ none ∨ Met s.log t k) (hpd : found k p → s.data k ≠ none ∨ Met s.log t k) : Sep k s' :=
  S.move I (t := t) (p := p) (es := []) (.inl hi) hpc (by simpa using hlog) (fun _ h => by cases h) (by
      rcases hst with h | h
      · exact one_other S hpc hd ht h
      · exact .inr (.inr h)) (fun u _ _ h => hd ▸ h) (fun h => absurd h hdp) (.inr (.inl hd)) (.inr (.inl ht))
    (fun h => by rw [ht, hlog]; exact hl h) (fun h => by rw [hd, hlog]; exact hpd h) (fun _ post _ h => .inl ⟨post, by rw [← hlog]; exact h⟩)

/-- a call ends -/
theorem Sep.ends {k : Nat} {s s' : St} {t : Nat} {r : Res} (I : Inv s) (S : Sep k s) (hi : s.pc t ≠ .idle) (hpc : s'.pc = upd s.pc t .idle) (hlog : s'.log = s.log ++ [.ended t (s.now t) r])
    (hd : s'.data k = s.data k) (ht : s'.ts k ≠ none ∨ s'.ts k = s.ts k ∨ (s.now t).key = k) (h1 : s'.ts k ≠ none ∨ s'.data k = none ∨ Storing s' k)
    (hev : s.now t = .get k → r = .keyError → LastOf s.log t (.got t k none) ∨ Met s.log t k) : Sep k s' := by
  refine S.move I (t := t) (p := .idle) (es := [.ended t (s.now t) r]) (.inl hi) hpc hlog ?_ h1 (fun u _ _ h => hd ▸ h) (fun h => by cases h) (.inr (.inl hd)) ht (fun h => by cases h) (fun h => h.elim) ?_
  · intro e he u c r' h
    rw [List.mem_singleton.1 he, Ev.ended.injEq] at h
    exact h.1.symm
  · intro pre post u h
    rw [hlog] at h
    rcases snoc_split h with ⟨rfl, h, _⟩ | h
    · rw [Ev.ended.injEq] at h
      obtain ⟨rfl, h2, h3⟩ := h
      exact .inr (hev h2 h3)
    · exact .inl h

theorem sep_say {k : Nat} {s s' : St} {t : Nat} {p : Pc} {e : Ev} (I : Inv s) (S : Sep k s) (hpc : s'.pc = upd s.pc t p) (hlog : s'.log = s.log ++ [e]) (he : ∀ u c r, e ≠ .ended u c r)
    (hd : s'.data = s.data) (ht : s'.ts = s.ts) (hst : ∀ v, s.pc t ≠ .time k v ∧ ∀ x, s.pc t ≠ .write k v x) (hp : p ≠ .stamp k) (hpd : ¬ found k p) (hdp : p ≠ .dropTs k) : Sep k s' := by
  refine S.move I (t := t) (p := p) (es := [e]) (.inr ⟨by rw [hd], by rw [ht]⟩) hpc hlog ?_ (one_other S hpc (by rw [hd]) (by rw [ht]) hst) (fun u _ _ h => by rw [hd]; exact h) (fun h => absurd h hdp) (.inr (.inl (by rw [hd])))
    (.inr (.inl (by rw [ht]))) (fun h => absurd h hp) (fun h => absurd h hpd) ?_
  · intro x hx u c r h
    rw [List.mem_singleton.1 hx] at h
    exact absurd h (he u c r)
  · intro pre post u h
    rw [hlog] at h
    rcases snoc_split h with ⟨_, h, _⟩ | h
    · exact absurd h (he _ _ _)
    · exact .inl h

theorem sep_go {expiration : Int} {s : St} (I : Inv s) {k : Nat} (hS : ∀ u w v, Gives s.log u k v → ¬ Removes s.log w k) (S : Sep k s) (t : Nat) : Sep k (go expiration s t) := by
  have hc := I.ok t
  have hca := I.call t
  have hl := I.last t
  cases hpc : s.pc t with
  | idle => simpa only [go, hpc] using S
  | wait k => simpa only [go, hpc] using S
  | look k' =>
    have hi : s.pc t ≠ .idle := by rw [hpc]; nofun
    have hst : ∀ v, s.pc t ≠ .time k v ∧ ∀ ts, s.pc t ≠ .write k v ts := by rw [hpc]; exact fun _ => ⟨nofun, fun _ => nofun⟩
    rw [hpc] at hc hca
    simp only [go, hpc]
    by_cases hd : s.data k' = none
    · rw [if_pos hd]; exact S.quiet I (t := t) (p := .wait k') hi rfl rfl rfl rfl (.inl hst) nofun nofun (fun h => h.elim)
    · rw [if_neg hd]
      refine S.quiet I (t := t) (p := .stamp k') hi rfl rfl rfl rfl (.inl hst) nofun (fun h => ?_) (fun h => by cases h; exact .inl hd)
      cases h
      rcases S.one with h1 | h1 | ⟨u, v, h1⟩
      · exact .inl h1
      · exact absurd h1 hd
      · refine .inr ⟨s.log, [], u, s.now u, by simp, nofun, (show s.now t = .get k from hc) ▸ hca nofun, ?_, I.call u ?_, ?_⟩
        · intro e; subst e
          rcases h1 with h1 | ⟨ts, h1⟩ <;> rw [hpc] at h1 <;> cases h1
        · intro e
          rcases h1 with h1 | ⟨ts, h1⟩ <;> rw [e] at h1 <;> cases h1
        · have ho := I.ok u
          rcases h1 with h1 | ⟨ts, h1⟩ <;> rw [h1] at ho <;> rcases ho with h | h | h <;> rw [h] <;> rfl
  | stamp k' =>
    have hi : s.pc t ≠ .idle := by rw [hpc]; nofun
    have hst : ∀ v, s.pc t ≠ .time k v ∧ ∀ ts, s.pc t ≠ .write k v ts := by rw [hpc]; exact fun _ => ⟨nofun, fun _ => nofun⟩
    rw [hpc] at hc
    simp only [go, hpc]
    cases hs : s.ts k' with
    | none =>
      refine S.ends I (t := t) (r := .keyError) hi rfl rfl rfl (.inr (.inl rfl)) (one_other S rfl rfl rfl hst) (fun h _ => ?_)
      rw [show s.now t = .get k' from hc] at h; cases h
      rcases S.look t hpc with h | h
      · exact absurd hs h
      · exact .inr h
    | some ts => exact S.quiet I (t := t) (p := .clock k' ts) hi rfl rfl rfl rfl (.inl hst) nofun nofun (fun h => by cases h; exact S.data t (by rw [hpc]; rfl))
  | clock k' ts =>
    have hi : s.pc t ≠ .idle := by rw [hpc]; nofun
    have hst : ∀ v, s.pc t ≠ .time k v ∧ ∀ ts, s.pc t ≠ .write k v ts := by rw [hpc]; exact fun _ => ⟨nofun, fun _ => nofun⟩
    simp only [go, hpc]
    by_cases hd : s.clock - ts > expiration
    · rw [if_pos hd]; exact S.quiet I (t := t) (p := .wait k') hi rfl rfl rfl rfl (.inl hst) nofun nofun (fun h => h.elim)
    · rw [if_neg hd]; exact S.quiet I (t := t) (p := .read k') hi rfl rfl rfl rfl (.inl hst) nofun nofun (fun h => by cases h; exact S.data t (by rw [hpc]; rfl))
  | read k' =>
    have hi : s.pc t ≠ .idle := by rw [hpc]; nofun
    have hst : ∀ v, s.pc t ≠ .time k v ∧ ∀ ts, s.pc t ≠ .write k v ts := by rw [hpc]; exact fun _ => ⟨nofun, fun _ => nofun⟩
    rw [hpc] at hc
    simp only [go, hpc]
    cases hs : s.data k' with
    | none =>
      refine S.ends I (t := t) (r := .keyError) hi rfl rfl rfl (.inr (.inl rfl)) (one_other S rfl rfl rfl hst) (fun h _ => ?_)
      rw [show s.now t = .get k' from hc] at h; cases h
      rcases S.data t (by rw [hpc]; rfl) with h | h
      · exact absurd hs h
      · exact .inr h
    | some v => exact S.ends I (t := t) (r := .val v) hi rfl rfl rfl (.inr (.inl rfl)) (one_other S rfl rfl rfl hst) (fun _ h => by cases h)
  | put k' v =>
    have hi : s.pc t ≠ .idle := by rw [hpc]; nofun
    have hst : ∀ v, s.pc t ≠ .time k v ∧ ∀ ts, s.pc t ≠ .write k v ts := by rw [hpc]; exact fun _ => ⟨nofun, fun _ => nofun⟩
    rw [hpc] at hc hl
    simp only [go, hpc]
    by_cases e : k' = k
    · subst e
      have hg := gives_of_last hc (hl _ rfl)
      have h1 : Storing (St.at_ { s with data := upd s.data k' (some v) } t (.time k' v)) k' := ⟨t, v, .inl (by simp only [St.at_, upd_same])⟩
      have h2 : (St.at_ { s with data := upd s.data k' (some v) } t (.time k' v)).data k' ≠ none := by simp only [St.at_, upd_same]; nofun
      exact S.move I (t := t) (p := .time k' v) (es := []) (.inl hi) rfl (by simp [St.at_]) (fun _ h => by cases h) (.inr (.inr h1)) (fun u _ hu _ => absurd (removes_of_pc I hu) (hS t u v hg)) nofun (.inl h2) (.inr (.inl rfl)) nofun
        (fun h => h.elim) (fun _ post _ h => .inl ⟨post, h⟩)
    · exact S.quiet I (t := t) (p := .time k' v) hi rfl rfl (by simp only [St.at_]; rw [upd_other _ _ (Ne.symm e)]) rfl (.inl hst) nofun nofun (fun h => h.elim)
  | time k' v =>
    have hi : s.pc t ≠ .idle := by rw [hpc]; nofun
    simp only [go, hpc]
    refine S.quiet I (t := t) (p := .write k' v s.clock) hi rfl rfl rfl rfl ?_ nofun nofun (fun h => h.elim)
    by_cases e : k' = k
    · subst e; exact .inr ⟨t, v, .inr ⟨s.clock, by simp only [St.at_, upd_same]⟩⟩
    · refine .inl fun v' => ?_
      rw [hpc]; exact ⟨fun h => by cases h; exact e rfl, fun _ => nofun⟩
  | write k' v ts =>
    have hi : s.pc t ≠ .idle := by rw [hpc]; nofun
    simp only [go, hpc]
    by_cases e : k' = k
    · subst e
      have h2 : ({ s with ts := upd s.ts k' (some ts) }.finish t (stored v (s.now t))).ts k' ≠ none := by simp only [St.finish, upd_same]; nofun
      exact S.ends I (t := t) (r := stored v (s.now t)) hi rfl rfl rfl (.inl h2) (.inl h2) (fun h h' => by rw [h] at h'; cases h')
    · have ht : ({ s with ts := upd s.ts k' (some ts) }.finish t (stored v (s.now t))).ts k = s.ts k := by simp only [St.finish]; rw [upd_other _ _ (Ne.symm e)]
      refine S.ends I (t := t) (r := stored v (s.now t)) hi rfl rfl rfl (.inr (.inl ht)) (one_other S rfl rfl ht fun v' => ?_) (fun h h' => by rw [h] at h'; cases h')
      rw [hpc]; exact ⟨nofun, fun _ h => by cases h; exact e rfl⟩
  | dropData k' =>
    have hi : s.pc t ≠ .idle := by rw [hpc]; nofun
    have hst : ∀ v, s.pc t ≠ .time k v ∧ ∀ ts, s.pc t ≠ .write k v ts := by rw [hpc]; exact fun _ => ⟨nofun, fun _ => nofun⟩
    rw [hpc] at hc hl
    simp only [go, hpc]
    cases hs : s.data k' with
    | none =>
      refine S.ends I (t := t) (r := removed false (s.now t)) hi rfl rfl rfl (.inr (.inl rfl)) (one_other S rfl rfl rfl hst) (fun h _ => ?_)
      rw [h] at hc hl
      rcases hc with hc | hc | hc | hc <;> cases hc
      exact .inl (hl _ rfl)
    | some v =>
      by_cases e : k' = k
      · subst e
        have h2 : (St.at_ { s with data := upd s.data k' none } t (.dropTs k')).data k' = none := by simp only [St.at_, upd_same]
        have hk : (s.now t).key = k' := by rcases hc with hc | hc | hc | hc <;> rw [hc] <;> rfl
        exact S.move I (t := t) (p := .dropTs k') (es := []) (.inl hi) rfl (by simp [St.at_]) (fun _ h => by cases h) (.inr (.inl h2)) (fun _ _ _ _ => h2) (fun _ => h2) (.inr (.inr hk)) (.inr (.inl rfl)) nofun
          (fun h => h.elim) (fun _ post _ h => .inl ⟨post, h⟩)
      · exact S.quiet I (t := t) (p := .dropTs k') hi rfl rfl (by simp only [St.at_]; rw [upd_other _ _ (Ne.symm e)]) rfl (.inl hst) (fun h => by cases h; exact e rfl) nofun (fun h => h.elim)
  | dropTs k' =>
    have hi : s.pc t ≠ .idle := by rw [hpc]; nofun
    have hst : ∀ v, s.pc t ≠ .time k v ∧ ∀ ts, s.pc t ≠ .write k v ts := by rw [hpc]; exact fun _ => ⟨nofun, fun _ => nofun⟩
    rw [hpc] at hc hl
    have hev : s.now t = .get k → LastOf s.log t (.got t k none) := by
      intro h
      rw [h] at hc hl
      rcases hc with hc | hc | hc | hc <;> cases hc
      exact hl _ rfl
    simp only [go, hpc]
    cases hs : s.ts k' with
    | none => exact S.ends I (t := t) (r := removed false (s.now t)) hi rfl rfl rfl (.inr (.inl rfl)) (one_other S rfl rfl rfl hst) (fun h _ => .inl (hev h))
    | some v =>
      by_cases e : k' = k
      · subst e
        have hk : (s.now t).key = k' := by rcases hc with hc | hc | hc | hc <;> rw [hc] <;> rfl
        exact S.ends I (t := t) (r := removed true (s.now t)) hi rfl rfl rfl (.inr (.inr hk)) (.inr (.inl (S.drop t hpc))) (fun h _ => .inl (hev h))
      · have ht : ({ s with ts := upd s.ts k' none }.finish t (removed true (s.now t))).ts k = s.ts k := by simp only [St.finish]; rw [upd_other _ _ (Ne.symm e)]
        exact S.ends I (t := t) (r := removed true (s.now t)) hi rfl rfl rfl (.inr (.inl ht)) (one_other S rfl rfl ht hst) (fun h _ => .inl (hev h))

theorem sep_step {expiration : Int} {s : St} (I : Inv s) {k : Nat} (hS : ∀ u w v, Gives s.log u k v → ¬ Removes s.log w k) (S : Sep k s) (a : Act) : Sep k (step expiration s a) := by
  cases a with
  | call t c =>
    unfold step
    dsimp only
    split
    · rename_i h
      refine sep_say I S (t := t) (p := entry c) (e := .began t c) rfl rfl nofun rfl rfl (by rw [h]; exact fun _ => ⟨nofun, fun _ => nofun⟩) ?_ ?_ ?_ <;> cases c <;> first | nofun | exact id
    · exact S
  | answer t o =>
    cases hpc : s.pc t with
    | wait k' =>
      simp only [step, hpc]
      refine sep_say I S (t := t) (p := match o with | some v => .put k' v | none => .dropData k') (e := .got t k' o) rfl rfl nofun rfl rfl (by rw [hpc]; exact fun _ => ⟨nofun, fun _ => nofun⟩) ?_ ?_ ?_ <;>
        cases o <;> first | nofun | exact id
    | _ => simpa only [step, hpc] using S
  | go t => exact sep_go I hS S t
  | tick d => exact ⟨S.one, S.drop, S.look, S.data, S.evs⟩

theorem sep_run (expiration : Int) (as : List Act) (k : Nat) (hS : Separate (run expiration as).log k) : Sep k (run expiration as) := by
  induction as using snoc_ind with
  | h0 => exact sep_init k
  | h1 as a ih =>
    rw [run_snoc] at hS ⊢
    obtain ⟨es, he⟩ := log_grows expiration (run expiration as) a
    rw [he] at hS
    have hS' : Separate (run expiration as).log k := fun p q h => hS p (q ++ es) (by rw [h]; simp)
    exact sep_step (inv_run expiration as) (hS' _ [] (by simp)) (ih hS') a

/-- **C277 removals apart from storing.** Guard: calls that are to remove the key and calls that have a value to store for it are never underway at once.  Then a lookup raises KeyError only if the value getter told it so, or it met a call of another
thread for the same key; keys may be deleted, invalidated, fail and come back.  The guard is needed: see `C277_spoilt_violates`. -/
theorem C277_separate_partial (expiration : Int) (as : List Act) (k : Nat) (hS : Separate (run expiration as).log k) (pre post : List Ev) (t : Nat)
    (h : (run expiration as).log = pre ++ .ended t (.get k) .keyError :: post) : LastOf pre t (.got t k none) ∨ Met pre t k :=
  (sep_run expiration as k hS).evs pre post t h

/-- the guard holds: a value is assigned, then looked up while it is deleted; the lookup raises -/
example : let as : List Act := [.call 1 (.set 7 5), .go 1, .go 1, .go 1, .call 2 (.get 7), .go 2, .call 1 (.del 7), .go 1, .go 1, .go 2]
    (run 60 as).log = [.began 1 (.set 7 5), .ended 1 (.set 7 5) .unit, .began 2 (.get 7), .began 1 (.del 7), .ended 1 (.del 7) .unit, .ended 2 (.get 7) .keyError] ∧ Separate (run 60 as).log 7 := by
  have e : (run 60 [.call 1 (.set 7 5), .go 1, .go 1, .go 1, .call 2 (.get 7), .go 2, .call 1 (.del 7), .go 1, .go 1, .go 2]).log =
    [.began 1 (.set 7 5), .ended 1 (.set 7 5) .unit, .began 2 (.get 7), .began 1 (.del 7), .ended 1 (.del 7) .unit, .ended 2 (.get 7) .keyError] := by decide +kernel
  refine ⟨e, ?_⟩
  show Separate (run 60 [.call 1 (.set 7 5), .go 1, .go 1, .go 1, .call 2 (.get 7), .go 2, .call 1 (.del 7), .go 1, .go 1, .go 2]).log 7
  rw [e]
  intro p q h u w v hg hr
  have mem : ∀ x ∈ p, x ∈ [Ev.began 1 (.set 7 5), .ended 1 (.set 7 5) .unit, .began 2 (.get 7), .began 1 (.del 7), .ended 1 (.del 7) .unit, .ended 2 (.get 7) .keyError] :=
    fun x hx => by rw [h]; exact List.mem_append_left q hx
  rcases hg with hg | hg
  · have := mem _ (lastOf_mem hg); simp at this
  · have h1 := mem _ (lastOf_mem hg)
    simp at h1
    rcases hr with hr | hr | hr
    · have := mem _ (lastOf_mem hr); simp at this
    · have := mem _ (lastOf_mem hr); simp at this
    · have h2 := mem _ (lastOf_mem hr)
      simp at h2
      rw [h1.1] at hg
      rw [h2] at hr
      cases lastOf_eq hg hr

/-! ### Values that are too old -/

/-- the value is stored by a call that is underway, or was by one that ended at this time or later -/
def Fresh (log : List Ev) (times : List Int) (clock : Int) (k v : Nat) (x : Int) : Prop :=
  (x ≤ clock ∧ ∃ u, Gives log u k v) ∨ ∃ a u c r b y, log = a ++ .ended u c r :: b ∧ Gives a u k v ∧ times[a.length]? = some y ∧ x ≤ y

/-- the lookup of the key by the thread, which is underway and has not asked, began at this time -/
def Start (log : List Ev) (times : List Int) (t k : Nat) (c0 : Int) : Prop :=
  ∃ a b, log = a ++ .began t (.get k) :: b ∧ (∀ e ∈ b, e.thread ≠ t) ∧ times[a.length]? = some c0

/-- what holds while calls that store values for a key are apart -/
structure Fr (E : Int) (k : Nat) (s : St) : Prop where
  len : s.times.length = s.log.length
  all : ∀ x ∈ s.times, x ≤ s.clock
  idle : ∀ t e, s.pc t = .idle → LastOf s.log t e → ∃ c r, e = .ended t c r
  ts : ∀ x, s.ts k = some x → x ≤ s.clock
  pts : ∀ t x, (s.pc t = .clock k x ∨ ∃ v, s.pc t = .write k v x) → x ≤ s.clock
  mem : ∀ v x, s.data k = some v → s.ts k = some x → Fresh s.log s.times s.clock k v x
  own : ∀ u v v', (s.pc u = .time k v ∨ ∃ x, s.pc u = .write k v x) → s.data k = some v' → v' = v
  clk : ∀ t v x, s.pc t = .clock k x → s.data k = some v → Fresh s.log s.times s.clock k v x
  rd : ∀ t, s.pc t = .read k → ∃ x, x ≤ s.clock ∧ (∀ v, s.data k = some v → Fresh s.log s.times s.clock k v x) ∧ ∀ c0, Start s.log s.times t k c0 → c0 ≤ x + E
  evs : ∀ pre post t v c0, s.log = pre ++ .ended t (.get k) (.val v) :: post → Start pre s.times t k c0 →
    (∃ u, Gives pre u k v) ∨ ∃ a u c r b y, pre = a ++ .ended u c r :: b ∧ Gives a u k v ∧ s.times[a.length]? = some y ∧ c0 ≤ y + E

theorem fr_init (E : Int) (k : Nat) : Fr E k {} where
  len := rfl
  all := fun _ h => by cases h
  idle := fun t e _ h => by have := lastOf_mem h; cases this
  ts := fun _ h => by cases h
  pts := fun t x h => by rcases h with h | ⟨v, h⟩ <;> cases h
  mem := fun _ _ h => by cases h
  own := fun _ _ _ _ h => by cases h
  clk := fun _ _ _ h => by cases h
  rd := fun _ h => by cases h
  evs := fun pre post t v c0 h => by cases pre <;> cases h

theorem gives_snoc {log : List Ev} {u k v : Nat} {e : Ev} (h : Gives log u k v) (he : e.thread ≠ u) : Gives (log ++ [e]) u k v :=
  h.imp (fun h => lastOf_snoc h he) (fun h => lastOf_snoc h he)

theorem time_left {l : List Int} {n : Nat} {x y : Int} (h : l[n]? = some x) : (l ++ [y])[n]? = some x := by
  obtain ⟨hn, _⟩ := List.getElem?_eq_some_iff.1 h
  rw [List.getElem?_append_left hn]; exact h

theorem time_back {l : List Int} {n : Nat} {x y : Int} (hn : n < l.length) (h : (l ++ [y])[n]? = some x) : l[n]? = some x := by
  rw [List.getElem?_append_left hn] at h; exact h

theorem fresh_snoc {log : List Ev} {times : List Int} {clock : Int} {k v : Nat} {x : Int} {e : Ev} (hlen : times.length = log.length) (h : Fresh log times clock k v x)
    (he : Gives log e.thread k v → ∃ c r, e = .ended e.thread c r) : Fresh (log ++ [e]) (times ++ [clock]) clock k v x := by
  rcases h with ⟨h1, u, h2⟩ | ⟨a, u, c, r, b, y, h1, h2, h3, h4⟩
  · by_cases hu : e.thread = u
    · obtain ⟨c, r, h⟩ := he (hu ▸ h2)
      refine .inr ⟨log, u, c, r, [], clock, by rw [h, hu], h2, ?_, h1⟩
      rw [← hlen]; simp
    · exact .inl ⟨h1, u, gives_snoc h2 hu⟩
  · exact .inr ⟨a, u, c, r, b ++ [e], y, by rw [h1]; simp, h2, time_left h3, h4⟩

theorem start_back {log : List Ev} {times : List Int} {clock : Int} {t k : Nat} {c0 : Int} {e : Ev} (hlen : times.length = log.length) (he : e ≠ .began t (.get k))
    (h : Start (log ++ [e]) (times ++ [clock]) t k c0) : Start log times t k c0 := by
  obtain ⟨a, b, h1, h2, h3⟩ := h
  rcases snoc_split h1 with ⟨_, h, _⟩ | ⟨b', h⟩
  · exact absurd h he
  · refine ⟨a, b', h, ?_, time_back (by rw [hlen, h]; simp) h3⟩
    intro x hx
    refine h2 x ?_
    rw [h] at h1
    simp at h1
    rw [← h1]; simp [hx]

/-- the events up to now are those they were -/
theorem start_pre {log pre : List Ev} {times : List Int} {clock : Int} {t k : Nat} {c0 : Int} {x : Ev} {post : List Ev} (hlen : times.length = log.length) (hl : log = pre ++ x :: post)
    (h : Start pre (times ++ [clock]) t k c0) : Start pre times t k c0 := by
  obtain ⟨a, b, h1, h2, h3⟩ := h
  exact ⟨a, b, h1, h2, time_back (by rw [hlen, hl, h1]; simp) h3⟩

/-- a thread goes on without a word -/
theorem Fr.quiet {E : Int} {k : Nat} {s s' : St} {t : Nat} {p : Pc} (F : Fr E k s) (hpc : s'.pc = upd s.pc t p) (hlog : s'.log = s.log) (htimes : s'.times = s.times) (hclock : s'.clock = s.clock)
    (hts : s'.ts k = s.ts k) (hp : p ≠ .idle)
    (hd : ∀ v, s'.data k = some v → s.data k = some v ∨ (Gives s.log t k v ∧ ∀ u v', u ≠ t → ¬ (s.pc u = .time k v' ∨ ∃ x, s.pc u = .write k v' x)))
    (hpt : ∀ x, (p = .clock k x ∨ ∃ v, p = .write k v x) → x ≤ s.clock)
    (hown : ∀ v v', (p = .time k v ∨ ∃ x, p = .write k v x) → s'.data k = some v' → v' = v)
    (hclk : ∀ v x, p = .clock k x → s.data k = some v → Fresh s.log s.times s.clock k v x)
    (hrd : p = .read k → ∃ x, x ≤ s.clock ∧ (∀ v, s.data k = some v → Fresh s.log s.times s.clock k v x) ∧ ∀ c0, Start s.log s.times t k c0 → c0 ≤ x + E) : Fr E k s' where
  len := by rw [hlog, htimes]; exact F.len
  all := by rw [htimes, hclock]; exact F.all
  idle := by
    intro u e hu
    rw [hlog]
    by_cases h : u = t
    · subst h; rw [hpc, upd_same] at hu; exact absurd hu hp
    · rw [hpc, upd_other _ _ h] at hu; exact F.idle u e hu
  ts := by rw [hts, hclock]; exact F.ts
  pts := by
    intro u x hu
    rw [hclock]
    by_cases h : u = t
    · subst h; rw [hpc, upd_same] at hu; exact hpt x hu
    · rw [hpc, upd_other _ _ h] at hu; exact F.pts u x hu
  mem := by
    intro v x hv hx
    rw [hlog, htimes, hclock]
    rw [hts] at hx
    rcases hd v hv with h | h
    · exact F.mem v x h hx
    · exact .inl ⟨F.ts x hx, t, h.1⟩
  own := by
    intro u v v' hu hv
    by_cases h : u = t
    · subst h; rw [hpc, upd_same] at hu; exact hown v v' hu hv
    · rw [hpc, upd_other _ _ h] at hu
      rcases hd v' hv with h' | h'
      · exact F.own u v v' hu h'
      · exact absurd hu (h'.2 u v h)
  clk := by
    intro u v x hu hv
    rw [hlog, htimes, hclock]
    have hx : x ≤ s.clock := by
      by_cases h : u = t
      · subst h; rw [hpc, upd_same] at hu; exact hpt x (.inl hu)
      · rw [hpc, upd_other _ _ h] at hu; exact F.pts u x (.inl hu)
    rcases hd v hv with h' | h'
    · by_cases h : u = t
      · subst h; rw [hpc, upd_same] at hu; exact hclk v x hu h'
      · rw [hpc, upd_other _ _ h] at hu; exact F.clk u v x hu h'
    · exact .inl ⟨hx, t, h'.1⟩
  rd := by
    intro u hu
    rw [hlog, htimes, hclock]
    have hx : ∃ x, x ≤ s.clock ∧ (∀ v, s.data k = some v → Fresh s.log s.times s.clock k v x) ∧ ∀ c0, Start s.log s.times u k c0 → c0 ≤ x + E := by
      by_cases h : u = t
      · subst h; rw [hpc, upd_same] at hu; exact hrd hu
      · rw [hpc, upd_other _ _ h] at hu; exact F.rd u hu
    obtain ⟨x, h1, h2, h3⟩ := hx
    refine ⟨x, h1, fun v hv => ?_, h3⟩
    rcases hd v hv with h' | h'
    · exact h2 v h'
    · exact .inl ⟨h1, t, h'.1⟩
  evs := by rw [hlog, htimes]; exact F.evs

/-- something is seen of a thread -/
theorem Fr.say {E : Int} {k : Nat} {s s' : St} {t : Nat} {p : Pc} {e : Ev} (F : Fr E k s) (hpc : s'.pc = upd s.pc t p) (hlog : s'.log = s.log ++ [e]) (htimes : s'.times = s.times ++ [s.clock]) (hclock : s'.clock = s.clock)
    (het : e.thread = t) (hge : ∀ v, Gives s.log t k v → ∃ c r, e = .ended t c r) (hidle : p = .idle → ∃ c r, e = .ended t c r)
    (hd : s'.data k = s.data k) (hts : s'.ts k = s.ts k ∨ s'.ts k = none ∨ ∃ x v c r, s'.ts k = some x ∧ x ≤ s.clock ∧ Gives s.log t k v ∧ e = .ended t c r ∧ ∀ v', s.data k = some v' → v' = v)
    (hp : (∀ x, p ≠ .clock k x) ∧ (∀ v x, p ≠ .write k v x) ∧ (∀ v, p ≠ .time k v) ∧ p ≠ .read k)
    (hev : ∀ v c0, e = .ended t (.get k) (.val v) → Start s.log s.times t k c0 → ∃ x, Fresh s.log s.times s.clock k v x ∧ c0 ≤ x + E) : Fr E k s' := by
  have hfr : ∀ v x, Fresh s.log s.times s.clock k v x → Fresh (s.log ++ [e]) (s.times ++ [s.clock]) s.clock k v x := by
    intro v x h
    refine fresh_snoc F.len h (fun hg => ?_)
    rw [het] at hg ⊢
    exact hge v hg
  constructor
  · rw [hlog, htimes]; simp [F.len]
  · rw [htimes, hclock]
    intro x hx
    rcases List.mem_append.1 hx with h | h
    · exact F.all x h
    · rw [List.mem_singleton.1 h]; exact Int.le_refl _
  · intro u e' hu hl
    rw [hlog] at hl
    by_cases h : u = t
    · subst h
      rw [hpc, upd_same] at hu
      obtain ⟨c, r, he⟩ := hidle hu
      have : LastOf (s.log ++ [e]) u e := ⟨het, s.log, [], rfl, nofun⟩
      exact ⟨c, r, (lastOf_eq hl this).trans he⟩
    · rw [hpc, upd_other _ _ h] at hu
      obtain ⟨h1, a, b, h2, h3⟩ := hl
      rcases snoc_split h2 with ⟨_, h4, _⟩ | ⟨b', h4⟩
      · rw [h4, h1] at het; exact absurd het h
      · refine F.idle u e' hu ⟨h1, a, b', h4, ?_⟩
        intro x hx
        refine h3 x ?_
        rw [h4] at h2
        simp at h2
        rw [← h2]; simp [hx]
  · intro x hx
    rw [hclock]
    rcases hts with h | h | ⟨y, v, c, r, h, h1, _⟩
    · exact F.ts x (h ▸ hx)
    · rw [h] at hx; cases hx
    · rw [h] at hx; cases hx; exact h1
  · intro u x hu
    rw [hclock]
    by_cases h : u = t
    · subst h
      rw [hpc, upd_same] at hu
      rcases hu with hu | ⟨v, hu⟩
      · exact absurd hu (hp.1 x)
      · exact absurd hu (hp.2.1 v x)
    · rw [hpc, upd_other _ _ h] at hu; exact F.pts u x hu
  · intro v x hv hx
    rw [hlog, htimes, hclock]
    rw [hd] at hv
    rcases hts with h | h | ⟨y, v', c, r, h, h1, h2, h3, h4⟩
    · exact hfr v x (F.mem v x hv (h ▸ hx))
    · rw [h] at hx; cases hx
    · rw [h] at hx; cases hx
      rw [h4 v hv]
      refine .inr ⟨s.log, t, c, r, [], s.clock, by rw [h3], h2, ?_, h1⟩
      rw [← F.len]; simp
  · intro u v v' hu hv
    rw [hd] at hv
    by_cases h : u = t
    · subst h
      rw [hpc, upd_same] at hu
      rcases hu with hu | ⟨x, hu⟩
      · exact absurd hu (hp.2.2.1 v)
      · exact absurd hu (hp.2.1 v x)
    · rw [hpc, upd_other _ _ h] at hu; exact F.own u v v' hu hv
  · intro u v x hu hv
    rw [hlog, htimes, hclock]
    rw [hd] at hv
    by_cases h : u = t
    · subst h; rw [hpc, upd_same] at hu; exact absurd hu (hp.1 x)
    · rw [hpc, upd_other _ _ h] at hu; exact hfr v x (F.clk u v x hu hv)
  · intro u hu
    rw [hlog, htimes, hclock]
    by_cases h : u = t
    · subst h; rw [hpc, upd_same] at hu; exact absurd hu hp.2.2.2
    · rw [hpc, upd_other _ _ h] at hu
      obtain ⟨x, h1, h2, h3⟩ := F.rd u hu
      refine ⟨x, h1, fun v hv => hfr v x (h2 v (hd ▸ hv)), fun c0 hs => h3 c0 (start_back F.len ?_ hs)⟩
      intro he
      rw [he] at het
      exact h het
  · intro pre post u v c0 h hs
    rw [hlog] at h
    rw [htimes] at hs
    rcases snoc_split h with ⟨rfl, h, _⟩ | ⟨post', h⟩
    · have hu : u = t := by rw [h] at het; exact het
      subst hu
      have hs' : Start s.log s.times u k c0 := by
        obtain ⟨a, b, h1, h2, h3⟩ := hs
        exact ⟨a, b, h1, h2, time_back (by rw [F.len, h1]; simp) h3⟩
      obtain ⟨x, hx, hc⟩ := hev v c0 h hs'
      rcases hx with ⟨_, w, hw⟩ | ⟨a, w, c, r, b, y, h1, h2, h3, h4⟩
      · exact .inl ⟨w, hw⟩
      · exact .inr ⟨a, w, c, r, b, y, h1, h2, by rw [htimes]; exact time_left h3, by omega⟩
    · rcases F.evs pre post' u v c0 h (start_pre F.len h hs) with h' | ⟨a, w, c, r, b, y, h1, h2, h3, h4⟩
      · exact .inl h'
      · exact .inr ⟨a, w, c, r, b, y, h1, h2, by rw [htimes]; exact time_left h3, h4⟩

theorem gives_storing {s : St} (I : Inv s) {u k v : Nat} (h : s.pc u = .time k v ∨ ∃ x, s.pc u = .write k v x) : Gives s.log u k v := by
  have hc := I.ok u
  have hl := I.last u
  rcases h with h | ⟨x, h⟩ <;> rw [h] at hc hl <;> exact gives_of_last hc (hl _ rfl)

theorem not_gives {log : List Ev} {t k v : Nat} {e : Ev} (hl : LastOf log t e) (h1 : ∀ k v, e ≠ .got t k (some v)) (h2 : ∀ k v, e ≠ .began t (.set k v)) : ¬ Gives log t k v := by
  rintro (h | h)
  · exact h1 k v (lastOf_eq hl h)
  · exact h2 k v (lastOf_eq hl h)

theorem fr_go {E : Int} {s : St} (I : Inv s) {k : Nat} (hA : ∀ u w v v', Gives s.log u k v → Gives s.log w k v' → u = w) (F : Fr E k s) (t : Nat) : Fr E k (go E s t) := by
  have hc := I.ok t
  have hl := I.last t
  cases hpc : s.pc t with
  | idle => simpa only [go, hpc] using F
  | wait k => simpa only [go, hpc] using F
  | look k' =>
    simp only [go, hpc]
    by_cases hd : s.data k' = none
    · rw [if_pos hd]
      exact F.quiet (t := t) (p := .wait k') rfl rfl rfl rfl rfl nofun (fun _ h => .inl h) (fun x h => by rcases h with h | ⟨v, h⟩ <;> cases h) (fun _ _ h => by rcases h with h | ⟨v, h⟩ <;> cases h) (fun _ _ h => by cases h) (fun h => by cases h)
    · rw [if_neg hd]
      exact F.quiet (t := t) (p := .stamp k') rfl rfl rfl rfl rfl nofun (fun _ h => .inl h) (fun x h => by rcases h with h | ⟨v, h⟩ <;> cases h) (fun _ _ h => by rcases h with h | ⟨v, h⟩ <;> cases h) (fun _ _ h => by cases h) (fun h => by cases h)
  | stamp k' =>
    rw [hpc] at hl
    simp only [go, hpc]
    cases hs : s.ts k' with
    | none =>
      exact F.say (t := t) (p := .idle) (e := .ended t (s.now t) .keyError) rfl rfl rfl rfl rfl (fun _ _ => ⟨_, _, rfl⟩) (fun _ => ⟨_, _, rfl⟩) rfl (.inl rfl) ⟨nofun, nofun, nofun, nofun⟩ (fun v c0 h => by rw [Ev.ended.injEq] at h; cases h.2.2)
    | some x =>
      refine F.quiet (t := t) (p := .clock k' x) rfl rfl rfl rfl rfl nofun (fun _ h => .inl h) (fun y h => ?_) (fun _ _ h => by rcases h with h | ⟨v, h⟩ <;> cases h) (fun v y h hv => ?_) (fun h => by cases h)
      · rcases h with h | ⟨v, h⟩ <;> cases h
        exact F.ts _ hs
      · cases h; exact F.mem v _ hv hs
  | clock k' x =>
    simp only [go, hpc]
    by_cases hd : s.clock - x > E
    · rw [if_pos hd]
      exact F.quiet (t := t) (p := .wait k') rfl rfl rfl rfl rfl nofun (fun _ h => .inl h) (fun x h => by rcases h with h | ⟨v, h⟩ <;> cases h) (fun _ _ h => by rcases h with h | ⟨v, h⟩ <;> cases h) (fun _ _ h => by cases h) (fun h => by cases h)
    · rw [if_neg hd]
      refine F.quiet (t := t) (p := .read k') rfl rfl rfl rfl rfl nofun (fun _ h => .inl h) (fun x h => by rcases h with h | ⟨v, h⟩ <;> cases h) (fun _ _ h => by rcases h with h | ⟨v, h⟩ <;> cases h) (fun _ _ h => by cases h) (fun h => ?_)
      cases h
      refine ⟨x, F.pts t x (.inl hpc), fun v hv => F.clk t v x hpc hv, fun c0 hs => ?_⟩
      obtain ⟨a, b, _, _, h3⟩ := hs
      have := F.all c0 (List.mem_of_getElem? h3)
      omega
  | read k' =>
    rw [hpc] at hc
    simp only [go, hpc]
    cases hs : s.data k' with
    | none =>
      exact F.say (t := t) (p := .idle) (e := .ended t (s.now t) .keyError) rfl rfl rfl rfl rfl (fun _ _ => ⟨_, _, rfl⟩) (fun _ => ⟨_, _, rfl⟩) rfl (.inl rfl) ⟨nofun, nofun, nofun, nofun⟩ (fun v c0 h => by rw [Ev.ended.injEq] at h; cases h.2.2)
    | some w =>
      refine F.say (t := t) (p := .idle) (e := .ended t (s.now t) (.val w)) rfl rfl rfl rfl rfl (fun _ _ => ⟨_, _, rfl⟩) (fun _ => ⟨_, _, rfl⟩) rfl (.inl rfl) ⟨nofun, nofun, nofun, nofun⟩ (fun v c0 h hst => ?_)
      rw [Ev.ended.injEq, hc] at h
      obtain ⟨_, h1, h2⟩ := h
      cases h1; cases h2
      obtain ⟨x, _, h2, h3⟩ := F.rd t hpc
      exact ⟨x, h2 _ hs, h3 c0 hst⟩
  | put k' v =>
    rw [hpc] at hc hl
    have hg := gives_of_last hc (hl _ rfl)
    simp only [go, hpc]
    refine F.quiet (t := t) (p := .time k' v) rfl rfl rfl rfl rfl nofun (fun w h => ?_) (fun x h => by rcases h with h | ⟨v, h⟩ <;> cases h) (fun w w' h h' => ?_) (fun _ _ h => by cases h) (fun h => by cases h)
    · simp only [St.at_] at h
      by_cases e : k = k'
      · subst e
        rw [upd_same] at h; cases h
        exact .inr ⟨hg, fun u v' hu hh => hu (hA u t v' v (gives_storing I hh) hg)⟩
      · rw [upd_other _ _ e] at h; exact .inl h
    · simp only [St.at_] at h'
      rcases h with h | ⟨x, h⟩
      · rw [Pc.time.injEq] at h
        obtain ⟨rfl, rfl⟩ := h
        rw [upd_same] at h'; cases h'; rfl
      · cases h
  | time k' v =>
    simp only [go, hpc]
    refine F.quiet (t := t) (p := .write k' v s.clock) rfl rfl rfl rfl rfl nofun (fun _ h => .inl h) (fun x h => ?_) (fun w w' h h' => ?_) (fun _ _ h => by cases h) (fun h => by cases h)
    · rcases h with h | ⟨v, h⟩ <;> cases h
      exact Int.le_refl _
    · rcases h with h | ⟨x, h⟩
      · cases h
      · rw [Pc.write.injEq] at h
        obtain ⟨rfl, rfl, _⟩ := h
        exact F.own t v w' (.inl hpc) h'
  | write k' v x =>
    have hg := gives_storing I (.inr ⟨x, hpc⟩)
    rw [hpc] at hc hl
    simp only [go, hpc]
    refine F.say (t := t) (p := .idle) (e := .ended t (s.now t) (stored v (s.now t))) rfl rfl rfl rfl rfl (fun _ _ => ⟨_, _, rfl⟩) (fun _ => ⟨_, _, rfl⟩) rfl ?_ ⟨nofun, nofun, nofun, nofun⟩ (fun w c0 h hst => ?_)
    · by_cases e : k = k'
      · subst e
        exact .inr (.inr ⟨x, v, s.now t, stored v (s.now t), by simp only [St.finish, upd_same], F.pts t x (.inr ⟨v, hpc⟩), hg, rfl, fun v' hv => F.own t v v' (.inr ⟨x, hpc⟩) hv⟩)
      · exact .inl (by simp only [St.finish]; rw [upd_other _ _ e])
    · exfalso
      obtain ⟨a, b, h1, h2, _⟩ := hst
      have h3 : LastOf s.log t (.began t (.get k)) := ⟨rfl, a, b, h1, h2⟩
      rcases hg with hg | hg
      · cases lastOf_eq hg h3
      · cases lastOf_eq hg h3
  | dropData k' =>
    simp only [go, hpc]
    cases hs : s.data k' with
    | none =>
      exact F.say (t := t) (p := .idle) (e := .ended t (s.now t) (removed false (s.now t))) rfl rfl rfl rfl rfl (fun _ _ => ⟨_, _, rfl⟩) (fun _ => ⟨_, _, rfl⟩) rfl (.inl rfl) ⟨nofun, nofun, nofun, nofun⟩
        (fun v c0 h => by rw [Ev.ended.injEq] at h; obtain ⟨_, h1, h2⟩ := h; rw [h1] at h2; cases h2)
    | some w =>
      refine F.quiet (t := t) (p := .dropTs k') rfl rfl rfl rfl rfl nofun (fun w' h => ?_) (fun x h => by rcases h with h | ⟨v, h⟩ <;> cases h) (fun _ _ h => by rcases h with h | ⟨v, h⟩ <;> cases h) (fun _ _ h => by cases h) (fun h => by cases h)
      simp only [St.at_] at h
      by_cases e : k = k'
      · subst e; rw [upd_same] at h; cases h
      · rw [upd_other _ _ e] at h; exact .inl h
  | dropTs k' =>
    simp only [go, hpc]
    cases hs : s.ts k' with
    | none =>
      exact F.say (t := t) (p := .idle) (e := .ended t (s.now t) (removed false (s.now t))) rfl rfl rfl rfl rfl (fun _ _ => ⟨_, _, rfl⟩) (fun _ => ⟨_, _, rfl⟩) rfl (.inl rfl) ⟨nofun, nofun, nofun, nofun⟩
        (fun v c0 h => by rw [Ev.ended.injEq] at h; obtain ⟨_, h1, h2⟩ := h; rw [h1] at h2; cases h2)
    | some w =>
      refine F.say (t := t) (p := .idle) (e := .ended t (s.now t) (removed true (s.now t))) rfl rfl rfl rfl rfl (fun _ _ => ⟨_, _, rfl⟩) (fun _ => ⟨_, _, rfl⟩) rfl ?_ ⟨nofun, nofun, nofun, nofun⟩
        (fun v c0 h => by rw [Ev.ended.injEq] at h; obtain ⟨_, h1, h2⟩ := h; rw [h1] at h2; cases h2)
      by_cases e : k = k'
      · subst e; exact .inr (.inl (by simp only [St.finish, upd_same]))
      · exact .inl (by simp only [St.finish]; rw [upd_other _ _ e])

theorem fr_step {E : Int} {s : St} (I : Inv s) {k : Nat} (hA : ∀ u w v v', Gives s.log u k v → Gives s.log w k v' → u = w) (F : Fr E k s) (a : Act) : Fr E k (step E s a) := by
  cases a with
  | call t c =>
    unfold step
    dsimp only
    split
    · rename_i h
      refine F.say (t := t) (p := entry c) (e := .began t c) rfl rfl rfl rfl rfl (fun v hg => ?_) (fun h => by cases c <;> cases h) rfl (.inl rfl)
        ⟨by cases c <;> nofun, by cases c <;> nofun, by cases c <;> nofun, by cases c <;> nofun⟩ (fun _ _ h => by cases h)
      exfalso
      rcases hg with hg | hg <;> obtain ⟨_, _, h⟩ := F.idle t _ h hg <;> cases h
    · exact F
  | answer t o =>
    cases hpc : s.pc t with
    | wait k' =>
      have hc := I.ok t
      have hl := I.last t
      rw [hpc] at hc hl
      simp only [step, hpc]
      refine F.say (t := t) (p := match o with | some v => .put k' v | none => .dropData k') (e := .got t k' o) rfl rfl rfl rfl rfl (fun v hg => ?_) (fun h => by cases o <;> cases h) rfl (.inl rfl)
        ⟨by cases o <;> nofun, by cases o <;> nofun, by cases o <;> nofun, by cases o <;> nofun⟩ (fun _ _ h => by cases h)
      exfalso
      refine not_gives (hl _ rfl) nofun ?_ hg
      intro k v h
      rcases hc with hc | hc <;> rw [hc] at h <;> cases h
    | _ => simpa only [step, hpc] using F
  | go t => exact fr_go I hA F t
  | tick d =>
    have hle : s.clock ≤ s.clock + d := by omega
    have hf : ∀ v x, Fresh s.log s.times s.clock k v x → Fresh s.log s.times (s.clock + d) k v x := fun v x h => h.imp (fun h => ⟨by omega, h.2⟩) id
    refine ⟨F.len, fun x h => Int.le_trans (F.all x h) hle, F.idle, fun x h => Int.le_trans (F.ts x h) hle, fun t x h => Int.le_trans (F.pts t x h) hle, fun v x h h' => hf v x (F.mem v x h h'), F.own,
      fun t v x h h' => hf v x (F.clk t v x h h'), fun t h => ?_, F.evs⟩
    obtain ⟨x, h1, h2, h3⟩ := F.rd t h
    exact ⟨x, Int.le_trans h1 hle, fun v hv => hf v x (h2 v hv), h3⟩

theorem fr_run (E : Int) (as : List Act) (k : Nat) (hA : Apart (run E as).log k) : Fr E k (run E as) := by
  induction as using snoc_ind with
  | h0 => exact fr_init E k
  | h1 as a ih =>
    rw [run_snoc] at hA ⊢
    obtain ⟨es, he⟩ := log_grows E (run E as) a
    rw [he] at hA
    have hA' : Apart (run E as).log k := fun p q h => hA p (q ++ es) (by rw [h]; simp)
    exact fr_step (inv_run E as) (hA' _ [] (by simp)) (ih hA') a

/-- **C278 not too old.** Guard: no two calls that have a value to store for the key are underway at once.  Then a value returned by a lookup that did not ask the value getter was given to a call that is still underway, or that ended
no longer ago than the expiration interval, counted until the lookup began.  The full claim, without the guard, is violated: see below. -/
theorem C278_age_partial (expiration : Int) (as : List Act) (k : Nat) (hA : Apart (run expiration as).log k) (a b post : List Ev) (t v : Nat) (began : Int)
    (h : (run expiration as).log = a ++ .began t (.get k) :: b ++ .ended t (.get k) (.val v) :: post) (hb : ∀ e ∈ b, e.thread ≠ t) (ht : (run expiration as).times[a.length]? = some began) :
    (∃ u, Gives (a ++ .began t (.get k) :: b) u k v) ∨
    ∃ a' u c r b' ended, a ++ .began t (.get k) :: b = a' ++ .ended u c r :: b' ∧ Gives a' u k v ∧ (run expiration as).times[a'.length]? = some ended ∧ began ≤ ended + expiration :=
  (fr_run expiration as k hA).evs _ post t v began h ⟨a, b, rfl, hb, ht⟩

/-- every event has a time -/
theorem times_length (expiration : Int) (as : List Act) : (run expiration as).times.length = (run expiration as).log.length := by
  induction as using snoc_ind with
  | h0 => rfl
  | h1 as a ih =>
    rw [run_snoc]
    generalize run expiration as = s at ih
    cases a with
    | call t c => simp only [step]; split <;> simp [ih]
    | answer t o => cases hpc : s.pc t <;> simp [step, hpc, St.at_, ih]
    | go t =>
      simp only [step, go]
      cases hpc : s.pc t <;> dsimp only <;> (repeat' split) <;> simp [St.at_, St.finish, ih]
    | tick d => exact ih

/-- **C278 served after it expired.** Values live for 60 seconds.  A refresh stores its value, and is delayed; an assignment of 6 begins and ends meanwhile, at once; the refresh then writes the time, 100.  A lookup that begins at 150 returns 6. -/
theorem C278_expired_violates : let as : List Act := [.call 1 (.refresh 7), .answer 1 (some 5), .go 1, .call 2 (.set 7 6), .go 2, .go 2, .go 2, .tick 100, .go 1, .go 1, .tick 50, .call 3 (.get 7), .go 3, .go 3, .go 3, .go 3]
    (run 60 as).log = [.began 1 (.refresh 7), .got 1 7 (some 5), .began 2 (.set 7 6), .ended 2 (.set 7 6) .unit, .ended 1 (.refresh 7) .unit, .began 3 (.get 7), .ended 3 (.get 7) (.val 6)] ∧
    (run 60 as).times = [0, 0, 0, 0, 100, 150, 150] := by decide +kernel

/-- the guard of C278: values assigned by one thread, and looked up by another -/
example : let as : List Act := [.call 2 (.set 7 6), .go 2, .go 2, .go 2, .tick 60, .call 3 (.get 7), .go 3, .go 3, .go 3, .go 3, .tick 1, .call 3 (.get 7), .go 3, .go 3, .go 3]
    Apart (run 60 as).log 7 ∧ (run 60 as).log = [.began 2 (.set 7 6), .ended 2 (.set 7 6) .unit, .began 3 (.get 7), .ended 3 (.get 7) (.val 6), .began 3 (.get 7)] ∧ (run 60 as).times = [0, 0, 60, 60, 61] ∧
    (run 60 as).pc 3 = .wait 7 := by
  refine ⟨?_, by decide +kernel⟩
  rw [show (run 60 _).log = [Ev.began 2 (.set 7 6), .ended 2 (.set 7 6) .unit, .began 3 (.get 7), .ended 3 (.get 7) (.val 6), .began 3 (.get 7)] by decide +kernel]
  have key : ∀ p q, [Ev.began 2 (.set 7 6), .ended 2 (.set 7 6) .unit, .began 3 (.get 7), .ended 3 (.get 7) (.val 6), .began 3 (.get 7)] = p ++ q → ∀ u v, Gives p u 7 v → u = 2 := by
    intro p q h u v hg
    rcases hg with hg | hg
    · have := List.mem_append_left q (lastOf_mem hg)
      rw [← h] at this
      simp at this
    · have := List.mem_append_left q (lastOf_mem hg)
      rw [← h] at this
      simp at this
      exact this.1
  intro p q h u w v v' h1 h2
  rw [key p q h u v h1, key p q h w v' h2]

/-- a lookup in memory, one that fetches what is too old, an assignment in between; and a lookup of a key the value getter has not -/
example : (run 60 [.call 1 (.get 7), .go 1, .answer 1 (some 5), .go 1, .go 1, .go 1, .tick 60, .call 2 (.get 7), .go 2, .go 2, .go 2, .call 1 (.set 7 6), .go 1, .go 2, .go 1, .go 1,
      .tick 61, .call 2 (.get 7), .go 2, .go 2, .go 2, .answer 2 (some 8), .call 3 (.get 9), .go 3, .answer 3 none, .go 3]).log =
    [.began 1 (.get 7), .got 1 7 (some 5), .ended 1 (.get 7) (.val 5), .began 2 (.get 7), .began 1 (.set 7 6), .ended 2 (.get 7) (.val 6), .ended 1 (.set 7 6) .unit, .began 2 (.get 7), .got 2 7 (some 8),
      .began 3 (.get 9), .got 3 9 none, .ended 3 (.get 9) .keyError] := by decide +kernel

/-- the hypotheses of C276: what thread 3 was told was the last that was seen of it -/
example : LastOf [.began 3 (.get 9), .got 3 9 none, .began 1 (.get 7)] 3 (.got 3 9 none) := ⟨rfl, [.began 3 (.get 9)], [.began 1 (.get 7)], rfl, by simp [Ev.thread]⟩

/-- a deletion of a key that is there, and one of a key that is not -/
example : (run 60 [.call 1 (.set 7 5), .go 1, .go 1, .go 1, .call 1 (.del 7), .go 1, .go 1, .call 1 (.del 7), .go 1, .call 2 (.get 7), .go 2, .answer 2 none, .go 2]).log =
    [.began 1 (.set 7 5), .ended 1 (.set 7 5) .unit, .began 1 (.del 7), .ended 1 (.del 7) .unit, .began 1 (.del 7), .ended 1 (.del 7) .keyError, .began 2 (.get 7), .got 2 7 none, .ended 2 (.get 7) .keyError] := by
  decide +kernel

end Verif.Cache.Threads
