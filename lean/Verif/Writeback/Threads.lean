import Verif.Conc.MonitorProps
/-!
# A write-back cache used by several threads (satella/coding/structures/dictionaries/writeback_cache.py); C263, C264

Threads read, set and delete keys of an `ExclusiveWritebackCache` at once.  The executor has one worker, so reads, writes and deletions are done on the storage in the order in which they were submitted (with more workers not even one thread can rely on the storage, see C14).
A body of `with self.cache_lock` is one step.  The storage is a dictionary; keys and values are numbers.
-/
namespace Verif.Writeback.Threads
open Verif
open Verif.Conc (upd upd_same upd_other)

/-! ## Model -/

/-- operations: `__getitem__`, `__setitem__`, `__delitem__`, /repo/satella/coding/structures/dictionaries/writeback_cache.py:87-123 -/
inductive Op where
  | get (k : Nat)
  | set (k v : Nat)
  | del (k : Nat)
  deriving DecidableEq, Repr

/-- how they end.  (Part of the model of `ExclusiveWritebackCache`, /repo/satella/coding/structures/dictionaries/writeback_cache.py:11-123.) -/
inductive Res where
  | val (v : Nat)
  | keyError
  | unit
  deriving DecidableEq, Repr

/-- what is submitted to the executor, lines 91, 115 and 122: the read of a thread, a write, a deletion.  /repo/satella/coding/structures/dictionaries/writeback_cache.py:87-123 -/
inductive Job where
  | read (t k : Nat)
  | write (k v : Nat)
  | del (k : Nat)
  deriving DecidableEq, Repr

/-- where a thread is, /repo/satella/coding/structures/dictionaries/writeback_cache.py:87-123: before line 89, waiting for the result in line 91, with the result (`none`: KeyError) before line 92 or 97, before line 102, before line 105; before line 119, before line 122; before line 110, before line 114,
before line 115 -/
inductive Pc where
  | idle
  | gLook (k : Nat)
  | gWait (k : Nat)
  | gGot (k : Nat) (r : Option Nat)
  | gHit (k : Nat)
  | gTake (k : Nat)
  | sPut (k v : Nat)
  | sSub (k v : Nat)
  | dIn (k : Nat)
  | dDel (k : Nat)
  | dSub (k : Nat)
  deriving DecidableEq, Repr

/-- what is seen.  (Part of the model of `ExclusiveWritebackCache`, /repo/satella/coding/structures/dictionaries/writeback_cache.py:11-123.) -/
inductive Ev where
  | called (t : Nat) (o : Op)
  | ended (t : Nat) (o : Op) (r : Res)
  deriving DecidableEq, Repr

/-- `cache`, `in_cache`, the queue of the executor and the storage, /repo/satella/coding/structures/dictionaries/writeback_cache.py:39-51, and the threads; and what was seen (not in the code) -/
structure St where
  cache : Nat → Option Nat := fun _ => none
  known : Nat → Bool := fun _ => false
  queue : List Job := []
  storage : Nat → Option Nat
  pcs : Nat → Pc := fun _ => .idle
  log : List Ev := []

/-- what happens: a thread calls an operation or goes on by one step, the worker does what is first in the queue, or `in_cache` is made anew by some thread (lines 80-85; that this is each 101 operations is left out).
(Part of the model of `ExclusiveWritebackCache`, /repo/satella/coding/structures/dictionaries/writeback_cache.py:11-123.) -/
inductive Act where
  | call (t : Nat) (o : Op)
  | go (t : Nat)
  | work
  | renew
  deriving DecidableEq, Repr

/-- where an operation begins, /repo/satella/coding/structures/dictionaries/writeback_cache.py:87-123; there is a `delete_method` -/
def Op.start : Op → Pc
  | .get k => .gLook k
  | .set k v => .sPut k v
  | .del k => .dIn k

/-- a thread goes on.  (Part of the model of `ExclusiveWritebackCache`, /repo/satella/coding/structures/dictionaries/writeback_cache.py:11-123.) -/
def St.goto (s : St) (t : Nat) (p : Pc) : St := { s with pcs := upd s.pcs t p }

/-- an operation ends.  (Part of the model of `ExclusiveWritebackCache`, /repo/satella/coding/structures/dictionaries/writeback_cache.py:11-123.) -/
def St.done (s : St) (t : Nat) (o : Op) (r : Res) : St := { s with pcs := upd s.pcs t .idle, log := s.log ++ [.ended t o r] }

/-- a step of an operation, /repo/satella/coding/structures/dictionaries/writeback_cache.py:87-123, of the worker, or line 84; `errs` is `store_key_errors` -/
def step (errs : Bool) (s : St) : Act → St
  | .call t o =>
    match s.pcs t with
    | .idle => { s with pcs := upd s.pcs t o.start, log := s.log ++ [.called t o] }
    | _ => s
  | .renew => { s with known := fun k => (s.cache k).isSome }
  | .work =>
    match s.queue with
    | [] => s
    | .read t k :: q => { s with queue := q, pcs := upd s.pcs t (.gGot k (s.storage k)) }
    | .write k v :: q => { s with queue := q, storage := upd s.storage k (some v) }
    | .del k :: q => { s with queue := q, storage := upd s.storage k none }
  | .go t =>
    match s.pcs t with
    | .idle => s
    | .gLook k => if s.known k then s.goto t (.gHit k) else { s with queue := s.queue ++ [.read t k], pcs := upd s.pcs t (.gWait k) }
    | .gWait _ => s
    | .gGot k (some v) => { s with known := upd s.known k true, cache := upd s.cache k (some v) }.done t (.get k) (.val v)
    | .gGot k none => { s with known := if errs then upd s.known k true else s.known }.done t (.get k) .keyError
    | .gHit k => if s.cache k = none ∧ errs = true then s.done t (.get k) .keyError else s.goto t (.gTake k)
    | .gTake k => s.done t (.get k) (match s.cache k with | some v => .val v | none => .keyError)
    | .sPut k v => { s with cache := upd s.cache k (some v), known := upd s.known k true, pcs := upd s.pcs t (.sSub k v) }
    | .sSub k v => { s with queue := s.queue ++ [Job.write k v] }.done t (.set k v) .unit
    | .dIn k => { s with known := if errs then upd s.known k true else s.known, pcs := upd s.pcs t (.dDel k) }
    | .dDel k => { s with cache := upd s.cache k none, pcs := upd s.pcs t (.dSub k) }
    | .dSub k => { s with queue := s.queue ++ [Job.del k] }.done t (.del k) .unit

/-- everything that happens, with a storage that has something at the beginning.  (Part of the model of `ExclusiveWritebackCache`, /repo/satella/coding/structures/dictionaries/writeback_cache.py:11-123.) -/
def run (errs : Bool) (init : Nat → Option Nat) (as : List Act) : St := as.foldl (step errs) { storage := init }

/-! ## Specification -/

/-- the key of an operation -/
def Op.key : Op → Nat
  | .get k => k
  | .set k _ => k
  | .del k => k

/-- operations of a thread on a key that began -/
def nCalled (t k : Nat) (log : List Ev) : Nat := log.countP (fun e => match e with | .called u o => decide (u = t ∧ o.key = k) | _ => false)

/-- operations of a thread on a key that ended -/
def nEnded (t k : Nat) (log : List Ev) : Nat := log.countP (fun e => match e with | .ended u o _ => decide (u = t ∧ o.key = k) | _ => false)

/-- operations on this key do not overlap -/
def OneAtATime (errs : Bool) (init : Nat → Option Nat) (k : Nat) (as : List Act) : Prop :=
  ∀ p, p <+: as → ∀ t u, nCalled t k (run errs init p).log ≠ nEnded t k (run errs init p).log → nCalled u k (run errs init p).log ≠ nEnded u k (run errs init p).log → t = u

/-- what a dictionary has at the key after all operations that ended -/
def latest (k : Nat) : Option Nat → List Ev → Option Nat
  | x, [] => x
  | x, .ended _ (.set k' v) _ :: l => latest k (if k' = k then some v else x) l
  | x, .ended _ (.del k') _ :: l => latest k (if k' = k then none else x) l
  | x, _ :: l => latest k x l

/-! ## Proofs -/

section
variable {errs : Bool} {init : Nat → Option Nat}

theorem run_snoc (as : List Act) (a : Act) : run errs init (as ++ [a]) = step errs (run errs init as) a := by simp [run]

theorem run_append (as bs : List Act) : run errs init (as ++ bs) = bs.foldl (step errs) (run errs init as) := by simp [run]

theorem snoc_ind {α : Type} {P : List α → Prop} (h0 : P []) (h1 : ∀ l a, P l → P (l ++ [a])) (l : List α) : P l := by
  rw [← List.reverse_reverse l]
  induction l.reverse with
  | nil => exact h0
  | cons a l ih => rw [List.reverse_cons]; exact h1 _ _ ih

theorem split_snoc {α : Type} {l pre post : List α} {e x : α} (h : l ++ [e] = pre ++ x :: post) : (∃ post', l = pre ++ x :: post') ∨ (pre = l ∧ x = e) := by
  rcases List.eq_nil_or_concat post with rfl | ⟨q, y, rfl⟩
  · have := List.append_inj' h rfl
    exact .inr ⟨this.1.symm, by simpa using this.2.symm⟩
  · left
    have : l ++ [e] = (pre ++ x :: q) ++ [y] := by rw [h]; simp
    exact ⟨q, (List.append_inj' this rfl).1⟩

theorem latest_append (k : Nat) (x : Option Nat) (l l' : List Ev) : latest k x (l ++ l') = latest k (latest k x l) l' := by
  induction l generalizing x with
  | nil => rfl
  | cons e l ih =>
    cases e with
    | called t o => simp only [List.cons_append, latest]; exact ih _
    | ended t o r => cases o <;> simp only [List.cons_append, latest] <;> exact ih _

/-! ### Values do not come from nowhere -/

/-- the value was in the storage at this key, or was set -/
def Src (init : Nat → Option Nat) (log : List Ev) (k v : Nat) : Prop := init k = some v ∨ ∃ u, .called u (.set k v) ∈ log

theorem src_mono {log log' : List Ev} {k v : Nat} (h : ∀ e ∈ log, e ∈ log') (hs : Src init log k v) : Src init log' k v := hs.imp id (fun ⟨u, hu⟩ => ⟨u, h _ hu⟩)

/-- values that a thread carries -/
def Pc.carries : Pc → Nat → Nat → Prop
  | .gGot k (some v), k', v' => k' = k ∧ v' = v
  | .sPut k v, k', v' => k' = k ∧ v' = v
  | .sSub k v, k', v' => k' = k ∧ v' = v
  | _, _, _ => False

structure Thin (init : Nat → Option Nat) (s : St) : Prop where
  cache : ∀ k v, s.cache k = some v → Src init s.log k v
  storage : ∀ k v, s.storage k = some v → Src init s.log k v
  queue : ∀ k v, .write k v ∈ s.queue → Src init s.log k v
  pcs : ∀ t k v, (s.pcs t).carries k v → Src init s.log k v
  log : ∀ pre t k v post, s.log = pre ++ .ended t (.get k) (.val v) :: post → Src init pre k v

theorem thin_move {s s' : St} {t : Nat} {p : Pc} (T : Thin init s) (h1 : s'.pcs = upd s.pcs t p) (hl : ∃ l, s'.log = s.log ++ l)
    (hc : ∀ k v, s'.cache k = some v → Src init s'.log k v) (hs : ∀ k v, s'.storage k = some v → Src init s'.log k v) (hq : ∀ k v, .write k v ∈ s'.queue → Src init s'.log k v)
    (hp : ∀ k v, p.carries k v → Src init s'.log k v) (he : s'.log = s.log ∨ ∃ e, s'.log = s.log ++ [e] ∧ ∀ u k v, e = .ended u (.get k) (.val v) → Src init s.log k v) : Thin init s' := by
  obtain ⟨l, hl⟩ := hl
  have mono : ∀ e ∈ s.log, e ∈ s'.log := fun e h => by rw [hl]; simp [h]
  refine ⟨hc, hs, hq, fun u k v h => ?_, ?_⟩
  · rw [h1] at h
    by_cases hu : u = t
    · rw [hu, upd_same] at h; exact hp k v h
    · rw [upd_other _ _ hu] at h; exact src_mono mono (T.pcs u k v h)
  · rcases he with e | ⟨e, h, h'⟩
    · rw [e]; exact T.log
    · rw [h]
      intro pre u k v post hh
      rcases split_snoc hh with ⟨q, hh⟩ | ⟨rfl, hh'⟩
      · exact T.log pre u k v q hh
      · exact h' u k v hh'.symm

theorem thin_step {s : St} (T : Thin init s) (a : Act) : Thin init (step errs s a) := by
  have add : ∀ {e : Ev}, ∀ x ∈ s.log, x ∈ s.log ++ [e] := fun x h => by simp [h]
  have c1 : ∀ {e : Ev} k v, s.cache k = some v → Src init (s.log ++ [e]) k v := fun k v h => src_mono add (T.cache k v h)
  have s1 : ∀ {e : Ev} k v, s.storage k = some v → Src init (s.log ++ [e]) k v := fun k v h => src_mono add (T.storage k v h)
  have q1 : ∀ {e : Ev} k v, .write k v ∈ s.queue → Src init (s.log ++ [e]) k v := fun k v h => src_mono add (T.queue k v h)
  cases a with
  | renew => exact ⟨T.cache, T.storage, T.queue, T.pcs, T.log⟩
  | call t o =>
    cases hpc : s.pcs t with
    | idle =>
      simp only [step, hpc]
      refine thin_move (t := t) (p := o.start) T rfl ⟨_, rfl⟩ c1 s1 q1 (fun k v h => ?_) (.inr ⟨_, rfl, by simp⟩)
      cases o with
      | get k' => exact h.elim
      | del k' => exact h.elim
      | set k' v' => obtain ⟨rfl, rfl⟩ := h; exact .inr ⟨t, by simp⟩
    | _ => simpa only [step, hpc] using T
  | work =>
    cases hq : s.queue with
    | nil => simpa only [step, hq] using T
    | cons j q =>
      have hq' : ∀ k v, .write k v ∈ q → Src init s.log k v := fun k v h => T.queue k v (by rw [hq]; simp [h])
      cases j with
      | read t k =>
        simp only [step, hq]
        refine thin_move (t := t) (p := .gGot k (s.storage k)) T rfl ⟨[], by simp⟩ T.cache T.storage hq' (fun k' v' h => ?_) (.inl rfl)
        cases hst : s.storage k with
        | none => rw [hst] at h; exact h.elim
        | some v => rw [hst] at h; obtain ⟨rfl, rfl⟩ := h; exact T.storage _ _ hst
      | write k v =>
        simp only [step, hq]
        refine ⟨T.cache, fun k' v' h => ?_, hq', T.pcs, T.log⟩
        dsimp only at h
        by_cases e : k' = k
        · rw [e, upd_same] at h; cases h; rw [e]; exact T.queue k v (by rw [hq]; simp)
        · rw [upd_other _ _ e] at h; exact T.storage k' v' h
      | del k =>
        simp only [step, hq]
        refine ⟨T.cache, fun k' v' h => ?_, hq', T.pcs, T.log⟩
        dsimp only at h
        by_cases e : k' = k
        · rw [e, upd_same] at h; cases h
        · rw [upd_other _ _ e] at h; exact T.storage k' v' h
  | go t =>
    have tp := T.pcs t
    cases hpc : s.pcs t with
    | idle => simpa only [step, hpc] using T
    | gWait k => simpa only [step, hpc] using T
    | gLook k =>
      simp only [step, hpc]
      split
      · exact thin_move (t := t) (p := .gHit k) T rfl ⟨[], by simp [St.goto]⟩ T.cache T.storage T.queue (fun _ _ h => h.elim) (.inl rfl)
      · exact thin_move (t := t) (p := .gWait k) T rfl ⟨[], by simp⟩ T.cache T.storage (fun k' v' h => T.queue k' v' (by simpa using h)) (fun _ _ h => h.elim) (.inl rfl)
    | gGot k r =>
      rw [hpc] at tp
      cases r with
      | some v =>
        simp only [step, hpc, St.done]
        refine thin_move (t := t) (p := .idle) T rfl ⟨_, rfl⟩ (fun k' v' h => ?_) s1 q1 (fun _ _ h => h.elim) (.inr ⟨_, rfl, fun u k' v' h => ?_⟩)
        · dsimp only at h
          by_cases e : k' = k
          · rw [e, upd_same] at h; cases h; rw [e]; exact src_mono add (tp k v ⟨rfl, rfl⟩)
          · rw [upd_other _ _ e] at h; exact c1 k' v' h
        · cases h; exact tp k v ⟨rfl, rfl⟩
      | none =>
        simp only [step, hpc, St.done]
        exact thin_move (t := t) (p := .idle) T rfl ⟨_, rfl⟩ c1 s1 q1 (fun _ _ h => h.elim) (.inr ⟨_, rfl, by simp⟩)
    | gHit k =>
      simp only [step, hpc]
      split
      · exact thin_move (t := t) (p := .idle) T rfl ⟨_, rfl⟩ c1 s1 q1 (fun _ _ h => h.elim) (.inr ⟨_, rfl, by simp⟩)
      · exact thin_move (t := t) (p := .gTake k) T rfl ⟨[], by simp [St.goto]⟩ T.cache T.storage T.queue (fun _ _ h => h.elim) (.inl rfl)
    | gTake k =>
      simp only [step, hpc, St.done]
      refine thin_move (t := t) (p := .idle) T rfl ⟨_, rfl⟩ c1 s1 q1 (fun _ _ h => h.elim) (.inr ⟨_, rfl, fun u k' v' h => ?_⟩)
      cases hc : s.cache k with
      | none => rw [hc] at h; cases h
      | some w => rw [hc] at h; cases h; exact T.cache _ _ hc
    | sPut k v =>
      rw [hpc] at tp
      simp only [step, hpc]
      refine thin_move (t := t) (p := .sSub k v) T rfl ⟨[], by simp⟩ (fun k' v' h => ?_) T.storage T.queue (fun k' v' h => tp k' v' h) (.inl rfl)
      dsimp only at h
      by_cases e : k' = k
      · rw [e, upd_same] at h; cases h; rw [e]; exact tp k v ⟨rfl, rfl⟩
      · rw [upd_other _ _ e] at h; exact T.cache k' v' h
    | sSub k v =>
      rw [hpc] at tp
      simp only [step, hpc, St.done]
      refine thin_move (t := t) (p := .idle) T rfl ⟨_, rfl⟩ c1 s1 (fun k' v' h => ?_) (fun _ _ h => h.elim) (.inr ⟨_, rfl, by simp⟩)
      rcases List.mem_append.1 h with h | h
      · exact q1 k' v' h
      · have : k' = k ∧ v' = v := by simpa using h
        obtain ⟨rfl, rfl⟩ := this
        exact src_mono add (tp _ _ ⟨rfl, rfl⟩)
    | dIn k => simp only [step, hpc]; exact thin_move (t := t) (p := .dDel k) T rfl ⟨[], by simp⟩ T.cache T.storage T.queue (fun _ _ h => h.elim) (.inl rfl)
    | dDel k =>
      simp only [step, hpc]
      refine thin_move (t := t) (p := .dSub k) T rfl ⟨[], by simp⟩ (fun k' v' h => ?_) T.storage T.queue (fun _ _ h => h.elim) (.inl rfl)
      dsimp only at h
      by_cases e : k' = k
      · rw [e, upd_same] at h; cases h
      · rw [upd_other _ _ e] at h; exact T.cache k' v' h
    | dSub k =>
      simp only [step, hpc, St.done]
      exact thin_move (t := t) (p := .idle) T rfl ⟨_, rfl⟩ c1 s1 (fun k' v' h => q1 k' v' (by simpa using h)) (fun _ _ h => h.elim) (.inr ⟨_, rfl, by simp⟩)

theorem thin_run (as : List Act) : Thin init (run errs init as) := by
  induction as using snoc_ind with
  | h0 => exact ⟨fun _ _ h => by simp [run] at h, fun k v h => .inl h, fun _ _ h => by simp [run] at h, fun _ _ _ h => h.elim, fun pre _ _ _ _ h => by have := congrArg List.length h; simp [run] at this⟩
  | h1 l a ih => rw [run_snoc]; exact thin_step ih a

end

/-- **C263 (no invented values)** Whichever threads use the cache, however they interleave: a value got for a key was in the storage at this key when the cache was made, or a thread began to set this key to it before. -/
theorem C263_values (errs : Bool) (init : Nat → Option Nat) (as : List Act) (pre post : List Ev) (t k v : Nat) (h : (run errs init as).log = pre ++ .ended t (.get k) (.val v) :: post) :
    init k = some v ∨ ∃ u, .called u (.set k v) ∈ pre := (thin_run as).log pre t k v post h


/-! ### Counting, and what waits in the queue -/

section
variable {errs : Bool} {init : Nat → Option Nat}

/-- the key of the operation that a thread does -/
def Pc.key : Pc → Option Nat
  | .idle => none
  | .gLook k | .gWait k | .gGot k _ | .gHit k | .gTake k | .sPut k _ | .sSub k _ | .dIn k | .dDel k | .dSub k => some k

def Counted (s : St) : Prop := ∀ t k, nCalled t k s.log = nEnded t k s.log + if (s.pcs t).key = some k then 1 else 0

theorem start_key (o : Op) : o.start.key = some o.key := by cases o <;> rfl

theorem counted_move {s s' : St} {t : Nat} {p : Pc} (C : Counted s) (hl : s'.log = s.log) (hp : s'.pcs = upd s.pcs t p) (hk : p.key = (s.pcs t).key) : Counted s' := by
  intro u k
  rw [hl, hp]
  by_cases h : u = t
  · rw [h, upd_same, hk]; exact C t k
  · rw [upd_other _ _ h]; exact C u k

theorem counted_end {s s' : St} {t : Nat} {o : Op} {r : Res} (C : Counted s) (hl : s'.log = s.log ++ [.ended t o r]) (hp : s'.pcs = upd s.pcs t .idle) (hk : (s.pcs t).key = some o.key) : Counted s' := by
  intro u k
  rw [hl, hp]
  have c := C u k
  simp only [nCalled, nEnded, List.countP_append, List.countP_cons, List.countP_nil] at c ⊢
  by_cases h : u = t
  · subst h
    rw [upd_same]
    rw [hk] at c
    by_cases hkk : o.key = k
    · simp [hkk, Pc.key] at c ⊢; omega
    · simp [hkk, Pc.key] at c ⊢; omega
  · have h' : ¬ t = u := fun e => h e.symm
    rw [upd_other _ _ h]
    simp [h'] at c ⊢; omega

theorem counted_call {s s' : St} {t : Nat} {o : Op} (C : Counted s) (hl : s'.log = s.log ++ [.called t o]) (hp : s'.pcs = upd s.pcs t o.start) (hk : s.pcs t = .idle) : Counted s' := by
  intro u k
  rw [hl, hp]
  have c := C u k
  simp only [nCalled, nEnded, List.countP_append, List.countP_cons, List.countP_nil] at c ⊢
  by_cases h : u = t
  · subst h
    rw [upd_same, start_key]
    rw [hk] at c
    by_cases hkk : o.key = k
    · simp [hkk, Pc.key] at c ⊢; omega
    · simp [hkk, Pc.key] at c ⊢; omega
  · have h' : ¬ t = u := fun e => h e.symm
    rw [upd_other _ _ h]
    simp [h'] at c ⊢; omega

/-- no read of the thread is in the queue -/
def Free (t : Nat) (q : List Job) : Prop := ∀ k, .read t k ∉ q

/-- a thread waits iff its read is in the queue, once -/
def Waits (s : St) : Prop := ∀ t, (∀ k, s.pcs t = .gWait k → ∃ q1 q2, s.queue = q1 ++ .read t k :: q2 ∧ Free t q1 ∧ Free t q2) ∧ ((∀ k, s.pcs t ≠ .gWait k) → Free t s.queue)

theorem waits_move {s s' : St} {t : Nat} {p : Pc} {q : List Job} (W : Waits s) (hq : s'.queue = s.queue ++ q) (hf : ∀ u, Free u q) (hp : s'.pcs = upd s.pcs t p) (h1 : ∀ k, s.pcs t ≠ .gWait k) (h2 : ∀ k, p ≠ .gWait k) : Waits s' := by
  intro u
  rw [hq, hp]
  by_cases h : u = t
  · subst h
    rw [upd_same]
    refine ⟨fun k e => (h2 k e).elim, fun _ k hk => ?_⟩
    rcases List.mem_append.1 hk with hk | hk
    · exact (W u).2 h1 k hk
    · exact hf u k hk
  · rw [upd_other _ _ h]
    refine ⟨fun k e => ?_, fun hn k hk => ?_⟩
    · obtain ⟨q1, q2, e1, f1, f2⟩ := (W u).1 k e
      refine ⟨q1, q2 ++ q, by rw [e1]; simp, f1, fun k hk => ?_⟩
      rcases List.mem_append.1 hk with hk | hk
      · exact f2 k hk
      · exact hf u k hk
    · rcases List.mem_append.1 hk with hk | hk
      · exact (W u).2 hn k hk
      · exact hf u k hk

/-- a job that is not a read leaves the queue -/
theorem waits_pop {s s' : St} {j : Job} {q : List Job} (W : Waits s) (hq : s.queue = j :: q) (hq' : s'.queue = q) (hj : ∀ t k, j ≠ .read t k) (hp : s'.pcs = s.pcs) : Waits s' := by
  intro u
  rw [hq', hp]
  refine ⟨fun k e => ?_, fun hn k hk => (W u).2 hn k (by rw [hq]; simp [hk])⟩
  obtain ⟨q1, q2, e1, f1, f2⟩ := (W u).1 k e
  cases q1 with
  | nil => rw [hq] at e1; simp at e1; exact (hj _ _ e1.1).elim
  | cons x q1 =>
    rw [hq] at e1
    simp at e1
    exact ⟨q1, q2, e1.2, fun k hk => f1 k (by simp [hk]), f2⟩

theorem free_none (u : Nat) : Free u [] := fun _ h => by simp at h

theorem waits_head {s : St} {t k : Nat} {q : List Job} (W : Waits s) (hq : s.queue = .read t k :: q) : s.pcs t = .gWait k ∧ Free t q := by
  cases hw : s.pcs t with
  | gWait k' =>
    obtain ⟨q1, q2, e1, f1, f2⟩ := (W t).1 k' hw
    cases q1 with
    | nil => rw [hq] at e1; simp at e1; obtain ⟨rfl, rfl⟩ := e1; exact ⟨rfl, f2⟩
    | cons x q1 => rw [hq] at e1; simp at e1; exact (f1 k (by simp [← e1.1])).elim
  | _ => exact ((W t).2 (by simp [hw]) k (by rw [hq]; simp)).elim

theorem base_step {s : St} (C : Counted s) (W : Waits s) (a : Act) : Counted (step errs s a) ∧ Waits (step errs s a) := by
  have fw : ∀ k v u, Free u [Job.write k v] := fun _ _ _ _ h => by simp at h
  have fd : ∀ k u, Free u [Job.del k] := fun _ _ _ h => by simp at h
  cases a with
  | renew => exact ⟨C, W⟩
  | call t o =>
    cases hpc : s.pcs t with
    | idle =>
      simp only [step, hpc]
      exact ⟨counted_call C rfl rfl hpc, waits_move (t := t) (p := o.start) (q := []) W (by simp) free_none rfl (by simp [hpc]) (by cases o <;> simp [Op.start])⟩
    | _ => simpa only [step, hpc] using And.intro C W
  | work =>
    cases hq : s.queue with
    | nil => simpa only [step, hq] using And.intro C W
    | cons j q =>
      cases j with
      | read t k =>
        simp only [step, hq]
        obtain ⟨hw, hf⟩ := waits_head W hq
        refine ⟨counted_move (t := t) (p := .gGot k (s.storage k)) C rfl rfl (by rw [hw]; rfl), fun u => ?_⟩
        dsimp only
        by_cases h : u = t
        · subst h
          rw [upd_same]
          exact ⟨fun k e => by simp at e, fun _ => hf⟩
        · rw [upd_other _ _ h]
          refine ⟨fun k' e => ?_, fun hn k' hk => (W u).2 hn k' (by rw [hq]; simp [hk])⟩
          obtain ⟨q1, q2, e1, f1, f2⟩ := (W u).1 k' e
          cases q1 with
          | nil => rw [hq] at e1; simp at e1; exact (h e1.1.1.symm).elim
          | cons x q1 =>
            rw [hq] at e1
            simp at e1
            exact ⟨q1, q2, e1.2, fun k hk => f1 k (by simp [hk]), f2⟩
      | write k v => simp only [step, hq]; exact ⟨C, waits_pop W hq rfl (by simp) rfl⟩
      | del k => simp only [step, hq]; exact ⟨C, waits_pop W hq rfl (by simp) rfl⟩
  | go t =>
    cases hpc : s.pcs t with
    | idle => simpa only [step, hpc] using And.intro C W
    | gWait k => simpa only [step, hpc] using And.intro C W
    | gLook k =>
      simp only [step, hpc]
      split
      · exact ⟨counted_move (t := t) (p := .gHit k) C rfl rfl (by rw [hpc]; rfl), waits_move (t := t) (p := .gHit k) (q := []) W (by simp [St.goto]) free_none rfl (by simp [hpc]) (by simp)⟩
      · refine ⟨counted_move (t := t) (p := .gWait k) C rfl rfl (by rw [hpc]; rfl), fun u => ?_⟩
        dsimp only
        by_cases h : u = t
        · subst h
          rw [upd_same]
          exact ⟨fun k' e => by cases e; exact ⟨s.queue, [], rfl, (W u).2 (by simp [hpc]), free_none u⟩, fun hn => (hn k rfl).elim⟩
        · rw [upd_other _ _ h]
          refine ⟨fun k' e => ?_, fun hn k' hk => ?_⟩
          · obtain ⟨q1, q2, e1, f1, f2⟩ := (W u).1 k' e
            exact ⟨q1, q2 ++ [.read t k], by rw [e1]; simp, f1, fun k hk => by simp [h] at hk; exact f2 k hk⟩
          · simp [h] at hk; exact (W u).2 hn k' hk
    | gGot k r =>
      cases r with
      | some v => simp only [step, hpc, St.done]; exact ⟨counted_end (t := t) (o := .get k) (r := .val v) C rfl rfl (by rw [hpc]; rfl), waits_move (t := t) (p := .idle) (q := []) W (by simp) free_none rfl (by simp [hpc]) (by simp)⟩
      | none => simp only [step, hpc, St.done]; exact ⟨counted_end (t := t) (o := .get k) (r := .keyError) C rfl rfl (by rw [hpc]; rfl), waits_move (t := t) (p := .idle) (q := []) W (by simp) free_none rfl (by simp [hpc]) (by simp)⟩
    | gHit k =>
      simp only [step, hpc]
      split
      · exact ⟨counted_end (t := t) (o := .get k) (r := .keyError) C rfl rfl (by rw [hpc]; rfl), waits_move (t := t) (p := .idle) (q := []) W (by simp [St.done]) free_none rfl (by simp [hpc]) (by simp)⟩
      · exact ⟨counted_move (t := t) (p := .gTake k) C rfl rfl (by rw [hpc]; rfl), waits_move (t := t) (p := .gTake k) (q := []) W (by simp [St.goto]) free_none rfl (by simp [hpc]) (by simp)⟩
    | gTake k => simp only [step, hpc, St.done]; exact ⟨counted_end (t := t) (o := .get k) C rfl rfl (by rw [hpc]; rfl), waits_move (t := t) (p := .idle) (q := []) W (by simp) free_none rfl (by simp [hpc]) (by simp)⟩
    | sPut k v => simp only [step, hpc]; exact ⟨counted_move (t := t) (p := .sSub k v) C rfl rfl (by rw [hpc]; rfl), waits_move (t := t) (p := .sSub k v) (q := []) W (by simp) free_none rfl (by simp [hpc]) (by simp)⟩
    | sSub k v => simp only [step, hpc, St.done]; exact ⟨counted_end (t := t) (o := .set k v) (r := .unit) C rfl rfl (by rw [hpc]; rfl), waits_move (t := t) (p := .idle) W rfl (fw k v) rfl (by simp [hpc]) (by simp)⟩
    | dIn k => simp only [step, hpc]; exact ⟨counted_move (t := t) (p := .dDel k) C rfl rfl (by rw [hpc]; rfl), waits_move (t := t) (p := .dDel k) (q := []) W (by simp) free_none rfl (by simp [hpc]) (by simp)⟩
    | dDel k => simp only [step, hpc]; exact ⟨counted_move (t := t) (p := .dSub k) C rfl rfl (by rw [hpc]; rfl), waits_move (t := t) (p := .dSub k) (q := []) W (by simp) free_none rfl (by simp [hpc]) (by simp)⟩
    | dSub k => simp only [step, hpc, St.done]; exact ⟨counted_end (t := t) (o := .del k) (r := .unit) C rfl rfl (by rw [hpc]; rfl), waits_move (t := t) (p := .idle) W rfl (fd k) rfl (by simp [hpc]) (by simp)⟩

theorem base_run (as : List Act) : Counted (run errs init as) ∧ Waits (run errs init as) := by
  induction as using snoc_ind with
  | h0 => exact ⟨fun t k => by simp [run, nCalled, nEnded, Pc.key], fun t => ⟨fun k e => by simp [run] at e, fun _ k h => by simp [run] at h⟩⟩
  | h1 l a ih => rw [run_snoc]; exact base_step ih.1 ih.2 a

theorem busy_iff (as : List Act) (t k : Nat) : nCalled t k (run errs init as).log ≠ nEnded t k (run errs init as).log ↔ ((run errs init as).pcs t).key = some k := by
  have := (base_run (errs := errs) (init := init) as).1 t k
  by_cases h : ((run errs init as).pcs t).key = some k
  · simp [h] at this ⊢; omega
  · simp [h] at this ⊢; omega

/-! ### The storage has what was submitted -/

/-- what is at the key once the jobs are done -/
def after (k : Nat) : List Job → Option Nat → Option Nat
  | [], x => x
  | .read _ _ :: q, x => after k q x
  | .write k' v :: q, x => after k q (if k = k' then some v else x)
  | .del k' :: q, x => after k q (if k = k' then none else x)

theorem after_append (k : Nat) (q q' : List Job) (x : Option Nat) : after k (q ++ q') x = after k q' (after k q x) := by
  induction q generalizing x with
  | nil => rfl
  | cons j q ih => cases j <;> simp only [List.cons_append, after] <;> exact ih _

theorem upd_apply {α : Type} (f : Nat → α) (k k' : Nat) (x : α) : upd f k x k' = if k' = k then x else f k' := by
  by_cases h : k' = k
  · rw [h, upd_same]; simp
  · rw [upd_other _ _ h]; simp [h]

/-- the key has in the end what the dictionary of the log has -/
def Sub (init : Nat → Option Nat) (s : St) : Prop := ∀ k, after k s.queue (s.storage k) = latest k (init k) s.log

theorem sub_step {s : St} (S : Sub init s) (a : Act) : Sub init (step errs s a) := by
  cases a with
  | renew => exact S
  | call t o =>
    cases hpc : s.pcs t with
    | idle => simp only [step, hpc]; intro k; rw [latest_append]; exact S k
    | _ => simpa only [step, hpc] using S
  | work =>
    cases hq : s.queue with
    | nil => simpa only [step, hq] using S
    | cons j q =>
      cases j with
      | read t k => simp only [step, hq]; intro k'; have := S k'; rw [hq] at this; exact this
      | write k v => simp only [step, hq]; intro k'; have := S k'; rw [hq] at this; simp only [upd_apply]; exact this
      | del k => simp only [step, hq]; intro k'; have := S k'; rw [hq] at this; simp only [upd_apply]; exact this
  | go t =>
    cases hpc : s.pcs t with
    | idle => simpa only [step, hpc] using S
    | gWait k => simpa only [step, hpc] using S
    | gLook k =>
      simp only [step, hpc]
      split
      · exact S
      · intro k'; dsimp only; rw [after_append]; exact S k'
    | gGot k r =>
      cases r with
      | some v => simp only [step, hpc, St.done]; intro k'; rw [latest_append]; exact S k'
      | none => simp only [step, hpc, St.done]; intro k'; rw [latest_append]; exact S k'
    | gHit k =>
      simp only [step, hpc]
      split
      · intro k'; simp only [St.done]; rw [latest_append]; exact S k'
      · exact S
    | gTake k => simp only [step, hpc, St.done]; intro k'; rw [latest_append]; exact S k'
    | sPut k v => simp only [step, hpc]; exact S
    | sSub k v => simp only [step, hpc, St.done]; intro k'; rw [latest_append, after_append, S k']; simp only [after, latest, eq_comm]
    | dIn k => simp only [step, hpc]; exact S
    | dDel k => simp only [step, hpc]; exact S
    | dSub k => simp only [step, hpc, St.done]; intro k'; rw [latest_append, after_append, S k']; simp only [after, latest, eq_comm]

theorem sub_run (as : List Act) : Sub init (run errs init as) := by
  induction as using snoc_ind with
  | h0 => intro k; rfl
  | h1 l a ih => rw [run_snoc]; exact sub_step ih a

theorem work_length (s : St) : (step errs s .work).queue.length = s.queue.length - 1 := by
  cases hq : s.queue with
  | nil => simp [step, hq]
  | cons j q => cases j <;> simp [step, hq]

theorem drain (n : Nat) (s : St) (h : s.queue.length ≤ n) : ((List.replicate n Act.work).foldl (step errs) s).queue = [] := by
  induction n generalizing s with
  | zero => simpa using h
  | succ n ih => exact ih _ (by rw [work_length]; omega)

theorem work_log (s : St) : (step errs s .work).log = s.log := by
  cases hq : s.queue with
  | nil => simp [step, hq]
  | cons j q => cases j <;> simp [step, hq]

theorem drain_log (n : Nat) (s : St) : ((List.replicate n Act.work).foldl (step errs) s).log = s.log := by
  induction n generalizing s with
  | zero => rfl
  | succ n ih => exact (ih _).trans (work_log s)

/-! ### Operations end -/

/-- a thread that does not wait ends its operation by itself, or begins to wait -/
theorem solo (as : List Act) (t : Nat) (n : Nat) (hn : ∀ k, (run errs init as).pcs t ≠ .gLook k) (hw : ∀ k, (run errs init as).pcs t ≠ .gWait k)
    (hm : (match (run errs init as).pcs t with | .idle => 0 | .gGot _ _ | .gTake _ | .sSub _ _ | .dSub _ => 1 | .gHit _ | .sPut _ _ | .dDel _ => 2 | _ => 3) ≤ n) :
    ∃ bs, (∀ b ∈ bs, b = .go t) ∧ (run errs init (as ++ bs)).pcs t = .idle := by
  induction n generalizing as with
  | zero =>
    cases hpc : (run errs init as).pcs t with
    | idle => exact ⟨[], by simp, by simpa using hpc⟩
    | _ => simp [hpc] at hm
  | succ n ih =>
    have next : ∀ p : Pc, (run errs init (as ++ [.go t])).pcs t = p → (∀ k, p ≠ .gLook k) → (∀ k, p ≠ .gWait k) →
        (match p with | .idle => 0 | .gGot _ _ | .gTake _ | .sSub _ _ | .dSub _ => 1 | .gHit _ | .sPut _ _ | .dDel _ => 2 | _ => 3) ≤ n → ∃ bs, (∀ b ∈ bs, b = .go t) ∧ (run errs init (as ++ bs)).pcs t = .idle := by
      rintro p rfl h1 h2 h3
      obtain ⟨bs, hb, he⟩ := ih (as ++ [.go t]) h1 h2 h3
      exact ⟨.go t :: bs, by simpa using hb, by simpa using he⟩
    cases hpc : (run errs init as).pcs t with
    | idle => exact ⟨[], by simp, by simpa using hpc⟩
    | gLook k => exact (hn k hpc).elim
    | gWait k => exact (hw k hpc).elim
    | gGot k r => cases r <;> exact next .idle (by rw [run_snoc]; simp [step, hpc, St.done]) (by simp) (by simp) (by simp)
    | gTake k => exact next .idle (by rw [run_snoc]; simp [step, hpc, St.done]) (by simp) (by simp) (by simp)
    | sSub k v => exact next .idle (by rw [run_snoc]; simp [step, hpc, St.done]) (by simp) (by simp) (by simp)
    | dSub k => exact next .idle (by rw [run_snoc]; simp [step, hpc, St.done]) (by simp) (by simp) (by simp)
    | gHit k =>
      by_cases h : (run errs init as).cache k = none ∧ errs = true
      · exact next .idle (by rw [run_snoc]; simp only [step, hpc, if_pos h]; simp [St.done]) (by simp) (by simp) (by simp)
      · exact next (.gTake k) (by rw [run_snoc]; simp only [step, hpc, if_neg h]; simp [St.goto]) (by simp) (by simp) (by simp [hpc] at hm ⊢; omega)
    | sPut k v => exact next (.sSub k v) (by rw [run_snoc]; simp [step, hpc]) (by simp) (by simp) (by simp [hpc] at hm ⊢; omega)
    | dDel k => exact next (.dSub k) (by rw [run_snoc]; simp [step, hpc]) (by simp) (by simp) (by simp [hpc] at hm ⊢; omega)
    | dIn k => exact next (.dDel k) (by rw [run_snoc]; simp [step, hpc]) (by simp) (by simp) (by simp [hpc] at hm ⊢; omega)

theorem wait_solo (as : List Act) (t : Nat) (hn : ∀ k, (run errs init as).pcs t ≠ .gLook k) :
    ∃ bs, (∀ b ∈ bs, b = .go t ∨ b = .work) ∧ (run errs init (as ++ bs)).pcs t = .idle := by
  have key : ∀ n as, (∀ k, (run errs init as).pcs t ≠ .gLook k) → (run errs init as).queue.length ≤ n → ∃ bs, (∀ b ∈ bs, b = .go t ∨ b = .work) ∧ (run errs init (as ++ bs)).pcs t = .idle := by
    intro n
    induction n with
    | zero =>
      intro as hn hq
      obtain ⟨bs, hb, he⟩ := solo as t 3 hn (fun k e => by obtain ⟨q1, q2, h, _⟩ := ((base_run as).2 t).1 k e; rw [h] at hq; simp at hq) (by split <;> omega)
      exact ⟨bs, fun b h => .inl (hb b h), he⟩
    | succ n ih =>
      intro as hn hq
      obtain ⟨bs, hb, he⟩ := ih (as ++ [.work]) (fun k => by
        rw [run_snoc]
        cases hqq : (run errs init as).queue with
        | nil => simpa only [step, hqq] using hn k
        | cons j q =>
          cases j with
          | read u k' =>
            simp only [step, hqq]
            by_cases h : t = u
            · subst h; rw [upd_same]; simp
            · rw [upd_other _ _ h]; exact hn k
          | write k' v => simpa only [step, hqq] using hn k
          | del k' => simpa only [step, hqq] using hn k) (by rw [run_snoc, work_length]; omega)
      exact ⟨.work :: bs, by simpa using hb, by simpa using he⟩
  exact key _ as hn (Nat.le_refl _)

theorem all_solo (as : List Act) (t : Nat) : ∃ bs, (∀ b ∈ bs, b = .go t ∨ b = .work) ∧ (run errs init (as ++ bs)).pcs t = .idle := by
  cases hpc : (run errs init as).pcs t with
  | gLook k =>
    obtain ⟨bs, hb, he⟩ := wait_solo (as ++ [.go t]) t (errs := errs) (init := init) (fun k' => by
      rw [run_snoc]
      simp only [step, hpc]
      split <;> simp [St.goto])
    exact ⟨.go t :: bs, by simpa using hb, by simpa using he⟩
  | _ => exact wait_solo as t (by simp [hpc])

end

/-- **C263 (storage)** Whichever threads use the cache: once the worker did everything that was submitted, the storage has at each key what the last set or deletion of this key put there (a set or deletion counts as ended when it submitted its job; all that is left of it is line 116 or 123). -/
theorem C263_storage (errs : Bool) (init : Nat → Option Nat) (as : List Act) (k : Nat) (h : (run errs init as).queue = []) :
    (run errs init as).storage k = latest k (init k) (run errs init as).log := by
  have := sub_run (errs := errs) (init := init) as k
  rwa [h] at this

/-- **C263 (storage, always reached)** That state is always reached, if the worker only goes on: what is in the storage then is settled by the sets and deletions that ended. -/
theorem C263_storage_reached (errs : Bool) (init : Nat → Option Nat) (as : List Act) :
    ∃ n, ∀ m, n ≤ m → ∀ k, (run errs init (as ++ List.replicate m .work)).storage k = latest k (init k) (run errs init as).log := by
  refine ⟨(run errs init as).queue.length, fun m hm k => ?_⟩
  rw [C263_storage errs init _ k (by rw [run_append]; exact drain m _ hm), run_append, drain_log]

/-- **C263 (operations end)** Each operation can end, whatever the other threads do or do not do: it is enough that the thread and the worker go on. -/
theorem C263_ends (errs : Bool) (init : Nat → Option Nat) (as : List Act) (t : Nat) :
    ∃ bs, (∀ b ∈ bs, b = .go t ∨ b = .work) ∧ ∀ k, nCalled t k (run errs init (as ++ bs)).log = nEnded t k (run errs init (as ++ bs)).log := by
  obtain ⟨bs, hb, he⟩ := all_solo (errs := errs) (init := init) as t
  refine ⟨bs, hb, fun k => Decidable.byContradiction fun hk => ?_⟩
  have := (busy_iff (as ++ bs) t k).1 hk
  rw [he] at this
  simp [Pc.key] at this

/-! ### One key, operations one at a time -/

section
variable {errs : Bool} {init : Nat → Option Nat}

/-- what is remembered about the key is right -/
def Clean (k : Nat) (L : Option Nat) (s : St) : Prop := (∀ v, s.cache k = some v → L = some v) ∧ (s.known k = true → s.cache k = none → L = none)

/-- what holds for the thread that does something with the key -/
def Good (k : Nat) (L : Option Nat) (s : St) (t : Nat) : Pc → Prop
  | .idle | .dDel _ => True
  | .gLook _ | .sPut _ _ | .dIn _ => Clean k L s
  | .gHit _ | .gTake _ => s.cache k = L
  | .gWait _ => Clean k L s ∧ ∃ q1 q2, s.queue = q1 ++ .read t k :: q2 ∧ Free t q1 ∧ after k q1 (s.storage k) = L
  | .gGot _ r => Clean k L s ∧ r = L
  | .sSub _ v => s.cache k = some v
  | .dSub _ => s.cache k = none

/-- only one thread does something with the key -/
def Uniq (k : Nat) (s : St) : Prop := ∀ t u, (s.pcs t).key = some k → (s.pcs u).key = some k → t = u

/-- what a dictionary answers -/
def answer : Option Nat → Res
  | some v => .val v
  | none => .keyError

structure KInv (init : Nat → Option Nat) (k : Nat) (s : St) : Prop where
  busy : ∀ t, (s.pcs t).key = some k → Good k (latest k (init k) s.log) s t (s.pcs t)
  calm : (∀ t, (s.pcs t).key ≠ some k) → Clean k (latest k (init k) s.log) s
  log : ∀ pre t r post, s.log = pre ++ .ended t (.get k) r :: post → r = answer (latest k (init k) pre)

/-- something else happens -/
theorem good_frame {k : Nat} {L : Option Nat} {s s' : St} {t : Nat} {p : Pc} {q : List Job} (hc : s'.cache k = s.cache k) (hk : s'.known k = s.known k) (hq : s'.queue = s.queue ++ q) (hs : s'.storage = s.storage)
    (G : Good k L s t p) : Good k L s' t p := by
  have cl : Clean k L s → Clean k L s' := fun h => by unfold Clean; rw [hc, hk]; exact h
  cases p with
  | idle => trivial
  | dDel _ => trivial
  | gLook _ => exact cl G
  | sPut _ _ => exact cl G
  | dIn _ => exact cl G
  | gHit _ => exact hc.trans G
  | gTake _ => exact hc.trans G
  | gGot _ _ => exact ⟨cl G.1, G.2⟩
  | sSub _ _ => exact hc.trans G
  | dSub _ => exact hc.trans G
  | gWait _ =>
    obtain ⟨h, q1, q2, e, f, a⟩ := G
    exact ⟨cl h, q1, q2 ++ q, by rw [hq, e]; simp, f, by rw [hs]; exact a⟩

/-- a thread that does something with another key goes on -/
theorem kinv_other {k : Nat} {s s' : St} {t : Nat} {p : Pc} {q : List Job} {es : List Ev} (I : KInv init k s) (hp : s'.pcs = upd s.pcs t p) (h1 : (s.pcs t).key ≠ some k) (h2 : p.key ≠ some k)
    (hc : s'.cache k = s.cache k) (hk : s'.known k = s.known k) (hq : s'.queue = s.queue ++ q) (hs : s'.storage = s.storage) (hl : s'.log = s.log ++ es)
    (hL : latest k (init k) s'.log = latest k (init k) s.log) (he : es = [] ∨ ∃ e, es = [e] ∧ ∀ u r, e ≠ .ended u (.get k) r) : KInv init k s' := by
  refine ⟨fun u hu => ?_, fun hn => ?_, ?_⟩
  · rw [hp] at hu ⊢
    by_cases h : u = t
    · rw [h, upd_same] at hu; exact (h2 hu).elim
    · rw [upd_other _ _ h] at hu ⊢; rw [hL]; exact good_frame hc hk hq hs (I.busy u hu)
  · rw [hL]
    have := I.calm (fun u hu => hn u (by
      rw [hp]
      by_cases h : u = t
      · rw [h] at hu; exact (h1 hu).elim
      · rw [upd_other _ _ h]; exact hu))
    unfold Clean; rw [hc, hk]; exact this
  · intro pre u r post h
    rw [hl] at h
    rcases he with rfl | ⟨e, rfl, he⟩
    · exact I.log pre u r post (by simpa using h)
    · rcases split_snoc h with ⟨q, h⟩ | ⟨_, h⟩
      · exact I.log pre u r q h
      · exact (he u r h.symm).elim

/-- the thread that does something with the key goes on -/
theorem kinv_same {k : Nat} {s s' : St} {t : Nat} {p : Pc} (I : KInv init k s) (U : Uniq k s') (hp : s'.pcs = upd s.pcs t p) (h2 : p.key = some k) (hl : s'.log = s.log) (hG : Good k (latest k (init k) s.log) s' t p) : KInv init k s' := by
  have me : (s'.pcs t).key = some k := by rw [hp, upd_same]; exact h2
  refine ⟨fun u hu => ?_, fun hn => (hn t me).elim, by rw [hl]; exact I.log⟩
  have := U u t hu me
  subst this
  rw [hp, upd_same, hl]
  exact hG

/-- it ends -/
theorem kinv_end {k : Nat} {s s' : St} {t : Nat} {o : Op} {r : Res} (I : KInv init k s) (U : Uniq k s) (hp : s'.pcs = upd s.pcs t .idle) (h1 : (s.pcs t).key = some k) (hl : s'.log = s.log ++ [.ended t o r])
    (hC : Clean k (latest k (init k) s'.log) s') (hr : o = .get k → r = answer (latest k (init k) s.log)) : KInv init k s' := by
  refine ⟨fun u hu => ?_, fun _ => hC, ?_⟩
  · rw [hp] at hu
    by_cases h : u = t
    · rw [h, upd_same] at hu; cases hu
    · rw [upd_other _ _ h] at hu; exact (h (U u t hu h1)).elim
  · intro pre u r' post h
    rw [hl] at h
    rcases split_snoc h with ⟨q, h⟩ | ⟨e, h⟩
    · exact I.log pre u r' q h
    · cases h; rw [e]; exact hr rfl

theorem good_clean {k : Nat} {L : Option Nat} {s : St} (h : s.cache k = L) : Clean k L s := ⟨fun v e => by rw [← h, e], fun _ e => by rw [← h, e]⟩

theorem kinv_step {k : Nat} {s : St} (C : Waits s) (S : Sub init s) (I : KInv init k s) (U : Uniq k s) (a : Act) (U' : Uniq k (step errs s a)) : KInv init k (step errs s a) := by
  cases a with
  | renew =>
    have cl : ∀ L, Clean k L s → Clean k L (step errs s .renew) := fun L h => ⟨h.1, fun h1 h2 => by
      simp only [step] at h1 h2; rw [h2] at h1; simp at h1⟩
    refine ⟨fun t ht => ?_, fun hn => cl _ (I.calm hn), I.log⟩
    have g := I.busy t ht
    show Good k (latest k (init k) s.log) (step errs s .renew) t (s.pcs t)
    revert g
    cases s.pcs t with
    | idle => exact id
    | gLook _ => exact cl _
    | sPut _ _ => exact cl _
    | dIn _ => exact cl _
    | dDel _ => exact id
    | gHit _ => exact id
    | gTake _ => exact id
    | gGot _ _ => exact fun g => ⟨cl _ g.1, g.2⟩
    | sSub _ _ => exact id
    | dSub _ => exact id
    | gWait _ => exact fun g => ⟨cl _ g.1, g.2⟩
  | call t o =>
    cases hpc : s.pcs t with
    | idle =>
      simp only [step, hpc] at U' ⊢
      by_cases ho : o.key = k
      · have me : (upd s.pcs t o.start t).key = some k := by rw [upd_same, start_key, ho]
        have hL : latest k (init k) (s.log ++ [.called t o]) = latest k (init k) s.log := by rw [latest_append]; rfl
        have hcalm : Clean k (latest k (init k) s.log) s := I.calm (fun u hu => by
          by_cases h : u = t
          · rw [h, hpc] at hu; cases hu
          · exact h (U' u t (by dsimp only; rw [upd_other _ _ h]; exact hu) me))
        refine ⟨fun u hu => ?_, fun hn => (hn t me).elim, ?_⟩
        · have := U' u t hu me
          subst this
          dsimp only
          rw [upd_same, hL]
          cases o <;> exact hcalm
        · intro pre u r post h
          rcases split_snoc h with ⟨q, h⟩ | ⟨_, h⟩
          · exact I.log pre u r q h
          · cases h
      · exact kinv_other (t := t) (p := o.start) (q := []) (es := [.called t o]) I rfl (by simp [hpc, Pc.key]) (by rw [start_key]; simpa using ho) rfl rfl (by simp) rfl rfl (by rw [latest_append]; rfl) (.inr ⟨_, rfl, by simp⟩)
    | _ => simpa only [step, hpc] using I
  | work =>
    cases hq : s.queue with
    | nil => simpa only [step, hq] using I
    | cons j q =>
      have drop : ∀ u, (s.pcs u).key = some k → (∀ t k', j = .read t k' → t ≠ u) → ∀ s' : St, s'.cache = s.cache → s'.known = s.known → s'.queue = q → (∀ q1, after k (j :: q1) (s.storage k) = after k q1 (s'.storage k)) →
          Good k (latest k (init k) s.log) s' u (s.pcs u) := by
        intro u hu hj s' hc hk hq' ha
        have cl : ∀ L, Clean k L s → Clean k L s' := fun L h => by unfold Clean; rw [hc, hk]; exact h
        have g := I.busy u hu
        revert g
        cases s.pcs u with
        | idle => exact id
        | gLook _ => exact cl _
        | sPut _ _ => exact cl _
        | dIn _ => exact cl _
        | dDel _ => exact id
        | gHit _ => simp only [Good, hc]; exact id
        | gTake _ => simp only [Good, hc]; exact id
        | gGot _ _ => exact fun g => ⟨cl _ g.1, g.2⟩
        | sSub _ _ => simp only [Good, hc]; exact id
        | dSub _ => simp only [Good, hc]; exact id
        | gWait _ =>
          rintro ⟨g, q1, q2, e, f, a⟩
          refine ⟨cl _ g, ?_⟩
          cases q1 with
          | nil => rw [hq] at e; simp at e; exact (hj u k e.1 rfl).elim
          | cons x q1 =>
            rw [hq] at e
            simp at e
            refine ⟨q1, q2, by rw [hq']; exact e.2, fun k hk => f k (by simp [hk]), ?_⟩
            rw [← ha, e.1]; exact a
      cases j with
      | read t k' =>
        obtain ⟨hw, hf⟩ := waits_head C hq
        simp only [step, hq] at U' ⊢
        by_cases hk : k' = k
        · subst hk
          refine kinv_same (t := t) (p := .gGot k' (s.storage k')) I U' rfl rfl rfl ?_
          have g := I.busy t (by rw [hw]; rfl)
          rw [hw] at g
          obtain ⟨g, q1, q2, e, f, a⟩ := g
          refine ⟨g, ?_⟩
          cases q1 with
          | nil => exact a
          | cons x q1 => rw [hq] at e; simp at e; exact (f k' (by simp [← e.1])).elim
        · refine ⟨fun u hu => ?_, fun hn => ?_, I.log⟩
          · dsimp only at hu ⊢
            by_cases h : u = t
            · rw [h, upd_same] at hu; simp [Pc.key] at hu; exact (hk hu).elim
            · rw [upd_other _ _ h] at hu ⊢
              exact drop u hu (fun t' k'' e => by cases e; exact fun e => h e.symm) _ rfl rfl rfl (fun _ => rfl)
          · refine I.calm (fun u hu => hn u ?_)
            dsimp only
            by_cases h : u = t
            · rw [h, hw] at hu; simp [Pc.key] at hu; exact (hk hu).elim
            · rw [upd_other _ _ h]; exact hu
      | write k' v =>
        simp only [step, hq] at U' ⊢
        exact ⟨fun u hu => drop u hu (by simp) _ rfl rfl rfl (fun q1 => by simp only [after, upd_apply]), I.calm, I.log⟩
      | del k' =>
        simp only [step, hq] at U' ⊢
        exact ⟨fun u hu => drop u hu (by simp) _ rfl rfl rfl (fun q1 => by simp only [after, upd_apply]), I.calm, I.log⟩
  | go t =>
    have g := I.busy t
    cases hpc : s.pcs t with
    | idle => simpa only [step, hpc] using I
    | gWait k' => simpa only [step, hpc] using I
    | gLook k' =>
      rw [hpc] at g
      by_cases hk : k' = k
      · subst hk
        have g := g rfl
        simp only [step, hpc] at U' ⊢
        split
        · rename_i hkn
          rw [if_pos hkn] at U'
          refine kinv_same (t := t) (p := .gHit k') I U' rfl rfl rfl ?_
          show s.cache k' = _
          cases hc : s.cache k' with
          | none => exact (g.2 hkn hc).symm
          | some v => exact (g.1 v hc).symm
        · rename_i hkn
          rw [if_neg hkn] at U'
          exact kinv_same (t := t) (p := .gWait k') I U' rfl rfl rfl ⟨g, s.queue, [], rfl, (C t).2 (by simp [hpc]), S k'⟩
      · simp only [step, hpc]
        have h1 : (s.pcs t).key ≠ some k := by rw [hpc]; simpa [Pc.key] using hk
        split
        · exact kinv_other (t := t) (p := .gHit k') (q := []) (es := []) I rfl h1 (by simpa [Pc.key] using hk) rfl rfl (by simp [St.goto]) rfl (by simp [St.goto]) rfl (.inl rfl)
        · exact kinv_other (t := t) (p := .gWait k') (es := []) I rfl h1 (by simpa [Pc.key] using hk) rfl rfl rfl rfl (by simp) rfl (.inl rfl)
    | gGot k' r =>
      rw [hpc] at g
      by_cases hk : k' = k
      · subst hk
        have g := g rfl
        cases r with
        | some v =>
          simp only [step, hpc, St.done]
          refine kinv_end (t := t) (o := .get k') (r := .val v) I U rfl (by rw [hpc]; rfl) rfl ?_ (fun _ => by rw [← g.2]; rfl)
          refine good_clean ?_
          simp only [upd_same, latest_append, latest]
          exact g.2
        | none =>
          simp only [step, hpc, St.done]
          refine kinv_end (t := t) (o := .get k') (r := .keyError) I U rfl (by rw [hpc]; rfl) rfl ?_ (fun _ => by rw [← g.2]; rfl)
          simp only [Clean, latest_append, latest]
          exact ⟨g.1.1, fun _ _ => g.2.symm⟩
      · have h1 : (s.pcs t).key ≠ some k := by rw [hpc]; simpa [Pc.key] using hk
        have hk' : k ≠ k' := fun e => hk e.symm
        cases r with
        | some v =>
          simp only [step, hpc, St.done]
          exact kinv_other (t := t) (p := .idle) (q := []) I rfl h1 (by simp [Pc.key]) (upd_other _ _ hk') (upd_other _ _ hk') (by simp) rfl rfl (by rw [latest_append]; rfl) (.inr ⟨_, rfl, by simpa using hk⟩)
        | none =>
          simp only [step, hpc, St.done]
          exact kinv_other (t := t) (p := .idle) (q := []) I rfl h1 (by simp [Pc.key]) rfl (by dsimp only; split; exact upd_other _ _ hk'; rfl) (by simp) rfl rfl (by rw [latest_append]; rfl) (.inr ⟨_, rfl, by simpa using hk⟩)
    | gHit k' =>
      rw [hpc] at g
      by_cases hk : k' = k
      · subst hk
        have g := g rfl
        simp only [step, hpc] at U' ⊢
        split
        · rename_i hc
          refine kinv_end (t := t) (o := .get k') (r := .keyError) I U rfl (by rw [hpc]; rfl) rfl ?_ (fun _ => by rw [← show s.cache k' = _ from g, hc.1]; rfl)
          simp only [St.done, latest_append, latest]
          exact good_clean g
        · rename_i hc
          rw [if_neg hc] at U'
          exact kinv_same (t := t) (p := .gTake k') I U' rfl rfl rfl g
      · have h1 : (s.pcs t).key ≠ some k := by rw [hpc]; simpa [Pc.key] using hk
        simp only [step, hpc]
        split
        · exact kinv_other (t := t) (p := .idle) (q := []) I rfl h1 (by simp [Pc.key]) rfl rfl (by simp [St.done]) rfl rfl (by simp only [St.done]; rw [latest_append]; rfl) (.inr ⟨_, rfl, by simpa using hk⟩)
        · exact kinv_other (t := t) (p := .gTake k') (q := []) (es := []) I rfl h1 (by simpa [Pc.key] using hk) rfl rfl (by simp [St.goto]) rfl (by simp [St.goto]) rfl (.inl rfl)
    | gTake k' =>
      rw [hpc] at g
      by_cases hk : k' = k
      · subst hk
        have g := g rfl
        simp only [step, hpc, St.done]
        refine kinv_end (t := t) (o := .get k') I U rfl (by rw [hpc]; rfl) rfl ?_ (fun _ => by rw [← show s.cache k' = _ from g]; cases s.cache k' <;> rfl)
        simp only [latest_append, latest]
        exact good_clean g
      · have h1 : (s.pcs t).key ≠ some k := by rw [hpc]; simpa [Pc.key] using hk
        simp only [step, hpc, St.done]
        exact kinv_other (t := t) (p := .idle) (q := []) I rfl h1 (by simp [Pc.key]) rfl rfl (by simp) rfl rfl (by rw [latest_append]; rfl) (.inr ⟨_, rfl, by simpa using hk⟩)
    | sPut k' v =>
      by_cases hk : k' = k
      · subst hk
        simp only [step, hpc] at U' ⊢
        exact kinv_same (t := t) (p := .sSub k' v) I U' rfl rfl rfl (upd_same _ _ _)
      · have h1 : (s.pcs t).key ≠ some k := by rw [hpc]; simpa [Pc.key] using hk
        have hk' : k ≠ k' := fun e => hk e.symm
        simp only [step, hpc]
        exact kinv_other (t := t) (p := .sSub k' v) (q := []) (es := []) I rfl h1 (by simpa [Pc.key] using hk) (upd_other _ _ hk') (upd_other _ _ hk') (by simp) rfl (by simp) rfl (.inl rfl)
    | sSub k' v =>
      rw [hpc] at g
      by_cases hk : k' = k
      · subst hk
        have g := g rfl
        simp only [step, hpc, St.done]
        refine kinv_end (t := t) (o := .set k' v) (r := .unit) I U rfl (by rw [hpc]; rfl) rfl ?_ (by simp)
        simp only [latest_append, latest, if_true]
        exact good_clean g
      · have h1 : (s.pcs t).key ≠ some k := by rw [hpc]; simpa [Pc.key] using hk
        simp only [step, hpc, St.done]
        exact kinv_other (t := t) (p := .idle) I rfl h1 (by simp [Pc.key]) rfl rfl rfl rfl rfl (by rw [latest_append]; simp [latest, hk]) (.inr ⟨_, rfl, by simp⟩)
    | dIn k' =>
      by_cases hk : k' = k
      · subst hk
        simp only [step, hpc] at U' ⊢
        exact kinv_same (t := t) (p := .dDel k') I U' rfl rfl rfl trivial
      · have h1 : (s.pcs t).key ≠ some k := by rw [hpc]; simpa [Pc.key] using hk
        have hk' : k ≠ k' := fun e => hk e.symm
        simp only [step, hpc]
        exact kinv_other (t := t) (p := .dDel k') (q := []) (es := []) I rfl h1 (by simpa [Pc.key] using hk) rfl (by dsimp only; split; exact upd_other _ _ hk'; rfl) (by simp) rfl (by simp) rfl (.inl rfl)
    | dDel k' =>
      by_cases hk : k' = k
      · subst hk
        simp only [step, hpc] at U' ⊢
        exact kinv_same (t := t) (p := .dSub k') I U' rfl rfl rfl (upd_same _ _ _)
      · have h1 : (s.pcs t).key ≠ some k := by rw [hpc]; simpa [Pc.key] using hk
        have hk' : k ≠ k' := fun e => hk e.symm
        simp only [step, hpc]
        exact kinv_other (t := t) (p := .dSub k') (q := []) (es := []) I rfl h1 (by simpa [Pc.key] using hk) (upd_other _ _ hk') rfl (by simp) rfl (by simp) rfl (.inl rfl)
    | dSub k' =>
      rw [hpc] at g
      by_cases hk : k' = k
      · subst hk
        have g := g rfl
        simp only [step, hpc, St.done]
        refine kinv_end (t := t) (o := .del k') (r := .unit) I U rfl (by rw [hpc]; rfl) rfl ?_ (by simp)
        simp only [latest_append, latest, if_true]
        exact good_clean g
      · have h1 : (s.pcs t).key ≠ some k := by rw [hpc]; simpa [Pc.key] using hk
        simp only [step, hpc, St.done]
        exact kinv_other (t := t) (p := .idle) I rfl h1 (by simp [Pc.key]) rfl rfl rfl rfl rfl (by rw [latest_append]; simp [latest, hk]) (.inr ⟨_, rfl, by simp⟩)

theorem kinv_run (k : Nat) (as : List Act) (h : OneAtATime errs init k as) : KInv init k (run errs init as) := by
  induction as using snoc_ind with
  | h0 => exact ⟨fun t ht => by simp [run, Pc.key] at ht, fun _ => ⟨fun v e => by simp [run] at e, fun e => by simp [run] at e⟩, fun pre _ _ _ e => by have := congrArg List.length e; simp [run] at this⟩
  | h1 l a ih =>
    have u : ∀ p, p <+: l ++ [a] → Uniq k (run errs init p) := fun p hp t u ht hu => h p hp t u ((busy_iff p t k).2 ht) ((busy_iff p u k).2 hu)
    have u1 := u l (List.prefix_append _ _)
    have u2 := u (l ++ [a]) (List.prefix_refl _)
    rw [run_snoc] at u2 ⊢
    exact kinv_step (base_run l).2 (sub_run l) (ih (fun p hp => h p (hp.trans (List.prefix_append _ _)))) u1 a u2

end

/-- what a `get` of a dictionary gives -/
def says : Option Nat → Res
  | some v => .val v
  | none => .keyError

/-- **C264 (guard: operations on this key do not overlap)** If operations on a key do not overlap, each `get` of it gives what the last set or deletion of it that ended left there, or what was in the storage; whatever other threads do with other keys meanwhile, how slow the worker is, and when
`in_cache` is made anew. -/
theorem C264_one_at_a_time_partial (errs : Bool) (init : Nat → Option Nat) (k : Nat) (as : List Act) (h : OneAtATime errs init k as) (pre post : List Ev) (t : Nat) (r : Res)
    (hl : (run errs init as).log = pre ++ .ended t (.get k) r :: post) : r = says (latest k (init k) pre) := by
  rw [(kinv_run k as h).log pre t r post hl]
  cases latest k (init k) pre <;> rfl

/-! ### Violations -/

/-- a storage with 7 at key 1 -/
def seven : Nat → Option Nat := fun k => if k = 1 then some 7 else none

/-- thread 0 reads key 1; the worker has read 7 from the storage; thread 1 sets the key to 8, and this is written; then thread 0 goes on -/
def overtaken : List Act := [.call 0 (.get 1), .go 0, .work, .call 1 (.set 1 8), .go 1, .go 1, .work, .go 0]

/-- thread 0 deletes key 1 and is before submitting; `in_cache` is made anew by another thread; thread 1 reads the key; thread 0 submits the deletion, which is done -/
def revived : List Act := [.call 0 (.del 1), .go 0, .go 0, .renew, .call 1 (.get 1), .go 1, .work, .go 1, .go 0, .work]

/-- nobody sets or deletes the key -/
def NoChange (k : Nat) (bs : List Act) : Prop := ∀ b ∈ bs, ∀ t o, b = .call t o → o.key = k → o = .get k

section
variable {errs : Bool} {init : Nat → Option Nat}

/-- a wrong value stays: the cache has `v` at `k`, and nobody is about to change this -/
structure Stuck (k v n : Nat) (s : St) : Prop where
  cache : s.cache k = some v
  known : s.known k = true
  pcs : ∀ t, (s.pcs t).key = some k → s.pcs t = .gLook k ∨ s.pcs t = .gHit k ∨ s.pcs t = .gTake k
  log : ∀ t r, .ended t (.get k) r ∈ s.log.drop n → r = .val v

theorem stuck_move {k v n : Nat} {s s' : St} {t : Nat} {p : Pc} {es : List Ev} (T : Stuck k v n s) (hn : n ≤ s.log.length) (hp : s'.pcs = upd s.pcs t p) (hpk : p.key = some k → p = .gLook k ∨ p = .gHit k ∨ p = .gTake k)
    (hc : s'.cache k = s.cache k) (hk : s'.known k = s.known k) (hl : s'.log = s.log ++ es) (he : ∀ u r, .ended u (.get k) r ∈ es → r = .val v) : Stuck k v n s' := by
  refine ⟨hc.trans T.cache, hk.trans T.known, fun u hu => ?_, fun u r h => ?_⟩
  · rw [hp] at hu ⊢
    by_cases h : u = t
    · rw [h, upd_same] at hu ⊢; exact hpk hu
    · rw [upd_other _ _ h] at hu ⊢; exact T.pcs u hu
  · rw [hl, List.drop_append_of_le_length hn] at h
    rcases List.mem_append.1 h with h | h
    · exact T.log u r h
    · exact he u r h

theorem stuck_step {k v n : Nat} {s : St} (W : Waits s) (T : Stuck k v n s) (hn : n ≤ s.log.length) (a : Act) (ha : ∀ t o, a = .call t o → o.key = k → o = .get k) : Stuck k v n (step errs s a) := by
  cases a with
  | renew => exact ⟨T.cache, by simp [step, T.cache], T.pcs, T.log⟩
  | call t o =>
    cases hpc : s.pcs t with
    | idle =>
      simp only [step, hpc]
      refine stuck_move (t := t) (p := o.start) T hn rfl (fun h => ?_) rfl rfl rfl (by simp)
      rw [start_key] at h
      rw [ha t o rfl (by simpa using h)]
      exact .inl rfl
    | _ => simpa only [step, hpc] using T
  | work =>
    cases hq : s.queue with
    | nil => simpa only [step, hq] using T
    | cons j q =>
      cases j with
      | read t k' =>
        obtain ⟨hw, _⟩ := waits_head W hq
        simp only [step, hq]
        refine stuck_move (t := t) (p := .gGot k' (s.storage k')) (es := []) T hn rfl (fun h => ?_) rfl rfl (by simp) (by simp)
        have := T.pcs t (by rw [hw]; exact h)
        rw [hw] at this
        simp at this
      | write k' v' => simp only [step, hq]; exact ⟨T.cache, T.known, T.pcs, T.log⟩
      | del k' => simp only [step, hq]; exact ⟨T.cache, T.known, T.pcs, T.log⟩
  | go t =>
    have other : ∀ k', (s.pcs t).key = some k' → s.pcs t ≠ .gLook k' → s.pcs t ≠ .gHit k' → s.pcs t ≠ .gTake k' → k ≠ k' := by
      intro k' h h1 h2 h3 e
      subst e
      rcases T.pcs t h with h | h | h
      · exact h1 h
      · exact h2 h
      · exact h3 h
    cases hpc : s.pcs t with
    | idle => simpa only [step, hpc] using T
    | gWait k' => simpa only [step, hpc] using T
    | gLook k' =>
      simp only [step, hpc]
      split
      · exact stuck_move (t := t) (p := .gHit k') (es := []) T hn rfl (by simp only [Pc.key]; rintro ⟨⟩; simp) rfl rfl (by simp [St.goto]) (by simp)
      · rename_i hk
        exact stuck_move (t := t) (p := .gWait k') (es := []) T hn rfl (by simp only [Pc.key]; rintro ⟨⟩; exact (hk T.known).elim) rfl rfl (by simp) (by simp)
    | gGot k' r =>
      have hk := other k' (by rw [hpc]; rfl) (by simp [hpc]) (by simp [hpc]) (by simp [hpc])
      have hk' : k' ≠ k := fun e => hk e.symm
      cases r with
      | some v' => simp only [step, hpc, St.done]; exact stuck_move (t := t) (p := .idle) T hn rfl (by simp [Pc.key]) (upd_other _ _ hk) (upd_other _ _ hk) rfl (by simp [hk])
      | none => simp only [step, hpc, St.done]; exact stuck_move (t := t) (p := .idle) T hn rfl (by simp [Pc.key]) rfl (by dsimp only; split; exact upd_other _ _ hk; rfl) rfl (by simp [hk])
    | gHit k' =>
      simp only [step, hpc]
      split
      · rename_i hc
        exact stuck_move (t := t) (p := .idle) T hn rfl (by simp [Pc.key]) rfl rfl rfl (fun u r h => by
          simp at h
          obtain ⟨-, rfl, rfl⟩ := h
          rw [T.cache] at hc
          simp at hc)
      · exact stuck_move (t := t) (p := .gTake k') (es := []) T hn rfl (by simp only [Pc.key]; rintro ⟨⟩; simp) rfl rfl (by simp [St.goto]) (by simp)
    | gTake k' =>
      simp only [step, hpc, St.done]
      exact stuck_move (t := t) (p := .idle) T hn rfl (by simp [Pc.key]) rfl rfl rfl (fun u r h => by
        simp only [List.mem_singleton] at h
        cases h
        rw [T.cache])
    | sPut k' v' =>
      have hk := other k' (by rw [hpc]; rfl) (by simp [hpc]) (by simp [hpc]) (by simp [hpc])
      simp only [step, hpc]
      exact stuck_move (t := t) (p := .sSub k' v') (es := []) T hn rfl (by simpa [Pc.key] using fun e => hk e.symm) (upd_other _ _ hk) (upd_other _ _ hk) (by simp) (by simp)
    | sSub k' v' => simp only [step, hpc, St.done]; exact stuck_move (t := t) (p := .idle) T hn rfl (by simp [Pc.key]) rfl rfl rfl (by simp)
    | dIn k' =>
      have hk := other k' (by rw [hpc]; rfl) (by simp [hpc]) (by simp [hpc]) (by simp [hpc])
      simp only [step, hpc]
      exact stuck_move (t := t) (p := .dDel k') (es := []) T hn rfl (by simpa [Pc.key] using fun e => hk e.symm) rfl (by dsimp only; split; exact upd_other _ _ hk; rfl) (by simp) (by simp)
    | dDel k' =>
      have hk := other k' (by rw [hpc]; rfl) (by simp [hpc]) (by simp [hpc]) (by simp [hpc])
      simp only [step, hpc]
      exact stuck_move (t := t) (p := .dSub k') (es := []) T hn rfl (by simpa [Pc.key] using fun e => hk e.symm) (upd_other _ _ hk) rfl (by simp) (by simp)
    | dSub k' => simp only [step, hpc, St.done]; exact stuck_move (t := t) (p := .idle) T hn rfl (by simp [Pc.key]) rfl rfl rfl (by simp)

theorem log_step (s : St) (a : Act) : ∃ es, (step errs s a).log = s.log ++ es := by
  cases a with
  | renew => exact ⟨[], by simp [step]⟩
  | work => exact ⟨[], by rw [work_log]; simp⟩
  | call t o =>
    cases hpc : s.pcs t with
    | idle => exact ⟨_, by simp only [step, hpc]; rfl⟩
    | _ => exact ⟨[], by simp [step, hpc]⟩
  | go t =>
    cases hpc : s.pcs t with
    | gLook k => exact ⟨[], by simp only [step, hpc]; split <;> simp [St.goto]⟩
    | gGot k r => cases r <;> exact ⟨_, by simp only [step, hpc, St.done]; rfl⟩
    | gTake k => exact ⟨_, by simp only [step, hpc, St.done]; rfl⟩
    | sSub k v => exact ⟨_, by simp only [step, hpc, St.done]; rfl⟩
    | dSub k => exact ⟨_, by simp only [step, hpc, St.done]; rfl⟩
    | gHit k =>
      simp only [step, hpc]
      split
      · exact ⟨_, rfl⟩
      · exact ⟨[], by simp [St.goto]⟩
    | _ => exact ⟨[], by simp [step, hpc]⟩

theorem stuck_run {k v n : Nat} (as bs : List Act) (T : Stuck k v n (run errs init as)) (hn : n ≤ (run errs init as).log.length) (hb : NoChange k bs) : Stuck k v n (run errs init (as ++ bs)) ∧ n ≤ (run errs init (as ++ bs)).log.length := by
  induction bs using snoc_ind with
  | h0 => simpa using And.intro T hn
  | h1 l a ih =>
    obtain ⟨i1, i2⟩ := ih (fun b h => hb b (by simp [h]))
    rw [← List.append_assoc, run_snoc]
    obtain ⟨es, he⟩ := log_step (errs := errs) (run errs init (as ++ l)) a
    exact ⟨stuck_step (base_run _).2 i1 i2 a (hb a (by simp)), by rw [he, List.length_append]; omega⟩

end

/-- **C264 (violation: a set that a read overtakes is lost for readers)** Thread 0 reads a key that is not in the cache; after the storage answered, thread 1 sets the key to 8, and this is written; then thread 0 stores the answer in the cache.  Both calls ended and the storage has 8, but as long
as nobody sets or deletes the key again each `get` gives the old 7, whatever happens. -/
theorem C264_violates_set (errs : Bool) :
    (run errs seven overtaken).log = [.called 0 (.get 1), .called 1 (.set 1 8), .ended 1 (.set 1 8) .unit, .ended 0 (.get 1) (.val 7)] ∧ (run errs seven overtaken).queue = [] ∧ (run errs seven overtaken).storage 1 = some 8 ∧
      ∀ bs, NoChange 1 bs → ∀ t r, .ended t (.get 1) r ∈ (run errs seven (overtaken ++ bs)).log.drop 4 → r = .val 7 := by
  have hl : (run errs seven overtaken).log = [.called 0 (.get 1), .called 1 (.set 1 8), .ended 1 (.set 1 8) .unit, .ended 0 (.get 1) (.val 7)] := by cases errs <;> decide +kernel
  refine ⟨hl, by cases errs <;> decide +kernel, by cases errs <;> decide +kernel, fun bs hb => ?_⟩
  refine (stuck_run (k := 1) (v := 7) (n := 4) overtaken bs ⟨by cases errs <;> decide +kernel, by cases errs <;> decide +kernel, fun t ht => ?_, fun t r h => ?_⟩ (by rw [hl]; decide) hb).1.log
  · have hb := (busy_iff overtaken t 1).2 ht
    rw [hl] at hb
    by_cases h0 : t = 0
    · subst h0; exact (hb (by decide)).elim
    · by_cases h1 : t = 1
      · subst h1; exact (hb (by decide)).elim
      · exact (hb (by simp [nCalled, nEnded, Op.key, Ne.symm h0, Ne.symm h1])).elim
  · rw [hl] at h; simp at h

/-- **C264 (violation: a deleted key is back)** Thread 0 deletes a key; between removing it from the cache and submitting the deletion another thread makes `in_cache` anew, and thread 1 reads the key from the storage into the cache.  Both calls ended and the storage has nothing at the key, but as long
as nobody sets or deletes the key again each `get` gives the deleted value. -/
theorem C264_violates_delete (errs : Bool) :
    (run errs seven revived).log = [.called 0 (.del 1), .called 1 (.get 1), .ended 1 (.get 1) (.val 7), .ended 0 (.del 1) .unit] ∧ (run errs seven revived).queue = [] ∧ (run errs seven revived).storage 1 = none ∧
      ∀ bs, NoChange 1 bs → ∀ t r, .ended t (.get 1) r ∈ (run errs seven (revived ++ bs)).log.drop 4 → r = .val 7 := by
  have hl : (run errs seven revived).log = [.called 0 (.del 1), .called 1 (.get 1), .ended 1 (.get 1) (.val 7), .ended 0 (.del 1) .unit] := by cases errs <;> decide +kernel
  refine ⟨hl, by cases errs <;> decide +kernel, by cases errs <;> decide +kernel, fun bs hb => ?_⟩
  refine (stuck_run (k := 1) (v := 7) (n := 4) revived bs ⟨by cases errs <;> decide +kernel, by cases errs <;> decide +kernel, fun t ht => ?_, fun t r h => ?_⟩ (by rw [hl]; decide) hb).1.log
  · have hb := (busy_iff revived t 1).2 ht
    rw [hl] at hb
    by_cases h0 : t = 0
    · subst h0; exact (hb (by decide)).elim
    · by_cases h1 : t = 1
      · subst h1; exact (hb (by decide)).elim
      · exact (hb (by simp [nCalled, nEnded, Op.key, Ne.symm h0, Ne.symm h1])).elim
  · rw [hl] at h; simp at h

/-- threads 0 and 1 set key 1 at once: thread 0 is the first in the cache, but the last to submit -/
def crossed : List Act := [.call 0 (.set 1 8), .call 1 (.set 1 9), .go 0, .go 1, .go 1, .go 0, .work, .work]

/-- **C264 (violation: two sets at once leave cache and storage different)** Two threads set a key at once, to 8 and to 9.  Both calls ended and everything is written; the storage has 8, but as long as nobody sets or deletes the key again each `get` gives 9. -/
theorem C264_violates_two_sets (errs : Bool) :
    (run errs seven crossed).log = [.called 0 (.set 1 8), .called 1 (.set 1 9), .ended 1 (.set 1 9) .unit, .ended 0 (.set 1 8) .unit] ∧ (run errs seven crossed).queue = [] ∧ (run errs seven crossed).storage 1 = some 8 ∧
      ∀ bs, NoChange 1 bs → ∀ t r, .ended t (.get 1) r ∈ (run errs seven (crossed ++ bs)).log.drop 4 → r = .val 9 := by
  have hl : (run errs seven crossed).log = [.called 0 (.set 1 8), .called 1 (.set 1 9), .ended 1 (.set 1 9) .unit, .ended 0 (.set 1 8) .unit] := by cases errs <;> decide +kernel
  refine ⟨hl, by cases errs <;> decide +kernel, by cases errs <;> decide +kernel, fun bs hb => ?_⟩
  refine (stuck_run (k := 1) (v := 9) (n := 4) crossed bs ⟨by cases errs <;> decide +kernel, by cases errs <;> decide +kernel, fun t ht => ?_, fun t r h => ?_⟩ (by rw [hl]; decide) hb).1.log
  · have hb := (busy_iff crossed t 1).2 ht
    rw [hl] at hb
    by_cases h0 : t = 0
    · subst h0; exact (hb (by decide)).elim
    · by_cases h1 : t = 1
      · subst h1; exact (hb (by decide)).elim
      · exact (hb (by simp [nCalled, nEnded, Op.key, Ne.symm h0, Ne.symm h1])).elim
  · rw [hl] at h; simp at h

/-! ### Examples -/

/-- a get after the stale read is really answered with the old value -/
example : (run true seven (overtaken ++ [.call 2 (.get 1), .go 2, .go 2, .go 2])).log.drop 4 = [.called 2 (.get 1), .ended 2 (.get 1) (.val 7)] := by decide +kernel

example : NoChange 1 [.call 2 (.get 1), .go 2, .renew, .call 3 (.set 2 5), .go 2, .go 2] := by
  intro b hb t o h hk
  simp at hb
  rcases hb with rfl | rfl | rfl | rfl | rfl <;> cases h
  · rfl
  · simp [Op.key] at hk

/-- threads 0 and 1 use key 1 one after another, thread 2 uses key 2 in between -/
def mixed : List Act := [.call 0 (.get 1), .call 2 (.set 2 5), .go 0, .go 2, .work, .go 0, .call 1 (.set 1 8), .go 1, .go 2, .go 1, .renew, .call 0 (.get 1), .go 0, .go 0, .go 0, .call 1 (.del 1), .go 1, .go 1, .go 1, .call 0 (.get 1), .go 0, .go 0]

example : OneAtATime true seven 1 mixed := by
  intro p hp t u ht hu
  have key : ∀ n, n ≤ mixed.length → ∀ t, nCalled t 1 (run true seven (mixed.take n)).log ≠ nEnded t 1 (run true seven (mixed.take n)).log → t = (if n < 7 ∨ 12 ≤ n ∧ n < 16 ∨ 20 ≤ n then 0 else 1) := by
    intro n hn t ht
    have hlog : (run true seven (mixed.take n)).log <+: (run true seven mixed).log := by
      match n with
      | 0 | 1 | 2 | 3 | 4 | 5 | 6 | 7 | 8 | 9 | 10 | 11 | 12 | 13 | 14 | 15 | 16 | 17 | 18 | 19 | 20 | 21 | 22 => decide +kernel
      | n + 23 => simp [mixed] at hn
    by_cases h0 : t = 0
    · subst h0
      match n with
      | 0 | 1 | 2 | 3 | 4 | 5 | 6 | 7 | 8 | 9 | 10 | 11 | 12 | 13 | 14 | 15 | 16 | 17 | 18 | 19 | 20 | 21 | 22 => revert ht; decide +kernel
      | n + 23 => simp [mixed] at hn
    · by_cases h1 : t = 1
      · subst h1
        match n with
        | 0 | 1 | 2 | 3 | 4 | 5 | 6 | 7 | 8 | 9 | 10 | 11 | 12 | 13 | 14 | 15 | 16 | 17 | 18 | 19 | 20 | 21 | 22 => revert ht; decide +kernel
        | n + 23 => simp [mixed] at hn
      · refine (ht ?_).elim
        have full : ∀ e ∈ (run true seven mixed).log, (match e with | .called u o => decide (u = t ∧ o.key = 1) | .ended u o _ => decide (u = t ∧ o.key = 1)) = false := by
          have : (run true seven mixed).log = [.called 0 (.get 1), .called 2 (.set 2 5), .ended 0 (.get 1) (.val 7), .called 1 (.set 1 8), .ended 2 (.set 2 5) .unit, .ended 1 (.set 1 8) .unit, .called 0 (.get 1), .ended 0 (.get 1) (.val 8), .called 1 (.del 1), .ended 1 (.del 1) .unit, .called 0 (.get 1), .ended 0 (.get 1) .keyError] := by decide +kernel
          rw [this]
          simp [Op.key, Ne.symm h0, Ne.symm h1]
        rw [nCalled, nEnded, List.countP_eq_zero.2, List.countP_eq_zero.2]
        · intro e he; have := full e (hlog.subset he); cases e <;> simp_all
        · intro e he; have := full e (hlog.subset he); cases e <;> simp_all
  obtain ⟨n, hn, rfl⟩ : ∃ n, n ≤ mixed.length ∧ p = mixed.take n := ⟨p.length, hp.length_le, (List.prefix_iff_eq_take.1 hp)⟩
  rw [key n hn t ht, key n hn u hu]

example : (run true seven mixed).log = [.called 0 (.get 1), .called 2 (.set 2 5), .ended 0 (.get 1) (.val 7), .called 1 (.set 1 8), .ended 2 (.set 2 5) .unit, .ended 1 (.set 1 8) .unit, .called 0 (.get 1), .ended 0 (.get 1) (.val 8), .called 1 (.del 1), .ended 1 (.del 1) .unit, .called 0 (.get 1), .ended 0 (.get 1) .keyError] := by
  decide +kernel

/-- C263: two overlapping sets of a key -/
example : (run true seven [.call 0 (.set 1 8), .call 1 (.set 1 9), .go 0, .go 1, .go 1, .go 0, .work, .work]).storage 1 = some 8 ∧ (run true seven [.call 0 (.set 1 8), .call 1 (.set 1 9), .go 0, .go 1, .go 1, .go 0, .work, .work]).queue = [] := by decide +kernel

end Verif.Writeback.Threads
