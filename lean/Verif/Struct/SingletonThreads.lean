import Verif.Conc.MonitorProps
/-!
# Singletons made by several threads (satella/coding/structures/singleton.py); C255, C256

Threads call a class decorated with `SingletonWithRegardsTo`, or with `Singleton`, while others do.  No lock is taken: reading `cls.__it__`,
storing a dictionary there, looking for the key, reading the object, making it, storing it, and the end of its initialisation are steps of their own.
Keys (the first arguments) are numbers; objects are numbers, in the order in which they were made.  References are strong
(`weak_refs=False`), no other attribute is called `__it__`, and neither making nor initialising raises (C118 is about that).

`Singleton` does the same with one key, but keeps the object itself in `cls.__it__`: it is modelled as if the dictionary was there from the
beginning.  It reads the object when it looks for it; what it does is what the model does when no other thread acts between `look` and `get`.
-/
namespace Verif.Struct.SingletonThreads
open Verif
open Verif.Conc (upd upd_same upd_other)

/-! ## Model -/

/-- where a thread is in `singleton_new`, /repo/satella/coding/structures/singleton.py:73-87: before lines 74, 79, 82, 83, 85 (making the object, then storing it), 86; `d` is the number of the dictionary it uses -/
inductive Pc where
  | idle
  | read (k : Nat)
  | dict (k : Nat)
  | look (k d : Nat)
  | get (k d : Nat)
  | make (k d : Nat)
  | store (k d o : Nat)
  | init (k o : Nat)
  deriving DecidableEq, Repr

/-- what is seen: the class is called with a key; a new object is made for the key; an object is initialised; a call returns an object.  (Part of the model of `singleton_new`, /repo/satella/coding/structures/singleton.py:73-87.) -/
inductive Ev where
  | called (t k : Nat)
  | made (k o : Nat)
  | inited (o : Nat)
  | returned (t k o : Nat)
  deriving DecidableEq, Repr

/-- the class: `cls.__it__` (the number of a dictionary), how many dictionaries there were, what they hold, how many objects there were; the threads, and what was seen (not in the code), /repo/satella/coding/structures/singleton.py:73-87 -/
structure St where
  it : Option Nat := none
  dicts : Nat := 0
  cells : Nat → Nat → Option Nat := fun _ _ => none
  objects : Nat := 0
  pcs : Nat → Pc := fun _ => .idle
  log : List Ev := []

/-- what happens: a thread calls the class, or goes on by one step.  (Part of the model of `singleton_new`, /repo/satella/coding/structures/singleton.py:73-87.) -/
inductive Act where
  | call (t k : Nat)
  | go (t : Nat)
  deriving DecidableEq, Repr

/-- A step of `singleton_new`, /repo/satella/coding/structures/singleton.py:73-87. -/
def step (s : St) : Act → St
  | .call t k =>
    match s.pcs t with
    | .idle => { s with pcs := upd s.pcs t (.read k), log := s.log ++ [.called t k] }
    | _ => s
  | .go t =>
    match s.pcs t with
    | .idle => s
    | .read k =>
      match s.it with
      | none => { s with pcs := upd s.pcs t (.dict k) }
      | some d => { s with pcs := upd s.pcs t (.look k d) }
    | .dict k => { s with it := some s.dicts, dicts := s.dicts + 1, pcs := upd s.pcs t (.look k s.dicts) }
    | .look k d =>
      match s.cells d k with
      | some _ => { s with pcs := upd s.pcs t (.get k d) }
      | none => { s with pcs := upd s.pcs t (.make k d) }
    | .get k d =>
      match s.cells d k with
      | some o => { s with pcs := upd s.pcs t .idle, log := s.log ++ [.returned t k o] }
      | none => s
    | .make k d => { s with objects := s.objects + 1, pcs := upd s.pcs t (.store k d s.objects), log := s.log ++ [.made k s.objects] }
    | .store k d o => { s with cells := upd s.cells d (upd (s.cells d) k (some o)), pcs := upd s.pcs t (.init k o) }
    | .init k o => { s with pcs := upd s.pcs t .idle, log := s.log ++ [.inited o, .returned t k o] }

/-- the beginning: without `__it__` for `SingletonWithRegardsTo`, /repo/satella/coding/structures/singleton.py:68-94; for `Singleton`, /repo/satella/coding/structures/singleton.py:19-36, as said above -/
def start (single : Bool) : St := if single then { it := some 0, dicts := 1 } else {}

/-- everything that happens.  (Part of the model of `singleton_new`, /repo/satella/coding/structures/singleton.py:73-87.) -/
def run (single : Bool) (as : List Act) : St := as.foldl step (start single)

/-! ## Specification -/

/-- every thread has returned from all its calls -/
def Quiet (log : List Ev) : Prop :=
  ∀ t, log.countP (fun e => match e with | .called u _ => decide (u = t) | _ => false) = log.countP (fun e => match e with | .returned u _ _ => decide (u = t) | _ => false)

/-- the thread is in a call -/
def Busy (t : Nat) (log : List Ev) : Prop :=
  log.countP (fun e => match e with | .called u _ => decide (u = t) | _ => false) ≠ log.countP (fun e => match e with | .returned u _ _ => decide (u = t) | _ => false)

/-- no call begins while another thread is in one -/
def OneAtATime (single : Bool) (as : List Act) : Prop := ∀ p, p <+: as → ∀ t u, Busy t (run single p).log → Busy u (run single p).log → t = u

/-- all calls with the key return the same object -/
def Same (k : Nat) (log : List Ev) : Prop := ∃ o, ∀ t o', .returned t k o' ∈ log → o' = o

/-! ## Proofs -/

theorem run_append (single : Bool) (as bs : List Act) : run single (as ++ bs) = bs.foldl step (run single as) := by simp [run]

theorem run_snoc (single : Bool) (as : List Act) (a : Act) : run single (as ++ [a]) = step (run single as) a := by simp [run]

theorem snoc_ind {α : Type} {P : List α → Prop} (h0 : P []) (h1 : ∀ l a, P l → P (l ++ [a])) (l : List α) : P l := by
  rw [← List.reverse_reverse l]
  induction l.reverse with
  | nil => exact h0
  | cons a l ih => rw [List.reverse_cons]; exact h1 _ _ ih

/-- calls of a thread -/
def nCalled (t : Nat) (log : List Ev) : Nat := log.countP (fun e => match e with | .called u _ => decide (u = t) | _ => false)

/-- returns of a thread -/
def nReturned (t : Nat) (log : List Ev) : Nat := log.countP (fun e => match e with | .returned u _ _ => decide (u = t) | _ => false)

/-- a thread is in a call if and only if it began one more than it ended -/
def Counted (s : St) : Prop := ∀ t, nCalled t s.log = nReturned t s.log + (if s.pcs t = .idle then 0 else 1)

theorem counted_move {s s' : St} {t : Nat} {p : Pc} (h : Counted s) (ht : s.pcs t ≠ .idle) (hp : p ≠ .idle) (h1 : s'.pcs = upd s.pcs t p) (h2 : ∀ u, nCalled u s'.log = nCalled u s.log)
    (h3 : ∀ u, nReturned u s'.log = nReturned u s.log) : Counted s' := by
  intro u
  rw [h1, h2, h3, h u]
  by_cases hu : u = t
  · subst hu; rw [upd_same]; simp [ht, hp]
  · rw [upd_other _ _ hu]

theorem counted_end {s s' : St} {t : Nat} (h : Counted s) (ht : s.pcs t ≠ .idle) (h1 : s'.pcs = upd s.pcs t .idle) (h2 : ∀ u, nCalled u s'.log = nCalled u s.log)
    (h3 : ∀ u, nReturned u s'.log = nReturned u s.log + if t = u then 1 else 0) : Counted s' := by
  intro u
  rw [h1, h2, h3, h u]
  by_cases hu : u = t
  · subst hu; rw [upd_same]; simp [ht]
  · have hu' : t ≠ u := fun e => hu e.symm
    rw [upd_other _ _ hu]; simp [hu']

theorem counted_step {s : St} (h : Counted s) (a : Act) : Counted (step s a) := by
  cases a with
  | call t k =>
    cases hpc : s.pcs t with
    | idle =>
      simp only [step, hpc]
      intro u
      have := h u
      by_cases hu : u = t
      · subst hu
        rw [hpc] at this
        simp [nCalled, nReturned, List.countP_append] at *
        exact this
      · have hu' : t ≠ u := fun e => hu e.symm
        simp [nCalled, nReturned, List.countP_append, upd_other _ _ hu, hu'] at *
        exact this
    | _ => simpa only [step, hpc] using h
  | go t =>
    have hne : ∀ {p : Pc}, s.pcs t = p → p ≠ .idle → s.pcs t ≠ .idle := fun h hp => by rw [h]; exact hp
    cases hpc : s.pcs t with
    | idle => simpa only [step, hpc] using h
    | read k =>
      simp only [step, hpc]
      split
      · exact counted_move (p := .dict k) h (hne hpc (by simp)) (by simp) rfl (fun _ => rfl) (fun _ => rfl)
      · next d _ => exact counted_move (p := .look k d) h (hne hpc (by simp)) (by simp) rfl (fun _ => rfl) (fun _ => rfl)
    | dict k => simp only [step, hpc]; exact counted_move (p := .look k s.dicts) h (hne hpc (by simp)) (by simp) rfl (fun _ => rfl) (fun _ => rfl)
    | look k d =>
      simp only [step, hpc]
      split
      · exact counted_move (p := .get k d) h (hne hpc (by simp)) (by simp) rfl (fun _ => rfl) (fun _ => rfl)
      · exact counted_move (p := .make k d) h (hne hpc (by simp)) (by simp) rfl (fun _ => rfl) (fun _ => rfl)
    | get k d =>
      simp only [step, hpc]
      split
      · exact counted_end h (hne hpc (by simp)) rfl (fun u => by simp [nCalled]) (fun u => by simp [nReturned, List.countP_cons])
      · exact h
    | make k d => simp only [step, hpc]; exact counted_move (p := .store k d s.objects) h (hne hpc (by simp)) (by simp) rfl (fun u => by simp [nCalled]) (fun u => by simp [nReturned])
    | store k d o => simp only [step, hpc]; exact counted_move (p := .init k o) h (hne hpc (by simp)) (by simp) rfl (fun _ => rfl) (fun _ => rfl)
    | init k o => simp only [step, hpc]; exact counted_end h (hne hpc (by simp)) rfl (fun u => by simp [nCalled]) (fun u => by simp [nReturned, List.countP_cons])

theorem counted_run (single : Bool) (as : List Act) : Counted (run single as) := by
  induction as using snoc_ind with
  | h0 => intro t; cases single <;> simp [run, start, nCalled, nReturned]
  | h1 l a ih => rw [run_snoc]; exact counted_step ih a

theorem idle_of_quiet {s : St} (h : Counted s) (hq : Quiet s.log) (t : Nat) : s.pcs t = .idle := by
  have h1 := h t
  have h2 : nCalled t s.log = nReturned t s.log := hq t
  refine Decidable.byContradiction (fun hh => ?_)
  rw [if_neg hh] at h1; omega

/-! ### Objects and keys -/

/-- the object was made for the key -/
def For (log : List Ev) (k o : Nat) : Prop := .made k o ∈ log

/-- what holds of a thread -/
def KOk (s : St) : Pc → Prop
  | .get k d => s.cells d k ≠ none
  | .store k _ o => For s.log k o
  | .init k o => For s.log k o
  | _ => True

/-- what always holds of objects -/
structure KInv (s : St) : Prop where
  cells : ∀ d k o, s.cells d k = some o → For s.log k o
  pcs : ∀ t, KOk s (s.pcs t)
  fresh : ∀ k o, .made k o ∈ s.log → o < s.objects
  once : ∀ k k' o, .made k o ∈ s.log → .made k' o ∈ s.log → k = k'
  ret : ∀ t k o, .returned t k o ∈ s.log → For s.log k o

theorem kok_mono {s s' : St} (hc : ∀ d k, s.cells d k ≠ none → s'.cells d k ≠ none) (hl : ∀ e ∈ s.log, e ∈ s'.log) {p : Pc} (h : KOk s p) : KOk s' p := by
  cases p with
  | get k d => exact hc d k h
  | store k d o => exact hl _ h
  | init k o => exact hl _ h
  | _ => trivial

theorem koks {s s' : St} {t : Nat} {p : Pc} (h : ∀ u, KOk s (s.pcs u)) (hc : ∀ d k, s.cells d k ≠ none → s'.cells d k ≠ none) (hl : ∀ e ∈ s.log, e ∈ s'.log)
    (hp : s'.pcs = upd s.pcs t p) (hk : KOk s' p) : ∀ u, KOk s' (s'.pcs u) := by
  intro u
  rw [hp]
  by_cases hu : u = t
  · subst hu; rw [upd_same]; exact hk
  · rw [upd_other _ _ hu]; exact kok_mono hc hl (h u)

/-- events which make nothing -/
theorem kinv_log {s s' : St} {t : Nat} {p : Pc} {es : List Ev} (I : KInv s) (hc : s'.cells = s.cells) (ho : s'.objects = s.objects) (hl : s'.log = s.log ++ es) (hm : ∀ k o, .made k o ∉ es)
    (hr : ∀ u k o, .returned u k o ∈ es → For s.log k o) (hp : s'.pcs = upd s.pcs t p) (hk : KOk s p) : KInv s' where
  cells := by
    intro d k o h
    rw [hc] at h
    exact hl ▸ List.mem_append_left _ (I.cells d k o h)
  pcs := koks I.pcs (fun d k => by rw [hc]; exact id) (fun e he => hl ▸ List.mem_append_left _ he) hp (kok_mono (fun d k => by rw [hc]; exact id) (fun e he => hl ▸ List.mem_append_left _ he) hk)
  fresh := by
    intro k o h
    rw [hl] at h; rw [ho]
    rcases List.mem_append.1 h with h | h
    · exact I.fresh k o h
    · exact absurd h (hm k o)
  once := by
    intro k k' o h h'
    rw [hl] at h h'
    exact I.once k k' o ((List.mem_append.1 h).resolve_right (hm k o)) ((List.mem_append.1 h').resolve_right (hm k' o))
  ret := by
    intro u k o h
    rw [hl] at h ⊢
    rcases List.mem_append.1 h with h | h
    · exact List.mem_append_left _ (I.ret u k o h)
    · exact List.mem_append_left _ (hr u k o h)

theorem kinv_step {s : St} (I : KInv s) (a : Act) : KInv (step s a) := by
  cases a with
  | call t k =>
    cases hpc : s.pcs t with
    | idle => simp only [step, hpc]; exact kinv_log (t := t) (p := .read k) I rfl rfl rfl (by simp) (by simp) rfl trivial
    | _ => simpa only [step, hpc] using I
  | go t =>
    have hk := I.pcs t
    have stay : ∀ {s' : St} (p : Pc), s'.cells = s.cells → s'.objects = s.objects → s'.log = s.log → s'.pcs = upd s.pcs t p → KOk s p → KInv s' :=
      fun p hc ho hl hp hk => kinv_log (es := []) I hc ho (by simp [hl]) (by simp) (by simp) hp hk
    cases hpc : s.pcs t with
    | idle => simpa only [step, hpc] using I
    | read k =>
      simp only [step, hpc]
      split
      · exact stay (.dict k) rfl rfl rfl rfl trivial
      · next d _ => exact stay (.look k d) rfl rfl rfl rfl trivial
    | dict k => simp only [step, hpc]; exact stay (.look k s.dicts) rfl rfl rfl rfl trivial
    | look k d =>
      simp only [step, hpc]
      split
      · next o h => exact stay (.get k d) rfl rfl rfl rfl (by simp [KOk, h])
      · exact stay (.make k d) rfl rfl rfl rfl trivial
    | get k d =>
      simp only [step, hpc]
      split
      · next o h =>
        refine kinv_log (t := t) (p := .idle) I rfl rfl rfl (by simp) ?_ rfl trivial
        intro u k' o' hm
        cases List.mem_singleton.1 hm
        exact I.cells d k o h
      · exact I
    | make k d =>
      simp only [step, hpc]
      have hsub : ∀ e ∈ s.log, e ∈ s.log ++ [.made k s.objects] := fun e he => List.mem_append_left _ he
      refine ⟨fun d' k' o' h => hsub _ (I.cells d' k' o' h), koks (t := t) (p := .store k d s.objects) I.pcs (fun _ _ h => h) hsub rfl (by simp [KOk, For]), ?_, ?_, ?_⟩
      · intro k' o' h
        show o' < s.objects + 1
        rcases List.mem_append.1 h with h | h
        · have := I.fresh k' o' h; omega
        · cases List.mem_singleton.1 h; omega
      · intro k1 k2 o' h h'
        rcases List.mem_append.1 h with h | h <;> rcases List.mem_append.1 h' with h' | h'
        · exact I.once k1 k2 o' h h'
        · cases List.mem_singleton.1 h'; exact absurd (I.fresh _ _ h) (Nat.lt_irrefl _)
        · cases List.mem_singleton.1 h; exact absurd (I.fresh _ _ h') (Nat.lt_irrefl _)
        · cases List.mem_singleton.1 h; cases List.mem_singleton.1 h'; rfl
      · intro u k' o' h
        rcases List.mem_append.1 h with h | h
        · exact hsub _ (I.ret u k' o' h)
        · cases List.mem_singleton.1 h
    | store k d o =>
      rw [hpc] at hk
      simp only [step, hpc]
      refine ⟨?_, koks (t := t) (p := .init k o) I.pcs ?_ (fun _ h => h) rfl hk, I.fresh, I.once, I.ret⟩
      · intro d' k' o' h
        dsimp only at h
        by_cases hd : d' = d
        · subst hd
          rw [upd_same] at h
          by_cases hk' : k' = k
          · subst hk'; rw [upd_same] at h; cases h; exact hk
          · rw [upd_other _ _ hk'] at h; exact I.cells _ _ _ h
        · rw [upd_other _ _ hd] at h; exact I.cells _ _ _ h
      · intro d' k' h
        dsimp only
        by_cases hd : d' = d
        · subst hd
          rw [upd_same]
          by_cases hk' : k' = k
          · subst hk'; rw [upd_same]; simp
          · rw [upd_other _ _ hk']; exact h
        · rw [upd_other _ _ hd]; exact h
    | init k o =>
      rw [hpc] at hk
      simp only [step, hpc]
      refine kinv_log (t := t) (p := .idle) I rfl rfl rfl (by simp) ?_ rfl trivial
      intro u k' o' hm
      simp at hm
      obtain ⟨rfl, rfl, rfl⟩ := hm
      exact hk

theorem kinv_run (single : Bool) (as : List Act) : KInv (run single as) := by
  induction as using snoc_ind with
  | h0 => cases single <;> exact ⟨by simp [run, start], fun _ => by simp [run, start, KOk], by simp [run, start], by simp [run, start], by simp [run, start]⟩
  | h1 l a ih => rw [run_snoc]; exact kinv_step ih a

/-- **C255 (keys)**  Whatever threads do, a call returns an object that was made for its key; an object is made for one key only, so objects returned for different keys are different. -/
theorem C255_key (single : Bool) (as : List Act) (t k o : Nat) (h : .returned t k o ∈ (run single as).log) :
    .made k o ∈ (run single as).log ∧ ∀ u k', .returned u k' o ∈ (run single as).log → k' = k :=
  ⟨(kinv_run single as).ret t k o h, fun u k' h' => (kinv_run single as).once k' k o ((kinv_run single as).ret u k' o h') ((kinv_run single as).ret t k o h)⟩

/-! ### What is settled -/

/-- `__it__` is there once it was used -/
structure UInv (s : St) : Prop where
  pcs : ∀ t, (match s.pcs t with | .idle => True | .read _ => True | .dict _ => True | _ => s.it ≠ none)
  ret : ∀ t k o, .returned t k o ∈ s.log → s.it ≠ none

theorem uinv_step {s : St} (I : UInv s) (a : Act) : UInv (step s a) := by
  obtain ⟨hp, hr⟩ := I
  have mv : ∀ {s' : St} {t : Nat} (p : Pc), s'.pcs = upd s.pcs t p → (s.it ≠ none → s'.it ≠ none) → (match p with | .idle => True | .read _ => True | .dict _ => True | _ => s'.it ≠ none) →
      ∀ u, (match s'.pcs u with | .idle => True | .read _ => True | .dict _ => True | _ => s'.it ≠ none) := by
    intro s' t p h1 h2 h3 u
    rw [h1]
    by_cases hu : u = t
    · subst hu; rw [upd_same]; exact h3
    · rw [upd_other _ _ hu]
      have := hp u
      cases hq : s.pcs u <;> simp only [hq] at this ⊢
      all_goals exact h2 this
  cases a with
  | call t k =>
    cases hpc : s.pcs t with
    | idle => simp only [step, hpc]; exact ⟨mv (.read k) rfl id trivial, fun u k' o h => hr u k' o (by simpa using h)⟩
    | _ => simpa only [step, hpc] using (⟨hp, hr⟩ : UInv s)
  | go t =>
    have ht := hp t
    cases hpc : s.pcs t with
    | idle => simpa only [step, hpc] using (⟨hp, hr⟩ : UInv s)
    | read k =>
      simp only [step, hpc]
      split
      · exact ⟨mv (.dict k) rfl id trivial, hr⟩
      · next d h => exact ⟨mv (.look k d) rfl id (by rw [h]; simp), hr⟩
    | dict k => simp only [step, hpc]; exact ⟨mv (.look k s.dicts) rfl (fun _ => by simp) (by simp), fun _ _ _ _ => by simp⟩
    | look k d =>
      simp only [hpc] at ht
      simp only [step, hpc]
      split
      · exact ⟨mv (.get k d) rfl id ht, hr⟩
      · exact ⟨mv (.make k d) rfl id ht, hr⟩
    | get k d =>
      simp only [hpc] at ht
      simp only [step, hpc]
      split
      · exact ⟨mv .idle rfl id trivial, fun _ _ _ _ => ht⟩
      · exact ⟨hp, hr⟩
    | make k d => simp only [hpc] at ht; simp only [step, hpc]; exact ⟨mv (.store k d s.objects) rfl id ht, fun _ _ _ _ => ht⟩
    | store k d o => simp only [hpc] at ht; simp only [step, hpc]; exact ⟨mv (.init k o) rfl id ht, hr⟩
    | init k o => simp only [hpc] at ht; simp only [step, hpc]; exact ⟨mv .idle rfl id trivial, fun _ _ _ _ => ht⟩

theorem uinv_run (single : Bool) (as : List Act) : UInv (run single as) := by
  induction as using snoc_ind with
  | h0 => cases single <;> exact ⟨fun _ => by simp [run, start], by simp [run, start]⟩
  | h1 l a ih => rw [run_snoc]; exact uinv_step ih a

/-- a thread uses the dictionary `d` -/
def DOk (s : St) (d : Nat) : Pc → Prop
  | .dict _ => False
  | .look _ d' => d' = d
  | .get _ d' => d' = d
  | .make _ d' => d' = d
  | .store _ d' _ => d' = d
  | .init k _ => s.cells d k ≠ none
  | _ => True

/-- all use the dictionary `d` since the log was `n` long -/
structure SInv (s : St) (d n : Nat) : Prop where
  it : s.it = some d
  pcs : ∀ t, DOk s d (s.pcs t)
  ret : ∀ t k o, .returned t k o ∈ s.log.drop n → s.cells d k ≠ none
  len : n ≤ s.log.length

theorem doks {s s' : St} {d t : Nat} {p : Pc} (h : ∀ u, DOk s d (s.pcs u)) (hc : ∀ k, s.cells d k ≠ none → s'.cells d k ≠ none) (hp : s'.pcs = upd s.pcs t p) (hk : DOk s' d p) : ∀ u, DOk s' d (s'.pcs u) := by
  intro u
  rw [hp]
  by_cases hu : u = t
  · subst hu; rw [upd_same]; exact hk
  · rw [upd_other _ _ hu]
    have := h u
    cases hq : s.pcs u with
    | init k o => rw [hq] at this; exact hc k this
    | _ => rw [hq] at this; exact this

theorem sinv_log {s s' : St} {d n t : Nat} {p : Pc} {es : List Ev} (I : SInv s d n) (hi : s'.it = s.it) (hc : s'.cells = s.cells) (hl : s'.log = s.log ++ es)
    (hr : ∀ u k o, .returned u k o ∈ es → s.cells d k ≠ none) (hp : s'.pcs = upd s.pcs t p) (hk : DOk s' d p) : SInv s' d n where
  it := hi.trans I.it
  pcs := doks I.pcs (fun k => by rw [hc]; exact id) hp hk
  ret := by
    intro u k o h
    rw [hl, List.drop_append_of_le_length I.len] at h
    rw [hc]
    rcases List.mem_append.1 h with h | h
    · exact I.ret u k o h
    · exact hr u k o h
  len := by rw [hl]; simp; have := I.len; omega

theorem sinv_step {s : St} {d n : Nat} (I : SInv s d n) (a : Act) : SInv (step s a) d n := by
  cases a with
  | call t k =>
    cases hpc : s.pcs t with
    | idle => simp only [step, hpc]; exact sinv_log (t := t) (p := .read k) I rfl rfl rfl (by simp) rfl trivial
    | _ => simpa only [step, hpc] using I
  | go t =>
    have ht := I.pcs t
    have stay : ∀ {s' : St} (p : Pc), s'.it = s.it → s'.cells = s.cells → s'.log = s.log → s'.pcs = upd s.pcs t p → DOk s' d p → SInv s' d n :=
      fun p hi hc hl hp hk => sinv_log (es := []) I hi hc (by simp [hl]) (by simp) hp hk
    cases hpc : s.pcs t with
    | idle => simpa only [step, hpc] using I
    | read k =>
      simp only [step, hpc, I.it]
      exact stay (.look k d) I.it.symm rfl rfl rfl rfl
    | dict k => rw [hpc] at ht; exact ht.elim
    | look k d' =>
      rw [hpc] at ht
      simp only [step, hpc]
      split
      · exact stay (.get k d') rfl rfl rfl rfl ht
      · exact stay (.make k d') rfl rfl rfl rfl ht
    | get k d' =>
      rw [hpc] at ht
      obtain rfl : d' = d := ht
      simp only [step, hpc]
      split
      · next o h =>
        refine sinv_log (t := t) (p := .idle) I rfl rfl rfl ?_ rfl trivial
        intro u k' o' hm
        cases List.mem_singleton.1 hm
        rw [h]; simp
      · exact I
    | make k d' =>
      rw [hpc] at ht
      simp only [step, hpc]
      exact sinv_log (t := t) (p := .store k d' s.objects) I rfl rfl rfl (by simp) rfl ht
    | store k d' o =>
      rw [hpc] at ht
      obtain rfl : d' = d := ht
      simp only [step, hpc]
      have hc : ∀ k', s.cells d' k' ≠ none → upd s.cells d' (upd (s.cells d') k (some o)) d' k' ≠ none := by
        intro k' h
        rw [upd_same]
        by_cases hk : k' = k
        · subst hk; rw [upd_same]; simp
        · rw [upd_other _ _ hk]; exact h
      exact ⟨I.it, doks (t := t) (p := .init k o) I.pcs hc rfl (by simp only [DOk, upd_same]; simp), fun u k' o' h => hc k' (I.ret u k' o' h), I.len⟩
    | init k o =>
      rw [hpc] at ht
      simp only [step, hpc]
      refine sinv_log (t := t) (p := .idle) I rfl rfl rfl ?_ rfl trivial
      intro u k' o' hm
      simp at hm
      obtain ⟨rfl, rfl, rfl⟩ := hm
      exact ht

theorem sinv_fold {d n : Nat} (as : List Act) : ∀ {s : St}, SInv s d n → SInv (as.foldl step s) d n := by
  induction as with
  | nil => exact fun h => h
  | cons a as ih => exact fun h => ih (sinv_step h a)

/-- a thread makes no object for the key -/
def FOk (k : Nat) : Pc → Prop
  | .make k' _ => k' ≠ k
  | .store k' _ _ => k' ≠ k
  | .init k' _ => k' ≠ k
  | _ => True

/-- the object of the key is fixed since the log was `m` long -/
structure FInv (s : St) (d k o m : Nat) : Prop where
  cell : s.cells d k = some o
  pcs : ∀ t, FOk k (s.pcs t)
  ret : ∀ t o', .returned t k o' ∈ s.log.drop m → o' = o
  len : m ≤ s.log.length

theorem finv_log {s s' : St} {d k o m t : Nat} {p : Pc} {es : List Ev} (F : FInv s d k o m) (hc : s'.cells d k = s.cells d k) (hl : s'.log = s.log ++ es)
    (hr : ∀ u o', .returned u k o' ∈ es → o' = o) (hp : s'.pcs = upd s.pcs t p) (hk : FOk k p) : FInv s' d k o m where
  cell := hc.trans F.cell
  pcs := by
    intro u
    rw [hp]
    by_cases hu : u = t
    · subst hu; rw [upd_same]; exact hk
    · rw [upd_other _ _ hu]; exact F.pcs u
  ret := by
    intro u o' h
    rw [hl, List.drop_append_of_le_length F.len] at h
    rcases List.mem_append.1 h with h | h
    · exact F.ret u o' h
    · exact hr u o' h
  len := by rw [hl]; simp; have := F.len; omega

theorem finv_step {s : St} {d k o n m : Nat} (I : SInv s d n) (F : FInv s d k o m) (a : Act) : FInv (step s a) d k o m := by
  cases a with
  | call t k' =>
    cases hpc : s.pcs t with
    | idle => simp only [step, hpc]; exact finv_log (t := t) (p := .read k') F rfl rfl (by simp) rfl trivial
    | _ => simpa only [step, hpc] using F
  | go t =>
    have ht := I.pcs t
    have hf := F.pcs t
    have stay : ∀ {s' : St} (p : Pc), s'.cells d k = s.cells d k → s'.log = s.log → s'.pcs = upd s.pcs t p → FOk k p → FInv s' d k o m :=
      fun p hc hl hp hk => finv_log (es := []) F hc (by simp [hl]) (by simp) hp hk
    cases hpc : s.pcs t with
    | idle => simpa only [step, hpc] using F
    | read k' =>
      simp only [step, hpc, I.it]
      exact stay (.look k' d) rfl rfl rfl trivial
    | dict k' => rw [hpc] at ht; exact ht.elim
    | look k' d' =>
      rw [hpc] at ht
      obtain rfl : d' = d := ht
      simp only [step, hpc]
      split
      · exact stay (.get k' d') rfl rfl rfl trivial
      · next h => exact stay (.make k' d') rfl rfl rfl (by rintro rfl; rw [F.cell] at h; cases h)
    | get k' d' =>
      rw [hpc] at ht
      obtain rfl : d' = d := ht
      simp only [step, hpc]
      split
      · next o' h =>
        refine finv_log (t := t) (p := .idle) F rfl rfl ?_ rfl trivial
        intro u o'' hm
        cases List.mem_singleton.1 hm
        rw [F.cell] at h; cases h; rfl
      · exact F
    | make k' d' =>
      rw [hpc] at hf
      simp only [step, hpc]
      exact finv_log (t := t) (p := .store k' d' s.objects) F rfl rfl (by simp) rfl hf
    | store k' d' o' =>
      rw [hpc] at ht hf
      obtain rfl : d' = d := ht
      simp only [step, hpc]
      exact stay (.init k' o') (by simp only [upd_same]; exact upd_other _ _ (fun e => hf e.symm)) rfl rfl hf
    | init k' o' =>
      rw [hpc] at hf
      simp only [step, hpc]
      refine finv_log (t := t) (p := .idle) F rfl rfl ?_ rfl trivial
      intro u o'' hm
      simp at hm
      exact absurd hm.2.1.symm hf

theorem finv_fold {d k o n m : Nat} (as : List Act) : ∀ {s : St}, SInv s d n → FInv s d k o m → FInv (as.foldl step s) d k o m := by
  induction as with
  | nil => exact fun _ h => h
  | cons a as ih => exact fun h1 h2 => ih (sinv_step h1 a) (finv_step h1 h2 a)

theorem settle {s : St} {d n : Nat} (I : SInv s d n) (hi : ∀ t, s.pcs t = .idle) {k : Nat} (hk : s.cells d k ≠ none) (as : List Act) :
    Same k ((as.foldl step s).log.drop s.log.length) := by
  obtain ⟨o, ho⟩ := Option.ne_none_iff_exists'.1 hk
  have F : FInv s d k o s.log.length := ⟨ho, fun t => by rw [hi t]; trivial, by simp, Nat.le_refl _⟩
  exact ⟨o, fun t o' h => (finv_fold as I F).ret t o' h⟩

theorem sinv_of_quiet {s : St} (hi : ∀ t, s.pcs t = .idle) {d : Nat} (h : s.it = some d) : SInv s d s.log.length :=
  ⟨h, fun t => by rw [hi t]; trivial, by simp, Nat.le_refl _⟩

/-- **C255 (settled, by arguments)**  Let a class decorated with `SingletonWithRegardsTo` have been called, and let no call be running.  If then it is called with a key, and again no call is running, from then on all calls with the key return the same object, whatever threads do. -/
theorem C255_settled (as bs cs : List Act) (t0 k0 o0 t k o : Nat) (h1 : Quiet (run false as).log) (hu : .returned t0 k0 o0 ∈ (run false as).log) (h2 : Quiet (run false (as ++ bs)).log)
    (hk : .returned t k o ∈ (run false (as ++ bs)).log.drop (run false as).log.length) :
    Same k ((run false (as ++ bs ++ cs)).log.drop (run false (as ++ bs)).log.length) := by
  have i1 := idle_of_quiet (counted_run false as) h1
  have i2 := idle_of_quiet (counted_run false (as ++ bs)) h2
  obtain ⟨d, hd⟩ := Option.ne_none_iff_exists'.1 ((uinv_run false as).ret t0 k0 o0 hu)
  have S := sinv_fold bs (sinv_of_quiet i1 hd)
  rw [← run_append] at S
  rw [run_append false (as ++ bs) cs]
  exact settle S i2 (S.ret t k o hk) cs

/-- **C255 (settled)**  Let a class decorated with `Singleton` have been called, and let no call be running.  From then on all calls return the same object, whatever threads do. -/
theorem C255_single_settled (as cs : List Act) (t k o : Nat) (h1 : Quiet (run true as).log) (hk : .returned t k o ∈ (run true as).log) :
    Same k ((run true (as ++ cs)).log.drop (run true as).log.length) := by
  have i1 := idle_of_quiet (counted_run true as) h1
  have S : SInv (run true as) 0 0 := by
    have : SInv (start true) 0 0 := ⟨rfl, fun _ => trivial, by simp [start], Nat.zero_le _⟩
    exact sinv_fold as this
  rw [run_append true as cs]
  exact settle S i1 (S.ret t k o (by simpa using hk)) cs

/-! ### One call at a time -/

theorem each_snoc {P : List Ev → Ev → Prop} {log : List Ev} (h : ∀ pre e post, log = pre ++ e :: post → P pre e) {e : Ev} (he : P log e) :
    ∀ pre x post, log ++ [e] = pre ++ x :: post → P pre x := by
  intro pre x post hl
  rcases List.eq_nil_or_concat post with rfl | ⟨post', y, rfl⟩
  · have h1 := List.append_inj' hl rfl
    rw [← h1.1, ← List.singleton_inj.1 h1.2]
    exact he
  · have h1 : log ++ [e] = (pre ++ x :: post') ++ [y] := by rw [hl]; simp
    exact h pre x post' (List.append_inj' h1 rfl).1

/-- an object is initialised before it is returned -/
def Ready (pre : List Ev) : Ev → Prop
  | .returned _ _ o => .inited o ∈ pre
  | _ => True

/-- what holds of the thread in a call -/
def OOk (s : St) : Pc → Prop
  | .idle => True
  | .read _ => True
  | .dict _ => s.it = none
  | .look _ d => s.it = some d
  | .get _ d => s.it = some d
  | .make k d => s.it = some d ∧ s.cells d k = none
  | .store k d o => s.it = some d ∧ s.cells d k = none ∧ .made k o ∈ s.log
  | .init k o => ∃ d, s.it = some d ∧ s.cells d k = some o

/-- what holds when there is one call at a time -/
structure OInv (s : St) : Prop where
  pcs : ∀ t, OOk s (s.pcs t)
  made : ∀ k o, .made k o ∈ s.log → (∃ d, s.it = some d ∧ s.cells d k = some o) ∨ ∃ t d, s.pcs t = .store k d o
  ready : ∀ d k o, s.it = some d → s.cells d k = some o → .inited o ∈ s.log ∨ ∃ t, s.pcs t = .init k o
  each : ∀ pre e post, s.log = pre ++ e :: post → Ready pre e
  free : ∀ d k, s.dicts ≤ d → s.cells d k = none
  lt : ∀ d, s.it = some d → d < s.dicts

theorem oinv_step {s : St} (I : OInv s) (only : ∀ t u, s.pcs t ≠ .idle → s.pcs u ≠ .idle → u = t) (a : Act) : OInv (step s a) := by
  obtain ⟨hp, hm, hr, he, hf, hl⟩ := I
  have I : OInv s := ⟨hp, hm, hr, he, hf, hl⟩
  have oth : ∀ {s' : St} {t : Nat} {p : Pc}, s.pcs t ≠ .idle → s'.pcs = upd s.pcs t p → OOk s' p → ∀ u, OOk s' (s'.pcs u) := by
    intro s' t p ht h1 h2 u
    rw [h1]
    by_cases hu : u = t
    · subst hu; rw [upd_same]; exact h2
    · rw [upd_other _ _ hu]
      have : s.pcs u = .idle := Decidable.byContradiction (fun hh => hu (only t u ht hh))
      rw [this]; trivial
  have me : ∀ {t u : Nat} {p q : Pc}, s.pcs t = p → p ≠ .idle → s.pcs u = q → q ≠ .idle → q = p := by
    intro t u p q h1 h2 h3 h4
    have := only t u (by rw [h1]; exact h2) (by rw [h3]; exact h4)
    subst this
    rw [← h1, ← h3]
  cases a with
  | call t k =>
    cases hpc : s.pcs t with
    | idle =>
      simp only [step, hpc]
      have keep : ∀ {u : Nat} {q : Pc}, s.pcs u = q → q ≠ .idle → upd s.pcs t (.read k) u = q := by
        intro u q h1 h2
        have : u ≠ t := by rintro rfl; rw [hpc] at h1; exact h2 h1.symm
        rw [upd_other _ _ this]; exact h1
      refine ⟨?_, ?_, ?_, each_snoc he trivial, hf, hl⟩
      · intro u
        dsimp only
        by_cases hu : u = t
        · subst hu; rw [upd_same]; trivial
        · rw [upd_other _ _ hu]
          have := hp u
          cases hq : s.pcs u with
          | store k' d o => rw [hq] at this; exact ⟨this.1, this.2.1, List.mem_append_left _ this.2.2⟩
          | _ => rw [hq] at this; exact this
      · intro k' o h
        rcases hm k' o (by simpa using h) with h | ⟨u, d, h⟩
        · exact .inl h
        · exact .inr ⟨u, d, keep h (by simp)⟩
      · intro d k' o h1 h2
        rcases hr d k' o h1 h2 with h | ⟨u, h⟩
        · exact .inl (List.mem_append_left _ h)
        · exact .inr ⟨u, keep h (by simp)⟩
    | _ => simpa only [step, hpc] using I
  | go t =>
    have ht := hp t
    have hne : ∀ {p : Pc}, s.pcs t = p → p ≠ .idle → s.pcs t ≠ .idle := fun h hp => by rw [h]; exact hp
    -- steps that change nothing but the place, from a place that is neither `store` nor `init`
    have stay : ∀ {q : Pc} (p : Pc), s.pcs t = q → q ≠ .idle → (∀ k d o, q ≠ .store k d o) → (∀ k o, q ≠ .init k o) → OOk s p → OInv { s with pcs := upd s.pcs t p } := by
      intro q p hq h0 h1 h2 hk
      refine ⟨oth (hne hq h0) rfl ?_, ?_, ?_, he, hf, hl⟩
      · cases p <;> exact hk
      · intro k' o h
        rcases hm k' o h with h | ⟨u, d, h⟩
        · exact .inl h
        · exact absurd (me hq h0 h (by simp)).symm (h1 _ _ _)
      · intro d k' o h3 h4
        rcases hr d k' o h3 h4 with h | ⟨u, h⟩
        · exact .inl h
        · exact absurd (me hq h0 h (by simp)).symm (h2 _ _)
    cases hpc : s.pcs t with
    | idle => simpa only [step, hpc] using I
    | read k =>
      simp only [step, hpc]
      split
      · next h => exact stay (.dict k) hpc (by simp) (by simp) (by simp) h
      · next d h => exact stay (.look k d) hpc (by simp) (by simp) (by simp) h
    | dict k =>
      rw [hpc] at ht
      have hit : s.it = none := ht
      simp only [step, hpc]
      refine ⟨oth (hne hpc (by simp)) rfl rfl, ?_, ?_, he, fun d k' h => hf d k' (by have h : s.dicts + 1 ≤ d := h; omega), fun d h => ?_⟩
      · intro k' o h
        rcases hm k' o h with ⟨d, h, _⟩ | ⟨u, d, h⟩
        · rw [hit] at h; cases h
        · cases me hpc (by simp) h (by simp)
      · intro d k' o h3 h4
        cases h3
        exact absurd (hf s.dicts k' (Nat.le_refl _)) (by rw [h4]; simp)
      · cases h; show s.dicts < s.dicts + 1; omega
    | look k d =>
      rw [hpc] at ht
      simp only [step, hpc]
      split
      · exact stay (.get k d) hpc (by simp) (by simp) (by simp) ht
      · next h => exact stay (.make k d) hpc (by simp) (by simp) (by simp) ⟨ht, h⟩
    | get k d =>
      rw [hpc] at ht
      simp only [step, hpc]
      split
      · next o h =>
        have hin : .inited o ∈ s.log := by
          rcases hr d k o ht h with h | ⟨u, h⟩
          · exact h
          · cases me hpc (by simp) h (by simp)
        refine ⟨oth (hne hpc (by simp)) rfl trivial, ?_, ?_, each_snoc he hin, hf, hl⟩
        · intro k' o' h
          rcases hm k' o' (by simpa using h) with h | ⟨u, d, h⟩
          · exact .inl h
          · cases me hpc (by simp) h (by simp)
        · intro d' k' o' h3 h4
          rcases hr d' k' o' h3 h4 with h | ⟨u, h⟩
          · exact .inl (List.mem_append_left _ h)
          · cases me hpc (by simp) h (by simp)
      · exact I
    | make k d =>
      rw [hpc] at ht
      simp only [step, hpc]
      refine ⟨oth (hne hpc (by simp)) rfl ⟨ht.1, ht.2, by simp⟩, ?_, ?_, each_snoc he trivial, hf, hl⟩
      · intro k' o' h
        rcases List.mem_append.1 h with h | h
        · rcases hm k' o' h with h | ⟨u, d, h⟩
          · exact .inl h
          · cases me hpc (by simp) h (by simp)
        · cases List.mem_singleton.1 h
          exact .inr ⟨t, d, upd_same ..⟩
      · intro d' k' o' h3 h4
        rcases hr d' k' o' h3 h4 with h | ⟨u, h⟩
        · exact .inl (List.mem_append_left _ h)
        · cases me hpc (by simp) h (by simp)
    | store k d o =>
      rw [hpc] at ht
      obtain ⟨h1, h2, h3⟩ := ht
      simp only [step, hpc]
      have cell : ∀ d' k', upd s.cells d (upd (s.cells d) k (some o)) d' k' = if d' = d ∧ k' = k then some o else s.cells d' k' := by
        intro d' k'
        by_cases hd : d' = d
        · subst hd
          rw [upd_same]
          by_cases hk : k' = k
          · subst hk; simp
          · rw [upd_other _ _ hk]; simp [hk]
        · rw [upd_other _ _ hd]; simp [hd]
      refine ⟨oth (hne hpc (by simp)) rfl ⟨d, h1, by simp⟩, ?_, ?_, he, ?_, hl⟩
      · intro k' o' h
        rcases hm k' o' h with ⟨d', h4, h5⟩ | ⟨u, d', h⟩
        · rw [h1] at h4; cases h4
          refine .inl ⟨d, h1, ?_⟩
          show upd s.cells d (upd (s.cells d) k (some o)) d k' = some o'
          rw [cell, if_neg, h5]
          rintro ⟨_, rfl⟩
          rw [h2] at h5; cases h5
        · cases me hpc (by simp) h (by simp)
          refine .inl ⟨d, h1, ?_⟩
          show upd s.cells d (upd (s.cells d) k (some o)) d k = some o
          rw [cell]; simp
      · intro d' k' o' h4 h5
        have h5 : upd s.cells d (upd (s.cells d) k (some o)) d' k' = some o' := h5
        rw [cell] at h5
        split at h5
        · next hh => cases h5; rw [hh.2]; exact .inr ⟨t, upd_same ..⟩
        · rcases hr d' k' o' h4 h5 with h | ⟨u, h⟩
          · exact .inl h
          · cases me hpc (by simp) h (by simp)
      · intro d' k' h
        show upd s.cells d (upd (s.cells d) k (some o)) d' k' = none
        rw [cell, if_neg, hf d' k' h]
        rintro ⟨rfl, _⟩
        have := hl d' h1
        have h : s.dicts ≤ d' := h
        omega
    | init k o =>
      rw [hpc] at ht
      obtain ⟨d, h1, h2⟩ := ht
      simp only [step, hpc]
      refine ⟨oth (hne hpc (by simp)) rfl trivial, ?_, ?_, ?_, hf, hl⟩
      · intro k' o' h
        rcases hm k' o' (by simpa using h) with h | ⟨u, d, h⟩
        · exact .inl h
        · cases me hpc (by simp) h (by simp)
      · intro d' k' o' h3 h4
        rcases hr d' k' o' h3 h4 with h | ⟨u, h⟩
        · exact .inl (List.mem_append_left _ h)
        · cases me hpc (by simp) h (by simp)
          exact .inl (by simp)
      · rw [show s.log ++ [.inited o, .returned t k o] = s.log ++ [.inited o] ++ [.returned t k o] by simp]
        exact each_snoc (each_snoc (e := .inited o) he trivial) (by simp [Ready])

theorem oinv_run (single : Bool) (as : List Act) (h : OneAtATime single as) : OInv (run single as) ∧ ∀ t u, (run single as).pcs t ≠ .idle → (run single as).pcs u ≠ .idle → u = t := by
  have only : ∀ p, p <+: as → ∀ t u, (run single p).pcs t ≠ .idle → (run single p).pcs u ≠ .idle → u = t := by
    intro p hp t u ht hu
    have busy : ∀ t, (run single p).pcs t ≠ .idle → Busy t (run single p).log := by
      intro t ht
      have h1 := counted_run single p t
      rw [if_neg ht] at h1
      show nCalled t _ ≠ nReturned t _
      omega
    exact h p hp u t (busy u hu) (busy t ht)
  refine ⟨?_, only as (List.prefix_refl _)⟩
  induction as using snoc_ind with
  | h0 => cases single <;> exact ⟨fun _ => by simp [run, start, OOk], by simp [run, start], by simp [run, start], by simp [run, start], by simp [run, start], by simp [run, start]⟩
  | h1 l a ih =>
    have h' : OneAtATime single l := fun p hp => h p (hp.trans (List.prefix_append l [a]))
    have o' := fun p (hp : p <+: l) => only p (hp.trans (List.prefix_append l [a]))
    rw [run_snoc]
    exact oinv_step (ih h' o') (o' l (List.prefix_refl _)) a

/-- **C256 (partial: one call at a time)**  If no call begins while another thread is in one, there is one object for each key, all calls with the key return it, and it has been initialised before any of them does. -/
theorem C256_one_thread_partial (single : Bool) (as : List Act) (h : OneAtATime single as) (k : Nat) :
    Same k (run single as).log ∧ (∀ o o', .made k o ∈ (run single as).log → .made k o' ∈ (run single as).log → o = o') ∧
    ∀ pre t o post, (run single as).log = pre ++ .returned t k o :: post → .inited o ∈ pre := by
  obtain ⟨I, only⟩ := oinv_run single as h
  have one : ∀ o o', .made k o ∈ (run single as).log → .made k o' ∈ (run single as).log → o = o' := by
    intro o o' h1 h2
    rcases I.made k o h1 with ⟨d, a1, a2⟩ | ⟨u, d, a⟩ <;> rcases I.made k o' h2 with ⟨d', b1, b2⟩ | ⟨u', d', b⟩
    · rw [a1] at b1; cases b1; rw [a2] at b2; cases b2; rfl
    · have := I.pcs u'; rw [b] at this
      obtain ⟨e, c, _⟩ := this; rw [a1] at e; cases e; rw [a2] at c; cases c
    · have := I.pcs u; rw [a] at this
      obtain ⟨e, c, _⟩ := this; rw [b1] at e; cases e; rw [b2] at c; cases c
    · cases only u u' (by rw [a]; simp) (by rw [b]; simp)
      rw [a] at b; cases b; rfl
  refine ⟨?_, one, fun pre t o post hl => I.each pre _ post hl⟩
  rcases Classical.em (∃ t o, .returned t k o ∈ (run single as).log) with ⟨t, o, h1⟩ | hn
  · exact ⟨o, fun u o' h2 => one o' o ((kinv_run single as).ret u k o' h2) ((kinv_run single as).ret t k o h1)⟩
  · exact ⟨0, fun u o' h2 => absurd ⟨u, o', h2⟩ hn⟩

/-! ### More calls at once -/

/-- a check of quietness by the threads that there are -/
theorem quiet_of {log : List Ev} (n : Nat) (h : ∀ t, t < n → nCalled t log = nReturned t log) (hn : ∀ e ∈ log, (match e with | .called t _ => decide (t < n) | .returned t _ _ => decide (t < n) | _ => true) = true) : Quiet log := by
  intro t
  by_cases ht : t < n
  · exact h t ht
  · have h0 : ∀ (p : Ev → Bool), (∀ e ∈ log, p e = false) → log.countP p = 0 := fun p hp => List.countP_eq_zero.2 (fun e he => by rw [hp e he]; simp)
    rw [h0 _ (fun e he => ?_), h0 _ (fun e he => ?_)]
    · have := hn e he
      cases e <;> simp_all
      omega
    · have := hn e he
      cases e <;> simp_all
      omega

/-- **C256 (violation: two objects)**  Of two threads that call a class decorated with `Singleton` at once, each may get an object of its own; both return.  (No thread acts between the two steps `look` and `get` of another.) -/
theorem C256_violates_two : ∃ as, Quiet (run true as).log ∧ .returned 0 7 0 ∈ (run true as).log ∧ .returned 1 7 1 ∈ (run true as).log := by
  refine ⟨[.call 0 7, .call 1 7, .go 0, .go 1, .go 0, .go 1, .go 0, .go 1, .go 0, .go 1, .go 0, .go 1], ?_, by decide +kernel, by decide +kernel⟩
  exact quiet_of 2 (by decide +kernel) (by decide +kernel)

/-- **C256 (violation: not initialised)**  A thread may get an object that another one is still initialising: it is returned, and the initialisation ends later. -/
theorem C256_violates_not_initialised : ∃ as pre post, (run true as).log = pre ++ .returned 1 7 0 :: post ∧ .inited 0 ∉ pre ∧ .inited 0 ∈ post :=
  ⟨[.call 0 7, .go 0, .go 0, .go 0, .go 0, .call 1 7, .go 1, .go 1, .go 1, .go 0], [.called 0 7, .made 7 0, .called 1 7], [.inited 0, .returned 0 7 0],
    by decide +kernel, by decide +kernel, by decide +kernel⟩

/-- **C256 (violation: by arguments)**  With `SingletonWithRegardsTo`, a thread may put its own dictionary in the place of one in which there is an object already: a call that is made after another has returned gets an object of its own. -/
theorem C256_violates_forgotten : ∃ as pre post, (run false as).log = pre ++ .returned 0 5 0 :: post ∧ .called 2 5 ∈ post ∧ .returned 2 5 2 ∈ post :=
  ⟨[.call 1 6, .go 1, .call 0 5, .go 0, .go 0, .go 0, .go 0, .go 0, .go 0, .go 1, .go 1, .go 1, .go 1, .go 1, .call 2 5, .go 2, .go 2, .go 2, .go 2, .go 2],
    [.called 1 6, .called 0 5, .made 5 0, .inited 0], [.made 6 1, .inited 1, .returned 1 6 1, .called 2 5, .made 5 2, .inited 2, .returned 2 5 2],
    by decide +kernel, by decide +kernel, by decide +kernel⟩

/-! ## Examples -/

/-- two threads, one call at a time -/
def demo : List Act := [.call 0 5, .go 0, .go 0, .go 0, .go 0, .go 0, .go 0, .call 1 5, .go 1, .go 1, .go 1, .call 1 6, .go 1, .go 1, .go 1, .go 1, .go 1]

/-- a check of one call at a time -/
theorem one_of {single : Bool} {as : List Act}
    (h : ∀ n, n < as.length + 1 → ∃ t ∈ [0, 1, 2], ∀ e ∈ (run single (as.take n)).log, (match e with | .called u _ => decide (u = t ∨ nCalled u (run single (as.take n)).log = nReturned u (run single (as.take n)).log) | _ => true) = true) :
    OneAtATime single as := by
  intro p hp t u ht hu
  have hp' := List.prefix_iff_eq_take.1 hp
  obtain ⟨w, _, hw⟩ := h p.length (Nat.lt_succ_of_le hp.length_le)
  rw [← hp'] at hw
  have key : ∀ t, Busy t (run single p).log → t = w := by
    intro t ht
    have hc := counted_run single p t
    have hb : nCalled t (run single p).log ≠ nReturned t (run single p).log := ht
    have h0 : 0 < nCalled t (run single p).log := by split at hc <;> omega
    obtain ⟨e, he, hd⟩ := List.countP_pos_iff.1 h0
    have := hw e he
    cases e with
    | called v k =>
      simp only [decide_eq_true_eq] at hd this
      subst hd
      exact this.resolve_right hb
    | _ => simp at hd
  rw [key t ht, key u hu]

-- hypotheses of C256_one_thread_partial, of C255_key, and of C255_settled with two keys
example : OneAtATime false demo ∧ (run false demo).log = [.called 0 5, .made 5 0, .inited 0, .returned 0 5 0, .called 1 5, .returned 1 5 0, .called 1 6, .made 6 1, .inited 1, .returned 1 6 1] :=
  ⟨one_of (by decide +kernel), by decide +kernel⟩
example : Quiet (run false (demo.take 7)).log ∧ .returned 0 5 0 ∈ (run false (demo.take 7)).log ∧ Quiet (run false (demo.take 7 ++ demo.drop 7)).log ∧
    .returned 1 6 1 ∈ (run false (demo.take 7 ++ demo.drop 7)).log.drop (run false (demo.take 7)).log.length :=
  ⟨quiet_of 2 (by decide +kernel) (by decide +kernel), by decide +kernel, quiet_of 2 (by decide +kernel) (by decide +kernel), by decide +kernel⟩
-- of C255_single_settled, where two objects were made at first: later calls return the second
example : let as := [.call 0 7, .call 1 7, .go 0, .go 1, .go 0, .go 1, .go 0, .go 1, .go 0, .go 1, .go 0, .go 1]
    Quiet (run true as).log ∧ .returned 0 7 0 ∈ (run true as).log ∧ .returned 0 7 1 ∈ (run true (as ++ [.call 0 7, .go 0, .go 0, .go 0])).log :=
  ⟨quiet_of 2 (by decide +kernel) (by decide +kernel), by decide +kernel, by decide +kernel⟩

end Verif.Struct.SingletonThreads
