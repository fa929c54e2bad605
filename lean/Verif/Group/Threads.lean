import Verif.Conc.MonitorProps
/-!
# A group of callables used by several threads (satella/coding/concurrent/callablegroup.py); C261, C262

Threads add callables to a group and call it, at once.  No lock is taken.  Callables are `CancellableCallback`s, told apart by number; they return at once, do not raise, and none is cancelled here (for these see C19).
-/
namespace Verif.Group.Threads
open Verif
open Verif.Conc (upd upd_same upd_other)

/-! ## Model -/

/-- where a thread is in `__call__`, /repo/satella/coding/concurrent/callablegroup.py:156-192: looking through the callables and copying them (lines 168 to 171; `ver` tells how often the dictionary had been changed when it began), before line 172 with the copy,
before the next turn of the loop, or before line 188 -/
inductive Pc where
  | idle
  | look (ver : Nat)
  | clear (copy : List (Nat × Bool))
  | each (rest : List (Nat × Bool))
  | back (c : Nat) (rest : List (Nat × Bool))
  deriving DecidableEq, Repr

/-- what is seen: a callable is added (`one`: with one_shot), the group is called, calls a callable, the call ends or raises RuntimeError.  (Part of the model of `CallableGroup`, /repo/satella/coding/concurrent/callablegroup.py:84-192.) -/
inductive Ev where
  | added (t c : Nat) (one : Bool)
  | called (t : Nat)
  | ran (t c : Nat)
  | ended (t : Nat)
  | raised (t : Nat)
  deriving DecidableEq, Repr

/-- `callables`, /repo/satella/coding/concurrent/callablegroup.py:104, how often it was changed, the threads; and what was seen (not in the code) -/
structure St where
  reg : List (Nat × Bool) := []
  ver : Nat := 0
  pcs : Nat → Pc := fun _ => .idle
  log : List Ev := []

/-- what happens: a thread adds a callable, calls the group, goes on by one step, or finds that the dictionary over which it iterates was changed.  (Part of the model of `CallableGroup`, /repo/satella/coding/concurrent/callablegroup.py:84-192.) -/
inductive Act where
  | add (t c : Nat) (one : Bool)
  | call (t : Nat)
  | go (t : Nat)
  | fail (t : Nat)
  deriving DecidableEq, Repr

/-- `add`, /repo/satella/coding/concurrent/callablegroup.py:129-154.  Looking for the key and setting it are two steps in the code; as the value set is that of the key, the effect is that of one step, when it is found or else when it is set. -/
def put (c : Nat) (one : Bool) (reg : List (Nat × Bool)) : List (Nat × Bool) := if reg.any (fun e => e.1 == c) then reg else reg ++ [(c, one)]

/-- a step: `add` and `__call__`, /repo/satella/coding/concurrent/callablegroup.py:129-192.  The copy is that of one moment: the iterators of `collections.OrderedDict` raise RuntimeError if it was changed since they began, which may also happen in `has_cancelled_callbacks`
and `remove_cancelled`, lines 108-127 -/
def step (s : St) : Act → St
  | .add t c one =>
    match s.pcs t with
    | .idle => { s with reg := put c one s.reg, ver := s.ver + 1, log := s.log ++ [.added t c one] }
    | _ => s
  | .call t =>
    match s.pcs t with
    | .idle => { s with pcs := upd s.pcs t (.look s.ver), log := s.log ++ [.called t] }
    | _ => s
  | .fail t =>
    match s.pcs t with
    | .look v => if v = s.ver then s else { s with pcs := upd s.pcs t .idle, log := s.log ++ [.raised t] }
    | _ => s
  | .go t =>
    match s.pcs t with
    | .idle => s
    | .look _ => { s with pcs := upd s.pcs t (.clear s.reg) }
    | .clear copy => { s with reg := [], ver := s.ver + 1, pcs := upd s.pcs t (.each copy) }
    | .each [] => { s with pcs := upd s.pcs t .idle, log := s.log ++ [.ended t] }
    | .each ((c, one) :: rest) => { s with pcs := upd s.pcs t (if one then .each rest else .back c rest), log := s.log ++ [.ran t c] }
    | .back c rest => { s with reg := put c false s.reg, ver := s.ver + 1, pcs := upd s.pcs t (.each rest) }

/-- everything that happens.  (Part of the model of `CallableGroup`, /repo/satella/coding/concurrent/callablegroup.py:84-192.) -/
def run (as : List Act) : St := as.foldl step {}

/-! ## Specification -/

/-- calls of a thread -/
def nCalled (t : Nat) (log : List Ev) : Nat := log.countP (fun e => match e with | .called u => decide (u = t) | _ => false)

/-- calls of a thread that ended -/
def nEnded (t : Nat) (log : List Ev) : Nat := log.countP (fun e => match e with | .ended u => decide (u = t) | .raised u => decide (u = t) | _ => false)

/-- every call ended -/
def Quiet (log : List Ev) : Prop := ∀ t, nCalled t log = nEnded t log

/-- how often the callable was called -/
def nRan (c : Nat) (log : List Ev) : Nat := log.countP (fun e => match e with | .ran _ d => decide (d = c) | _ => false)

/-- how often the callable was added -/
def nAdded (c : Nat) (log : List Ev) : Nat := log.countP (fun e => match e with | .added _ d _ => decide (d = c) | _ => false)

/-- nothing happens between a call's copying of the callables and its clearing of the group -/
def Undisturbed (as : List Act) : Prop := ∀ p a, p ++ [a] <+: as → ∀ t l, (run p).pcs t = .clear l → a = .go t

/-! ## Proofs -/

theorem run_snoc (as : List Act) (a : Act) : run (as ++ [a]) = step (run as) a := by simp [run]

theorem snoc_ind {α : Type} {P : List α → Prop} (h0 : P []) (h1 : ∀ l a, P l → P (l ++ [a])) (l : List α) : P l := by
  rw [← List.reverse_reverse l]
  induction l.reverse with
  | nil => exact h0
  | cons a l ih => rw [List.reverse_cons]; exact h1 _ _ ih

theorem split_snoc {α : Type} {l pre post : List α} {e x : α} (h : l ++ [e] = pre ++ x :: post) : (∃ post', post = post' ++ [e] ∧ l = pre ++ x :: post') ∨ (post = [] ∧ pre = l ∧ x = e) := by
  rcases List.eq_nil_or_concat post with rfl | ⟨q, y, rfl⟩
  · have := List.append_inj' h rfl
    exact .inr ⟨rfl, this.1.symm, by simpa using this.2.symm⟩
  · left
    have : l ++ [e] = (pre ++ x :: q) ++ [y] := by rw [h]; simp
    have := List.append_inj' this rfl
    have h2 : e = y := by simpa using this.2
    subst h2
    exact ⟨q, by simp, this.1⟩

/-! ### Who is in a call -/

/-- a thread is in a call if and only if it began one more than it ended -/
def Counted (s : St) : Prop := ∀ t, nCalled t s.log = nEnded t s.log + (if s.pcs t = .idle then 0 else 1)

theorem counted_move {s s' : St} {t : Nat} {p : Pc} (h : Counted s) (ht : s.pcs t ≠ .idle) (hp : p ≠ .idle) (h1 : s'.pcs = upd s.pcs t p)
    (h2 : s'.log = s.log ∨ ∃ c, s'.log = s.log ++ [.ran t c]) : Counted s' := by
  intro u
  have e1 : nCalled u s'.log = nCalled u s.log := by rcases h2 with h2 | ⟨c, h2⟩ <;> rw [h2] <;> simp [nCalled, List.countP_append]
  have e2 : nEnded u s'.log = nEnded u s.log := by rcases h2 with h2 | ⟨c, h2⟩ <;> rw [h2] <;> simp [nEnded, List.countP_append]
  rw [h1, e1, e2, h u]
  by_cases hu : u = t
  · subst hu; rw [upd_same]; simp [ht, hp]
  · rw [upd_other _ _ hu]

theorem counted_end {s s' : St} {t : Nat} {e : Ev} (h : Counted s) (ht : s.pcs t ≠ .idle) (h1 : s'.pcs = upd s.pcs t .idle) (h2 : s'.log = s.log ++ [e])
    (he : e = .ended t ∨ e = .raised t) : Counted s' := by
  intro u
  have := h u
  rw [h1, h2]
  by_cases hu : u = t
  · subst hu
    rcases he with rfl | rfl <;> simp [upd_same, nCalled, nEnded, List.countP_append, ht] at * <;> omega
  · have hu' : t ≠ u := fun e => hu e.symm
    rcases he with rfl | rfl <;> simp [nCalled, nEnded, List.countP_append, upd_other _ _ hu, hu'] at * <;> omega

theorem counted_step {s : St} (h : Counted s) (a : Act) : Counted (step s a) := by
  cases a with
  | add t c one =>
    cases hpc : s.pcs t with
    | idle =>
      simp only [step, hpc]
      intro u
      have := h u
      simp only [nCalled, nEnded, List.countP_append, List.countP_singleton] at *
      simpa using this
    | _ => simpa only [step, hpc] using h
  | call t =>
    cases hpc : s.pcs t with
    | idle =>
      simp only [step, hpc]
      intro u
      have := h u
      dsimp only
      by_cases hu : u = t
      · subst hu
        simp [upd_same, nCalled, nEnded, List.countP_append, hpc] at * ; omega
      · have hu' : t ≠ u := fun e => hu e.symm
        simp [nCalled, nEnded, List.countP_append, upd_other _ _ hu, hu'] at *; omega
    | _ => simpa only [step, hpc] using h
  | fail t =>
    cases hpc : s.pcs t with
    | look v =>
      simp only [step, hpc]
      split
      · exact h
      · exact counted_end h (by rw [hpc]; simp) rfl rfl (.inr rfl)
    | _ => simpa only [step, hpc] using h
  | go t =>
    have hne : ∀ {p : Pc}, s.pcs t = p → p ≠ .idle → s.pcs t ≠ .idle := fun h hp => by rw [h]; exact hp
    cases hpc : s.pcs t with
    | idle => simpa only [step, hpc] using h
    | look v => simp only [step, hpc]; exact counted_move (p := .clear s.reg) h (hne hpc (by simp)) (by simp) rfl (.inl rfl)
    | clear l => simp only [step, hpc]; exact counted_move (p := .each l) h (hne hpc (by simp)) (by simp) rfl (.inl rfl)
    | each l =>
      cases l with
      | nil => simp only [step, hpc]; exact counted_end h (hne hpc (by simp)) rfl rfl (.inl rfl)
      | cons e rest =>
        obtain ⟨c, one⟩ := e
        simp only [step, hpc]
        exact counted_move (p := if one then .each rest else .back c rest) h (hne hpc (by simp)) (by split <;> simp) rfl (.inr ⟨c, rfl⟩)
    | back c rest => simp only [step, hpc]; exact counted_move (p := .each rest) h (hne hpc (by simp)) (by simp) rfl (.inl rfl)

theorem counted_run (as : List Act) : Counted (run as) := by
  induction as using snoc_ind with
  | h0 => intro t; simp [run, nCalled, nEnded]
  | h1 l a ih => rw [run_snoc]; exact counted_step ih a

theorem idle_of_quiet {s : St} (h : Counted s) (hq : Quiet s.log) (t : Nat) : s.pcs t = .idle := by
  have h1 := h t
  have h2 := hq t
  refine Decidable.byContradiction (fun hh => ?_)
  rw [if_neg hh] at h1; omega

/-! ### What always holds -/

/-- what a thread has still to call -/
def Pc.todo : Pc → List (Nat × Bool)
  | .clear l => l
  | .each l => l
  | .back _ l => l
  | _ => []

/-- what a thread called since its call began -/
def ranNow (t : Nat) : List Ev → List Nat → List Nat
  | [], acc => acc
  | .called u :: l, acc => if u = t then ranNow t l [] else ranNow t l acc
  | .ran u c :: l, acc => if u = t then ranNow t l (acc ++ [c]) else ranNow t l acc
  | _ :: l, acc => ranNow t l acc

theorem ranNow_append (t : Nat) (l l' : List Ev) (acc : List Nat) : ranNow t (l ++ l') acc = ranNow t l' (ranNow t l acc) := by
  induction l generalizing acc with
  | nil => rfl
  | cons e l ih =>
    cases e <;> simp only [List.cons_append, ranNow] <;> (try split) <;> exact ih _

theorem mem_ranNow {t c : Nat} {l : List Ev} {acc : List Nat} (hn : .called t ∉ l) (h : .ran t c ∈ l ∨ c ∈ acc) : c ∈ ranNow t l acc := by
  induction l generalizing acc with
  | nil => rcases h with h | h
           · cases h
           · exact h
  | cons e l ih =>
    have hn' : .called t ∉ l := fun h => hn (by simp [h])
    cases e with
    | called u =>
      have : u ≠ t := fun e => hn (by simp [e])
      simp only [ranNow, this, if_false]
      exact ih hn' (by simpa using h)
    | ran u d =>
      simp only [ranNow]
      split
      · next e => subst e; exact ih hn' (by rcases h with h | h
                                            · rcases List.mem_cons.1 h with h | h
                                              · cases h; right; simp
                                              · exact .inl h
                                            · right; simp [h])
      · next e => exact ih hn' (by rcases h with h | h
                                   · rcases List.mem_cons.1 h with h | h
                                     · cases h; exact absurd rfl e
                                     · exact .inl h
                                   · exact .inr h)
    | _ => simp only [ranNow]; exact ih hn' (by simpa using h)

theorem put_keys (c : Nat) (one : Bool) (reg : List (Nat × Bool)) (h : (reg.map (·.1)).Nodup) : ((put c one reg).map (·.1)).Nodup := by
  unfold put
  split
  · exact h
  · next hc =>
    rw [List.map_append, List.nodup_append]
    refine ⟨h, by simp, fun a ha b hb => ?_⟩
    rw [show b = c by simpa using hb]
    intro e
    subst e
    apply hc
    obtain ⟨p, hp, e⟩ := List.mem_map.1 ha
    exact List.any_eq_true.2 ⟨p, hp, by simp [e]⟩

theorem mem_put {c : Nat} {one : Bool} {reg : List (Nat × Bool)} {e : Nat × Bool} (h : e ∈ put c one reg) : e ∈ reg ∨ e = (c, one) := by
  unfold put at h
  split at h
  · exact .inl h
  · simpa using h

theorem put_mem {c : Nat} {one : Bool} {reg : List (Nat × Bool)} {e : Nat × Bool} (h : e ∈ reg) : e ∈ put c one reg := by
  unfold put
  split
  · exact h
  · simp [h]

theorem put_self {c : Nat} {one : Bool} {reg : List (Nat × Bool)} : ∃ b, (c, b) ∈ put c one reg := by
  unfold put
  split
  · next h =>
    obtain ⟨⟨d, b⟩, hp, e⟩ := List.any_eq_true.1 h
    exact ⟨b, by rw [← show d = c by simpa using e]; exact hp⟩
  · exact ⟨one, by simp⟩

structure Inv (s : St) : Prop where
  keys : (s.reg.map (·.1)).Nodup
  reg : ∀ e ∈ s.reg, ∃ u, .added u e.1 e.2 ∈ s.log
  todo : ∀ t, ((s.pcs t).todo.map (·.1)).Nodup ∧ ∀ e ∈ (s.pcs t).todo, ∃ u, .added u e.1 e.2 ∈ s.log
  back : ∀ t c l, s.pcs t = .back c l → ∃ u, .added u c false ∈ s.log
  fresh : ∀ t, ∀ e ∈ (s.pcs t).todo, e.1 ∉ ranNow t s.log []
  none : ∀ t, (∃ v, s.pcs t = .look v) ∨ (∃ l, s.pcs t = .clear l) → ranNow t s.log [] = []
  before : ∀ pre t c post, s.log = pre ++ .ran t c :: post → ∃ u b, .added u c b ∈ pre
  once : ∀ pre t mid post c, s.log = pre ++ .called t :: (mid ++ post) → .called t ∉ mid → mid.count (.ran t c) ≤ 1

theorem once_snoc {log : List Ev} {e : Ev} (h : ∀ pre t mid post c, log = pre ++ .called t :: (mid ++ post) → .called t ∉ mid → mid.count (.ran t c) ≤ 1)
    (he : ∀ t c, e = .ran t c → c ∉ ranNow t log []) : ∀ pre t mid post c, log ++ [e] = pre ++ .called t :: (mid ++ post) → .called t ∉ mid → mid.count (.ran t c) ≤ 1 := by
  intro pre t mid post c hl hn
  rcases split_snoc hl with ⟨q, h1, h2⟩ | ⟨h1, h2, h3⟩
  · rcases List.eq_nil_or_concat post with hp | ⟨p, y, hp⟩
    · subst hp
      rw [List.append_nil] at h1
      subst h1
      have hn' : .called t ∉ q := fun h => hn (by simp [h])
      have h4 := h pre t q [] c (by rw [h2, List.append_nil]) hn'
      rw [List.count_append]
      by_cases hc : e = .ran t c
      · have h5 := he t c hc
        have : q.count (.ran t c) = 0 := List.count_eq_zero.2 (fun hm => h5 (by
          rw [h2, ranNow_append]
          simp only [ranNow, if_true]
          exact mem_ranNow hn' (.inl hm)))
        rw [this, hc]; simp
      · have : [e].count (.ran t c) = 0 := List.count_eq_zero.2 (by simp; exact fun e' => hc e'.symm)
        omega
    · subst hp
      have : mid ++ (p ++ [y]) = q ++ [e] := by simpa using h1
      have : (mid ++ p) ++ [y] = q ++ [e] := by simpa using this
      have := (List.append_inj' this rfl).1
      exact h pre t mid p c (by rw [h2, this]) hn
  · have : mid = [] := (List.append_eq_nil_iff.1 h1).1
    subst this; simp

theorem before_snoc {log : List Ev} {e : Ev} (h : ∀ pre t c post, log = pre ++ .ran t c :: post → ∃ u b, .added u c b ∈ pre)
    (he : ∀ t c, e = .ran t c → ∃ u b, .added u c b ∈ log) : ∀ pre t c post, log ++ [e] = pre ++ .ran t c :: post → ∃ u b, .added u c b ∈ pre := by
  intro pre t c post hl
  rcases split_snoc hl with ⟨q, _, h2⟩ | ⟨_, h2, h3⟩
  · exact h pre t c q h2
  · rw [h2]; exact he t c h3.symm

/-- a thread moves, and an event may be seen that is not of another thread's calls -/
theorem inv_move {s s' : St} {t : Nat} {p : Pc} (I : Inv s) (h1 : s'.pcs = upd s.pcs t p) (hk : (s'.reg.map (·.1)).Nodup) (hr : ∀ e ∈ s'.reg, ∃ u, .added u e.1 e.2 ∈ s'.log)
    (hlog : s'.log = s.log ∨ ∃ e, s'.log = s.log ++ [e] ∧ (∀ u c, e = .ran u c → c ∉ ranNow u s.log [] ∧ ∃ v b, .added v c b ∈ s.log) ∧ (∀ u, u ≠ t → ranNow u s'.log [] = ranNow u s.log []))
    (hp : (p.todo.map (·.1)).Nodup ∧ ∀ e ∈ p.todo, ∃ u, .added u e.1 e.2 ∈ s.log) (hb : ∀ c l, p = .back c l → ∃ u, .added u c false ∈ s.log)
    (hf : ∀ e ∈ p.todo, e.1 ∉ ranNow t s'.log []) (hn : (∃ v, p = .look v) ∨ (∃ l, p = .clear l) → ranNow t s'.log [] = []) : Inv s' := by
  have hmono : ∀ {e : Ev}, e ∈ s.log → e ∈ s'.log := by
    intro e he
    rcases hlog with h | ⟨x, h, _⟩ <;> rw [h] <;> simp [he]
  have hother : ∀ u, u ≠ t → ranNow u s'.log [] = ranNow u s.log [] := by
    intro u hu
    rcases hlog with h | ⟨x, _, _, h⟩
    · rw [h]
    · exact h u hu
  refine ⟨hk, hr, fun u => ?_, fun u c l hu => ?_, fun u => ?_, fun u => ?_, ?_, ?_⟩
  · rw [h1]
    by_cases hu : u = t
    · rw [hu, upd_same]; exact ⟨hp.1, fun e he => (hp.2 e he).imp (fun _ h => hmono h)⟩
    · rw [upd_other _ _ hu]; exact ⟨(I.todo u).1, fun e he => ((I.todo u).2 e he).imp (fun _ h => hmono h)⟩
  · rw [h1] at hu
    by_cases e : u = t
    · rw [e, upd_same] at hu; exact (hb c l hu).imp (fun _ h => hmono h)
    · rw [upd_other _ _ e] at hu; exact (I.back u c l hu).imp (fun _ h => hmono h)
  · rw [h1]
    by_cases hu : u = t
    · rw [hu, upd_same]; exact hf
    · rw [upd_other _ _ hu, hother u hu]; exact I.fresh u
  · rw [h1]
    by_cases hu : u = t
    · rw [hu, upd_same]; exact hn
    · rw [upd_other _ _ hu, hother u hu]; exact I.none u
  · rcases hlog with h | ⟨x, h, h', _⟩
    · rw [h]; exact I.before
    · rw [h]; exact before_snoc I.before (fun u c e => (h' u c e).2)
  · rcases hlog with h | ⟨x, h, h', _⟩
    · rw [h]; exact I.once
    · rw [h]; exact once_snoc I.once (fun u c e => (h' u c e).1)

theorem inv_step {s : St} (I : Inv s) (a : Act) : Inv (step s a) := by
  have mono : ∀ {e : Ev} {p : Nat × Bool}, (∃ u, .added u p.1 p.2 ∈ s.log) → ∃ u, .added u p.1 p.2 ∈ s.log ++ [e] := fun h => h.imp (fun _ h => by simp [h])
  cases a with
  | add t c one =>
    cases hpc : s.pcs t with
    | idle =>
      simp only [step, hpc]
      have e : upd s.pcs t .idle = s.pcs := by
        funext u
        by_cases hu : u = t
        · rw [hu, upd_same, hpc]
        · rw [upd_other _ _ hu]
      refine inv_move (s' := { s with reg := put c one s.reg, ver := s.ver + 1, log := s.log ++ [.added t c one] }) (t := t) (p := .idle) I e.symm (put_keys _ _ _ I.keys) (fun x hx => ?_)
        (.inr ⟨_, rfl, by simp, fun u _ => by rw [ranNow_append]; rfl⟩) ⟨by simp [Pc.todo], by simp [Pc.todo]⟩ (by simp) (by simp [Pc.todo]) (by simp)
      rcases mem_put hx with h | h
      · exact mono (I.reg x h)
      · rw [h]; exact ⟨t, by simp⟩
    | _ => simpa only [step, hpc] using I
  | call t =>
    cases hpc : s.pcs t with
    | idle =>
      simp only [step, hpc]
      exact inv_move (t := t) (p := .look s.ver) I rfl I.keys (fun x hx => mono (I.reg x hx))
        (.inr ⟨_, rfl, by simp, fun u hu => by rw [ranNow_append]; simp only [ranNow]; rw [if_neg (fun e => hu e.symm)]⟩) ⟨by simp [Pc.todo], by simp [Pc.todo]⟩ (by simp) (by simp [Pc.todo])
        (fun _ => by rw [ranNow_append]; simp [ranNow])
    | _ => simpa only [step, hpc] using I
  | fail t =>
    cases hpc : s.pcs t with
    | look v =>
      simp only [step, hpc]
      split
      · exact I
      · exact inv_move (t := t) (p := .idle) I rfl I.keys (fun x hx => mono (I.reg x hx)) (.inr ⟨_, rfl, by simp, fun u hu => by rw [ranNow_append]; rfl⟩) ⟨by simp [Pc.todo], by simp [Pc.todo]⟩ (by simp) (by simp [Pc.todo])
          (by simp)
    | _ => simpa only [step, hpc] using I
  | go t =>
    have htodo := I.todo t
    have hfresh := I.fresh t
    cases hpc : s.pcs t with
    | idle => simpa only [step, hpc] using I
    | look v =>
      have hn := I.none t (.inl ⟨v, hpc⟩)
      simp only [step, hpc]
      exact inv_move (t := t) (p := .clear s.reg) I rfl I.keys I.reg (.inl rfl) ⟨I.keys, I.reg⟩ (by simp) (fun e _ => by dsimp only; rw [hn]; simp) (fun _ => hn)
    | clear l =>
      rw [hpc] at htodo hfresh
      simp only [step, hpc]
      exact inv_move (t := t) (p := .each l) I rfl (by simp) (by simp) (.inl rfl) htodo (by simp) hfresh (by simp)
    | each l =>
      cases l with
      | nil => simp only [step, hpc]; exact inv_move (t := t) (p := .idle) I rfl I.keys (fun x hx => mono (I.reg x hx)) (.inr ⟨_, rfl, by simp, fun u hu => by rw [ranNow_append]; rfl⟩) ⟨by simp [Pc.todo], by simp [Pc.todo]⟩ (by simp) (by simp [Pc.todo]) (by simp)
      | cons e rest =>
        obtain ⟨c, one⟩ := e
        rw [hpc] at htodo hfresh
        simp only [Pc.todo, List.map_cons, List.nodup_cons] at htodo
        obtain ⟨⟨hc, hnd⟩, hadd⟩ := htodo
        obtain ⟨w, hw⟩ := hadd (c, one) (by simp)
        simp only [step, hpc]
        have htd : (if one = true then Pc.each rest else Pc.back c rest).todo = rest := by split <;> rfl
        refine inv_move (t := t) (p := if one then .each rest else .back c rest) I rfl I.keys (fun x hx => mono (I.reg x hx))
          (.inr ⟨_, rfl, fun u d he => ?_, fun u hu => ?_⟩) ?_ ?_ ?_ ?_
        · cases he
          exact ⟨hfresh (c, one) (by simp [Pc.todo]), w, one, hw⟩
        · rw [ranNow_append]; simp only [ranNow]; rw [if_neg (fun e => hu e.symm)]
        · rw [htd]; exact ⟨hnd, fun x hx => hadd x (by simp [hx])⟩
        · intro d l h
          cases one with
          | true => simp at h
          | false => simp at h; rw [← h.1]; exact ⟨w, hw⟩
        · rw [htd]
          intro x hx
          dsimp only
          rw [ranNow_append]
          simp only [ranNow, if_true]
          intro h
          rcases List.mem_append.1 h with h | h
          · exact hfresh x (by simp [Pc.todo, hx]) h
          · exact hc (List.mem_map.2 ⟨x, hx, by simpa using h⟩)
        · cases one <;> simp
    | back c rest =>
      rw [hpc] at htodo hfresh
      obtain ⟨w, hw⟩ := I.back t c rest hpc
      simp only [step, hpc]
      refine inv_move (t := t) (p := .each rest) I rfl (put_keys _ _ _ I.keys) (fun x hx => ?_) (.inl rfl) htodo (by simp) hfresh (by simp)
      rcases mem_put hx with h | h
      · exact I.reg x h
      · rw [h]; exact ⟨w, hw⟩

theorem inv_run (as : List Act) : Inv (run as) := by
  induction as using snoc_ind with
  | h0 =>
    exact ⟨by simp [run], by simp [run], fun t => by simp [run, Pc.todo], fun t c l h => by simp [run] at h, fun t => by simp [run, Pc.todo], fun t h => by simp [run, ranNow],
      fun pre _ _ _ h => by have := congrArg List.length h; simp [run] at this, fun pre _ _ _ _ h => by have := congrArg List.length h; simp [run] at this⟩
  | h1 l a ih => rw [run_snoc]; exact inv_step ih a

/-- **C261 (nothing else is called)** Whichever threads use the group, however they interleave: a callable that is called was added before. -/
theorem C261_added (as : List Act) (pre post : List Ev) (t c : Nat) (h : (run as).log = pre ++ .ran t c :: post) : ∃ u b, .added u c b ∈ pre :=
  (inv_run as).before pre t c post h

/-- **C261 (once in each call)** Whichever threads use the group, however they interleave: each call of the group calls each callable at most once. -/
theorem C261_once_per_call (as : List Act) (pre mid post : List Ev) (t c : Nat) (h : (run as).log = pre ++ .called t :: (mid ++ post)) (hn : .called t ∉ mid) : mid.count (.ran t c) ≤ 1 :=
  (inv_run as).once pre t mid post c h hn

/-! ### A thread on its own -/

theorem solo_each (l : List (Nat × Bool)) (s : St) (t : Nat) (h : s.pcs t = .each l) :
    ∃ n, ((List.replicate n (Act.go t)).foldl step s).log = s.log ++ l.map (fun e => .ran t e.1) ++ [.ended t] ∧ ((List.replicate n (Act.go t)).foldl step s).pcs t = .idle := by
  induction l generalizing s with
  | nil => exact ⟨1, by simp [step, h], by simp [step, h]⟩
  | cons e rest ih =>
    obtain ⟨c, one⟩ := e
    cases one with
    | true =>
      obtain ⟨n, h1, h2⟩ := ih (step s (.go t)) (by simp [step, h])
      refine ⟨n + 1, ?_, by rw [List.replicate_succ, List.foldl_cons]; exact h2⟩
      rw [List.replicate_succ, List.foldl_cons, h1]
      simp [step, h]
    | false =>
      obtain ⟨n, h1, h2⟩ := ih (step (step s (.go t)) (.go t)) (by simp [step, h])
      refine ⟨n + 2, ?_, by rw [List.replicate_succ, List.replicate_succ, List.foldl_cons, List.foldl_cons]; exact h2⟩
      rw [List.replicate_succ, List.replicate_succ, List.foldl_cons, List.foldl_cons, h1]
      simp [step, h]

theorem solo_call (s : St) (t : Nat) (h : s.pcs t = .idle) :
    ∃ n, ((Act.call t :: List.replicate n (Act.go t)).foldl step s).log = s.log ++ .called t :: (s.reg.map (fun e => .ran t e.1) ++ [.ended t]) := by
  obtain ⟨n, h1, _⟩ := solo_each s.reg (step (step (step s (.call t)) (.go t)) (.go t)) t (by simp [step, h])
  refine ⟨n + 2, ?_⟩
  rw [List.foldl_cons, List.replicate_succ, List.replicate_succ, List.foldl_cons, List.foldl_cons, h1]
  simp [step, h]

theorem run_append (as bs : List Act) : run (as ++ bs) = bs.foldl step (run as) := by simp [run]

/-- **C261 (calls end)** Whatever other threads do and wherever they are: a call that is left to go on ends, without an exception, having called all that it had still to call. -/
theorem C261_ends (as : List Act) (t : Nat) (h : nCalled t (run as).log ≠ nEnded t (run as).log) :
    ∃ (n : Nat) (cs : List Nat), (run (as ++ List.replicate n (Act.go t))).log = (run as).log ++ cs.map (fun c => .ran t c) ++ [.ended t] := by
  have hne : (run as).pcs t ≠ .idle := fun e => by have := counted_run as t; rw [if_pos e] at this; omega
  generalize hs : run as = s at *
  have key : ∀ l, (∃ k, ((List.replicate k (Act.go t)).foldl step s).pcs t = .each l ∧ ((List.replicate k (Act.go t)).foldl step s).log = s.log) →
      ∃ (n : Nat) (cs : List Nat), (run (as ++ List.replicate n (Act.go t))).log = s.log ++ cs.map (fun c => .ran t c) ++ [.ended t] := by
    intro l ⟨k, h1, h2⟩
    obtain ⟨n, h3, _⟩ := solo_each l _ t h1
    refine ⟨k + n, l.map (·.1), ?_⟩
    rw [run_append, hs, ← List.replicate_append_replicate, List.foldl_append, h3, h2, List.map_map]
    rfl
  cases hpc : s.pcs t with
  | idle => exact absurd hpc hne
  | look v => exact key s.reg ⟨2, by simp [List.replicate_succ, step, hpc], by simp [List.replicate_succ, step, hpc]⟩
  | clear l => exact key l ⟨1, by simp [step, hpc], by simp [step, hpc]⟩
  | each l => exact key l ⟨0, hpc, rfl⟩
  | back c l => exact key l ⟨1, by simp [step, hpc], by simp [step, hpc]⟩

/-- The hypotheses are met: a callable is added, and another while the group is called; another thread's call has begun meanwhile. -/
example : (run [.add 0 5 false, .call 1, .go 1, .go 1, .add 0 6 true, .call 2, .go 2, .go 2]).log = [.added 0 5 false, .called 1, .added 0 6 true, .called 2] ∧
    (run ([.add 0 5 false, .call 1, .go 1, .go 1, .add 0 6 true, .call 2, .go 2, .go 2] ++ List.replicate 3 (.go 1))).log = [.added 0 5 false, .called 1, .added 0 6 true, .called 2, .ran 1 5, .ended 1] := by decide +kernel

/-! ### C262: what does not hold -/

/-- nothing is registered and nobody has anything to call -/
def Empty (s : St) : Prop := s.reg = [] ∧ ∀ t, (s.pcs t).todo = [] ∧ ∀ c l, s.pcs t ≠ .back c l

theorem empty_step {s : St} (h : Empty s) (a : Act) (ha : ∀ t c one, a ≠ .add t c one) : Empty (step s a) ∧ ∀ c, nRan c (step s a).log = nRan c s.log := by
  obtain ⟨h1, h2⟩ := h
  have move : ∀ {t : Nat} {p : Pc}, (p.todo = [] ∧ ∀ c l, p ≠ .back c l) → ∀ u, (upd s.pcs t p u).todo = [] ∧ ∀ c l, upd s.pcs t p u ≠ .back c l := by
    intro t p hp u
    by_cases hu : u = t
    · rw [hu, upd_same]; exact hp
    · rw [upd_other _ _ hu]; exact h2 u
  cases a with
  | add t c one => exact absurd rfl (ha t c one)
  | call t =>
    cases hpc : s.pcs t with
    | idle => simp only [step, hpc]; exact ⟨⟨h1, move ⟨rfl, by simp⟩⟩, fun c => by simp [nRan, List.countP_append]⟩
    | _ => simp only [step, hpc]; exact ⟨⟨h1, h2⟩, by simp⟩
  | fail t =>
    cases hpc : s.pcs t with
    | look v =>
      simp only [step, hpc]
      split
      · exact ⟨⟨h1, h2⟩, by simp⟩
      · exact ⟨⟨h1, move ⟨rfl, by simp⟩⟩, fun c => by simp [nRan, List.countP_append]⟩
    | _ => simp only [step, hpc]; exact ⟨⟨h1, h2⟩, by simp⟩
  | go t =>
    have h2t := h2 t
    cases hpc : s.pcs t with
    | idle => simp only [step, hpc]; exact ⟨⟨h1, h2⟩, by simp⟩
    | look v => simp only [step, hpc]; exact ⟨⟨h1, move ⟨h1, by simp⟩⟩, by simp⟩
    | clear l => rw [hpc] at h2t; simp only [step, hpc]; exact ⟨⟨rfl, move ⟨h2t.1, by simp⟩⟩, by simp⟩
    | each l =>
      rw [hpc] at h2t
      have : l = [] := h2t.1
      subst this
      simp only [step, hpc]
      exact ⟨⟨h1, move ⟨rfl, by simp⟩⟩, fun c => by simp [nRan, List.countP_append]⟩
    | back c l => exact absurd hpc (h2t.2 c l)

theorem empty_run {s : St} (h : Empty s) (bs : List Act) (hb : ∀ a ∈ bs, ∀ t c one, a ≠ .add t c one) (c : Nat) : nRan c (bs.foldl step s).log = nRan c s.log := by
  induction bs generalizing s with
  | nil => rfl
  | cons a bs ih =>
    obtain ⟨h1, h2⟩ := empty_step h a (hb a (by simp))
    rw [List.foldl_cons, ih h1 (fun b hb' => hb b (by simp [hb'])), h2]

/-- **C262 (violation: a callable stays registered)** A callable was added, not as one-shot; then two threads call the group.  The second copies the callables while the first is calling, and clears them after the first put the callable back.
From then on no call calls it, whoever calls the group, until it is added again. -/
theorem C262_violates_lost : ∃ as, .added 2 5 false ∈ (run as).log ∧ nAdded 5 (run as).log = 1 ∧ (∀ a ∈ as, a ≠ .fail 0 ∧ a ≠ .fail 1) ∧ Quiet (run as).log ∧
    ∀ bs, (∀ a ∈ bs, ∀ t c one, a ≠ .add t c one) → nRan 5 (run (as ++ bs)).log = 1 := by
  refine ⟨[.add 2 5 false, .call 0, .go 0, .go 0, .call 1, .go 1, .go 0, .go 0, .go 1, .go 0, .go 1], by decide +kernel, by decide +kernel, by decide, ?_, fun bs hb => ?_⟩
  · have h : (run [.add 2 5 false, .call 0, .go 0, .go 0, .call 1, .go 1, .go 0, .go 0, .go 1, .go 0, .go 1]).log = [.added 2 5 false, .called 0, .called 1, .ran 0 5, .ended 0, .ended 1] := by decide +kernel
    intro t; rw [h]; simp [nCalled, nEnded, List.countP_cons]
  · rw [run_append, empty_run ?_ bs hb]
    · decide +kernel
    · refine ⟨by decide +kernel, fun t => ?_⟩
      by_cases h0 : t = 0
      · subst h0; exact ⟨by decide +kernel, by simp [run, step, put, upd]⟩
      · by_cases h1 : t = 1
        · subst h1; exact ⟨by decide +kernel, by simp [run, step, put, upd]⟩
        · simp [run, step, put, upd, h0, h1, Pc.todo]

/-- **C262 (violation: what is added is called)** A callable is added between a call's copying of the callables and its clearing of them.  It is never called, whoever calls the group, until it is added again. -/
theorem C262_violates_added : ∃ as, .added 1 5 false ∈ (run as).log ∧ Quiet (run as).log ∧ ∀ bs, (∀ a ∈ bs, ∀ t c one, a ≠ .add t c one) → nRan 5 (run (as ++ bs)).log = 0 := by
  refine ⟨[.call 0, .go 0, .add 1 5 false, .go 0, .go 0], by decide +kernel, ?_, fun bs hb => ?_⟩
  · have h : (run [.call 0, .go 0, .add 1 5 false, .go 0, .go 0]).log = [.called 0, .added 1 5 false, .ended 0] := by decide +kernel
    intro t; rw [h]; simp [nCalled, nEnded, List.countP_cons]
  · rw [run_append, empty_run ?_ bs hb]
    · decide +kernel
    · refine ⟨by decide +kernel, fun t => ?_⟩
      by_cases h0 : t = 0
      · subst h0; exact ⟨by decide +kernel, by simp [run, step, put, upd]⟩
      · simp [run, step, put, upd, h0, Pc.todo]

/-- **C262 (violation: a one-shot callable is called once)** Two threads call the group, and both copy the callables before either clears them. -/
theorem C262_violates_one_shot : ∃ as, (run as).log = [.added 2 5 true, .called 0, .called 1, .ran 0 5, .ran 1 5] :=
  ⟨[.add 2 5 true, .call 0, .call 1, .go 0, .go 1, .go 0, .go 1, .go 0, .go 1], by decide +kernel⟩

/-- **C262 (violation: a call calls all that is registered)** While a thread is calling the group, the call of another ends without having called the callable that was added before both. -/
theorem C262_violates_missed : ∃ as, (run as).log = [.added 2 5 false, .called 0, .called 1, .ended 1, .ran 0 5] :=
  ⟨[.add 2 5 false, .call 0, .go 0, .go 0, .call 1, .go 1, .go 1, .go 1, .go 0], by decide +kernel⟩

/-- **C262 (violation: a call does not raise)** A callable is added while another thread looks through the callables, which raises RuntimeError. -/
theorem C262_violates_raise : ∃ as, (run as).log = [.added 0 4 false, .called 0, .added 1 5 false, .raised 0] :=
  ⟨[.add 0 4 false, .call 0, .add 1 5 false, .fail 0], by decide +kernel⟩

/-! ### C262: copying and clearing not disturbed -/

/-- what a thread has to call, once it cleared the group -/
def Pc.left : Pc → List (Nat × Bool)
  | .each l => l
  | .back _ l => l
  | _ => []

/-- copies that were not yet used are what is registered -/
def Snap (s : St) : Prop := ∀ t l, s.pcs t = .clear l → l = s.reg

theorem snap_step {s : St} (h : Snap s) (a : Act) (hu : ∀ t l, s.pcs t = .clear l → a = .go t) : Snap (step s a) := by
  intro t l ht
  have none : ∀ {u : Nat}, a = .go u → (∀ l, s.pcs u ≠ .clear l) → ∀ v l, s.pcs v ≠ .clear l := by
    intro u e hn v l hv
    have := hu v l hv
    rw [e] at this
    cases this
    exact hn l hv
  cases a with
  | add u c one =>
    cases hpc : s.pcs u with
    | idle => simp only [step, hpc] at ht ⊢; cases hu t l ht
    | _ => simp only [step, hpc] at ht ⊢; exact h t l ht
  | call u =>
    cases hpc : s.pcs u with
    | idle =>
      simp only [step, hpc] at ht ⊢
      by_cases e : t = u
      · rw [e, upd_same] at ht; cases ht
      · rw [upd_other _ _ e] at ht; exact h t l ht
    | _ => simp only [step, hpc] at ht ⊢; exact h t l ht
  | fail u =>
    cases hpc : s.pcs u with
    | look v =>
      simp only [step, hpc] at ht ⊢
      split at ht
      · next hv => rw [if_pos hv]; exact h t l ht
      · next hv =>
        rw [if_neg hv]
        dsimp only at *
        by_cases e : t = u
        · rw [e, upd_same] at ht; cases ht
        · rw [upd_other _ _ e] at ht; exact h t l ht
    | _ => simp only [step, hpc] at ht ⊢; exact h t l ht
  | go u =>
    have other : ∀ {p : Pc}, (∀ l, p ≠ .clear l) → (upd s.pcs u p t = .clear l) → t ≠ u ∧ s.pcs t = .clear l := by
      intro p hp ht
      by_cases e : t = u
      · rw [e, upd_same] at ht; exact absurd ht (hp l)
      · rw [upd_other _ _ e] at ht; exact ⟨e, ht⟩
    cases hpc : s.pcs u with
    | idle => simp only [step, hpc] at ht ⊢; exact h t l ht
    | look v =>
      simp only [step, hpc] at ht ⊢
      by_cases e : t = u
      · rw [e, upd_same] at ht; cases ht; rfl
      · rw [upd_other _ _ e] at ht; exact h t l ht
    | clear k =>
      simp only [step, hpc] at ht
      obtain ⟨e, ht⟩ := other (by simp) ht
      have := hu t l ht
      cases this
      exact absurd rfl e
    | each k =>
      cases k with
      | nil => simp only [step, hpc] at ht ⊢; exact h t l (other (by simp) ht).2
      | cons x rest =>
        obtain ⟨c, one⟩ := x
        simp only [step, hpc] at ht ⊢
        exact h t l (other (by cases one <;> simp) ht).2
    | back c rest =>
      simp only [step, hpc] at ht
      exact absurd (other (by simp) ht).2 (none rfl (by rw [hpc]; simp) t l)

theorem snap_run {as : List Act} (h : Undisturbed as) : Snap (run as) := by
  induction as using snoc_ind with
  | h0 => intro t l h; simp [run] at h
  | h1 l a ih =>
    rw [run_snoc]
    exact snap_step (ih (fun p b hp => h p b (hp.trans (List.prefix_append _ _)))) a (fun t k ht => h l a (List.prefix_rfl) t k ht)

/-- a callable is registered, or some thread will put it back -/
def Kept (c : Nat) (s : St) : Prop := (c, false) ∈ s.reg ∨ ∃ t, (c, false) ∈ (s.pcs t).left ∨ ∃ l, s.pcs t = .back c l

theorem kept_move {c : Nat} {s s' : St} {t : Nat} {p : Pc} (h : Kept c s) (h1 : s'.pcs = upd s.pcs t p) (hr : (c, false) ∈ s.reg → (c, false) ∈ s'.reg)
    (hp : (c, false) ∈ (s.pcs t).left ∨ (∃ l, s.pcs t = .back c l) → (c, false) ∈ s'.reg ∨ (c, false) ∈ p.left ∨ ∃ l, p = .back c l) : Kept c s' := by
  rcases h with h | ⟨u, h⟩
  · exact .inl (hr h)
  · by_cases hu : u = t
    · subst hu
      rcases hp h with h | h
      · exact .inl h
      · exact .inr ⟨u, by rw [h1, upd_same]; exact h⟩
    · exact .inr ⟨u, by rw [h1, upd_other _ _ hu]; exact h⟩

theorem kept_step {c : Nat} {s : St} (I : Inv (step s a)) (h : Kept c s ∨ ∃ t, s.pcs t = .idle ∧ a = .add t c false) (sn : Snap s) (hf : ∀ u b, .added u c b ∈ (step s a).log → b = false) : Kept c (step s a) := by
  have put_c : ∀ {reg : List (Nat × Bool)} {one : Bool}, (step s a).reg = put c one reg → (c, false) ∈ (step s a).reg := by
    intro reg one e
    obtain ⟨b, hb⟩ := put_self (c := c) (one := one) (reg := reg)
    rw [← e] at hb
    obtain ⟨u, hu⟩ := I.reg _ hb
    rw [hf u b hu] at hb
    exact hb
  rcases h with h | ⟨t, ht, rfl⟩
  · cases a with
    | add t d one =>
      cases hpc : s.pcs t with
      | idle =>
        simp only [step, hpc]
        rcases h with h | h
        · exact .inl (put_mem h)
        · exact .inr h
      | _ => simpa only [step, hpc] using h
    | call t =>
      cases hpc : s.pcs t with
      | idle => simp only [step, hpc]; exact kept_move (t := t) (p := .look s.ver) h rfl id (by rw [hpc]; simp [Pc.left])
      | _ => simpa only [step, hpc] using h
    | fail t =>
      cases hpc : s.pcs t with
      | look v =>
        simp only [step, hpc]
        split
        · exact h
        · exact kept_move (t := t) (p := .idle) h rfl id (by rw [hpc]; simp [Pc.left])
      | _ => simpa only [step, hpc] using h
    | go t =>
      cases hpc : s.pcs t with
      | idle => simpa only [step, hpc] using h
      | look v => simp only [step, hpc]; exact kept_move (t := t) (p := .clear s.reg) h rfl id (by rw [hpc]; simp [Pc.left])
      | clear l =>
        have e := sn t l hpc
        simp only [step, hpc]
        rcases h with h | ⟨u, h⟩
        · exact .inr ⟨t, .inl (by dsimp only; rw [upd_same, e]; exact h)⟩
        · have hu : u ≠ t := fun e => by rw [e, hpc] at h; simp [Pc.left] at h
          exact .inr ⟨u, by dsimp only; rw [upd_other _ _ hu]; exact h⟩
      | each l =>
        cases l with
        | nil => simp only [step, hpc]; exact kept_move (t := t) (p := .idle) h rfl id (by rw [hpc]; simp [Pc.left])
        | cons x rest =>
          obtain ⟨d, one⟩ := x
          simp only [step, hpc]
          refine kept_move (t := t) (p := if one then .each rest else .back d rest) h rfl id ?_
          rw [hpc]
          intro h
          right
          rcases h with h | ⟨_, h⟩
          · simp only [Pc.left, List.mem_cons] at h
            rcases h with h | h
            · cases h; exact .inr ⟨rest, rfl⟩
            · left; cases one <;> exact h
          · cases h
      | back d rest =>
        have e : (step s (.go t)).reg = put d false s.reg := by simp only [step, hpc]
        have e2 : (step s (.go t)).pcs = upd s.pcs t (.each rest) := by simp only [step, hpc]
        refine kept_move (t := t) (p := .each rest) h e2 (fun h => by rw [e]; exact put_mem h) ?_
        rw [hpc]
        intro h
        rcases h with h | ⟨_, h⟩
        · exact .inr (.inl h)
        · cases h; exact .inl (put_c e)
  · exact .inl (put_c (by simp only [step, ht]; rfl))

theorem log_mono (s : St) (a : Act) : ∃ l, (step s a).log = s.log ++ l := by
  cases a with
  | add t c one => cases hpc : s.pcs t <;> simp [step, hpc]
  | call t => cases hpc : s.pcs t <;> simp [step, hpc]
  | fail t =>
    cases hpc : s.pcs t with
    | look v => by_cases h : v = s.ver <;> simp [step, hpc, h]
    | _ => simp [step, hpc]
  | go t =>
    cases hpc : s.pcs t with
    | each l =>
      cases l with
      | nil => simp [step, hpc]
      | cons x rest => simp [step, hpc]
    | _ => simp [step, hpc]

/-- an addition is seen only when it is made -/
theorem added_step {s : St} {a : Act} {u c : Nat} {b : Bool} (h : .added u c b ∈ (step s a).log) : .added u c b ∈ s.log ∨ (s.pcs u = .idle ∧ a = .add u c b) := by
  cases a with
  | add t d one => cases hpc : s.pcs t <;> simp [step, hpc] at h <;> first | exact .inl h | (rcases h with h | ⟨rfl, rfl, rfl⟩; exact .inl h; exact .inr ⟨hpc, rfl⟩)
  | call t => cases hpc : s.pcs t <;> simp [step, hpc] at h <;> exact .inl h
  | fail t =>
    cases hpc : s.pcs t with
    | look v => by_cases hv : v = s.ver <;> simp [step, hpc, hv] at h <;> exact .inl h
    | _ => simp [step, hpc] at h; exact .inl h
  | go t =>
    cases hpc : s.pcs t with
    | each l =>
      cases l with
      | nil => simp [step, hpc] at h; exact .inl h
      | cons x rest => simp [step, hpc] at h; exact .inl h
    | _ => simp [step, hpc] at h; exact .inl h

theorem kept_run {as : List Act} (hu : Undisturbed as) {c : Nat} (hf : ∀ u b, .added u c b ∈ (run as).log → b = false) (ha : ∃ u, .added u c false ∈ (run as).log) : Kept c (run as) := by
  induction as using snoc_ind with
  | h0 => obtain ⟨u, h⟩ := ha; simp [run] at h
  | h1 l a ih =>
    have I := inv_run (l ++ [a])
    rw [run_snoc] at hf ha I ⊢
    have hu' : Undisturbed l := fun p b hp => hu p b (hp.trans (List.prefix_append _ _))
    obtain ⟨x, hx⟩ := log_mono (run l) a
    obtain ⟨u, ha⟩ := ha
    refine kept_step I ?_ (snap_run hu') hf
    rcases added_step ha with h | ⟨h1, h2⟩
    · exact .inl (ih hu' (fun v b hb => hf v b (by rw [hx]; simp [hb])) ⟨u, h⟩)
    · exact .inr ⟨u, h1, h2⟩

/-- **C262, the part that holds (callables stay)** If nothing happens between a call's copying of the callables and its clearing of the group: a callable that was added, not as one-shot, stays.  Whenever no call is running, a call that is made calls it, whichever calls there were. -/
theorem C262_stays_partial (as : List Act) (hu : Undisturbed as) (c : Nat) (ha : ∃ u, .added u c false ∈ (run as).log) (hf : ∀ u b, .added u c b ∈ (run as).log → b = false) (hq : Quiet (run as).log) (t : Nat) :
    ∃ n mid, (run (as ++ .call t :: List.replicate n (.go t))).log = (run as).log ++ .called t :: (mid ++ [.ended t]) ∧ .ran t c ∈ mid := by
  have idle := idle_of_quiet (counted_run as) hq
  have k := kept_run hu hf ha
  obtain ⟨n, h⟩ := solo_call (run as) t (idle t)
  refine ⟨n, (run as).reg.map (fun e => .ran t e.1), by rw [run_append]; exact h, ?_⟩
  rcases k with k | ⟨u, k⟩
  · exact List.mem_map.2 ⟨(c, false), k, rfl⟩
  · rw [idle u] at k; simp [Pc.left] at k

/-- a one-shot callable that was added once: registered, about to be called by one thread, or called -/
def OneShot (c : Nat) (s : St) : Prop :=
  ((c, true) ∈ s.reg ∧ nRan c s.log = 0 ∧ ∀ t, (c, true) ∉ (s.pcs t).left) ∨
  ((c, true) ∉ s.reg ∧ nRan c s.log = 0 ∧ ∃ t, (c, true) ∈ (s.pcs t).left ∧ ∀ u, (c, true) ∈ (s.pcs u).left → u = t) ∨
  ((c, true) ∉ s.reg ∧ nRan c s.log = 1 ∧ ∀ t, (c, true) ∉ (s.pcs t).left)

theorem shot_same {c : Nat} {s s' : St} (h : OneShot c s) (hr : (c, true) ∈ s'.reg ↔ (c, true) ∈ s.reg) (hn : nRan c s'.log = nRan c s.log) (hl : ∀ t, (c, true) ∈ (s'.pcs t).left ↔ (c, true) ∈ (s.pcs t).left) : OneShot c s' := by
  simpa only [OneShot, hr, hn, hl] using h

theorem left_upd {c t : Nat} {pcs : Nat → Pc} {p : Pc} (h : (c, true) ∈ p.left ↔ (c, true) ∈ (pcs t).left) (u : Nat) : (c, true) ∈ (upd pcs t p u).left ↔ (c, true) ∈ (pcs u).left := by
  by_cases hu : u = t
  · rw [hu, upd_same]; exact h
  · rw [upd_other _ _ hu]

theorem shot_step {c : Nat} {s : St} {a : Act} (I : Inv s) (h : OneShot c s) (sn : Snap s) (hf : ∀ u b, .added u c b ∈ s.log → b = true) (ha : ∀ t b, a ≠ .add t c b) : OneShot c (step s a) := by
  have put_iff : ∀ {d : Nat} {one : Bool}, d ≠ c → ((c, true) ∈ put d one s.reg ↔ (c, true) ∈ s.reg) := by
    intro d one hd
    refine ⟨fun h => ?_, put_mem⟩
    rcases mem_put h with h | h
    · exact h
    · cases h; exact absurd rfl hd
  cases a with
  | add t d one =>
    have hd : d ≠ c := fun e => ha t one (by rw [e])
    cases hpc : s.pcs t with
    | idle => simp only [step, hpc]; exact shot_same h (put_iff hd) (by simp [nRan, List.countP_append]) (fun _ => Iff.rfl)
    | _ => simpa only [step, hpc] using h
  | call t =>
    cases hpc : s.pcs t with
    | idle => simp only [step, hpc]; exact shot_same h Iff.rfl (by simp [nRan, List.countP_append]) (left_upd (by rw [hpc]; rfl))
    | _ => simpa only [step, hpc] using h
  | fail t =>
    cases hpc : s.pcs t with
    | look v =>
      simp only [step, hpc]
      split
      · exact h
      · exact shot_same h Iff.rfl (by simp [nRan, List.countP_append]) (left_upd (by rw [hpc]; rfl))
    | _ => simpa only [step, hpc] using h
  | go t =>
    cases hpc : s.pcs t with
    | idle => simpa only [step, hpc] using h
    | look v => simp only [step, hpc]; exact shot_same h Iff.rfl rfl (left_upd (by rw [hpc]; rfl))
    | clear l =>
      have e := sn t l hpc
      subst e
      simp only [step, hpc]
      rcases h with ⟨h1, h2, h3⟩ | ⟨h1, h2, u, h3, h4⟩ | ⟨h1, h2, h3⟩
      · refine .inr (.inl ⟨by simp, h2, t, by dsimp only; rw [upd_same]; exact h1, fun u hu => Decidable.byContradiction (fun hne => ?_)⟩)
        dsimp only at hu
        rw [upd_other _ _ hne] at hu
        exact h3 u hu
      · have hl : ∀ v, (c, true) ∈ (upd s.pcs t (.each s.reg) v).left ↔ (c, true) ∈ (s.pcs v).left := left_upd (by rw [hpc]; simp [Pc.left, h1])
        exact .inr (.inl ⟨by simp, h2, u, (hl u).2 h3, fun v hv => h4 v ((hl v).1 hv)⟩)
      · have hl : ∀ v, (c, true) ∈ (upd s.pcs t (.each s.reg) v).left ↔ (c, true) ∈ (s.pcs v).left := left_upd (by rw [hpc]; simp [Pc.left, h1])
        exact .inr (.inr ⟨by simp, h2, fun v hv => h3 v ((hl v).1 hv)⟩)
    | each l =>
      cases l with
      | nil => simp only [step, hpc]; exact shot_same h Iff.rfl (by simp [nRan, List.countP_append]) (left_upd (by rw [hpc]; simp [Pc.left]))
      | cons x rest =>
        obtain ⟨d, one⟩ := x
        have htodo := I.todo t
        rw [hpc] at htodo
        simp only [Pc.todo, List.map_cons, List.nodup_cons] at htodo
        have htd : (if one = true then Pc.each rest else Pc.back d rest).left = rest := by split <;> rfl
        simp only [step, hpc]
        by_cases hd : d = c
        · subst hd
          have hone : one = true := by
            obtain ⟨u, hu⟩ := htodo.2 (d, one) (by simp)
            exact hf u one hu
          subst hone
          have hin : (d, true) ∈ (s.pcs t).left := by rw [hpc]; simp [Pc.left]
          rcases h with ⟨h1, h2, h3⟩ | ⟨h1, h2, u, h3, h4⟩ | ⟨h1, h2, h3⟩
          · exact absurd hin (h3 t)
          · have := h4 t hin
            subst this
            refine .inr (.inr ⟨h1, by simp only [nRan, List.countP_append] at *; rw [h2]; simp, fun v hv => ?_⟩)
            dsimp only at hv
            by_cases e : v = t
            · rw [e, upd_same, htd] at hv
              exact htodo.1.1 (List.mem_map.2 ⟨_, hv, rfl⟩)
            · rw [upd_other _ _ e] at hv; exact e (h4 v hv)
          · exact absurd hin (h3 t)
        · refine shot_same h Iff.rfl (by simp [nRan, List.countP_append, hd]) (left_upd ?_)
          rw [htd, hpc]
          simp only [Pc.left, List.mem_cons, Prod.mk.injEq]
          constructor
          · exact .inr
          · rintro (⟨e, _⟩ | h)
            · exact absurd e.symm hd
            · exact h
    | back d rest =>
      simp only [step, hpc]
      have hd : d ≠ c := fun e => by
        obtain ⟨u, hu⟩ := I.back t d rest hpc
        rw [e] at hu
        cases hf u false hu
      exact shot_same h (put_iff hd) rfl (left_upd (by rw [hpc]; rfl))

theorem nAdded_append (c : Nat) (l l' : List Ev) : nAdded c (l ++ l') = nAdded c l + nAdded c l' := by simp [nAdded, List.countP_append]

theorem nAdded_pos {c u : Nat} {b : Bool} {log : List Ev} (h : .added u c b ∈ log) : 0 < nAdded c log := List.countP_pos_iff.2 ⟨_, h, by simp⟩

theorem shot_run {as : List Act} (hu : Undisturbed as) {c u : Nat} (h1 : nAdded c (run as).log = 1) (ha : .added u c true ∈ (run as).log) : OneShot c (run as) := by
  induction as using snoc_ind with
  | h0 => simp [run] at ha
  | h1 l a ih =>
    have I := inv_run l
    have hu' : Undisturbed l := fun p b hp => hu p b (hp.trans (List.prefix_append _ _))
    rw [run_snoc] at *
    obtain ⟨x, hx⟩ := log_mono (run l) a
    rcases added_step ha with h | ⟨h2, h3⟩
    · have hpos := nAdded_pos h
      rw [hx, nAdded_append] at h1
      have hx0 : nAdded c x = 0 := by omega
      by_cases hact : ∀ t b, a ≠ .add t c b
      · refine shot_step I (ih hu' (by omega) h) (snap_run hu') (fun v b hb => ?_) hact
        have hcount : nAdded c (run l).log = 1 := by omega
        cases b with
        | true => rfl
        | false =>
          exfalso
          obtain ⟨pre, post, hl⟩ := List.append_of_mem hb
          rw [hl] at h hcount
          rw [nAdded_append] at hcount
          have e : nAdded c (.added v c false :: post) = 1 + nAdded c post := by simp [nAdded]; omega
          rcases List.mem_append.1 h with h | h
          · have := nAdded_pos h; omega
          · rcases List.mem_cons.1 h with h | h
            · cases h
            · have := nAdded_pos h; omega
      · have ⟨t, b, e⟩ : ∃ t b, a = .add t c b := Classical.byContradiction (fun hn => hact (fun t b e => hn ⟨t, b, e⟩))
        subst e
        have hs : (run l).pcs t ≠ .idle := fun hi => by
          have e : (step (run l) (.add t c b)).log = (run l).log ++ [.added t c b] := by simp only [step, hi]
          rw [e] at hx
          have := List.append_cancel_left hx
          rw [← this] at hx0
          simp [nAdded] at hx0
        have : step (run l) (.add t c b) = run l := by cases hpc : (run l).pcs t <;> first | exact absurd hpc hs | simp only [step, hpc]
        rw [this]
        exact ih hu' (by omega) h
    · subst h3
      have e : (step (run l) (.add u c true)).log = (run l).log ++ [.added u c true] := by simp only [step, h2]
      rw [e, nAdded_append] at h1
      have h0 : nAdded c (run l).log = 0 := by simp [nAdded] at h1 ⊢; exact h1
      have hno : ∀ v b, .added v c b ∉ (run l).log := fun v b h => by have := nAdded_pos h; omega
      left
      refine ⟨?_, ?_, fun t h => ?_⟩
      · simp only [step, h2, put]
        split
        · next h =>
          obtain ⟨⟨d, b⟩, hp, e⟩ := List.any_eq_true.1 h
          obtain ⟨v, hv⟩ := I.reg _ hp
          rw [show d = c by simpa using e] at hv
          exact absurd hv (hno v b)
        · simp
      · rw [e]
        have : nRan c (run l).log = 0 := by
          refine List.countP_eq_zero.2 (fun e he => ?_)
          cases e with
          | ran v d =>
            intro hd
            have hd : d = c := by simpa using hd
            subst hd
            obtain ⟨pre, post, hl⟩ := List.append_of_mem he
            obtain ⟨w, b, hw⟩ := I.before pre v d post hl
            exact hno w b (by rw [hl]; simp [hw])
          | _ => simp
        simp only [nRan, List.countP_append] at *
        rw [this]; simp
      · simp only [step, h2] at h
        have : (c, true) ∈ ((run l).pcs t).todo := by cases hpc : (run l).pcs t <;> rw [hpc] at h <;> simp_all [Pc.left, Pc.todo]
        obtain ⟨v, hv⟩ := (I.todo t).2 _ this
        exact hno v true hv

/-- **C262, the part that holds (one-shot callables)** If nothing happens between a call's copying of the callables and its clearing of the group: a one-shot callable that was added once is called once at most; and if it was not called yet and no call is running, a call that is made calls it. -/
theorem C262_one_shot_partial (as : List Act) (hu : Undisturbed as) (c u : Nat) (h1 : nAdded c (run as).log = 1) (ha : .added u c true ∈ (run as).log) :
    nRan c (run as).log ≤ 1 ∧ (nRan c (run as).log = 0 → Quiet (run as).log → ∀ t, ∃ n mid, (run (as ++ .call t :: List.replicate n (.go t))).log = (run as).log ++ .called t :: (mid ++ [.ended t]) ∧ .ran t c ∈ mid) := by
  have h := shot_run hu h1 ha
  refine ⟨by rcases h with ⟨_, h, _⟩ | ⟨_, h, _⟩ | ⟨_, h, _⟩ <;> omega, fun h0 hq t => ?_⟩
  have idle := idle_of_quiet (counted_run as) hq
  obtain ⟨n, hn⟩ := solo_call (run as) t (idle t)
  refine ⟨n, (run as).reg.map (fun e => .ran t e.1), by rw [run_append]; exact hn, ?_⟩
  rcases h with ⟨h, _⟩ | ⟨_, _, v, h, _⟩ | ⟨_, h, _⟩
  · exact List.mem_map.2 ⟨(c, true), h, rfl⟩
  · rw [idle v] at h; simp [Pc.left] at h
  · omega

theorem undisturbed_of_pairs {as : List Act} (h : ∀ n < as.length, ∀ t l, (run (as.take n)).pcs t = .clear l → as[n]? = some (.go t)) : Undisturbed as := by
  intro p a hp t l hl
  obtain ⟨r, hr⟩ := hp
  have e1 : p = as.take p.length := by rw [← hr]; simp
  have e2 : as[p.length]? = some a := by rw [← hr]; simp
  rw [e1] at hl
  have := h p.length (by rw [← hr]; simp) t l hl
  rw [e2] at this
  exact Option.some.inj this

/-- The hypotheses are met: callables are added, one of them one-shot; two threads call the group at once. -/
example : ∃ as, Undisturbed as ∧ (run as).log = [.added 0 5 false, .added 0 6 true, .called 1, .called 2, .ran 1 5, .ran 1 6, .ran 2 5, .ended 2, .ended 1] := by
  refine ⟨[.add 0 5 false, .add 0 6 true, .call 1, .go 1, .go 1, .call 2, .go 1, .go 1, .go 2, .go 2, .go 1, .go 2, .go 2, .go 2, .go 1], undisturbed_of_pairs (fun n hn t l h => ?_), by decide +kernel⟩
  match n with
  | 0 | 1 | 2 | 3 | 4 | 5 | 6 | 7 | 8 | 9 | 10 | 11 | 12 | 13 | 14 =>
    by_cases h1 : t = 1
    · subst h1; simp [run, step, put, upd] at h ⊢
    · by_cases h2 : t = 2
      · subst h2; simp [run, step, put, upd] at h ⊢
      · simp [run, step, put, upd, h1, h2] at h
  | n + 15 => simp at hn; omega

end Verif.Group.Threads
