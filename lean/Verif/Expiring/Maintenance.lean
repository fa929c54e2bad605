/-!
# The thread that maintains dictionaries, C216, C217

`/repo/satella/coding/structures/dictionaries/expiring.py:14-58` (`ExpiringEntryDictThread`): one thread for all dictionaries. It has a monitor of its own, and takes
the monitor of each dictionary while it cleans it; monitors are not re-entrant, `/repo/satella/coding/concurrent/monitor.py:10-47`.
-/
namespace Verif.Maintenance

/-! ## Model -/

/-- Who holds a monitor.  (Part of the model of `ExpiringEntryDictThread`, /repo/satella/coding/structures/dictionaries/expiring.py:20-58.) -/
inductive Who where
  | maint
  | user (t : Nat)
  deriving DecidableEq, Repr

/-- What threads of the program do: enter the monitor of a dictionary, leave it, make a dictionary that is to be maintained
(`add_dict`, /repo/satella/coding/structures/dictionaries/expiring.py:55-58), something else. A method of a dictionary that is synchronized, such as setting an item, or iterating, which
cleans up first (/repo/satella/coding/structures/dictionaries/expiring.py:199-212), enters the monitor, works and leaves. -/
inductive Instr where
  | acq (d : Nat)
  | rel (d : Nat)
  | reg (d : Nat)
  | work
  deriving DecidableEq, Repr

/-- Where the maintaining thread is: asleep; going over the entries, with those to do and those kept; waiting for the monitor of a dictionary;
cleaning it; ended by an exception.  /repo/satella/coding/structures/dictionaries/expiring.py:40-53 -/
inductive Phase where
  | asleep
  | scan (todo kept : List Nat)
  | wanting (d : Nat) (todo kept : List Nat)
  | cleaning (d : Nat) (todo kept : List Nat)
  | dead
  deriving DecidableEq, Repr

/-- What happened: a dictionary was registered; a pass over these began, cleaned one, or ended; or the thread ended by an exception.
(Part of the model of `ExpiringEntryDictThread`, /repo/satella/coding/structures/dictionaries/expiring.py:20-58.) -/
inductive Ev where
  | registered (d : Nat)
  | began (entries : List Nat)
  | cleaned (d : Nat)
  | ended
  | died
  deriving DecidableEq, Repr

/-- The state: the entries, whether the thread was started, the dictionaries that were garbage collected, the monitor of the thread and those of
dictionaries, the thread, what the other threads have yet to do, what happened.  (Part of the model of `ExpiringEntryDictThread`, /repo/satella/coding/structures/dictionaries/expiring.py:27-31.) -/
structure State where
  entries : List Nat
  started : Bool
  gone : List Nat
  top : Option Who
  locks : Nat → Option Who
  phase : Phase
  prog : Nat → List Instr
  log : List Ev

/-- Who takes the next step: a thread of the program; the maintaining thread, which may meet an exception while it cleans; the garbage collector.
(Part of the model of `ExpiringEntryDictThread`, /repo/satella/coding/structures/dictionaries/expiring.py:20-58.) -/
inductive Act where
  | user (t : Nat)
  | maint (raises : Bool)
  | collect (d : Nat)
  deriving DecidableEq, Repr

/-- Changes a function at one place.  (Part of the model of `ExpiringEntryDictThread`, /repo/satella/coding/structures/dictionaries/expiring.py:20-58.) -/
def upd {β : Type} (f : Nat → β) (n : Nat) (b : β) : Nat → β := fun m => if m = n then b else f m

/-- The maintaining thread holds a reference to this dictionary, /repo/satella/coding/structures/dictionaries/expiring.py:49-52 -/
def Phase.refersTo (p : Phase) (d : Nat) : Bool :=
  match p with
  | .wanting e _ _ => e = d
  | .cleaning e _ _ => e = d
  | _ => false

/-- `run` and `cleanup`, /repo/satella/coding/structures/dictionaries/expiring.py:40-53: the exception of a dictionary leaves both monitors, and the loop. -/
def maintStep (s : State) (raises : Bool) : State :=
  match s.phase with
  | .asleep => if s.top = none then { s with top := some .maint, phase := .scan s.entries [], log := s.log ++ [.began s.entries] } else s
  | .scan [] kept => { s with entries := kept, top := none, phase := .asleep, log := s.log ++ [.ended] }
  | .scan (d :: todo) kept => if d ∈ s.gone then { s with phase := .scan todo kept } else { s with phase := .wanting d todo kept }
  | .wanting d todo kept => if s.locks d = none then { s with locks := upd s.locks d (some .maint), phase := .cleaning d todo kept } else s
  | .cleaning d todo kept =>
    if raises then { s with locks := upd s.locks d none, top := none, phase := .dead, log := s.log ++ [.died] }
    else { s with locks := upd s.locks d none, phase := .scan todo (kept ++ [d]), log := s.log ++ [.cleaned d] }
  | .dead => s

/-- A step of a thread of the program; `add_dict` and `start` are /repo/satella/coding/structures/dictionaries/expiring.py:33-38 and
/repo/satella/coding/structures/dictionaries/expiring.py:55-58 (one step, since nothing in it waits once the monitor is taken). -/
def userStep (s : State) (t : Nat) : State :=
  match s.prog t with
  | [] => s
  | .acq d :: p => if s.locks d = none then { s with locks := upd s.locks d (some (.user t)), prog := upd s.prog t p } else s
  | .rel d :: p => { s with locks := upd s.locks d none, prog := upd s.prog t p }
  | .reg d :: p => if s.top = none then { s with entries := s.entries ++ [d], started := true, prog := upd s.prog t p, log := s.log ++ [.registered d] } else s
  | .work :: p => { s with prog := upd s.prog t p }

/-- One step; the maintaining thread takes steps once it was started, /repo/satella/coding/structures/dictionaries/expiring.py:33-43;
a dictionary is collected only if nobody uses it, `weakref.ref`, /repo/satella/coding/structures/dictionaries/expiring.py:49-57. -/
def step (s : State) : Act → State
  | .user t => userStep s t
  | .maint r => if s.started then maintStep s r else s
  | .collect d => if s.locks d = none ∧ s.phase.refersTo d = false then { s with gone := d :: s.gone } else s

/-- Steps one after another (of `ExpiringEntryDictThread`, /repo/satella/coding/structures/dictionaries/expiring.py:20-58). -/
def steps (s : State) (l : List Act) : State := l.foldl step s

/-- The beginning, /repo/satella/coding/structures/dictionaries/expiring.py:27-31 -/
def init (prog : Nat → List Instr) : State := ⟨[], false, [], none, fun _ => none, .asleep, prog, []⟩

/-! ## Passes -/

/-- What a pass that began after `pre` did right: it cleaned each dictionary that had been registered, and was not
garbage collected; and no other, and none more often than it was registered. -/
def RightPass (gone : List Nat) (pre mid : List Ev) : Prop :=
  (∀ d, .registered d ∈ pre → d ∈ gone ∨ .cleaned d ∈ mid) ∧
  (∀ d, mid.count (.cleaned d) ≤ pre.count (.registered d))

/-- The invariant of passes. -/
structure Inv (s : State) : Prop where
  known : ∀ d, .registered d ∈ s.log → d ∈ s.entries ∨ d ∈ s.gone
  once : ∀ d, s.entries.count d ≤ s.log.count (.registered d)
  top : s.phase = .asleep ∨ s.phase = .dead ∨ s.top ≠ none
  now : ∀ todo kept, (s.phase = .scan todo kept ∨ (∃ d todo', todo = d :: todo' ∧ (s.phase = .wanting d todo' kept ∨ s.phase = .cleaning d todo' kept))) →
    ∃ pre, s.log = pre ++ .began s.entries :: kept.map .cleaned ∧ (∀ d ∈ s.entries, d ∈ kept ∨ d ∈ todo ∨ d ∈ s.gone) ∧ (∀ d, kept.count d + todo.count d ≤ s.entries.count d)
  past : ∀ pre es mid post, s.log = pre ++ .began es :: (mid ++ .ended :: post) → (∀ es', .began es' ∉ mid) → RightPass s.gone pre mid

theorem snoc_eq {l p q : List Ev} {e f : Ev} (h : l ++ [e] = p ++ f :: q) : (q = [] ∧ l = p ∧ e = f) ∨ ∃ q', q = q' ++ [e] ∧ l = p ++ f :: q' := by
  rcases List.eq_nil_or_concat q with rfl | ⟨q', e', hq⟩
  · have : l ++ [e] = p ++ [f] := h
    obtain ⟨h1, h2⟩ := List.append_inj' this rfl
    simp at h2
    exact Or.inl ⟨rfl, h1, h2⟩
  · subst hq
    have : l ++ [e] = (p ++ f :: q') ++ [e'] := by rw [h]; simp
    obtain ⟨h1, h2⟩ := List.append_inj' this rfl
    simp at h2
    exact Or.inr ⟨q', by rw [h2]; simp, h1⟩

/-- The last beginning of a pass is found in one way. -/
theorem last_began {p p' m m' : List Ev} {es es' : List Nat} (h : p ++ .began es :: m = p' ++ .began es' :: m') (hm : ∀ e, .began e ∉ m) (hm' : ∀ e, .began e ∉ m') :
    p = p' ∧ es = es' ∧ m = m' := by
  induction p generalizing p' with
  | nil =>
    cases p' with
    | nil => simp at h; exact ⟨rfl, h⟩
    | cons a p' =>
      simp at h
      exact absurd (by rw [h.2]; simp) (hm es')
  | cons a p ih =>
    cases p' with
    | nil =>
      simp at h
      exact absurd (by rw [← h.2]; simp) (hm' es)
    | cons b p' =>
      simp at h
      obtain ⟨h1, h2⟩ := h
      obtain ⟨rfl, h3⟩ := ih h2
      exact ⟨by rw [h1], h3⟩

theorem RightPass.mono {gone gone' : List Nat} {pre mid} (h : RightPass gone pre mid) (hg : ∀ d ∈ gone, d ∈ gone') : RightPass gone' pre mid :=
  ⟨fun d hd => (h.1 d hd).imp (hg d) id, h.2⟩

/-- Adding an event that does not end a pass. -/
theorem past_snoc {log : List Ev} {gone : List Nat} {e : Ev} (he : e ≠ .ended)
    (h : ∀ pre es mid post, log = pre ++ .began es :: (mid ++ .ended :: post) → (∀ es', .began es' ∉ mid) → RightPass gone pre mid) :
    ∀ pre es mid post, log ++ [e] = pre ++ .began es :: (mid ++ .ended :: post) → (∀ es', .began es' ∉ mid) → RightPass gone pre mid := by
  intro pre es mid post hl hm
  have hl' : log ++ [e] = (pre ++ .began es :: mid) ++ .ended :: post := by rw [hl]; simp
  rcases snoc_eq hl' with ⟨_, _, h3⟩ | ⟨q', _, h2⟩
  · exact absurd h3 he
  · exact h pre es mid q' (by rw [h2]; simp) hm

theorem count_registered_map (kept : List Nat) (d : Nat) : (kept.map Ev.cleaned).count (.registered d) = 0 ∧ (kept.map Ev.cleaned).count (.cleaned d) = kept.count d := by
  induction kept with
  | nil => simp
  | cons a l ih => simp [List.count_cons, ih.1, ih.2]

theorem inv_maint (s : State) (r : Bool) (h : Inv s) : Inv (maintStep s r) := by
  obtain ⟨h1, h2, h3, h4, h5⟩ := h
  unfold maintStep
  split
  · -- asleep
    rename_i hp
    split
    · rename_i ht
      refine ⟨?_, ?_, Or.inr (Or.inr (by simp)), ?_, past_snoc (by simp) h5⟩
      · intro d hd; exact h1 d (by simpa using hd)
      · intro d; simpa using h2 d
      · intro todo kept hph
        rcases hph with hph | ⟨d, todo', _, hph | hph⟩
        · simp only [Phase.scan.injEq] at hph
          obtain ⟨rfl, rfl⟩ := hph
          exact ⟨s.log, by simp, fun d hd => Or.inr (Or.inl hd), fun d => by simp⟩
        · cases hph
        · cases hph
    · exact ⟨h1, h2, h3, h4, h5⟩
  · -- the end
    rename_i kept hp
    obtain ⟨pre, e1, e2, e3⟩ := h4 [] kept (Or.inl hp)
    have hk := count_registered_map kept
    have hknown : ∀ d, .registered d ∈ pre → d ∈ s.gone ∨ d ∈ kept := by
      intro d hd
      rcases h1 d (by rw [e1]; simp [hd]) with h | h
      · rcases e2 d h with h | h | h
        · exact Or.inr h
        · simp at h
        · exact Or.inl h
      · exact Or.inl h
    have hcount : ∀ d, kept.count d ≤ pre.count (.registered d) := by
      intro d
      have h6 := e3 d; have h7 := h2 d
      rw [e1] at h7
      simp only [List.count_append, List.count_cons, (hk d).1] at h7
      simp at h6 h7
      omega
    refine ⟨?_, ?_, Or.inl rfl, ?_, ?_⟩
    · intro d hd
      simp only [List.mem_append, List.mem_singleton, reduceCtorEq, or_false] at hd
      rw [e1] at hd
      simp at hd
      rcases hknown d hd with h | h
      · exact Or.inr h
      · exact Or.inl h
    · intro d
      have := hcount d
      simp only [e1, List.count_append]
      omega
    · intro todo kept' hph
      rcases hph with hph | ⟨d, todo', _, hph | hph⟩ <;> cases hph
    · intro p es mid post hl hm
      have hl' : s.log ++ [.ended] = (p ++ .began es :: mid) ++ .ended :: post := by rw [show s.log ++ [.ended] = _ from hl]; simp
      rcases snoc_eq hl' with ⟨hq, hlog, _⟩ | ⟨q', _, hlog⟩
      · rw [e1] at hlog
        obtain ⟨rfl, rfl, rfl⟩ := last_began hlog (by simp) hm
        refine ⟨fun d hd => (hknown d hd).imp id (fun h => by simp [h]), fun d => ?_⟩
        rw [(hk d).2]; exact hcount d
      · exact h5 p es mid q' (by rw [hlog]; simp) hm
  · -- next
    rename_i d todo kept hp
    split
    · rename_i hg
      refine ⟨h1, h2, ?_, ?_, h5⟩
      · rcases h3 with h | h | h
        · rw [hp] at h; cases h
        · rw [hp] at h; cases h
        · exact Or.inr (Or.inr h)
      · intro todo' kept' hph
        rcases hph with hph | ⟨d, todo', _, hph | hph⟩
        · simp only [Phase.scan.injEq] at hph
          obtain ⟨rfl, rfl⟩ := hph
          obtain ⟨pre, e1, e2, e3⟩ := h4 (d :: todo) kept (Or.inl hp)
          refine ⟨pre, e1, ?_, ?_⟩
          · intro x hx
            rcases e2 x hx with h | h | h
            · exact Or.inl h
            · rcases List.mem_cons.1 h with rfl | h
              · exact Or.inr (Or.inr hg)
              · exact Or.inr (Or.inl h)
            · exact Or.inr (Or.inr h)
          · intro x; have := e3 x; rw [List.count_cons] at this; show kept.count x + todo.count x ≤ s.entries.count x; omega
        · cases hph
        · cases hph
    · refine ⟨h1, h2, ?_, ?_, h5⟩
      · rcases h3 with h | h | h
        · rw [hp] at h; cases h
        · rw [hp] at h; cases h
        · exact Or.inr (Or.inr h)
      · intro todo' kept' hph
        rcases hph with hph | ⟨d', todo'', rfl, hph | hph⟩
        · cases hph
        · simp only [Phase.wanting.injEq] at hph
          obtain ⟨rfl, rfl, rfl⟩ := hph
          exact h4 _ _ (Or.inl hp)
        · cases hph
  · -- wanting
    rename_i d todo kept hp
    split
    · refine ⟨h1, h2, ?_, ?_, h5⟩
      · rcases h3 with h | h | h
        · rw [hp] at h; cases h
        · rw [hp] at h; cases h
        · exact Or.inr (Or.inr h)
      · intro todo' kept' hph
        rcases hph with hph | ⟨d', todo'', rfl, hph | hph⟩
        · cases hph
        · cases hph
        · simp only [Phase.cleaning.injEq] at hph
          obtain ⟨rfl, rfl, rfl⟩ := hph
          exact h4 _ _ (Or.inr ⟨_, _, rfl, Or.inl hp⟩)
    · exact ⟨h1, h2, h3, h4, h5⟩
  · -- cleaning
    rename_i d todo kept hp
    obtain ⟨pre, e1, e2, e3⟩ := h4 (d :: todo) kept (Or.inr ⟨_, _, rfl, Or.inr hp⟩)
    split
    · refine ⟨?_, ?_, Or.inr (Or.inl rfl), ?_, past_snoc (by simp) h5⟩
      · intro d hd; exact h1 d (by simpa using hd)
      · intro d; simpa using h2 d
      · intro todo kept' hph
        rcases hph with hph | ⟨d, todo', _, hph | hph⟩ <;> cases hph
    · refine ⟨?_, ?_, ?_, ?_, past_snoc (by simp) h5⟩
      · intro d hd; exact h1 d (by simpa using hd)
      · intro d; simpa using h2 d
      · rcases h3 with h | h | h
        · rw [hp] at h; cases h
        · rw [hp] at h; cases h
        · exact Or.inr (Or.inr h)
      · intro todo' kept' hph
        rcases hph with hph | ⟨d, todo', _, hph | hph⟩
        · simp only [Phase.scan.injEq] at hph
          obtain ⟨rfl, rfl⟩ := hph
          refine ⟨pre, by simp [e1], ?_, ?_⟩
          · intro x hx
            rcases e2 x hx with h | h | h
            · exact Or.inl (by simp [h])
            · rcases List.mem_cons.1 h with rfl | h
              · exact Or.inl (by simp)
              · exact Or.inr (Or.inl h)
            · exact Or.inr (Or.inr h)
          · intro x
            have := e3 x
            rw [List.count_cons] at this
            show (kept ++ [d]).count x + todo.count x ≤ s.entries.count x
            rw [List.count_append, List.count_singleton]; omega
        · cases hph
        · cases hph
  · exact ⟨h1, h2, h3, h4, h5⟩

theorem inv_user (s : State) (t : Nat) (h : Inv s) : Inv (userStep s t) := by
  obtain ⟨h1, h2, h3, h4, h5⟩ := h
  unfold userStep
  split
  · exact ⟨h1, h2, h3, h4, h5⟩
  · split
    · exact ⟨h1, h2, h3, h4, h5⟩
    · exact ⟨h1, h2, h3, h4, h5⟩
  · exact ⟨h1, h2, h3, h4, h5⟩
  · split
    · rename_i d p hp ht
      refine ⟨?_, ?_, h3, ?_, past_snoc (by simp) h5⟩
      · intro x hx
        simp only [List.mem_append, List.mem_singleton, Ev.registered.injEq] at hx ⊢
        rcases hx with hx | rfl
        · exact (h1 x hx).imp Or.inl id
        · exact Or.inl (Or.inr rfl)
      · intro x
        have := h2 x
        simp only [List.count_append, List.count_singleton]
        by_cases hx : d = x <;> simp [hx] <;> omega
      · intro todo kept hph
        exfalso
        rcases h3 with h | h | h
        · simp only at hph; rw [h] at hph; simp at hph
        · simp only at hph; rw [h] at hph; simp at hph
        · exact h ht
    · exact ⟨h1, h2, h3, h4, h5⟩
  · exact ⟨h1, h2, h3, h4, h5⟩

theorem inv_step (s : State) (a : Act) (h : Inv s) : Inv (step s a) := by
  cases a with
  | user t => exact inv_user s t h
  | maint r =>
    simp only [step]; split
    · exact inv_maint s r h
    · exact h
  | collect d =>
    simp only [step]
    split
    · obtain ⟨h1, h2, h3, h4, h5⟩ := h
      refine ⟨fun x hx => (h1 x hx).imp id (List.mem_cons_of_mem _), h2, h3, ?_, fun pre es mid post hl hm => (h5 pre es mid post hl hm).mono (fun x hx => List.mem_cons_of_mem _ hx)⟩
      intro todo kept hph
      obtain ⟨pre, e1, e2, e3⟩ := h4 todo kept hph
      exact ⟨pre, e1, fun x hx => (e2 x hx).imp id (fun h => h.imp id (List.mem_cons_of_mem _)), e3⟩
    · exact h

theorem inv_steps (l : List Act) : ∀ s, Inv s → Inv (steps s l) := by
  induction l with
  | nil => intro s h; exact h
  | cons a l ih => intro s h; exact ih _ (inv_step s a h)

theorem inv_init (prog) : Inv (init prog) :=
  ⟨by simp [init], by simp [init], Or.inl rfl, by simp [init], fun pre es mid post h => by simp [init] at h⟩

/-- The dictionary that the maintaining thread works on is not garbage collected. -/
theorem alive_step (s : State) (a : Act) (h : ∀ d todo kept, s.phase = .wanting d todo kept ∨ s.phase = .cleaning d todo kept → d ∉ s.gone) :
    ∀ d todo kept, (step s a).phase = .wanting d todo kept ∨ (step s a).phase = .cleaning d todo kept → d ∉ (step s a).gone := by
  cases a with
  | user t =>
    simp only [step]
    unfold userStep
    split
    · exact h
    · split <;> exact h
    · exact h
    · split <;> exact h
    · exact h
  | maint r =>
    simp only [step]
    split
    · unfold maintStep
      split
      · split
        · intro d todo kept hp; simp at hp
        · exact h
      · intro d todo kept hp; simp at hp
      · split
        · intro d todo kept hp; simp at hp
        · rename_i hg
          intro d todo kept hp
          simp at hp
          rw [← hp.1]; exact hg
      · rename_i d todo kept hp
        split
        · intro d' todo' kept' hp'
          simp at hp'
          rw [← hp'.1]; exact h d todo kept (Or.inl hp)
        · exact h
      · split
        · intro d todo kept hp; simp at hp
        · intro d todo kept hp; simp at hp
      · exact h
    · exact h
  | collect c =>
    simp only [step]
    split
    · rename_i hc
      intro d todo kept hp hm
      rcases List.mem_cons.1 hm with e | hm
      · subst e
        have := hc.2
        rcases hp with hp | hp <;> simp only at hp <;> rw [hp] at this <;> simp [Phase.refersTo] at this
      · exact h d todo kept hp hm
    · exact h

/-- **C216, only living dictionaries.** At each moment of every run, the dictionary that the maintaining thread waits for or
cleans was not garbage collected. -/
theorem C216_alive (prog : Nat → List Instr) (l : List Act) (d : Nat) (todo kept : List Nat)
    (h : (steps (init prog) l).phase = .wanting d todo kept ∨ (steps (init prog) l).phase = .cleaning d todo kept) : d ∉ (steps (init prog) l).gone := by
  have key : ∀ (l : List Act) (s : State), (∀ d todo kept, s.phase = .wanting d todo kept ∨ s.phase = .cleaning d todo kept → d ∉ s.gone) →
      ∀ d todo kept, (steps s l).phase = .wanting d todo kept ∨ (steps s l).phase = .cleaning d todo kept → d ∉ (steps s l).gone := by
    intro l
    induction l with
    | nil => exact fun _ h => h
    | cons a l ih => exact fun s h => ih (step s a) (alive_step s a h)
  exact key l (init prog) (by intro d todo kept hp; simp [init] at hp) d todo kept h

example : let s := steps (init (fun _ => [.reg 7])) [.user 0, .user 1, .maint false, .maint false, .collect 7]
    s.phase = .wanting 7 [7] [] ∧ s.gone = [] := by decide

/-- **C216 (every pass cleans every dictionary)** Whatever the threads of the program do, whichever dictionaries raise or are garbage collected, and under any schedule: a pass
of the maintaining thread that ended has cleaned each dictionary that had been registered when it began and has not been garbage collected; it has cleaned no other, and none
more often than it was registered. -/
theorem C216_passes (prog : Nat → List Instr) (l : List Act) (pre mid post : List Ev) (es : List Nat)
    (h : (steps (init prog) l).log = pre ++ .began es :: (mid ++ .ended :: post)) (hm : ∀ es', .began es' ∉ mid) :
    (∀ d, .registered d ∈ pre → d ∈ (steps (init prog) l).gone ∨ .cleaned d ∈ mid) ∧ (∀ d, mid.count (.cleaned d) ≤ pre.count (.registered d)) :=
  (inv_steps l _ (inv_init prog)).past pre es mid post h hm

/-- The hypotheses are met: two dictionaries are registered, one is collected, a pass is made, and a third is registered while it lasts. -/
example : let s := steps (init (fun t => if t = 0 then [.reg 7, .reg 8] else if t = 1 then [.reg 9] else [])) [.user 0, .user 0, .collect 7, .maint false, .maint false, .maint false, .user 1, .maint false, .maint false, .maint false, .user 1]
    s.log = [.registered 7, .registered 8] ++ .began [7, 8] :: ([.cleaned 8] ++ .ended :: [.registered 9]) ∧ s.gone = [7] ∧ s.entries = [8, 9] := by decide

/-! ## Deadlocks -/

/-- A program that does nothing with dictionaries while it is inside the monitor of one: neither enters a monitor again, nor makes a dictionary. -/
inductive Flat : List Instr → Prop
  | nil : Flat []
  | reg {d p} : Flat p → Flat (.reg d :: p)
  | work {p} : Flat p → Flat (.work :: p)
  | locked {d n p} : Flat p → Flat (.acq d :: (List.replicate n .work ++ .rel d :: p))

/-- The rest of such a program, inside the monitor of `d`. -/
def Inside (d : Nat) (p : List Instr) : Prop := ∃ n q, p = List.replicate n .work ++ .rel d :: q ∧ Flat q

/-- The invariant of monitors. -/
structure Held (s : State) : Prop where
  user : ∀ t, (Flat (s.prog t) ∧ ∀ d, s.locks d ≠ some (.user t)) ∨ ∃ d, Inside d (s.prog t) ∧ ∀ e, s.locks e = some (.user t) ↔ e = d
  maint : ∀ d, s.locks d = some .maint ↔ ∃ todo kept, s.phase = .cleaning d todo kept
  top : s.top = none ↔ s.phase = .asleep ∨ s.phase = .dead
  topm : s.top = none ∨ s.top = some .maint

theorem held_init (prog) (h : ∀ t, Flat (prog t)) : Held (init prog) :=
  ⟨fun t => Or.inl ⟨h t, by simp [init]⟩, by simp [init], by simp [init], Or.inl rfl⟩

theorem held_maint (s : State) (r : Bool) (h : Held s) : Held (maintStep s r) := by
  obtain ⟨h1, h2, h3, h4⟩ := h
  unfold maintStep
  split
  · rename_i hp
    split
    · refine ⟨h1, ?_, by simp, Or.inr rfl⟩
      intro d
      rw [h2]; simp [hp]
    · exact ⟨h1, h2, h3, h4⟩
  · rename_i hp
    refine ⟨h1, ?_, by simp, Or.inl rfl⟩
    intro d; rw [h2]; simp [hp]
  · rename_i hp
    have ht : s.top ≠ none := fun h => by rw [h3, hp] at h; simp at h
    split
    · exact ⟨h1, fun d => by rw [h2]; simp [hp], by simp [ht], h4⟩
    · exact ⟨h1, fun d => by rw [h2]; simp [hp], by simp [ht], h4⟩
  · rename_i d todo kept hp
    have ht : s.top ≠ none := fun h => by rw [h3, hp] at h; simp at h
    split
    · rename_i hl
      refine ⟨?_, ?_, by simp [ht], h4⟩
      · intro t
        rcases h1 t with ⟨h, h'⟩ | ⟨d', h, h'⟩
        · refine Or.inl ⟨h, fun e => ?_⟩
          simp only [upd]; split
          · simp
          · exact h' e
        · refine Or.inr ⟨d', h, fun e => ?_⟩
          simp only [upd]; split
          · rename_i he
            simp only [Option.some.injEq, reduceCtorEq, false_iff]
            rintro rfl
            have := (h' e).2 rfl
            rw [he, hl] at this; cases this
          · exact h' e
      · intro e
        simp only [upd]
        by_cases he : e = d
        · subst he; simp
        · rw [if_neg he, h2]
          simp [hp, Ne.symm he]
    · exact ⟨h1, h2, h3, h4⟩
  · rename_i d todo kept hp
    have ht : s.top ≠ none := fun h => by rw [h3, hp] at h; simp at h
    have hld : s.locks d = some .maint := (h2 d).2 ⟨todo, kept, hp⟩
    have hu : ∀ t, (Flat (s.prog t) ∧ ∀ e, upd s.locks d none e ≠ some (.user t)) ∨ ∃ d', Inside d' (s.prog t) ∧ ∀ e, upd s.locks d none e = some (.user t) ↔ e = d' := by
      intro t
      rcases h1 t with ⟨h, h'⟩ | ⟨d', h, h'⟩
      · refine Or.inl ⟨h, fun e => ?_⟩
        simp only [upd]; split
        · simp
        · exact h' e
      · refine Or.inr ⟨d', h, fun e => ?_⟩
        simp only [upd]; split
        · rename_i he
          simp only [reduceCtorEq, false_iff]
          rintro rfl
          have := (h' e).2 rfl
          rw [he, hld] at this; cases this
        · exact h' e
    have hm : ∀ e, upd s.locks d none e ≠ some .maint := by
      intro e
      simp only [upd]; split
      · simp
      · rename_i he
        intro h
        obtain ⟨_, _, h⟩ := (h2 e).1 h
        rw [hp] at h
        exact he (by cases h; rfl)
    split
    · exact ⟨hu, fun e => by simp [hm e], by simp, Or.inl rfl⟩
    · exact ⟨hu, fun e => by simp [hm e], by simp [ht], h4⟩
  · exact ⟨h1, h2, h3, h4⟩

theorem held_user (s : State) (t : Nat) (h : Held s) : Held (userStep s t) := by
  obtain ⟨h1, h2, h3, h4⟩ := h
  unfold userStep
  split
  · exact ⟨h1, h2, h3, h4⟩
  · rename_i d p hp
    split
    · rename_i hl
      refine ⟨fun u => ?_, fun e => ?_, h3, h4⟩
      · by_cases hu : u = t
        · subst hu
          have hf : Flat (s.prog u) ∧ ∀ e, s.locks e ≠ some (.user u) := by
            rcases h1 u with h | ⟨d', ⟨n, q, h, _⟩, _⟩
            · exact h
            · rw [hp] at h; cases n <;> simp [List.replicate_succ] at h
          obtain ⟨hf, hn⟩ := hf
          rw [hp] at hf
          generalize hx : Instr.acq d :: p = x at hf
          cases hf with
          | nil => cases hx
          | reg _ => cases hx
          | work _ => cases hx
          | @locked d' n q hq =>
            cases hx
            refine Or.inr ⟨d, ⟨n, q, by simp [upd], hq⟩, fun e => ?_⟩
            simp only [upd]
            by_cases he : e = d
            · simp [he]
            · simp only [if_neg he, he, iff_false]; exact hn e
        · simp only [upd, if_neg hu]
          rcases h1 u with ⟨h, h'⟩ | ⟨d', h, h'⟩
          · refine Or.inl ⟨h, fun e => ?_⟩
            split
            · simpa using Ne.symm hu
            · exact h' e
          · refine Or.inr ⟨d', h, fun e => ?_⟩
            split
            · rename_i he
              simp only [Option.some.injEq, Who.user.injEq, Ne.symm hu, false_iff]
              rintro rfl
              have := (h' e).2 rfl
              rw [he, hl] at this; cases this
            · exact h' e
      · simp only [upd]
        split
        · rename_i he
          have := h2 e
          rw [he, hl] at this
          simp only [reduceCtorEq, false_iff] at this
          simp only [Option.some.injEq, reduceCtorEq, false_iff]
          rw [he]; exact this
        · exact h2 e
    · exact ⟨h1, h2, h3, h4⟩
  · rename_i d p hp
    have hi : Flat p ∧ ∀ e, s.locks e = some (.user t) ↔ e = d := by
      rcases h1 t with ⟨h, _⟩ | ⟨d', ⟨n, q, h, hq⟩, h'⟩
      · rw [hp] at h; cases h
      · rw [hp] at h
        cases n with
        | zero => simp at h; obtain ⟨rfl, rfl⟩ := h; exact ⟨hq, h'⟩
        | succ n => simp [List.replicate_succ] at h
    have hld : s.locks d = some (.user t) := (hi.2 d).2 rfl
    refine ⟨fun u => ?_, fun e => ?_, h3, h4⟩
    · by_cases hu : u = t
      · subst hu
        refine Or.inl ⟨by simpa [upd] using hi.1, fun e => ?_⟩
        simp only [upd]; split
        · simp
        · rename_i he; exact fun h => he ((hi.2 e).1 h)
      · simp only [upd, if_neg hu]
        rcases h1 u with ⟨h, h'⟩ | ⟨d', h, h'⟩
        · refine Or.inl ⟨h, fun e => ?_⟩
          split
          · simp
          · exact h' e
        · refine Or.inr ⟨d', h, fun e => ?_⟩
          split
          · rename_i he
            simp only [reduceCtorEq, false_iff]
            rintro rfl
            have := (h' e).2 rfl
            rw [he, hld] at this
            simp at this
            exact hu this.symm
          · exact h' e
    · simp only [upd]
      split
      · rename_i he
        have := h2 e
        rw [he, hld] at this
        simp only [Option.some.injEq, reduceCtorEq, false_iff] at this ⊢
        rw [he]; exact this
      · exact h2 e
  · rename_i d p hp
    split
    · refine ⟨fun u => ?_, h2, h3, h4⟩
      by_cases hu : u = t
      · subst hu
        rcases h1 u with ⟨h, h'⟩ | ⟨d', ⟨n, q, h, hq⟩, h'⟩
        · rw [hp] at h
          cases h with
          | reg h => exact Or.inl ⟨by simpa [upd] using h, h'⟩
        · rw [hp] at h; cases n <;> simp [List.replicate_succ] at h
      · simp only [upd, if_neg hu]; exact h1 u
    · exact ⟨h1, h2, h3, h4⟩
  · rename_i p hp
    refine ⟨fun u => ?_, h2, h3, h4⟩
    by_cases hu : u = t
    · subst hu
      rcases h1 u with ⟨h, h'⟩ | ⟨d', ⟨n, q, h, hq⟩, h'⟩
      · rw [hp] at h
        cases h with
        | work h => exact Or.inl ⟨by simpa [upd] using h, h'⟩
      · rw [hp] at h
        cases n with
        | zero => simp at h
        | succ n =>
          simp [List.replicate_succ] at h
          exact Or.inr ⟨d', ⟨n, q, by simpa [upd] using h, hq⟩, h'⟩
    · simp only [upd, if_neg hu]; exact h1 u

theorem held_step (s : State) (a : Act) (h : Held s) : Held (step s a) := by
  cases a with
  | user t => exact held_user s t h
  | maint r =>
    simp only [step]; split
    · exact held_maint s r h
    · exact h
  | collect d =>
    simp only [step]; split
    · exact ⟨h.user, h.maint, h.top, h.topm⟩
    · exact h

theorem held_steps (l : List Act) : ∀ s, Held s → Held (steps s l) := by
  induction l with
  | nil => intro s h; exact h
  | cons a l ih => intro s h; exact ih _ (held_step s a h)

theorem steps_append (s : State) (l l' : List Act) : steps s (l ++ l') = steps (steps s l) l' := by simp [steps]

/-- The thread inside a monitor gets out of it. -/
theorem release (t d : Nat) (n : Nat) : ∀ (s : State) (q : List Instr), s.prog t = List.replicate n .work ++ .rel d :: q →
    steps s (List.replicate (n + 1) (.user t)) = { s with locks := upd s.locks d none, prog := upd s.prog t q } := by
  induction n with
  | zero =>
    intro s q h
    simp only [List.replicate, List.nil_append] at h
    simp [steps, step, userStep, h, List.replicate]
  | succ n ih =>
    intro s q h
    have h' : s.prog t = .work :: (List.replicate n .work ++ .rel d :: q) := by rw [h]; simp [List.replicate_succ]
    have h1 : step s (.user t) = { s with prog := upd s.prog t (List.replicate n .work ++ .rel d :: q) } := by simp [step, userStep, h']
    rw [show List.replicate (n + 1 + 1) (Act.user t) = .user t :: List.replicate (n + 1) (.user t) from rfl]
    show steps (step s (.user t)) _ = _
    rw [h1, ih _ q (by simp [upd])]
    congr 1
    funext m
    simp only [upd]
    split <;> simp_all

/-- What is left to do for each thread is the same, or less. -/
def Less (s s' : State) : Prop := ∀ t, s'.prog t = s.prog t ∨ (s'.prog t).length < (s.prog t).length

theorem Less.refl (s : State) : Less s s := fun _ => Or.inl rfl

theorem Less.trans {a b c : State} (h : Less a b) (h' : Less b c) : Less a c := by
  intro t
  rcases h t with h1 | h1 <;> rcases h' t with h2 | h2
  · exact Or.inl (h2.trans h1)
  · exact Or.inr (by rw [← h1]; exact h2)
  · exact Or.inr (by rw [h2]; exact h1)
  · exact Or.inr (by omega)

/-- A monitor held by a thread of the program gets free; nothing changes for the maintaining thread. -/
theorem free_user (s : State) (h : Held s) (t d : Nat) (hl : s.locks d = some (.user t)) :
    ∃ l s', steps s l = s' ∧ s'.locks d = none ∧ s'.phase = s.phase ∧ s'.top = s.top ∧ s'.started = s.started ∧ s'.log = s.log ∧ Less s s' := by
  rcases h.user t with ⟨_, hn⟩ | ⟨d', ⟨n, q, hp, _⟩, hi⟩
  · exact absurd hl (hn d)
  · have : d = d' := (hi d).1 hl
    subst this
    refine ⟨_, _, release t d n s q hp, by simp [upd], rfl, rfl, rfl, rfl, fun u => ?_⟩
    by_cases hu : u = t
    · subst hu; exact Or.inr (by simp [upd, hp]; omega)
    · exact Or.inl (by simp [upd, hu])

theorem maint_eq (s : State) (hs : s.started = true) (r : Bool) : steps s [.maint r] = maintStep s r := by simp [steps, step, hs]

/-- A pass that began is brought to its end. -/
theorem finish_pass (todo : List Nat) : ∀ (s : State) (kept : List Nat), Held s → s.started = true → s.phase = .scan todo kept →
    ∃ l s', steps s l = s' ∧ s'.phase = .asleep ∧ s'.started = true ∧ s'.log.count .ended = s.log.count .ended + 1 ∧ Less s s' := by
  induction todo with
  | nil =>
    intro s kept h hs hp
    refine ⟨[.maint false], _, rfl, ?_⟩
    rw [maint_eq s hs]
    simp only [maintStep, hp]
    exact ⟨trivial, hs, by simp [List.count_append], fun u => Or.inl rfl⟩
  | cons d todo ih =>
    intro s kept h hs hp
    by_cases hg : d ∈ s.gone
    · have h1 : steps s [.maint false] = { s with phase := .scan todo kept } := by
        rw [maint_eq s hs]; simp [maintStep, hp, hg]
      have hh := held_steps [.maint false] s h
      rw [h1] at hh
      obtain ⟨l, s', e1, e2, e3, e4, e5⟩ := ih _ kept hh hs rfl
      exact ⟨[.maint false] ++ l, s', by rw [steps_append, h1]; exact e1, e2, e3, e4, e5⟩
    · have h1 : steps s [.maint false] = { s with phase := .wanting d todo kept } := by
        rw [maint_eq s hs]; simp [maintStep, hp, hg]
      have hh := held_steps [.maint false] s h
      rw [h1] at hh
      -- the monitor gets free
      obtain ⟨l1, s1, e1, e2, e3, e4, e5, e6, e7⟩ : ∃ l s', steps ({ s with phase := .wanting d todo kept } : State) l = s' ∧ s'.locks d = none ∧ s'.phase = .wanting d todo kept ∧ s'.top = s.top ∧ s'.started = s.started ∧ s'.log = s.log ∧ Less s s' := by
        cases hl : s.locks d with
        | none => exact ⟨[], _, rfl, hl, rfl, rfl, rfl, rfl, fun u => Or.inl rfl⟩
        | some w =>
          cases w with
          | maint =>
            obtain ⟨_, _, h⟩ := (h.maint d).1 hl
            rw [hp] at h; cases h
          | user t =>
            obtain ⟨l, s', f1, f2, f3, f4, f5, f6, f7⟩ := free_user _ hh t d hl
            exact ⟨l, s', f1, f2, f3, f4, f5, f6, f7⟩
      have hh1 := held_steps l1 _ hh
      rw [e1] at hh1
      have h2 : steps s1 [.maint false] = { s1 with locks := upd s1.locks d (some .maint), phase := .cleaning d todo kept } := by
        rw [maint_eq s1 (by rw [e5]; exact hs)]; simp [maintStep, e3, e2]
      have hh2 := held_steps [.maint false] s1 hh1
      rw [h2] at hh2
      have h3 : steps ({ s1 with locks := upd s1.locks d (some .maint), phase := .cleaning d todo kept } : State) [.maint false] =
          { s1 with locks := upd (upd s1.locks d (some .maint)) d none, phase := .scan todo (kept ++ [d]), log := s1.log ++ [.cleaned d] } := by
        rw [maint_eq _ (by simp [e5, hs])]; simp [maintStep]
      have hh3 := held_steps [.maint false] _ hh2
      rw [h3] at hh3
      obtain ⟨l, s', f1, f2, f3, f4, f5⟩ := ih _ (kept ++ [d]) hh3 (by simp [e5, hs]) rfl
      refine ⟨[.maint false] ++ (l1 ++ ([.maint false] ++ ([.maint false] ++ l))), s', ?_, f2, f3, ?_, e7.trans f5⟩
      · rw [steps_append, h1, steps_append, e1, steps_append, h2, steps_append, h3, f1]
      · rw [f4]; simp [List.count_append, e6]

/-- The maintaining thread is brought to sleep. -/
theorem to_sleep (s : State) (h : Held s) (hs : s.started = true) (hd : s.phase ≠ .dead) :
    ∃ l s', steps s l = s' ∧ s'.phase = .asleep ∧ s'.started = true ∧ s.log.count .ended ≤ s'.log.count .ended ∧ Less s s' := by
  cases hp : s.phase with
  | asleep => exact ⟨[], s, rfl, hp, hs, Nat.le_refl _, .refl s⟩
  | dead => exact absurd hp hd
  | scan todo kept =>
    obtain ⟨l, s', e1, e2, e3, e4, e5⟩ := finish_pass todo s kept h hs hp
    exact ⟨l, s', e1, e2, e3, by omega, e5⟩
  | cleaning d todo kept =>
    have h3 : steps s [.maint false] = { s with locks := upd s.locks d none, phase := .scan todo (kept ++ [d]), log := s.log ++ [.cleaned d] } := by
      rw [maint_eq _ hs]; simp [maintStep, hp]
    have hh := held_steps [.maint false] s h
    rw [h3] at hh
    obtain ⟨l, s', e1, e2, e3, e4, e5⟩ := finish_pass todo _ _ hh hs rfl
    refine ⟨[.maint false] ++ l, s', by rw [steps_append, h3]; exact e1, e2, e3, ?_, e5⟩
    simp [List.count_append] at e4; omega
  | wanting d todo kept =>
    obtain ⟨l1, s1, e1, e2, e3, e4, e5, e6, e7⟩ : ∃ l s', steps s l = s' ∧ s'.locks d = none ∧ s'.phase = .wanting d todo kept ∧ s'.top = s.top ∧ s'.started = s.started ∧ s'.log = s.log ∧ Less s s' := by
      cases hl : s.locks d with
      | none => exact ⟨[], _, rfl, hl, hp, rfl, rfl, rfl, fun u => Or.inl rfl⟩
      | some w =>
        cases w with
        | maint =>
          obtain ⟨_, _, h⟩ := (h.maint d).1 hl
          rw [hp] at h; cases h
        | user t =>
          obtain ⟨l, s', f1, f2, f3, f4, f5, f6, f7⟩ := free_user _ h t d hl
          exact ⟨l, s', f1, f2, f3.trans hp, f4, f5, f6, f7⟩
    have hh1 := held_steps l1 _ h
    rw [e1] at hh1
    have h2 : steps s1 [.maint false] = { s1 with locks := upd s1.locks d (some .maint), phase := .cleaning d todo kept } := by
      rw [maint_eq s1 (by rw [e5]; exact hs)]; simp [maintStep, e3, e2]
    have hh2 := held_steps [.maint false] s1 hh1
    rw [h2] at hh2
    have h3 : steps ({ s1 with locks := upd s1.locks d (some .maint), phase := .cleaning d todo kept } : State) [.maint false] =
        { s1 with locks := upd (upd s1.locks d (some .maint)) d none, phase := .scan todo (kept ++ [d]), log := s1.log ++ [.cleaned d] } := by
      rw [maint_eq _ (by simp [e5, hs])]; simp [maintStep]
    have hh3 := held_steps [.maint false] _ hh2
    rw [h3] at hh3
    obtain ⟨l, s', f1, f2, f3, f4, f5⟩ := finish_pass todo _ (kept ++ [d]) hh3 (by simp [e5, hs]) rfl
    refine ⟨l1 ++ ([.maint false] ++ ([.maint false] ++ l)), s', ?_, f2, f3, ?_, e7.trans f5⟩
    · rw [steps_append, e1, steps_append, h2, steps_append, h3, f1]
    · simp [List.count_append, e6] at f4; omega

/-- A pass begins only once the thread was started. -/
theorem started_steps (l : List Act) : ∀ s : State, (s.phase = .asleep ∨ s.started = true) → ((steps s l).phase = .asleep ∨ (steps s l).started = true) := by
  induction l with
  | nil => intro s h; exact h
  | cons a l ih =>
    intro s h
    refine ih _ ?_
    cases a with
    | user t =>
      simp only [step, userStep]
      split
      · exact h
      · split <;> exact h
      · exact h
      · split
        · exact Or.inr rfl
        · exact h
      · exact h
    | maint r =>
      simp only [step]
      split
      · rename_i hs
        refine Or.inr ?_
        unfold maintStep
        split <;> (try split) <;> exact hs
      · exact h
    | collect d => simp only [step]; split <;> exact h

theorem user_finishes (t : Nat) (n : Nat) : ∀ s : State, Held s → (s.phase = .asleep ∨ s.started = true) → (s.prog t).length ≤ n → ∃ l, (steps s l).prog t = [] := by
  induction n with
  | zero => intro s _ _ hn; exact ⟨[], List.length_eq_zero_iff.1 (Nat.le_zero.1 hn)⟩
  | succ n ih =>
    intro s h hs hn
    -- if what is left gets less, we are done
    have less : ∀ l s', steps s l = s' → (s'.prog t).length < (s.prog t).length → ∃ l, (steps s l).prog t = [] := by
      intro l s' hl hlt
      obtain ⟨l', h'⟩ := ih s' (hl ▸ held_steps l s h) (hl ▸ started_steps l s hs) (by omega)
      exact ⟨l ++ l', by rw [steps_append, hl]; exact h'⟩
    cases hp : s.prog t with
    | nil => exact ⟨[], hp⟩
    | cons i p =>
      cases i with
      | work => exact less [.user t] _ rfl (by simp [steps, step, userStep, hp, upd])
      | rel d => exact less [.user t] _ rfl (by simp [steps, step, userStep, hp, upd])
      | reg d =>
        obtain ⟨l, s', e1, e2, e3⟩ : ∃ l s', steps s l = s' ∧ s'.top = none ∧ Less s s' := by
          by_cases ht : s.top = none
          · exact ⟨[], s, rfl, ht, .refl s⟩
          · have hd : s.phase ≠ .dead := fun h' => ht (h.top.2 (Or.inr h'))
            have ha : s.phase ≠ .asleep := fun h' => ht (h.top.2 (Or.inl h'))
            have hst : s.started = true := hs.resolve_left ha
            obtain ⟨l, s', e1, e2, _, _, e5⟩ := to_sleep s h hst hd
            refine ⟨l, s', e1, ?_, e5⟩
            exact (e1 ▸ held_steps l s h).top.2 (Or.inl e2)
        rcases e3 t with e3 | e3
        · refine less (l ++ [.user t]) _ (by rw [steps_append, e1]) ?_
          rw [hp] at e3
          simp [steps, step, userStep, e3, e2, upd, hp]
        · exact less l s' e1 e3
      | acq d =>
        obtain ⟨l, s', e1, e2, e3⟩ : ∃ l s', steps s l = s' ∧ s'.locks d = none ∧ Less s s' := by
          cases hl : s.locks d with
          | none => exact ⟨[], s, rfl, hl, .refl s⟩
          | some w =>
            cases w with
            | user u =>
              obtain ⟨l, s', e1, e2, _, _, _, _, e7⟩ := free_user s h u d hl
              exact ⟨l, s', e1, e2, e7⟩
            | maint =>
              obtain ⟨todo, kept, hph⟩ := (h.maint d).1 hl
              have hst : s.started = true := hs.resolve_left (by rw [hph]; simp)
              refine ⟨[.maint false], _, rfl, ?_, ?_⟩
              · rw [maint_eq s hst]; simp [maintStep, hph, upd]
              · rw [maint_eq s hst]; simp only [maintStep, hph]; exact fun u => Or.inl rfl
        rcases e3 t with e3 | e3
        · refine less (l ++ [.user t]) _ (by rw [steps_append, e1]) ?_
          rw [hp] at e3
          simp [steps, step, userStep, e3, e2, upd, hp]
        · exact less l s' e1 e3

/-- Without an exception the maintaining thread does not end. -/
theorem alive_steps (l : List Act) (hl : .maint true ∉ l) : ∀ s : State, s.phase ≠ .dead → (steps s l).phase ≠ .dead := by
  induction l with
  | nil => intro s h; exact h
  | cons a l ih =>
    intro s h
    refine ih (fun h' => hl (List.mem_cons_of_mem _ h')) _ ?_
    cases a with
    | user t =>
      simp only [step, userStep]
      split
      · exact h
      · split <;> exact h
      · exact h
      · split <;> exact h
      · exact h
    | maint r =>
      have hr : r = false := by cases r with
        | false => rfl
        | true => exact absurd (List.mem_cons_self ..) hl
      subst hr
      simp only [step]
      split
      · unfold maintStep
        split
        · split <;> simp_all
        · simp
        · split <;> simp
        · split <;> simp_all
        · simp
        · exact h
      · exact h
    | collect d => simp only [step]; split <;> exact h

/-- **C217 (no deadlock), the part that holds** If no thread of the program, while inside the monitor of a dictionary, enters a monitor again or makes a dictionary that is
maintained: after any history, under any schedule, each thread can still finish what it does; and as long as no cleaning has raised, the maintaining thread can still make another whole pass once it
was started. -/
theorem C217_no_deadlock_partial (prog : Nat → List Instr) (hf : ∀ t, Flat (prog t)) (l : List Act) :
    (∀ t, ∃ l', (steps (init prog) (l ++ l')).prog t = []) ∧
    (.maint true ∉ l → (steps (init prog) l).started = true →
      ∃ l', (steps (init prog) l).log.count .ended < (steps (init prog) (l ++ l')).log.count .ended) := by
  have h := held_steps l _ (held_init prog hf)
  have hs := started_steps l (init prog) (Or.inl rfl)
  constructor
  · intro t
    obtain ⟨l', h'⟩ := user_finishes t _ _ h hs (Nat.le_refl _)
    exact ⟨l', by rw [steps_append]; exact h'⟩
  · intro hl hst
    obtain ⟨l1, s1, e1, e2, e3, e4, _⟩ := to_sleep _ h hst (alive_steps l hl _ (by simp [init]))
    have hh := e1 ▸ held_steps l1 _ h
    have ht := hh.top.2 (Or.inl e2)
    have h1 : steps s1 [.maint false] = { s1 with top := some .maint, phase := .scan s1.entries [], log := s1.log ++ [.began s1.entries] } := by
      rw [maint_eq s1 e3]; simp [maintStep, e2, ht]
    have hh1 := held_steps [.maint false] s1 hh
    rw [h1] at hh1
    obtain ⟨l2, s2, f1, _, _, f4, _⟩ := finish_pass _ _ _ hh1 e3 rfl
    refine ⟨l1 ++ ([.maint false] ++ l2), ?_⟩
    rw [steps_append, steps_append, e1, steps_append, h1, f1, f4]
    simp [List.count_append]; omega

/-- The hypothesis is met by a program that makes dictionaries and uses them. -/
example : Flat [.reg 0, .acq 0, .work, .work, .rel 0, .reg 1, .acq 1, .rel 1] :=
  .reg (.locked (n := 2) (.reg (.locked (n := 0) .nil)))

/-! ## Violations -/

/-- **C217 (iterating as is advised), the violation** A thread that acquires a dictionary and then iterates over it, as the documentation
advises, never gets further, under any schedule: iterating enters the monitor again. -/
theorem C217_iterating_violates (d : Nat) (rest : List Instr) (l : List Act) :
    (steps (init (fun t => if t = 0 then .acq d :: .acq d :: rest else [])) l).prog 0 ≠ [] := by
  suffices h : ∀ s : State, ((s.prog 0 = .acq d :: .acq d :: rest) ∨ (s.prog 0 = .acq d :: rest ∧ s.locks d = some (.user 0))) →
      (∀ t, t ≠ 0 → s.prog t = []) → (s.phase = .asleep ∨ ∃ todo kept, s.phase = .scan todo kept) ∧ s.entries = [] ∧ s.started = false →
      (steps s l).prog 0 ≠ [] from
    h _ (Or.inl (by simp [init])) (fun t ht => by simp [init, ht]) ⟨Or.inl rfl, rfl, rfl⟩
  induction l with
  | nil =>
    rintro s (h | ⟨h, _⟩) _ _ <;> simp [steps, h]
  | cons a l ih =>
    intro s h hn hm
    refine ih _ ?_ ?_ ?_
    · cases a with
      | user t =>
        by_cases ht : t = 0
        · subst ht
          simp only [step, userStep]
          rcases h with h | ⟨h, hl⟩
          · simp only [h]
            split
            · exact Or.inr ⟨by simp [upd], by simp [upd]⟩
            · exact Or.inl h
          · simp only [h, hl]
            exact Or.inr ⟨h, hl⟩
        · simp only [step, userStep, hn t ht]; exact h
      | maint r => simp only [step, hm.2.2]; exact h
      | collect e => simp only [step]; split <;> exact h
    · intro t ht
      cases a with
      | user u =>
        by_cases hu : u = 0
        · subst hu
          simp only [step, userStep]
          rcases h with h | ⟨h, hl⟩
          · simp only [h]
            split
            · simp [upd, ht, hn t ht]
            · exact hn t ht
          · simp only [h, hl]; exact hn t ht
        · simp only [step, userStep, hn u hu]; exact hn t ht
      | maint r => simp only [step, hm.2.2]; exact hn t ht
      | collect e => simp only [step]; split <;> exact hn t ht
    · cases a with
      | user u =>
        by_cases hu : u = 0
        · subst hu
          simp only [step, userStep]
          rcases h with h | ⟨h, hl⟩
          · simp only [h]; split <;> exact hm
          · simp only [h, hl]; exact hm
        · simp only [step, userStep, hn u hu]; exact hm
      | maint r => simp only [step, hm.2.2]; exact hm
      | collect e => simp only [step]; split <;> exact hm

/-- **C217 (making a dictionary inside the monitor of another), the violation** The thread inside the monitor waits for that of the maintaining thread,
which holds it and waits for the dictionary: neither gets any further, whatever happens. -/
theorem C217_making_violates : ∃ (prog : Nat → List Instr) (l : List Act), .maint true ∉ l ∧
    ∀ l', (steps (init prog) (l ++ l')).prog 0 ≠ [] ∧ (steps (init prog) (l ++ l')).log.count .ended = 0 := by
  refine ⟨fun t => if t = 0 then [.reg 0, .acq 0, .reg 1, .rel 0] else [], [.user 0, .user 0, .maint false, .maint false], by decide, ?_⟩
  intro l'
  rw [steps_append]
  suffices h : ∀ s : State, s.prog 0 = [.reg 1, .rel 0] → s.top ≠ none → s.phase = .wanting 0 [] [] → s.locks 0 = some (.user 0) → (∀ t, t ≠ 0 → s.prog t = []) → s.log.count .ended = 0 →
      (steps s l').prog 0 ≠ [] ∧ (steps s l').log.count .ended = 0 by
    refine h _ (by decide) (by decide) (by decide) (by decide) ?_ (by decide)
    intro t ht
    simp [steps, step, init, userStep, maintStep, upd, ht]
  induction l' with
  | nil => intro s h1 _ _ _ _ h6; exact ⟨by simp [steps, h1], h6⟩
  | cons a l ih =>
    intro s h1 h2 h3 h4 h5 h6
    have hs : ∀ t, userStep s t = s := by
      intro t
      by_cases ht : t = 0
      · subst ht; simp [userStep, h1, h2]
      · simp [userStep, h5 t ht]
    cases a with
    | user t => show (steps (userStep s t) l).prog 0 ≠ [] ∧ _; rw [show steps s (.user t :: l) = steps (userStep s t) l from rfl, hs t]; exact ih s h1 h2 h3 h4 h5 h6
    | maint r =>
      have : step s (.maint r) = s := by
        simp only [step, maintStep, h3, h4]; split <;> rfl
      rw [show steps s (.maint r :: l) = steps (step s (.maint r)) l from rfl, this]
      exact ih s h1 h2 h3 h4 h5 h6
    | collect d =>
      rw [show steps s (.collect d :: l) = steps (step s (.collect d)) l from rfl]
      have hc : ∃ g, step s (.collect d) = { s with gone := g } := by
        simp only [step]; split
        · exact ⟨_, rfl⟩
        · exact ⟨s.gone, rfl⟩
      obtain ⟨g, hg⟩ := hc
      rw [hg]
      exact ih _ h1 h2 h3 h4 h5 h6

/-- **C217 (a dictionary that raises), the violation** If the cleaning of one dictionary raises (as it can, see C12: an expired entry was looked up), the maintaining thread is
over: no dictionary is ever cleaned again by it, not even those made later. -/
theorem C217_raising_violates (s : State) (d : Nat) (todo kept : List Nat) (hs : s.started = true) (hp : s.phase = .cleaning d todo kept) (l : List Act) (e : Nat) :
    (steps (step s (.maint true)) l).log.count (.cleaned e) = s.log.count (.cleaned e) := by
  have h1 : step s (.maint true) = { s with locks := upd s.locks d none, top := none, phase := .dead, log := s.log ++ [.died] } := by
    simp [step, hs, maintStep, hp]
  suffices h : ∀ s' : State, s'.phase = .dead → (steps s' l).log.count (.cleaned e) = s'.log.count (.cleaned e) by
    rw [h1, h _ rfl]; simp [List.count_append]
  clear h1
  induction l with
  | nil => intro s' _; rfl
  | cons a l ih =>
    intro s' h
    rw [show steps s' (a :: l) = steps (step s' a) l from rfl]
    have : (step s' a).phase = .dead ∧ (step s' a).log.count (.cleaned e) = s'.log.count (.cleaned e) := by
      cases a with
      | user t =>
        simp only [step, userStep]
        split
        · exact ⟨h, rfl⟩
        · split <;> exact ⟨h, rfl⟩
        · exact ⟨h, rfl⟩
        · split
          · exact ⟨h, by simp [List.count_append]⟩
          · exact ⟨h, rfl⟩
        · exact ⟨h, rfl⟩
      | maint r => simp only [step, maintStep, h]; split <;> exact ⟨h, rfl⟩
      | collect d => simp only [step]; split <;> exact ⟨h, rfl⟩
    rw [ih _ this.1, this.2]

/-- The hypotheses are met: the thread cleans a dictionary that was registered. -/
example : let s := steps (init (fun t => if t = 0 then [.reg 3] else [])) [.user 0, .maint false, .maint false, .maint false]
    s.started = true ∧ s.phase = .cleaning 3 [] [] := by decide

end Verif.Maintenance
