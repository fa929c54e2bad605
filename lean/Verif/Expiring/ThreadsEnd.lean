import Verif.Expiring.Threads
/-!
# Calls of an expiring dict by several threads come to an end (satella/coding/structures/dictionaries/expiring.py); C273
-/
namespace Verif.Expiring.Threads
open Verif
open Verif.Conc (upd upd_same upd_other)

/-! ## Proofs -/

/-- the thread has taken the lock -/
def inside : Pc → Bool
  | .setClock .. | .setTest .. | .setPop .. | .setDel .. | .setPush .. | .setTs .. | .setData .. | .delPop .. | .delTs .. | .delData ..
  | .cleanClock | .cleanLoop .. | .cleanTs .. | .cleanData .. | .unlock .. => true
  | _ => false

/-- how many steps are left at most, if nobody else has the lock -/
def left (n : Nat) : Pc → Nat
  | .idle => 0
  | .setLock .. => 10
  | .setClock .. => 9
  | .setTest .. => 8
  | .setPop .. => 7
  | .setDel .. => 6
  | .setPush .. => 5
  | .setTs .. => 4
  | .setData .. => 3
  | .getTs .. => 3
  | .getClock .. => 2
  | .getDrop .. => 1
  | .getData .. => 1
  | .hasTs .. => 8
  | .hasClock .. => 7
  | .delLock .. => 6
  | .delPop .. => 5
  | .delTs .. => 4
  | .delData .. => 3
  | .cleanLock => 3 * n + 5
  | .cleanClock => 3 * n + 4
  | .cleanLoop .. => 3 * n + 3
  | .cleanTs .. => 3 * n + 5
  | .cleanData .. => 3 * n + 4
  | .unlock .. => 2

/-- the calls a thread has ended, is in and has still to make -/
def calls (s : St) (t : Nat) : List Call :=
  (s.log.filter (fun e => e.thread == t)).map (·.call) ++ (if s.pc t = .idle then [] else [(s.now t).1]) ++ s.todo t

/-- what always holds -/
structure Sane (prog : Nat → List Call) (s : St) : Prop where
  lock : ∀ t, inside (s.pc t) = true ↔ s.lock = some t
  calls : ∀ t, calls s t = prog t

theorem entry_ne (c : Call) : entry c ≠ .idle ∧ inside (entry c) = false := by cases c <;> exact ⟨nofun, rfl⟩

theorem filter_snoc (log : List Done) (e : Done) (t : Nat) :
    ((log ++ [e]).filter (fun x => x.thread == t)).map (·.call) = (log.filter (fun x => x.thread == t)).map (·.call) ++ (if e.thread = t then [e.call] else []) := by
  rw [List.filter_append, List.map_append]
  by_cases h : e.thread = t <;> simp [h]

/-- where a step leads: the thread goes on, without, with taking or giving back the lock, or its call ends -/
structure Goes (s s' : St) (t : Nat) (p : Pc) : Prop where
  pc : s'.pc = upd s.pc t p
  now : s'.now = s.now
  todo : s'.todo = s.todo
  log : (p ≠ .idle ∧ s'.log = s.log) ∨ (p = .idle ∧ ∃ a b r, s'.log = s.log ++ [⟨t, (s.now t).1, a, b, r⟩])
  lock : s'.lock = if inside p = inside (s.pc t) then s.lock else if inside p then some t else none
  free : inside p = true → inside (s.pc t) = false → s.lock = none
  less : p = .idle ∨ left s'.heap.length p < left s.heap.length (s.pc t)

theorem popItem_length {k : Nat} {h h' : List (Int × Nat)} (e : popItem k h = some h') : h'.length < h.length := by
  induction h generalizing h' with
  | nil => simp [popItem] at e
  | cons z zs ih =>
    rw [popItem] at e
    split at e
    · cases e; simp
    · cases hp : popItem k zs with
      | none => rw [hp] at e; cases e
      | some x => rw [hp] at e; cases e; have := ih hp; simp; omega

theorem goes (timeout : Int) (s : St) (t : Nat) (h : s.pc t ≠ .idle) :
    (step timeout s t = s ∧ s.lock ≠ none ∧ inside (s.pc t) = false) ∨ ∃ p, Goes s (step timeout s t) t p := by
  cases hpc : s.pc t with
  | idle => exact absurd hpc h
  | setLock k v =>
    simp only [step, hpc]
    by_cases hl : s.lock = none
    · rw [if_pos hl]; exact .inr ⟨.setClock k v, rfl, rfl, rfl, .inl ⟨nofun, rfl⟩, by rw [hpc]; rfl, fun _ _ => hl, .inr (by rw [hpc]; simp [left])⟩
    · rw [if_neg hl]; exact .inl ⟨rfl, hl, rfl⟩
  | setClock k v => simp only [step, hpc]; exact .inr ⟨_, rfl, rfl, rfl, .inl ⟨nofun, rfl⟩, by rw [hpc]; rfl, (by rw [hpc]; intro _ h; cases h), .inr (by rw [hpc]; simp [left])⟩
  | setTest k v ts =>
    simp only [step, hpc]
    split
    · exact .inr ⟨_, rfl, rfl, rfl, .inl ⟨nofun, rfl⟩, by rw [hpc]; rfl, (by rw [hpc]; intro _ h; cases h), .inr (by rw [hpc]; simp [left])⟩
    · exact .inr ⟨_, rfl, rfl, rfl, .inl ⟨nofun, rfl⟩, by rw [hpc]; rfl, (by rw [hpc]; intro _ h; cases h), .inr (by rw [hpc]; simp [left])⟩
  | setPop k v ts =>
    simp only [step, hpc]
    cases popItem k s.heap with
    | none => exact .inr ⟨_, rfl, rfl, rfl, .inl ⟨nofun, rfl⟩, by rw [hpc]; rfl, (by rw [hpc]; intro _ h; cases h), .inr (by rw [hpc]; simp [left])⟩
    | some x => exact .inr ⟨_, rfl, rfl, rfl, .inl ⟨nofun, rfl⟩, by rw [hpc]; rfl, (by rw [hpc]; intro _ h; cases h), .inr (by rw [hpc]; simp [left])⟩
  | setDel k v ts =>
    simp only [step, hpc]
    cases s.stamps k with
    | none => exact .inr ⟨_, rfl, rfl, rfl, .inl ⟨nofun, rfl⟩, by rw [hpc]; rfl, (by rw [hpc]; intro _ h; cases h), .inr (by rw [hpc]; simp [left])⟩
    | some x => exact .inr ⟨_, rfl, rfl, rfl, .inl ⟨nofun, rfl⟩, by rw [hpc]; rfl, (by rw [hpc]; intro _ h; cases h), .inr (by rw [hpc]; simp [left])⟩
  | setPush k v ts => simp only [step, hpc]; exact .inr ⟨_, rfl, rfl, rfl, .inl ⟨nofun, rfl⟩, by rw [hpc]; rfl, (by rw [hpc]; intro _ h; cases h), .inr (by rw [hpc]; simp [left])⟩
  | setTs k v ts => simp only [step, hpc]; exact .inr ⟨_, rfl, rfl, rfl, .inl ⟨nofun, rfl⟩, by rw [hpc]; rfl, (by rw [hpc]; intro _ h; cases h), .inr (by rw [hpc]; simp [left])⟩
  | setData k v => simp only [step, hpc]; exact .inr ⟨_, rfl, rfl, rfl, .inl ⟨nofun, rfl⟩, by rw [hpc]; rfl, (by rw [hpc]; intro _ h; cases h), .inr (by rw [hpc]; simp [left])⟩
  | getTs k =>
    simp only [step, hpc]
    cases s.stamps k with
    | none => exact .inr ⟨.idle, rfl, rfl, rfl, .inr ⟨rfl, _, _, _, rfl⟩, by rw [hpc]; rfl, nofun, .inl rfl⟩
    | some x => exact .inr ⟨_, rfl, rfl, rfl, .inl ⟨nofun, rfl⟩, by rw [hpc]; rfl, nofun, .inr (by rw [hpc]; simp [left])⟩
  | getClock k ts =>
    simp only [step, hpc]
    split
    · exact .inr ⟨_, rfl, rfl, rfl, .inl ⟨nofun, rfl⟩, by rw [hpc]; rfl, nofun, .inr (by rw [hpc]; simp [left])⟩
    · exact .inr ⟨_, rfl, rfl, rfl, .inl ⟨nofun, rfl⟩, by rw [hpc]; rfl, nofun, .inr (by rw [hpc]; simp [left])⟩
  | getDrop k => simp only [step, hpc]; exact .inr ⟨.idle, rfl, rfl, rfl, .inr ⟨rfl, _, _, _, rfl⟩, by rw [hpc]; rfl, nofun, .inl rfl⟩
  | getData k =>
    simp only [step, hpc]
    cases s.data k with
    | none => exact .inr ⟨.idle, rfl, rfl, rfl, .inr ⟨rfl, _, _, _, rfl⟩, by rw [hpc]; rfl, nofun, .inl rfl⟩
    | some x => exact .inr ⟨.idle, rfl, rfl, rfl, .inr ⟨rfl, _, _, _, rfl⟩, by rw [hpc]; rfl, nofun, .inl rfl⟩
  | hasTs k =>
    simp only [step, hpc]
    cases s.stamps k with
    | none => exact .inr ⟨.idle, rfl, rfl, rfl, .inr ⟨rfl, _, _, _, rfl⟩, by rw [hpc]; rfl, nofun, .inl rfl⟩
    | some x => exact .inr ⟨_, rfl, rfl, rfl, .inl ⟨nofun, rfl⟩, by rw [hpc]; rfl, nofun, .inr (by rw [hpc]; simp [left])⟩
  | hasClock k ts =>
    simp only [step, hpc]
    split
    · exact .inr ⟨_, rfl, rfl, rfl, .inl ⟨nofun, rfl⟩, by rw [hpc]; rfl, nofun, .inr (by rw [hpc]; simp [left])⟩
    · exact .inr ⟨.idle, rfl, rfl, rfl, .inr ⟨rfl, _, _, _, rfl⟩, by rw [hpc]; rfl, nofun, .inl rfl⟩
  | delLock k r =>
    simp only [step, hpc]
    by_cases hl : s.lock = none
    · rw [if_pos hl]; exact .inr ⟨.delPop k r, rfl, rfl, rfl, .inl ⟨nofun, rfl⟩, by rw [hpc]; rfl, fun _ _ => hl, .inr (by rw [hpc]; simp [left])⟩
    · rw [if_neg hl]; exact .inl ⟨rfl, hl, rfl⟩
  | delPop k r =>
    simp only [step, hpc]
    cases popItem k s.heap with
    | none => exact .inr ⟨_, rfl, rfl, rfl, .inl ⟨nofun, rfl⟩, by rw [hpc]; rfl, (by rw [hpc]; intro _ h; cases h), .inr (by rw [hpc]; simp [left])⟩
    | some x => exact .inr ⟨_, rfl, rfl, rfl, .inl ⟨nofun, rfl⟩, by rw [hpc]; rfl, (by rw [hpc]; intro _ h; cases h), .inr (by rw [hpc]; simp [left])⟩
  | delTs k r =>
    simp only [step, hpc]
    cases s.stamps k with
    | none => exact .inr ⟨_, rfl, rfl, rfl, .inl ⟨nofun, rfl⟩, by rw [hpc]; rfl, (by rw [hpc]; intro _ h; cases h), .inr (by rw [hpc]; simp [left])⟩
    | some x => exact .inr ⟨_, rfl, rfl, rfl, .inl ⟨nofun, rfl⟩, by rw [hpc]; rfl, (by rw [hpc]; intro _ h; cases h), .inr (by rw [hpc]; simp [left])⟩
  | delData k r =>
    simp only [step, hpc]
    cases s.data k with
    | none => exact .inr ⟨_, rfl, rfl, rfl, .inl ⟨nofun, rfl⟩, by rw [hpc]; rfl, (by rw [hpc]; intro _ h; cases h), .inr (by rw [hpc]; simp [left])⟩
    | some x => exact .inr ⟨_, rfl, rfl, rfl, .inl ⟨nofun, rfl⟩, by rw [hpc]; rfl, (by rw [hpc]; intro _ h; cases h), .inr (by rw [hpc]; simp [left])⟩
  | cleanLock =>
    simp only [step, hpc]
    by_cases hl : s.lock = none
    · rw [if_pos hl]; exact .inr ⟨.cleanClock, rfl, rfl, rfl, .inl ⟨nofun, rfl⟩, by rw [hpc]; rfl, fun _ _ => hl, .inr (by rw [hpc]; simp [left])⟩
    · rw [if_neg hl]; exact .inl ⟨rfl, hl, rfl⟩
  | cleanClock => simp only [step, hpc]; exact .inr ⟨_, rfl, rfl, rfl, .inl ⟨nofun, rfl⟩, by rw [hpc]; rfl, (by rw [hpc]; intro _ h; cases h), .inr (by rw [hpc]; simp [left, St.at_])⟩
  | cleanLoop now =>
    simp only [step, hpc]
    cases hh : s.heap with
    | nil => exact .inr ⟨_, rfl, rfl, rfl, .inl ⟨nofun, rfl⟩, by rw [hpc]; rfl, (by rw [hpc]; intro _ h; cases h), .inr (by rw [hpc]; simp [left])⟩
    | cons x l =>
      obtain ⟨ts, k⟩ := x
      dsimp only
      split
      · exact .inr ⟨_, rfl, rfl, rfl, .inl ⟨nofun, rfl⟩, by rw [hpc]; rfl, (by rw [hpc]; intro _ h; cases h), .inr (by rw [hpc]; simp only [left]; omega)⟩
      · exact .inr ⟨_, rfl, rfl, rfl, .inl ⟨nofun, rfl⟩, by rw [hpc]; rfl, (by rw [hpc]; intro _ h; cases h), .inr (by rw [hpc, hh]; simp only [left, List.length_cons]; omega)⟩
  | cleanTs now k =>
    simp only [step, hpc]
    cases s.stamps k with
    | none => exact .inr ⟨_, rfl, rfl, rfl, .inl ⟨nofun, rfl⟩, by rw [hpc]; rfl, (by rw [hpc]; intro _ h; cases h), .inr (by rw [hpc]; simp only [left]; omega)⟩
    | some x => exact .inr ⟨_, rfl, rfl, rfl, .inl ⟨nofun, rfl⟩, by rw [hpc]; rfl, (by rw [hpc]; intro _ h; cases h), .inr (by rw [hpc]; simp only [left]; omega)⟩
  | cleanData now k =>
    simp only [step, hpc]
    cases s.data k with
    | none => exact .inr ⟨_, rfl, rfl, rfl, .inl ⟨nofun, rfl⟩, by rw [hpc]; rfl, (by rw [hpc]; intro _ h; cases h), .inr (by rw [hpc]; simp only [left]; omega)⟩
    | some x => exact .inr ⟨_, rfl, rfl, rfl, .inl ⟨nofun, rfl⟩, by rw [hpc]; rfl, (by rw [hpc]; intro _ h; cases h), .inr (by rw [hpc]; simp only [left]; omega)⟩
  | unlock r => simp only [step, hpc]; exact .inr ⟨.idle, rfl, rfl, rfl, .inr ⟨rfl, _, _, _, rfl⟩, by rw [hpc]; rfl, nofun, .inl rfl⟩

theorem sane_goes {prog : Nat → List Call} {s s' : St} {t : Nat} {p : Pc} (hs : Sane prog s) (ht : s.pc t ≠ .idle) (g : Goes s s' t p) : Sane prog s' := by
  constructor
  · intro u
    rw [g.pc, g.lock]
    have hl := hs.lock t
    by_cases hu : u = t
    · subst hu
      rw [upd_same]
      by_cases he : inside p = inside (s.pc u)
      · rw [if_pos he, he]; exact hl
      · rw [if_neg he]
        cases hp : inside p <;> simp
    · rw [upd_other _ _ hu, hs.lock u]
      by_cases he : inside p = inside (s.pc t)
      · rw [if_pos he]
      · rw [if_neg he]
        cases hp : inside p with
        | true =>
          have := g.free hp (by cases h : inside (s.pc t) with | false => rfl | true => rw [hp, h] at he; exact absurd rfl he)
          rw [this]
          simp only [if_true, Option.some.injEq, reduceCtorEq, false_iff]
          exact fun h => hu h.symm
        | false =>
          have h1 : inside (s.pc t) = true := by cases h : inside (s.pc t) with | true => rfl | false => rw [hp, h] at he; exact absurd rfl he
          rw [hl.1 h1]
          simp only [Option.some.injEq, Bool.false_eq_true, if_false, reduceCtorEq, iff_false]
          exact fun h => hu h.symm
  · intro u
    rw [← hs.calls u]
    unfold calls
    rw [g.pc, g.now, g.todo]
    rcases g.log with ⟨hp, hlog⟩ | ⟨hp, a, b, r, hlog⟩
    · rw [hlog]
      by_cases hu : u = t
      · subst hu; rw [upd_same, if_neg hp, if_neg ht]
      · rw [upd_other _ _ hu]
    · rw [hlog, filter_snoc]
      by_cases hu : u = t
      · subst hu; rw [upd_same, if_pos hp, if_neg ht]; simp
      · rw [upd_other _ _ hu, if_neg (fun h => hu h.symm)]; simp

theorem sane_begin {prog : Nat → List Call} {timeout : Int} {s : St} {t : Nat} (hs : Sane prog s) (ht : s.pc t = .idle) : Sane prog (step timeout s t) := by
  cases htd : s.todo t with
  | nil => simp only [step, ht, htd]; exact hs
  | cons c cs =>
    obtain ⟨h1, h2⟩ := entry_ne c
    have hstep : step timeout s t = { s with todo := upd s.todo t cs, now := upd s.now t (c, s.clock), pc := upd s.pc t (entry c) } := by
      simp only [step, ht, htd]
    rw [hstep]
    constructor
    · intro u
      dsimp only
      by_cases hu : u = t
      · subst hu; rw [upd_same, h2, ← hs.lock u, ht]; simp [inside]
      · rw [upd_other _ _ hu]; exact hs.lock u
    · intro u
      rw [← hs.calls u]
      unfold calls
      dsimp only
      by_cases hu : u = t
      · subst hu; simp only [upd_same, if_neg h1, if_pos ht, htd]; simp
      · simp only [upd_other _ _ hu]

theorem sane_step {prog : Nat → List Call} {timeout : Int} {s : St} (t : Nat) (hs : Sane prog s) : Sane prog (step timeout s t) := by
  by_cases ht : s.pc t = .idle
  · exact sane_begin hs ht
  · rcases goes timeout s t ht with ⟨h, _⟩ | ⟨p, g⟩
    · rw [h]; exact hs
    · exact sane_goes hs ht g

theorem sane_run {prog : Nat → List Call} (timeout : Int) (l : List Ev) : ∀ s, Sane prog s → Sane prog (run timeout s l) := by
  induction l with
  | nil => exact fun s h => h
  | cons e l ih =>
    intro s h
    refine ih _ ?_
    cases e with
    | run t => exact sane_step t h
    | tick d => exact ⟨h.lock, h.calls⟩

theorem sane_init (prog : Nat → List Call) : Sane prog (init prog) where
  lock := by intro t; simp [init, inside]
  calls := by intro t; simp [calls, init]

/-- a thread that nobody keeps from going on ends its call -/
theorem ends {prog : Nat → List Call} (timeout : Int) (t : Nat) (n : Nat) : ∀ s, Sane prog s → (s.lock = none ∨ s.lock = some t) → left s.heap.length (s.pc t) < n →
    ∃ l : List Ev, (∀ e ∈ l, e = .run t) ∧ (run timeout s l).pc t = .idle ∧ (run timeout s l).lock = none ∧ (run timeout s l).todo = s.todo ∧ ∀ u, u ≠ t → (run timeout s l).pc u = s.pc u := by
  induction n with
  | zero => intro s _ _ h; cases h
  | succ n ih =>
    intro s hs hl hn
    by_cases ht : s.pc t = .idle
    · refine ⟨[], nofun, ht, ?_, rfl, fun u _ => rfl⟩
      rcases hl with h | h
      · exact h
      · have := (hs.lock t).2 h; rw [ht] at this; cases this
    · rcases goes timeout s t ht with ⟨_, h1, h2⟩ | ⟨p, g⟩
      · rcases hl with h | h
        · exact absurd h h1
        · rw [(hs.lock t).2 h] at h2; cases h2
      · have hs' := sane_goes hs ht g
        have hl' : (step timeout s t).lock = none ∨ (step timeout s t).lock = some t := by
          rw [g.lock]
          split
          · exact hl
          · split
            · exact .inr rfl
            · exact .inl rfl
        have hless : left (step timeout s t).heap.length ((step timeout s t).pc t) < n ∨ (step timeout s t).pc t = .idle := by
          rw [g.pc, upd_same]
          rcases g.less with h | h
          · exact .inr h
          · exact .inl (by omega)
        rcases hless with hless | hidle
        · obtain ⟨l, h1, h2, h3, h4, h5⟩ := ih _ hs' hl' hless
          refine ⟨.run t :: l, ?_, h2, h3, h4.trans g.todo, fun u hu => (h5 u hu).trans (by rw [g.pc, upd_other _ _ hu])⟩
          intro e he
          rcases List.mem_cons.1 he with h | h
          · exact h
          · exact h1 e h
        · refine ⟨[.run t], by simp, hidle, ?_, g.todo, fun u hu => by show (step timeout s t).pc u = _; rw [g.pc, upd_other _ _ hu]⟩
          rcases hl' with h | h
          · exact h
          · have := (hs'.lock t).2 h; rw [hidle] at this; cases this

theorem run_append (timeout : Int) (s : St) (l l' : List Ev) : run timeout s (l ++ l') = run timeout (run timeout s l) l' := by
  simp [run, List.foldl_append]

theorem ends_all {prog : Nat → List Call} (timeout : Int) (t : Nat) (cs : List Call) : ∀ s, Sane prog s → s.lock = none → s.pc t = .idle → s.todo t = cs →
    ∃ l : List Ev, (∀ e ∈ l, e = .run t) ∧ (run timeout s l).pc t = .idle ∧ (run timeout s l).todo t = [] := by
  induction cs with
  | nil => exact fun s _ _ h1 h2 => ⟨[], nofun, h1, h2⟩
  | cons c cs ih =>
    intro s hs hl hi htd
    have hb := sane_begin (timeout := timeout) hs hi
    have hstep : step timeout s t = { s with todo := upd s.todo t cs, now := upd s.now t (c, s.clock), pc := upd s.pc t (entry c) } := by
      simp only [step, hi, htd]
    obtain ⟨l, h1, h2, h3, h4, _⟩ := ends timeout t (left (step timeout s t).heap.length ((step timeout s t).pc t) + 1) _ hb (.inl (by rw [hstep]; exact hl)) (Nat.lt_succ_self _)
    have htd' : (run timeout (step timeout s t) l).todo t = cs := by rw [h4, hstep]; exact upd_same _ _ _
    obtain ⟨l', h5, h6, h7⟩ := ih _ (sane_run timeout l _ hb) h3 h2 htd'
    refine ⟨.run t :: l ++ l', ?_, ?_, ?_⟩
    · intro e he
      simp only [List.cons_append, List.mem_cons, List.mem_append] at he
      rcases he with h | h | h
      · exact h
      · exact h1 e h
      · exact h5 e h
    · rw [List.cons_append, show run timeout s (Ev.run t :: (l ++ l')) = run timeout (step timeout s t) (l ++ l') from rfl, run_append]; exact h6
    · rw [List.cons_append, show run timeout s (Ev.run t :: (l ++ l')) = run timeout (step timeout s t) (l ++ l') from rfl, run_append]; exact h7

/-- **C273 no call is stuck.** Whatever threads have done with an expiring dict so far, and whichever of them have calls underway, each of them can still end all calls it has to make, without time passing: once one
other thread at most has gone on until the end of its call, the thread needs nobody else.  Its calls, those ended and those to come, are those of its program, in order. -/
theorem C273_ends (timeout : Int) (prog : Nat → List Call) (l : List Ev) (t : Nat) :
    ∃ (u : Nat) (l₁ l₂ : List Ev), (∀ e ∈ l₁, e = .run u) ∧ (∀ e ∈ l₂, e = .run t) ∧
      ((run timeout (init prog) (l ++ l₁ ++ l₂)).log.filter (fun e => e.thread == t)).map (·.call) = prog t := by
  have hs := sane_run timeout l _ (sane_init prog)
  have fin : ∀ s, Sane prog s → s.lock = none ∨ s.lock = some t → ∃ l₂ : List Ev, (∀ e ∈ l₂, e = .run t) ∧ ((run timeout s l₂).log.filter (fun e => e.thread == t)).map (·.call) = prog t := by
    intro s hs hl
    obtain ⟨l, h1, h2, h3, _, _⟩ := ends timeout t _ s hs hl (Nat.lt_succ_self _)
    obtain ⟨l', h5, h6, h7⟩ := ends_all timeout t _ _ (sane_run timeout l s hs) h3 h2 rfl
    refine ⟨l ++ l', ?_, ?_⟩
    · intro e he
      rcases List.mem_append.1 he with h | h
      · exact h1 e h
      · exact h5 e h
    · have := (sane_run timeout (l ++ l') s hs).calls t
      rw [← this, calls]
      rw [run_append, if_pos h6, h7]; simp
  cases hl : (run timeout (init prog) l).lock with
  | none =>
    obtain ⟨l₂, h1, h2⟩ := fin _ hs (.inl hl)
    exact ⟨t, [], l₂, nofun, h1, by rw [List.append_nil, run_append]; exact h2⟩
  | some u =>
    by_cases hu : u = t
    · subst hu
      obtain ⟨l₂, h1, h2⟩ := fin _ hs (.inr hl)
      exact ⟨u, [], l₂, nofun, h1, by rw [List.append_nil, run_append]; exact h2⟩
    · obtain ⟨l₁, h1, _, h3, _, _⟩ := ends timeout u _ _ hs (.inr hl) (Nat.lt_succ_self _)
      obtain ⟨l₂, h4, h5⟩ := fin _ (sane_run timeout l₁ _ hs) (.inl h3)
      exact ⟨u, l₁, l₂, h1, h4, by rw [run_append, run_append]; exact h5⟩

/-- **C273 one after another.** The calls of a thread end in the order of its program: those that ended are the first ones of it. -/
theorem C273_in_order (timeout : Int) (prog : Nat → List Call) (l : List Ev) (t : Nat) :
    ((run timeout (init prog) l).log.filter (fun e => e.thread == t)).map (·.call) <+: prog t := by
  have := (sane_run timeout l _ (sane_init prog)).calls t
  rw [← this, calls, List.append_assoc]
  exact List.prefix_append _ _

/-- a thread cleans up while another is to delete: the second cannot go on until the first has ended its call -/
def progC : Nat → List Call := fun t => if t = 0 then [.set 1 5, .clean] else if t = 1 then [.del 1, .has 1] else []

example : let s := run 3 (init progC) (List.replicate 8 (.run 0) ++ [.tick 9] ++ List.replicate 5 (.run 0) ++ List.replicate 4 (.run 1))
    s.lock = some 0 ∧ s.pc 1 = .delLock 1 .ok ∧ s.log.length = 1 := by decide +kernel

example : let s := run 3 (init progC) (List.replicate 8 (.run 0) ++ [.tick 9] ++ List.replicate 5 (.run 0) ++ List.replicate 4 (.run 1) ++ List.replicate 4 (.run 0) ++ List.replicate 8 (.run 1))
    (s.log.filter (fun e => e.thread == 1)).map (fun e => (e.call, e.res)) = [(.del 1, .valueError), (.has 1, .bool false)] := by decide +kernel

end Verif.Expiring.Threads
