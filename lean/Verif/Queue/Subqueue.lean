import Verif.Conc.Monitor
import Verif.Py.Dict
/-!
# Model of Subqueue (satella/coding/structures/queues.py), C43

Threads are numbered and take steps one at a time, in any order.  `queue.Queue` is thread safe: its `put` and `get` are one step each, and its items come out in the order they went in.
A look into the dictionary, and an assignment to it, are one step each.  A queue is an object with an identity: if it were replaced in the dictionary, threads could go on using the old one.
-/
namespace Verif.Queue
open Verif Conc

variable {α : Type}

/-- calls; `get` waits if `block`.  (Part of the model of `Subqueue`, /repo/satella/coding/structures/queues.py:9-58.) -/
inductive Op (α : Type) where
  | put (name : Nat) (x : α)
  | get (name : Nat) (block : Bool)
  | getAny
  deriving DecidableEq, Repr

/-- what a call gives.  (Part of the model of `Subqueue`, /repo/satella/coding/structures/queues.py:9-58.) -/
inductive Res (α : Type) where
  | none
  | item (name : Nat) (x : α)
  | exc (e : Exc)
  deriving DecidableEq, Repr

/-- where a thread is, in `assert_queue`, `put` and `get`, /repo/satella/coding/structures/queues.py:34-39, or in the loop of `get_any`, :45-58 (how many queues it has looked at, and how many
there were when it began) -/
inductive Pc (α : Type) where
  | idle
  | check (op : Op α) (name : Nat)
  | lock (op : Op α) (name : Nat)
  | recheck (op : Op α) (name : Nat)
  | create (op : Op α) (name : Nat)
  | unlock (op : Op α) (name : Nat)
  | fetch (op : Op α) (name : Nat)
  | act (op : Op α) (name : Nat) (q : Nat)
  | any (i size : Nat)
  deriving DecidableEq, Repr

/-- what happened, in order: an item was put into, or taken from, the queue of a name, by a thread.  (Part of the model of `Subqueue`, /repo/satella/coding/structures/queues.py:9-58.) -/
inductive Event (α : Type) where
  | put (t name : Nat) (x : α)
  | got (t name : Nat) (x : α)
  deriving DecidableEq, Repr

/-- `subqueues`, the queues by identity, `subqueue_lock`, the threads; and records of what happened and of what the calls gave.  (Part of the model of `Subqueue`, /repo/satella/coding/structures/queues.py:9-58.) -/
structure St (α : Type) where
  dict : Dict Nat Nat
  queues : Nat → List α
  fresh : Nat
  holder : Option Nat
  pcs : Nat → Pc α
  log : List (Event α)
  rets : List (Nat × Op α × Res α)

/-- `Subqueue()`, /repo/satella/coding/structures/queues.py:14-16 -/
def St.init : St α := ⟨[], fun _ => [], 0, none, fun _ => .idle, [], []⟩

/-- events: a thread calls, or takes a step, or its call runs out of time.  (Part of the model of `Subqueue`, /repo/satella/coding/structures/queues.py:9-58.) -/
inductive Act (α : Type) where
  | start (t : Nat) (op : Op α)
  | step (t : Nat)
  | expire (t : Nat)

/-- a call returns.  (Part of the model of `Subqueue`, /repo/satella/coding/structures/queues.py:9-58.) -/
def St.ret (s : St α) (t : Nat) (op : Op α) (r : Res α) : St α := { s with pcs := upd s.pcs t .idle, rets := s.rets ++ [(t, op, r)] }

/-- take the first item of a queue.  (Part of the model of `Subqueue`, /repo/satella/coding/structures/queues.py:9-58.) -/
def St.take (s : St α) (t : Nat) (op : Op α) (name q : Nat) (x : α) (rest : List α) : St α :=
  St.ret { s with queues := upd s.queues q rest, log := s.log ++ [Event.got t name x] } t op (.item name x)

/-- the operation on the queue itself, /repo/satella/coding/structures/queues.py:32, :39 -/
def St.perform (s : St α) (t : Nat) (op : Op α) (name q : Nat) : St α :=
  match op with
  | .put _ x => St.ret { s with queues := upd s.queues q (s.queues q ++ [x]), log := s.log ++ [.put t name x] } t op .none
  | .get _ block =>
    match s.queues q with
    | x :: rest => s.take t op name q x rest
    | [] => if block then s else s.ret t op (.exc .empty)
  | .getAny => s

/-- one step of a thread, /repo/satella/coding/structures/queues.py:18-58.  The loop of `get_any` goes over the dictionary itself: if its size has changed, the loop raises RuntimeError. -/
def St.stepThread (s : St α) (t : Nat) : St α :=
  match s.pcs t with
  | .idle => s
  | .check op n => if Dict.has s.dict n then { s with pcs := upd s.pcs t (.fetch op n) } else { s with pcs := upd s.pcs t (.lock op n) }
  | .lock op n => if s.holder = none then { s with holder := some t, pcs := upd s.pcs t (.recheck op n) } else s
  | .recheck op n => if Dict.has s.dict n then { s with pcs := upd s.pcs t (.unlock op n) } else { s with pcs := upd s.pcs t (.create op n) }
  | .create op n => { s with dict := Dict.set s.dict n s.fresh, fresh := s.fresh + 1, pcs := upd s.pcs t (.unlock op n) }
  | .unlock op n => { s with holder := none, pcs := upd s.pcs t (.fetch op n) }
  | .fetch op n =>
    match Dict.get? s.dict n with
    | some q => { s with pcs := upd s.pcs t (.act op n q) }
    | none => s.ret t op (.exc .keyError)
  | .act op n q => s.perform t op n q
  | .any i size =>
    if s.dict.length ≠ size then s.ret t .getAny (.exc .runtimeError)
    else
      match s.dict[i]? with
      | none => s.ret t .getAny (.exc .empty)
      | some (n, q) =>
        match s.queues q with
        | x :: rest => s.take t .getAny n q x rest
        | [] => { s with pcs := upd s.pcs t (.any (i + 1) size) }

/-- the thread is not in a call.  (Part of the model of `Subqueue`, /repo/satella/coding/structures/queues.py:9-58.) -/
def Pc.isIdle : Pc α → Bool
  | .idle => true
  | _ => false

/-- an event.  Calls begin only when the thread is not in another call; time runs out only in `get` with a timeout, while waiting.  (Part of the model of `Subqueue`, /repo/satella/coding/structures/queues.py:9-58.) -/
def St.step (s : St α) : Act α → St α
  | .start t op =>
    if (s.pcs t).isIdle then
      match op with
      | .put n _ => { s with pcs := upd s.pcs t (.check op n) }
      | .get n _ => { s with pcs := upd s.pcs t (.check op n) }
      | .getAny => { s with pcs := upd s.pcs t (.any 0 s.dict.length) }
    else s
  | .step t => s.stepThread t
  | .expire t =>
    match s.pcs t with
    | .act (.get n true) _ q => if (s.queues q).isEmpty then s.ret t (.get n true) (.exc .empty) else s
    | _ => s

/-- a schedule.  (Part of the model of `Subqueue`, /repo/satella/coding/structures/queues.py:9-58.) -/
def St.run (s : St α) (sched : List (Act α)) : St α := sched.foldl St.step s

/-- `qsize()`, /repo/satella/coding/structures/queues.py:41-43 -/
def St.qsize (s : St α) : Nat := (s.dict.map (fun e => (s.queues e.2).length)).sum

/-! ## Specification -/

/-- the items put under a name, in order -/
def putsOf (log : List (Event α)) (n : Nat) : List α := log.filterMap (fun e => match e with | .put _ m x => if m = n then some x else none | _ => none)

/-- the items taken from a name, in order -/
def gotsOf (log : List (Event α)) (n : Nat) : List α := log.filterMap (fun e => match e with | .got _ m x => if m = n then some x else none | .put .. => none)

/-- the items waiting under a name -/
def St.waiting (s : St α) (n : Nat) : List α := match Dict.get? s.dict n with | some q => s.queues q | none => []

/-- what threads were given: item, thread and name, in order -/
def givenOf (rets : List (Nat × Op α × Res α)) : List (Nat × Nat × α) := rets.filterMap (fun r => match r.2.2 with | .item n x => some (r.1, n, x) | _ => none)

/-- what was taken: item, thread and name, in order -/
def takenOf (log : List (Event α)) : List (Nat × Nat × α) := log.filterMap (fun e => match e with | .got t n x => some (t, n, x) | .put .. => none)

/-! ## Proofs -/

/-- which name a call is about -/
def Op.named : Op α → Nat → Prop
  | .put m _, n => m = n
  | .get m _, n => m = n
  | .getAny, _ => False

/-- what a thread may be doing -/
def PcOk (s : St α) (t : Nat) : Prop :=
  match s.pcs t with
  | .idle => True
  | .check op n => op.named n
  | .lock op n => op.named n
  | .recheck op n => op.named n ∧ s.holder = some t
  | .create op n => op.named n ∧ s.holder = some t ∧ Dict.get? s.dict n = none
  | .unlock op n => op.named n ∧ s.holder = some t ∧ (Dict.get? s.dict n).isSome
  | .fetch op n => op.named n ∧ (Dict.get? s.dict n).isSome
  | .act op n q => op.named n ∧ Dict.get? s.dict n = some q
  | .any _ _ => True

/-- invariant -/
structure Inv (s : St α) : Prop where
  wf : Dict.WF s.dict
  old : ∀ n q, Dict.get? s.dict n = some q → q < s.fresh
  inj : ∀ n m q, Dict.get? s.dict n = some q → Dict.get? s.dict m = some q → n = m
  empty : ∀ q, s.fresh ≤ q → s.queues q = []
  pcs : ∀ t, PcOk s t
  fifo : ∀ n, putsOf s.log n = gotsOf s.log n ++ s.waiting n
  rets : givenOf s.rets = takenOf s.log
  noKeyError : ∀ r ∈ s.rets, r.2.2 ≠ .exc .keyError

theorem has_iff_isSome {κ ν : Type} [DecidableEq κ] (d : Dict κ ν) (k : κ) : Dict.has d k = true ↔ (Dict.get? d k).isSome := by
  simp [Dict.has]

/-- the state of the others does not matter for what a thread is doing, as long as the dictionary only grows and the lock stays with them -/
theorem pcOk_other {s s' : St α} {t u : Nat} (h : PcOk s u) (_ : u ≠ t) (hp : s'.pcs u = s.pcs u) (hd : ∀ n q, Dict.get? s.dict n = some q → Dict.get? s'.dict n = some q)
    (hl : s.holder = some u → s'.holder = some u ∧ s'.dict = s.dict) : PcOk s' u := by
  unfold PcOk at h ⊢
  rw [hp]
  split at h
  · trivial
  · exact h
  · exact h
  · exact ⟨h.1, (hl h.2).1⟩
  · exact ⟨h.1, (hl h.2.1).1, by rw [(hl h.2.1).2]; exact h.2.2⟩
  · exact ⟨h.1, (hl h.2.1).1, by rw [(hl h.2.1).2]; exact h.2.2⟩
  · obtain ⟨q, hq⟩ := Option.isSome_iff_exists.1 h.2
    exact ⟨h.1, by rw [hd _ _ hq]; rfl⟩
  · exact ⟨h.1, hd _ _ h.2⟩
  · trivial

theorem putsOf_append (l : List (Event α)) (e : Event α) (n : Nat) : putsOf (l ++ [e]) n = putsOf l n ++ putsOf [e] n := by
  unfold putsOf; rw [List.filterMap_append]

theorem gotsOf_append (l : List (Event α)) (e : Event α) (n : Nat) : gotsOf (l ++ [e]) n = gotsOf l n ++ gotsOf [e] n := by
  unfold gotsOf; rw [List.filterMap_append]

theorem givenOf_append (l : List (Nat × Op α × Res α)) (r : Nat × Op α × Res α) : givenOf (l ++ [r]) = givenOf l ++ givenOf [r] := by
  unfold givenOf; rw [List.filterMap_append]

theorem takenOf_append (l : List (Event α)) (e : Event α) : takenOf (l ++ [e]) = takenOf l ++ takenOf [e] := by
  unfold takenOf; rw [List.filterMap_append]

/-- only the place of a thread changes -/
theorem inv_pc {s : St α} (h : Inv s) (t : Nat) (pc : Pc α) (hol : Option Nat) (hok : PcOk { s with pcs := upd s.pcs t pc, holder := hol } t) (hh : ∀ u, u ≠ t → s.holder = some u → hol = some u) :
    Inv { s with pcs := upd s.pcs t pc, holder := hol } where
  wf := h.wf
  old := h.old
  inj := h.inj
  empty := h.empty
  pcs := by
    intro u
    by_cases hu : u = t
    · rw [hu]; exact hok
    · exact pcOk_other (h.pcs u) hu (by simp [upd, hu]) (fun _ _ h => h) (fun e => ⟨hh u hu e, rfl⟩)
  fifo := h.fifo
  rets := h.rets
  noKeyError := h.noKeyError

/-- a call ends without an item -/
theorem inv_ret {s : St α} (h : Inv s) (t : Nat) (op : Op α) (r : Res α) (h1 : ∀ n x, r ≠ .item n x) (h2 : r ≠ .exc .keyError) : Inv (s.ret t op r) where
  wf := h.wf
  old := h.old
  inj := h.inj
  empty := h.empty
  pcs := by
    intro u
    by_cases hu : u = t
    · subst hu; simp [PcOk, St.ret, upd]
    · exact pcOk_other (h.pcs u) hu (by simp [St.ret, upd, hu]) (fun _ _ h => h) (fun e => ⟨e, rfl⟩)
  fifo := h.fifo
  rets := by
    have : givenOf [(t, op, r)] = [] := by
      unfold givenOf
      cases r with
      | item n x => exact absurd rfl (h1 n x)
      | none => rfl
      | exc e => rfl
    simp only [St.ret]
    rw [givenOf_append, this, List.append_nil]
    exact h.rets
  noKeyError := by
    intro x hx
    simp only [St.ret, List.mem_append, List.mem_singleton] at hx
    rcases hx with hx | rfl
    · exact h.noKeyError x hx
    · exact h2

theorem waiting_upd {s : St α} (h : Inv s) {n q : Nat} (hq : Dict.get? s.dict n = some q) (l : List α) (m : Nat) :
    St.waiting { s with queues := upd s.queues q l } m = if m = n then l else s.waiting m := by
  unfold St.waiting
  dsimp only
  by_cases hm : m = n
  · subst hm
    rw [hq]
    simp [upd]
  · rw [if_neg hm]
    cases hd : Dict.get? s.dict m with
    | none => rfl
    | some q' =>
      have : q' ≠ q := by
        rintro rfl
        exact hm (h.inj _ _ _ hd hq)
      simp [upd, this]

theorem inv_take {s : St α} (h : Inv s) (t : Nat) (op : Op α) {n q : Nat} {x : α} {rest : List α} (hd : Dict.get? s.dict n = some q) (hq : s.queues q = x :: rest) : Inv (s.take t op n q x rest) where
  wf := h.wf
  old := h.old
  inj := h.inj
  empty := by
    intro q' hq'
    have := h.old _ _ hd
    have hne : q' ≠ q := fun e => by subst e; exact absurd hq' (by simp only [St.take, St.ret]; omega)
    have := h.empty q' hq'
    simpa [St.take, St.ret, upd, hne] using this
  pcs := by
    intro u
    by_cases hu : u = t
    · subst hu; simp [PcOk, St.take, St.ret, upd]
    · exact pcOk_other (h.pcs u) hu (by simp [St.take, St.ret, upd, hu]) (fun _ _ h => h) (fun e => ⟨e, rfl⟩)
  fifo := by
    intro m
    have hw : St.waiting (s.take t op n q x rest) m = if m = n then rest else s.waiting m := waiting_upd h hd rest m
    rw [hw]
    simp only [St.take, St.ret]
    rw [putsOf_append, gotsOf_append]
    have hf := h.fifo m
    by_cases hm : m = n
    · subst hm
      have : s.waiting m = x :: rest := by simp [St.waiting, hd, hq]
      rw [this] at hf
      rw [hf]
      simp [putsOf, gotsOf]
    · have hm' : ¬ n = m := fun e => hm e.symm
      rw [if_neg hm, hf]
      simp [putsOf, gotsOf, hm']
  rets := by
    simp only [St.take, St.ret]
    rw [givenOf_append, takenOf_append, h.rets]
    rfl
  noKeyError := by
    intro y hy
    simp only [St.take, St.ret, List.mem_append, List.mem_singleton] at hy
    rcases hy with hy | rfl
    · exact h.noKeyError y hy
    · simp

theorem inv_put {s : St α} (h : Inv s) (t : Nat) (op : Op α) {n q : Nat} (x : α) (hd : Dict.get? s.dict n = some q) :
    Inv (St.ret { s with queues := upd s.queues q (s.queues q ++ [x]), log := s.log ++ [.put t n x] } t op .none) where
  wf := h.wf
  old := h.old
  inj := h.inj
  empty := by
    intro q' hq'
    have := h.old _ _ hd
    have hne : q' ≠ q := fun e => by subst e; exact absurd hq' (by simp only [St.ret]; omega)
    have := h.empty q' hq'
    simpa [St.ret, upd, hne] using this
  pcs := by
    intro u
    by_cases hu : u = t
    · subst hu; simp [PcOk, St.ret, upd]
    · exact pcOk_other (h.pcs u) hu (by simp [St.ret, upd, hu]) (fun _ _ h => h) (fun e => ⟨e, rfl⟩)
  fifo := by
    intro m
    have hw : St.waiting (St.ret { s with queues := upd s.queues q (s.queues q ++ [x]), log := s.log ++ [Event.put t n x] } t op .none) m = if m = n then s.queues q ++ [x] else s.waiting m := waiting_upd h hd _ m
    rw [hw]
    simp only [St.ret]
    rw [putsOf_append, gotsOf_append]
    have hf := h.fifo m
    by_cases hm : m = n
    · subst hm
      have : s.waiting m = s.queues q := by simp [St.waiting, hd]
      rw [this] at hf
      rw [hf]
      simp [putsOf, gotsOf]
    · have hm' : ¬ n = m := fun e => hm e.symm
      rw [if_neg hm, hf]
      simp [putsOf, gotsOf, hm']
  rets := by
    simp only [St.ret]
    rw [givenOf_append, takenOf_append, h.rets]
    rfl
  noKeyError := by
    intro y hy
    simp only [St.ret, List.mem_append, List.mem_singleton] at hy
    rcases hy with hy | rfl
    · exact h.noKeyError y hy
    · simp

theorem inv_create {s : St α} (h : Inv s) (t : Nat) (op : Op α) (n : Nat) (hop : op.named n) (hl : s.holder = some t) (hn : Dict.get? s.dict n = none) :
    Inv { s with dict := Dict.set s.dict n s.fresh, fresh := s.fresh + 1, pcs := upd s.pcs t (.unlock op n) } where
  wf := Dict.wf_set h.wf _ _
  old := by
    intro m q hq
    dsimp only at hq ⊢
    rw [Dict.get?_set] at hq
    split at hq
    · cases hq; omega
    · have := h.old _ _ hq; omega
  inj := by
    intro m m' q hq hq'
    dsimp only at hq hq'
    rw [Dict.get?_set] at hq hq'
    split at hq <;> split at hq'
    · rename_i e1 e2; rw [← e1, ← e2]
    · cases hq; have := h.old _ _ hq'; omega
    · cases hq'; have := h.old _ _ hq; omega
    · exact h.inj _ _ _ hq hq'
  empty := fun q hq => h.empty q (by dsimp only at hq; omega)
  pcs := by
    intro u
    by_cases hu : u = t
    · subst hu
      simp only [PcOk, upd, if_true]
      refine ⟨hop, hl, ?_⟩
      rw [Dict.get?_set, if_pos rfl]
      rfl
    · refine pcOk_other (h.pcs u) hu (by simp [upd, hu]) ?_ (fun e => absurd (hl.symm.trans e) (by simpa using fun e => hu e.symm))
      intro m q hq
      dsimp only
      rw [Dict.get?_set, if_neg]
      · exact hq
      · rintro rfl
        rw [hn] at hq
        cases hq
  fifo := by
    intro m
    have : St.waiting { s with dict := Dict.set s.dict n s.fresh, fresh := s.fresh + 1, pcs := upd s.pcs t (.unlock op n) } m = s.waiting m := by
      unfold St.waiting
      dsimp only
      rw [Dict.get?_set]
      by_cases hm : n = m
      · subst hm
        rw [if_pos rfl, hn]
        exact h.empty _ (Nat.le_refl _)
      · rw [if_neg hm]
    rw [this]
    exact h.fifo m
  rets := h.rets
  noKeyError := h.noKeyError

theorem inv_step (s : St α) (h : Inv s) (a : Act α) : Inv (s.step a) := by
  cases a with
  | start t op =>
    simp only [St.step]
    split
    · cases op with
      | put n x => exact inv_pc h t _ s.holder (by simp [PcOk, upd, Op.named]) (fun _ _ h => h)
      | get n b => exact inv_pc h t _ s.holder (by simp [PcOk, upd, Op.named]) (fun _ _ h => h)
      | getAny => exact inv_pc h t _ s.holder (by simp [PcOk, upd]) (fun _ _ h => h)
    · exact h
  | expire t =>
    simp only [St.step]
    split
    · split
      · exact inv_ret h t _ _ (by simp) (by simp)
      · exact h
    · exact h
  | step t =>
    have hpc := h.pcs t
    simp only [St.step, St.stepThread]
    unfold PcOk at hpc
    split
    · exact h
    · rename_i op n heq
      rw [heq] at hpc
      split
      · rename_i hs
        exact inv_pc h t _ s.holder (by simp only [PcOk, upd, if_true]; exact ⟨hpc, (has_iff_isSome _ _).1 hs⟩) (fun _ _ h => h)
      · exact inv_pc h t _ s.holder (by simp only [PcOk, upd, if_true]; exact hpc) (fun _ _ h => h)
    · rename_i op n heq
      rw [heq] at hpc
      split
      · rename_i hn
        exact inv_pc h t _ (some t) (by simp only [PcOk, upd, if_true]; exact ⟨hpc, trivial⟩) (fun u hu e => by rw [hn] at e; cases e)
      · exact h
    · rename_i op n heq
      rw [heq] at hpc
      split
      · rename_i hs
        exact inv_pc h t _ s.holder (by simp only [PcOk, upd, if_true]; exact ⟨hpc.1, hpc.2, (has_iff_isSome _ _).1 hs⟩) (fun _ _ h => h)
      · rename_i hs
        exact inv_pc h t _ s.holder (by
          simp only [PcOk, upd, if_true]
          refine ⟨hpc.1, hpc.2, ?_⟩
          cases hd : Dict.get? s.dict n with
          | none => rfl
          | some q => exact absurd ((has_iff_isSome s.dict n).2 (by rw [hd]; rfl)) hs) (fun _ _ h => h)
    · rename_i op n heq
      rw [heq] at hpc
      exact inv_create h t op n hpc.1 hpc.2.1 hpc.2.2
    · rename_i op n heq
      rw [heq] at hpc
      exact inv_pc h t _ none (by simp only [PcOk, upd, if_true]; exact ⟨hpc.1, hpc.2.2⟩) (fun u hu e => by rw [hpc.2.1] at e; exact absurd (Option.some.inj e) (fun e => hu e.symm))
    · rename_i op n heq
      rw [heq] at hpc
      split
      · rename_i q hq
        exact inv_pc h t _ s.holder (by simp only [PcOk, upd, if_true]; exact ⟨hpc.1, hq⟩) (fun _ _ h => h)
      · rename_i hq
        simp [hq] at hpc
    · rename_i op n q heq
      rw [heq] at hpc
      unfold St.perform
      cases op with
      | put m x => exact inv_put h t _ x hpc.2
      | get m b =>
        dsimp only
        split
        · rename_i x rest hq
          exact inv_take h t _ hpc.2 hq
        · split
          · exact h
          · exact inv_ret h t _ _ (by simp) (by simp)
      | getAny => exact h
    · rename_i i size heq
      split
      · exact inv_ret h t _ _ (by simp) (by simp)
      · split
        · exact inv_ret h t _ _ (by simp) (by simp)
        · rename_i n q hd
          split
          · rename_i x rest hq
            exact inv_take h t _ ((Dict.mem_iff h.wf).1 (List.mem_of_getElem? hd)) hq
          · exact inv_pc h t _ s.holder (by simp [PcOk, upd]) (fun _ _ h => h)

theorem inv_run (sched : List (Act α)) : Inv (St.run St.init sched) := by
  suffices ∀ s : St α, Inv s → Inv (s.run sched) from this _ {
    wf := Dict.wf_nil, old := fun n q h => by simp [St.init, Dict.get?] at h, inj := fun n m q h => by simp [St.init, Dict.get?] at h, empty := fun q _ => rfl,
    pcs := fun t => by simp [PcOk, St.init], fifo := fun n => by simp [St.init, putsOf, gotsOf, St.waiting, Dict.get?], rets := rfl, noKeyError := fun r hr => by simp [St.init] at hr }
  induction sched with
  | nil => exact fun s h => h
  | cons a l ih => exact fun s h => ih _ (inv_step s h a)

/-- **C43, Subqueue: FIFO per name.** Whatever threads do, at every moment the items put under a name are, in order, those taken from that name followed by those that wait there: none is lost, given
twice, reordered or moved to another name. -/
theorem C43_fifo (sched : List (Act α)) (n : Nat) : putsOf (St.run St.init sched).log n = gotsOf (St.run St.init sched).log n ++ (St.run St.init sched).waiting n := (inv_run sched).fifo n

/-- **C43**: what the calls return is exactly what was taken: each item is given to one call, in the order taken. -/
theorem C43_given (sched : List (Act α)) : givenOf (St.run St.init sched : St α).rets = takenOf (St.run St.init sched : St α).log := (inv_run sched).rets

/-- **C43**: no call ever raises KeyError. -/
theorem C43_no_key_error (sched : List (Act α)) : ∀ r ∈ (St.run St.init sched : St α).rets, r.2.2 ≠ .exc .keyError := (inv_run sched).noKeyError

/-- **C43, Empty.** Whenever a `get` raises Empty, nothing waits under its name at that moment; and if it is one that waits, its time has run out. -/
theorem C43_empty (sched : List (Act α)) (a : Act α) (t n : Nat) (block : Bool)
    (h : (St.run St.init (sched ++ [a]) : St α).rets = (St.run St.init sched).rets ++ [(t, .get n block, .exc .empty)]) :
    (St.run St.init sched : St α).waiting n = [] ∧ (block = true → a = .expire t) ∧ (block = false → a = .step t) := by
  have hs : St.run St.init (sched ++ [a]) = (St.run St.init sched : St α).step a := by simp [St.run, List.foldl_append]
  rw [hs] at h
  have hinv := inv_run (α := α) sched
  generalize (St.run St.init sched : St α) = s at h hinv
  have none_new : ∀ {s' : St α}, s'.rets = s.rets → s'.rets = s.rets ++ [(t, .get n block, .exc .empty)] → False := by
    intro s' h1 h2
    rw [h1] at h2
    have := congrArg List.length h2
    simp at this
  cases a with
  | start u op =>
    exfalso
    refine none_new ?_ h
    simp only [St.step]
    split
    · cases op <;> rfl
    · rfl
  | expire u =>
    simp only [St.step] at h
    split at h
    · rename_i m m' q hp
      have hpc := hinv.pcs u
      simp only [PcOk, hp] at hpc
      split at h
      · rename_i he
        simp only [St.ret, List.append_cancel_left_eq, List.cons.injEq, Prod.mk.injEq, Op.get.injEq, and_true] at h
        obtain ⟨rfl, rfl, rfl⟩ := h
        have e : m = m' := hpc.1
        subst e
        refine ⟨?_, fun _ => rfl, by simp⟩
        simp only [St.waiting, hpc.2]
        simpa using he
      · exact (none_new rfl h).elim
    · exact (none_new rfl h).elim
  | step u =>
    simp only [St.step, St.stepThread] at h
    have hpc := hinv.pcs u
    unfold PcOk at hpc
    split at h
    · exact (none_new rfl h).elim
    · split at h <;> exact (none_new rfl h).elim
    · split at h <;> exact (none_new rfl h).elim
    · split at h <;> exact (none_new rfl h).elim
    · exact (none_new rfl h).elim
    · exact (none_new rfl h).elim
    · split at h
      · exact (none_new rfl h).elim
      · simp [St.ret] at h
    · rename_i op m q hp
      rw [hp] at hpc
      dsimp only at hpc
      simp only [St.perform] at h
      split at h
      · simp [St.ret] at h
      · rename_i m' b
        split at h
        · simp [St.take, St.ret] at h
        · rename_i hq
          cases b with
          | true => exact (none_new rfl h).elim
          | false =>
            simp only [Bool.false_eq_true, if_false, St.ret, List.append_cancel_left_eq, List.cons.injEq, Prod.mk.injEq, Op.get.injEq, and_true] at h
            obtain ⟨rfl, rfl, rfl⟩ := h
            have e : m' = m := hpc.1
            subst e
            refine ⟨?_, by simp, fun _ => rfl⟩
            simp only [St.waiting, hpc.2]
            exact hq
      · exact (none_new rfl h).elim
    · split at h
      · simp [St.ret] at h
      · split at h
        · simp [St.ret] at h
        · split at h
          · simp [St.take, St.ret] at h
          · exact (none_new rfl h).elim

example : (St.run St.init ([.start 1 (.get 5 true)] ++ List.replicate 6 (.step 1) ++ [.expire 1]) : St Nat).rets = (St.run St.init ([.start 1 (.get 5 true)] ++ List.replicate 6 (.step 1)) : St Nat).rets ++ [(1, .get 5 true, .exc .empty)] := by decide +kernel

/-- the steps of `get_any` when nobody else runs -/
theorem getAny_solo {s : St α} (h : Inv s) (t : Nat) : ∀ (k i : Nat), s.pcs t = .any i s.dict.length → i + k = s.dict.length → (∀ j < i, ∀ n q, s.dict[j]? = some (n, q) → s.queues q = []) →
    ∃ r, (∃ m, (St.run s (List.replicate m (.step t))).rets = s.rets ++ [(t, .getAny, r)]) ∧
      ((∃ n x, r = .item n x ∧ (s.waiting n).head? = some x) ∨ (r = .exc .empty ∧ ∀ n, s.waiting n = [])) := by
  intro k
  induction k generalizing s with
  | zero =>
    intro i hp hik hall
    refine ⟨.exc .empty, ⟨1, ?_⟩, Or.inr ⟨rfl, fun n => ?_⟩⟩
    · have : s.dict[i]? = none := by rw [List.getElem?_eq_none_iff]; omega
      simp [St.run, List.replicate, St.step, St.stepThread, hp, this, St.ret]
    · unfold St.waiting
      split
      · rename_i q hq
        obtain ⟨j, hj⟩ := List.mem_iff_getElem?.1 ((Dict.mem_iff h.wf).2 hq)
        have hlt := (List.getElem?_eq_some_iff.1 hj).1
        exact hall j (by omega) n q hj
      · rfl
  | succ k ih =>
    intro i hp hik hall
    have hlt : i < s.dict.length := by omega
    have hd : s.dict[i]? = some s.dict[i] := List.getElem?_eq_getElem hlt
    generalize s.dict[i] = e at hd
    obtain ⟨n, q⟩ := e
    have hg : Dict.get? s.dict n = some q := (Dict.mem_iff h.wf).1 (List.mem_of_getElem? hd)
    cases hq : s.queues q with
    | cons x rest =>
      refine ⟨.item n x, ⟨1, ?_⟩, Or.inl ⟨n, x, rfl, ?_⟩⟩
      · simp [St.run, List.replicate, St.step, St.stepThread, hp, hd, hq, St.ret, St.take]
      · simp [St.waiting, hg, hq]
    | nil =>
      have hs : s.step (.step t) = { s with pcs := upd s.pcs t (.any (i + 1) s.dict.length) } := by
        simp [St.step, St.stepThread, hp, hd, hq]
      have h' := inv_step s h (.step t)
      rw [hs] at h'
      obtain ⟨r, ⟨m, h1⟩, h2⟩ := ih (s := { s with pcs := upd s.pcs t (.any (i + 1) s.dict.length) }) h' (i + 1) (by simp [upd]) (by dsimp only; omega) (by
        intro j hj n' q' hd'
        by_cases e : j = i
        · subst e
          dsimp only at hd'
          rw [hd] at hd'
          cases hd'
          exact hq
        · exact hall j (by omega) n' q' hd')
      refine ⟨r, ⟨m + 1, ?_⟩, h2⟩
      rw [List.replicate_succ]
      simp only [St.run, List.foldl_cons] at h1 ⊢
      rw [hs]
      exact h1

/-- **C43, get_any** (partial: while it runs, no other thread does). Whatever happened before, it returns the first item of some name whenever an item waits anywhere, and raises Empty otherwise. -/
theorem C43_get_any_partial (sched : List (Act α)) (t : Nat) (hi : (St.run St.init sched : St α).pcs t = .idle) :
    ∃ r, (∃ m, (St.run St.init (sched ++ .start t .getAny :: List.replicate m (.step t))).rets = (St.run St.init sched).rets ++ [(t, .getAny, r)]) ∧
      ((∃ n x, r = .item n x ∧ ((St.run St.init sched).waiting n).head? = some x) ∨ (r = .exc .empty ∧ ∀ n, (St.run St.init sched).waiting n = [])) := by
  have hinv := inv_run (α := α) sched
  have hs : (St.run St.init sched : St α).step (.start t .getAny) = { (St.run St.init sched : St α) with pcs := upd (St.run St.init sched : St α).pcs t (.any 0 (St.run St.init sched : St α).dict.length) } := by
    simp [St.step, hi, Pc.isIdle]
  have hinv' := inv_step _ hinv (.start t .getAny)
  rw [hs] at hinv'
  obtain ⟨r, ⟨m, h1⟩, h2⟩ := getAny_solo hinv' t (St.run St.init sched : St α).dict.length 0 (by simp [upd]) (by simp) (by intro j hj; omega)
  refine ⟨r, ⟨m, ?_⟩, h2⟩
  simp only [St.run, List.foldl_append, List.foldl_cons] at h1 ⊢
  simp only [St.run] at hs
  rw [hs]
  exact h1

/-- **C43, get** (while it runs, no other thread does). Whatever happened before, if the lock is free: `get` gives the first item of its name, if one waits there; if none does, it raises Empty, at once or, if it is to wait, when its time has run out and not before. -/
theorem C43_get_solo (sched : List (Act α)) (t n : Nat) (block : Bool) (hi : (St.run St.init sched : St α).pcs t = .idle) (hl : (St.run St.init sched : St α).holder = none) :
    ∃ m, (∀ x rest, (St.run St.init sched).waiting n = x :: rest →
        (St.run St.init (sched ++ .start t (.get n block) :: List.replicate m (.step t))).rets = (St.run St.init sched).rets ++ [(t, .get n block, .item n x)]) ∧
      ((St.run St.init sched).waiting n = [] →
        (St.run St.init (sched ++ .start t (.get n block) :: List.replicate m (.step t))).rets = (St.run St.init sched).rets ++ (if block then [] else [(t, .get n block, .exc .empty)]) ∧
        (St.run St.init (sched ++ .start t (.get n block) :: List.replicate m (.step t) ++ [.expire t])).rets = (St.run St.init sched).rets ++ [(t, .get n block, .exc .empty)]) := by
  have hinv := inv_run (α := α) sched
  have happ : ∀ l : List (Act α), St.run St.init (sched ++ l) = St.run (St.run St.init sched) l := fun l => by simp [St.run]
  simp only [List.append_assoc, List.cons_append, happ]
  generalize (St.run St.init sched : St α) = s at *
  cases hd : Dict.get? s.dict n with
  | some q =>
    have hh : Dict.has s.dict n = true := by simp [Dict.has, hd]
    refine ⟨3, fun x rest hw => ?_, fun hw => ?_⟩
    · have hq : s.queues q = x :: rest := by simpa [St.waiting, hd] using hw
      simp [St.run, List.replicate, St.step, hi, Pc.isIdle, St.stepThread, upd, hh, hd, St.perform, hq, St.take, St.ret]
    · have hq : s.queues q = [] := by simpa [St.waiting, hd] using hw
      cases block <;> simp [St.run, List.replicate, St.step, hi, Pc.isIdle, St.stepThread, upd, hh, hd, St.perform, hq, St.ret]
  | none =>
    have hh : Dict.has s.dict n = false := by simp [Dict.has, hd]
    have he := hinv.empty s.fresh (Nat.le_refl _)
    refine ⟨7, fun x rest hw => ?_, fun hw => ?_⟩
    · simp [St.waiting, hd] at hw
    · have hg : Dict.get? (Dict.set s.dict n s.fresh) n = some s.fresh := by simp
      cases block <;> simp [St.run, List.replicate, St.step, hi, Pc.isIdle, St.stepThread, upd, hh, hl, hg, St.perform, he, St.ret]

example : (St.run St.init [.start 0 (.put 3 (7 : Nat)), .step 0, .step 0, .step 0, .step 0, .step 0, .step 0, .step 0] : St Nat).waiting 3 = [7] ∧
    (St.run St.init [.start 0 (.put 3 (7 : Nat)), .step 0, .step 0, .step 0, .step 0, .step 0, .step 0, .step 0] : St Nat).holder = none := by decide +kernel
/-- what `get_any` is doing, when an item waits under `n` all the time and no name is added -/
def Looking (d : Dict Nat Nat) (n t : Nat) (s : St α) : Prop := ∀ i size, s.pcs t = .any i size → size = d.length ∧ ∃ (j : Nat) (q : Nat), i ≤ j ∧ d[j]? = some (n, q)

theorem looking_of_not {d : Dict Nat Nat} {n t : Nat} {s : St α} (h : ∀ i size, s.pcs t ≠ .any i size) : Looking d n t s := fun i size e => absurd e (h i size)

theorem looking_step {d : Dict Nat Nat} {n t : Nat} {s : St α} (hinv : Inv s) (hwf : Dict.WF d) (h : Looking d n t s) (hd : s.dict = d) (hw : s.waiting n ≠ []) (a : Act α) :
    Looking d n t (s.step a) ∧ ∃ l, (s.step a).rets = s.rets ++ l ∧ ∀ r ∈ l, r.1 = t → r.2.1 = .getAny → ∃ m x, r.2.2 = .item m x := by
  have hn : ∃ (j : Nat) (q : Nat), d[j]? = some (n, q) ∧ s.queues q ≠ [] := by
    unfold St.waiting at hw
    split at hw
    · rename_i q hq
      rw [hd] at hq
      obtain ⟨j, hj⟩ := List.mem_iff_getElem?.1 ((Dict.mem_iff hwf).2 hq)
      exact ⟨j, q, hj, hw⟩
    · exact absurd rfl hw
  obtain ⟨j0, q0, hj0, hq0⟩ := hn
  have uniq : ∀ (j q : Nat), d[j]? = some (n, q) → q = q0 := by
    intro j q hj
    have h1 := (Dict.mem_iff hwf).1 (List.mem_of_getElem? hj)
    have h2 := (Dict.mem_iff hwf).1 (List.mem_of_getElem? hj0)
    rw [h1] at h2
    exact Option.some.inj h2
  have other : ∀ (u : Nat) (pc : Pc α), u ≠ t → ∀ s' : St α, s'.pcs = upd s.pcs u pc → Looking d n t s' := by
    intro u pc hu s' hs' i size e
    rw [hs'] at e
    simp only [upd, fun e => hu (Eq.symm e), if_false] at e
    rw [if_neg (fun e => hu e.symm)] at e
    exact h i size e
  have self : ∀ (u : Nat) (pc : Pc α), (∀ i size, pc ≠ .any i size) → ∀ s' : St α, s'.pcs = upd s.pcs u pc → Looking d n t s' := by
    intro u pc hpc s' hs'
    by_cases hu : u = t
    · subst hu
      refine looking_of_not (fun i size e => ?_)
      rw [hs'] at e
      simp only [upd, if_true] at e
      exact hpc i size e
    · exact other u pc hu s' hs'
  have nothing : ∀ s' : St α, s'.rets = s.rets → ∃ l, s'.rets = s.rets ++ l ∧ ∀ r ∈ l, r.1 = t → r.2.1 = Op.getAny → ∃ m x, r.2.2 = Res.item m x :=
    fun s' e => ⟨[], by rw [e, List.append_nil], by simp⟩
  have one : ∀ (s' : St α) (u : Nat) (op : Op α) (r : Res α), s'.rets = s.rets ++ [(u, op, r)] → (u = t → op = .getAny → ∃ m x, r = .item m x) →
      ∃ l, s'.rets = s.rets ++ l ∧ ∀ r ∈ l, r.1 = t → r.2.1 = Op.getAny → ∃ m x, r.2.2 = Res.item m x :=
    fun s' u op r e hr => ⟨_, e, by intro x hx; rw [List.mem_singleton] at hx; subst hx; exact hr⟩
  cases a with
  | start u op =>
    simp only [St.step]
    split
    · cases op with
      | put m x => exact ⟨self u _ (by simp) _ rfl, nothing _ rfl⟩
      | get m b => exact ⟨self u _ (by simp) _ rfl, nothing _ rfl⟩
      | getAny =>
        refine ⟨?_, nothing _ rfl⟩
        by_cases hu : u = t
        · subst hu
          intro i size e
          simp only [upd, if_true, Pc.any.injEq] at e
          exact ⟨by rw [← e.2, hd], j0, q0, by omega, hj0⟩
        · exact other u _ hu _ rfl
    · exact ⟨h, nothing _ rfl⟩
  | expire u =>
    simp only [St.step]
    split
    · split
      · exact ⟨self u .idle (by simp) _ rfl, one _ u _ _ rfl (by simp)⟩
      · exact ⟨h, nothing _ rfl⟩
    · exact ⟨h, nothing _ rfl⟩
  | step u =>
    simp only [St.step, St.stepThread]
    split
    · exact ⟨h, nothing _ rfl⟩
    · split
      · exact ⟨self u _ (by simp) _ rfl, nothing _ rfl⟩
      · exact ⟨self u _ (by simp) _ rfl, nothing _ rfl⟩
    · split
      · exact ⟨self u _ (by simp) _ rfl, nothing _ rfl⟩
      · exact ⟨h, nothing _ rfl⟩
    · split
      · exact ⟨self u _ (by simp) _ rfl, nothing _ rfl⟩
      · exact ⟨self u _ (by simp) _ rfl, nothing _ rfl⟩
    · exact ⟨self u _ (by simp) _ rfl, nothing _ rfl⟩
    · exact ⟨self u _ (by simp) _ rfl, nothing _ rfl⟩
    · rename_i op m heq
      have hpc := hinv.pcs u
      unfold PcOk at hpc
      rw [heq] at hpc
      split
      · exact ⟨self u _ (by simp) _ rfl, nothing _ rfl⟩
      · exact ⟨self u .idle (by simp) _ rfl, one _ u _ _ rfl (fun _ e => by subst e; exact absurd hpc.1 (by simp [Op.named]))⟩
    · rename_i op m q heq
      have hpc := hinv.pcs u
      unfold PcOk at hpc
      rw [heq] at hpc
      unfold St.perform
      cases op with
      | put _ x => exact ⟨self u .idle (by simp) _ rfl, one _ u _ _ rfl (by simp)⟩
      | get _ b =>
        dsimp only
        split
        · exact ⟨self u .idle (by simp) _ rfl, one _ u _ _ rfl (by simp)⟩
        · split
          · exact ⟨h, nothing _ rfl⟩
          · exact ⟨self u .idle (by simp) _ rfl, one _ u _ _ rfl (by simp)⟩
      | getAny => exact ⟨h, nothing _ rfl⟩
    · rename_i i size heq
      by_cases hu : u = t
      · subst hu
        obtain ⟨h1, j, q, hij, hj⟩ := h i size heq
        have hlt := (List.getElem?_eq_some_iff.1 hj).1
        rw [if_neg (by rw [hd, h1]; simp)]
        have hi : s.dict[i]? = some d[i] := by rw [hd]; exact List.getElem?_eq_getElem (by omega)
        generalize he : d[i]'(by omega) = e at hi
        obtain ⟨m, q'⟩ := e
        rw [hi]
        dsimp only
        split
        · exact ⟨self u .idle (by simp) _ rfl, one _ u _ _ rfl (fun _ _ => ⟨_, _, rfl⟩)⟩
        · rename_i hq'
          refine ⟨?_, nothing _ rfl⟩
          intro i' size' e
          simp only [upd, if_true, Pc.any.injEq] at e
          refine ⟨by rw [← e.2, h1], j, q, ?_, hj⟩
          have : i ≠ j := by
            rintro rfl
            rw [hd, hj] at hi
            cases hi
            exact hq0 (by rw [← uniq _ _ hj]; exact hq')
          omega
      · split
        · exact ⟨self u .idle (by simp) _ rfl, one _ u _ _ rfl (fun e => absurd e hu)⟩
        · split
          · exact ⟨self u .idle (by simp) _ rfl, one _ u _ _ rfl (fun e => absurd e hu)⟩
          · split
            · exact ⟨self u .idle (by simp) _ rfl, one _ u _ _ rfl (fun e => absurd e hu)⟩
            · exact ⟨other u _ hu _ rfl, nothing _ rfl⟩

/-- **C43, get_any, other threads running** (partial: no new name is added meanwhile). Whatever happened before and whatever the other threads do, if an item waits under some name at every moment of the
call, the call does not raise: it can only return an item. -/
theorem C43_get_any_concurrent_partial (before sched : List (Act α)) (t n : Nat) (hi : (St.run St.init before : St α).pcs t = .idle)
    (hall : ∀ k, (St.run (St.run St.init before) (sched.take k)).dict = (St.run St.init before : St α).dict ∧ (St.run (St.run St.init before) (sched.take k)).waiting n ≠ []) :
    ∃ l, (St.run St.init (before ++ sched)).rets = (St.run St.init before).rets ++ l ∧ ∀ r ∈ l, r.1 = t → r.2.1 = .getAny → ∃ m x, r.2.2 = .item m x := by
  have hs : St.run St.init (before ++ sched) = St.run (St.run St.init before) sched := by simp [St.run, List.foldl_append]
  rw [hs]
  have hinv := inv_run (α := α) before
  generalize (St.run St.init before : St α) = s at hi hall hinv
  have hl : Looking s.dict n t s := looking_of_not (by rw [hi]; simp)
  have hwf := hinv.wf
  have key : ∀ (sched : List (Act α)) (s' : St α), Inv s' → Looking s.dict n t s' → (∀ k, (St.run s' (sched.take k)).dict = s.dict ∧ (St.run s' (sched.take k)).waiting n ≠ []) →
      ∃ l, (St.run s' sched).rets = s'.rets ++ l ∧ ∀ r ∈ l, r.1 = t → r.2.1 = .getAny → ∃ m x, r.2.2 = .item m x := by
    intro sched
    induction sched with
    | nil => exact fun s' _ _ _ => ⟨[], by simp [St.run], by simp⟩
    | cons a rest ih =>
      intro s' hi' hl' ha'
      obtain ⟨h1, l1, h2, h3⟩ := looking_step hi' hwf hl' (ha' 0).1 (ha' 0).2 a
      obtain ⟨l2, h4, h5⟩ := ih (s'.step a) (inv_step s' hi' a) h1 (fun k => ha' (k + 1))
      refine ⟨l1 ++ l2, ?_, ?_⟩
      · simp only [St.run, List.foldl_cons] at h4 ⊢
        rw [h4, h2, List.append_assoc]
      · intro r hr
        rcases List.mem_append.1 hr with hr | hr
        · exact h3 r hr
        · exact h5 r hr
  exact key sched s hinv hl hall

/-- **C43, violated by concurrent use**: if another thread puts under a new name while `get_any` goes through the queues, `get_any` raises RuntimeError although items wait. -/
theorem C43_get_any_violates : ∃ sched : List (Act Nat), (2, Op.getAny, Res.exc .runtimeError) ∈ (St.run St.init sched).rets ∧ (St.run St.init sched).waiting 20 = [7] :=
  ⟨[.start 1 (.get 10 false)] ++ List.replicate 9 (.step 1) ++ [.start 2 .getAny, .step 2, .start 1 (.put 20 7)] ++ List.replicate 9 (.step 1) ++ [.step 2], by decide +kernel⟩

/-! Concrete cases. -/

/-- two threads put under the same new name at once -/
def sched0 : List (Act Nat) := [.start 1 (.put 5 10), .start 2 (.put 5 20), .step 1, .step 2, .step 1, .step 2] ++ List.replicate 5 (.step 1) ++ List.replicate 6 (.step 2) ++ [.start 1 (.get 5 true)] ++ List.replicate 3 (.step 1)
example : putsOf (St.run St.init sched0).log 5 = [10, 20] ∧ (St.run St.init sched0).waiting 5 = [20] ∧ (St.run St.init sched0).rets = [(1, .put 5 10, .none), (2, .put 5 20, .none), (1, .get 5 true, .item 5 10)] := by decide +kernel
example : (St.run St.init sched0).pcs 3 = .idle := by decide +kernel
/-- thread 3 looks for anything while thread 2 puts -/
def sched1 : List (Act Nat) := [.start 3 .getAny, .start 2 (.put 5 30), .step 2, .step 2, .step 2, .step 3]
example : (∀ k ≤ 6, (St.run (St.run St.init sched0) (sched1.take k)).dict = (St.run St.init sched0).dict ∧ (St.run (St.run St.init sched0) (sched1.take k)).waiting 5 ≠ []) ∧
    (3, Op.getAny, Res.item 5 20) ∈ (St.run (St.run St.init sched0) sched1).rets := by decide +kernel

end Verif.Queue
