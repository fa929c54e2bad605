import Verif.Conc.MonitorProps
/-!
# Model of an ExpiringEntryDict used by several threads (satella/coding/structures/dictionaries/expiring.py), C246

Each access to the heap, to the dict of timestamps or to the data is one step of a thread; between the steps other threads run and the clock goes on.
`__setitem__`, `__delitem__` and `cleanup` hold the monitor, `__getitem__` and `__contains__` do not.  The heap is the list of its entries in the order of
their timestamps (that `heapq` keeps this order is C07's matter).  Keys are not None.
-/
namespace Verif.Expiring.Threads
open Verif.Conc (upd upd_same upd_other)

/-- Calls; those of `clean` include what `__len__`, `__iter__` and the background thread call.  (Part of the model of `ExpiringEntryDict`, /repo/satella/coding/structures/dictionaries/expiring.py:139-226.) -/
inductive Call where
  | set (k v : Nat)
  | get (k : Nat)
  | has (k : Nat)
  | del (k : Nat)
  | clean
  deriving DecidableEq, Repr

/-- What a call returns or raises.  (Part of the model of `ExpiringEntryDict`, /repo/satella/coding/structures/dictionaries/expiring.py:139-226.) -/
inductive Res where
  | ok
  | value (v : Nat)
  | bool (b : Bool)
  | keyError
  | valueError
  deriving DecidableEq, Repr

/-- Where a thread is: what it does next.  (Part of the model of `ExpiringEntryDict`, /repo/satella/coding/structures/dictionaries/expiring.py:139-226.) -/
inductive Pc where
  | idle
  | setLock (k v : Nat)
  | setClock (k v : Nat)
  | setTest (k v : Nat) (ts : Int)
  | setPop (k v : Nat) (ts : Int)
  | setDel (k v : Nat) (ts : Int)
  | setPush (k v : Nat) (ts : Int)
  | setTs (k v : Nat) (ts : Int)
  | setData (k v : Nat)
  | getTs (k : Nat)
  | getClock (k : Nat) (ts : Int)
  | getDrop (k : Nat)
  | getData (k : Nat)
  | hasTs (k : Nat)
  | hasClock (k : Nat) (ts : Int)
  | delLock (k : Nat) (r : Res)
  | delPop (k : Nat) (r : Res)
  | delTs (k : Nat) (r : Res)
  | delData (k : Nat) (r : Res)
  | cleanLock
  | cleanClock
  | cleanLoop (now : Int)
  | cleanTs (now : Int) (k : Nat)
  | cleanData (now : Int) (k : Nat)
  | unlock (r : Res)
  deriving DecidableEq, Repr

/-- A call that has ended: its thread, when it began and ended, and its result.  (Part of the model of `ExpiringEntryDict`, /repo/satella/coding/structures/dictionaries/expiring.py:139-226.) -/
structure Done where
  thread : Nat
  call : Call
  began : Int
  ended : Int
  res : Res
  deriving DecidableEq, Repr

/-- The dict, the clock and the threads, each with the call it makes now and when it began, and the calls it has still to make; the calls ended, in the order of their ends.
(Part of the model of `ExpiringEntryDict`, /repo/satella/coding/structures/dictionaries/expiring.py:139-226.) -/
structure St where
  clock : Int
  lock : Option Nat
  heap : List (Int × Nat)
  stamps : Nat → Option Int
  data : Nat → Option Nat
  pc : Nat → Pc
  now : Nat → Call × Int
  todo : Nat → List Call
  log : List Done

/-- What happens: a thread makes a step, or time passes.  (Part of the model of `ExpiringEntryDict`, /repo/satella/coding/structures/dictionaries/expiring.py:139-226.) -/
inductive Ev where
  | run (t : Nat)
  | tick (d : Nat)
  deriving DecidableEq, Repr

/-- an entry put at its place: `heapq.heappush`, called by /repo/satella/coding/structures/heaps/time.py:224 -/
def insert (x : Int × Nat) : List (Int × Nat) → List (Int × Nat)
  | [] => [x]
  | y :: ys => if x.1 < y.1 then x :: y :: ys else y :: insert x ys

/-- the entry of an item taken out, if it is there: `pop_item`, /repo/satella/coding/structures/heaps/time.py:212-215 -/
def popItem (k : Nat) : List (Int × Nat) → Option (List (Int × Nat))
  | [] => none
  | y :: ys => if y.2 = k then some ys else (popItem k ys).map (y :: ·)

/-- The thread goes on to `p`.  (Part of the model of `ExpiringEntryDict`, /repo/satella/coding/structures/dictionaries/expiring.py:139-226.) -/
def St.at_ (s : St) (t : Nat) (p : Pc) : St := { s with pc := upd s.pc t p }

/-- The call of the thread ends.  (Part of the model of `ExpiringEntryDict`, /repo/satella/coding/structures/dictionaries/expiring.py:139-226.) -/
def St.finish (s : St) (t : Nat) (r : Res) : St :=
  { s with pc := upd s.pc t .idle, log := s.log ++ [⟨t, (s.now t).1, (s.now t).2, s.clock, r⟩] }

/-- the first step of a call.  (Part of the model of `ExpiringEntryDict`, /repo/satella/coding/structures/dictionaries/expiring.py:139-226.) -/
def entry : Call → Pc
  | .set k v => .setLock k v
  | .get k => .getTs k
  | .has k => .hasTs k
  | .del k => .delLock k .ok
  | .clean => .cleanLock

/-- A step of a thread: `__setitem__` with `put` and `push` (/repo/satella/coding/structures/dictionaries/expiring.py:209-212, /repo/satella/coding/structures/heaps/time.py:220-225),
`__getitem__` (/repo/satella/coding/structures/dictionaries/expiring.py:214-221), `__contains__` (/repo/satella/coding/structures/dictionaries/expiring.py:179-189),
`__delitem__` (/repo/satella/coding/structures/dictionaries/expiring.py:223-226), `cleanup` with `pop_less_than` and `pop`
(/repo/satella/coding/structures/dictionaries/expiring.py:203-207, /repo/satella/coding/structures/heaps/time.py:227-230, 262-265). -/
def step (timeout : Int) (s : St) (t : Nat) : St :=
  match s.pc t with
  | .idle =>
    match s.todo t with
    | [] => s
    | c :: cs => { s with todo := upd s.todo t cs, now := upd s.now t (c, s.clock), pc := upd s.pc t (entry c) }
  | .setLock k v => if s.lock = none then { s with lock := some t, pc := upd s.pc t (.setClock k v) } else s
  | .setClock k v => s.at_ t (.setTest k v (s.clock + timeout))
  | .setTest k v ts => s.at_ t (if (s.stamps k).isSome then .setPop k v ts else .setPush k v ts)
  | .setPop k v ts =>
    match popItem k s.heap with
    | none => s.at_ t (.unlock .valueError)
    | some h => { s with heap := h, pc := upd s.pc t (.setDel k v ts) }
  | .setDel k v ts =>
    match s.stamps k with
    | none => s.at_ t (.unlock .keyError)
    | some _ => { s with stamps := upd s.stamps k none, pc := upd s.pc t (.setPush k v ts) }
  | .setPush k v ts => { s with heap := insert (ts, k) s.heap, pc := upd s.pc t (.setTs k v ts) }
  | .setTs k v ts => { s with stamps := upd s.stamps k (some ts), pc := upd s.pc t (.setData k v) }
  | .setData k v => { s with data := upd s.data k (some v), pc := upd s.pc t (.unlock .ok) }
  | .getTs k =>
    match s.stamps k with
    | none => s.finish t .keyError
    | some ts => s.at_ t (.getClock k ts)
  | .getClock k ts => s.at_ t (if ts < s.clock then .getDrop k else .getData k)
  | .getDrop k => { s with data := upd s.data k none }.finish t .keyError
  | .getData k =>
    match s.data k with
    | none => s.finish t .keyError
    | some v => s.finish t (.value v)
  | .hasTs k =>
    match s.stamps k with
    | none => s.finish t (.bool false)
    | some ts => s.at_ t (.hasClock k ts)
  | .hasClock k ts => if ts < s.clock then s.at_ t (.delLock k (.bool false)) else s.finish t (.bool true)
  | .delLock k r => if s.lock = none then { s with lock := some t, pc := upd s.pc t (.delPop k r) } else s
  | .delPop k r =>
    match popItem k s.heap with
    | none => s.at_ t (.unlock .valueError)
    | some h => { s with heap := h, pc := upd s.pc t (.delTs k r) }
  | .delTs k r =>
    match s.stamps k with
    | none => s.at_ t (.unlock .keyError)
    | some _ => { s with stamps := upd s.stamps k none, pc := upd s.pc t (.delData k r) }
  | .delData k r =>
    match s.data k with
    | none => s.at_ t (.unlock .keyError)
    | some _ => { s with data := upd s.data k none, pc := upd s.pc t (.unlock r) }
  | .cleanLock => if s.lock = none then { s with lock := some t, pc := upd s.pc t .cleanClock } else s
  | .cleanClock => s.at_ t (.cleanLoop s.clock)
  | .cleanLoop now =>
    match s.heap with
    | [] => s.at_ t (.unlock .ok)
    | (ts, k) :: h => if ts ≥ now then s.at_ t (.unlock .ok) else { s with heap := h, pc := upd s.pc t (.cleanTs now k) }
  | .cleanTs now k =>
    match s.stamps k with
    | none => s.at_ t (.unlock .keyError)
    | some _ => { s with stamps := upd s.stamps k none, pc := upd s.pc t (.cleanData now k) }
  | .cleanData now k =>
    match s.data k with
    | none => s.at_ t (.unlock .keyError)
    | some _ => { s with data := upd s.data k none, pc := upd s.pc t (.cleanLoop now) }
  | .unlock r => { s with lock := none }.finish t r

/-- an event.  (Part of the model of `ExpiringEntryDict`, /repo/satella/coding/structures/dictionaries/expiring.py:139-226.) -/
def act (timeout : Int) (s : St) : Ev → St
  | .run t => step timeout s t
  | .tick d => { s with clock := s.clock + d }

/-- a schedule.  (Part of the model of `ExpiringEntryDict`, /repo/satella/coding/structures/dictionaries/expiring.py:139-226.) -/
def run (timeout : Int) (s : St) (l : List Ev) : St := l.foldl (act timeout) s

/-- an empty dict and threads with the calls that they will make, /repo/satella/coding/structures/dictionaries/expiring.py:162-170 -/
def init (prog : Nat → List Call) : St :=
  ⟨0, none, [], fun _ => none, fun _ => none, fun _ => .idle, fun _ => (.clean, 0), prog, []⟩

/-! ## Specification -/

/-- `a` ended before `b` did. -/
def Before (log : List Done) (a b : Done) : Prop := ∃ i j : Nat, i < j ∧ log[i]? = some a ∧ log[j]? = some b

/-- The key is assigned once, by one of the threads, and not deleted; it may be looked up by all threads at any time, and anything may be done with other keys. -/
def AssignedOnce (prog : Nat → List Call) (k v t₀ : Nat) : Prop :=
  (∀ t, ∀ c ∈ prog t, c = .del k ∨ (∃ w, c = .set k w) → t = t₀ ∧ c = .set k v) ∧ (prog t₀).count (.set k v) = 1

/-! ## Invariant -/

theorem mem_insert (x y : Int × Nat) (h : List (Int × Nat)) : y ∈ insert x h ↔ y = x ∨ y ∈ h := by
  induction h with
  | nil => simp [insert]
  | cons z zs ih =>
    simp only [insert]
    split
    · simp
    · simp only [List.mem_cons, ih]; grind

theorem mem_popItem {k : Nat} {h h' : List (Int × Nat)} (e : popItem k h = some h') (y : Int × Nat) : (y ∈ h' → y ∈ h) ∧ (y ∈ h → y.2 ≠ k → y ∈ h') := by
  induction h generalizing h' with
  | nil => simp [popItem] at e
  | cons z zs ih =>
    simp only [popItem] at e
    split at e
    · rename_i hz
      cases e
      refine ⟨fun hy => List.mem_cons_of_mem _ hy, fun hy hk => ?_⟩
      rcases List.mem_cons.1 hy with rfl | hy
      · exact absurd hz hk
      · exact hy
    · cases hp : popItem k zs with
      | none => rw [hp] at e; simp at e
      | some zs' =>
        rw [hp] at e
        simp only [Option.map_some, Option.some.injEq] at e
        subst e
        have ih := ih hp
        refine ⟨fun hy => ?_, fun hy hk => ?_⟩
        · rcases List.mem_cons.1 hy with rfl | hy
          · simp
          · exact List.mem_cons_of_mem _ (ih.1 hy)
        · rcases List.mem_cons.1 hy with rfl | hy
          · simp
          · exact List.mem_cons_of_mem _ (ih.2 hy hk)

/-- How far the only assignment of `k` is, by where its thread is: 0 nothing is there, 1 its entry is in the heap, 2 its timestamp is there, 3 its value is there. -/
def base (k : Nat) : Pc → Nat
  | .setTest k' _ _ => if k' = k then 0 else 3
  | .setPush k' _ _ => if k' = k then 0 else 3
  | .setTs k' _ _ => if k' = k then 1 else 3
  | .setData k' _ => if k' = k then 2 else 3
  | _ => 3

/-- the level, 0 if the assignment has not read the clock yet -/
def lvl (k : Nat) (T : Option Int) (p : Pc) : Nat := if T = none then 0 else base k p

/-- the entry of `k` has expired -/
def Dead (T : Option Int) (clock : Int) : Prop := ∃ x, T = some x ∧ x < clock

/-- What a place of a thread means for the key `k`, whose entry expires at `T` (`none`: there is no entry yet). -/
def PcOk (timeout : Int) (k v t₀ : Nat) (T : Option Int) (clock : Int) (t : Nat) (call : Call × Int) : Pc → Prop
  | .idle => True
  | .setLock k' w => call.1 = .set k' w ∧ call.2 ≤ clock ∧ (k' = k → t = t₀ ∧ w = v ∧ T = none)
  | .setClock k' w => call.1 = .set k' w ∧ call.2 ≤ clock ∧ (k' = k → t = t₀ ∧ w = v ∧ T = none)
  | .setTest k' w ts => call.1 = .set k' w ∧ (k' = k → t = t₀ ∧ w = v ∧ T = some ts ∧ call.2 + timeout ≤ ts)
  | .setPop k' w _ => call.1 = .set k' w ∧ k' ≠ k
  | .setDel k' w _ => call.1 = .set k' w ∧ k' ≠ k
  | .setPush k' w ts => call.1 = .set k' w ∧ (k' = k → t = t₀ ∧ w = v ∧ T = some ts ∧ call.2 + timeout ≤ ts)
  | .setTs k' w ts => call.1 = .set k' w ∧ (k' = k → t = t₀ ∧ w = v ∧ T = some ts ∧ call.2 + timeout ≤ ts)
  | .setData k' w => call.1 = .set k' w ∧ (k' = k → t = t₀ ∧ w = v ∧ ∃ x, T = some x ∧ call.2 + timeout ≤ x)
  | .getTs k' => call.1 = .get k' ∧ call.2 ≤ clock
  | .getClock k' ts => call.1 = .get k' ∧ call.2 ≤ clock ∧ (k' = k → T = some ts)
  | .getDrop k' => call.1 = .get k' ∧ (k' = k → Dead T clock)
  | .getData k' => call.1 = .get k' ∧ (k' = k → ∃ x, T = some x ∧ call.2 ≤ x)
  | .hasTs k' => call.1 = .has k' ∧ call.2 ≤ clock
  | .hasClock k' ts => call.1 = .has k' ∧ call.2 ≤ clock ∧ (k' = k → T = some ts)
  | .delLock k' r => (call.1 = .has k' ∧ r = .bool false ∨ call.1 = .del k' ∧ k' ≠ k) ∧ (k' = k → Dead T clock)
  | .delPop k' r => (call.1 = .has k' ∧ r = .bool false ∨ call.1 = .del k' ∧ k' ≠ k) ∧ (k' = k → Dead T clock)
  | .delTs k' r => (call.1 = .has k' ∧ r = .bool false ∨ call.1 = .del k' ∧ k' ≠ k) ∧ (k' = k → Dead T clock)
  | .delData k' r => (call.1 = .has k' ∧ r = .bool false ∨ call.1 = .del k' ∧ k' ≠ k) ∧ (k' = k → Dead T clock)
  | .cleanLock => call.1 = .clean
  | .cleanClock => call.1 = .clean
  | .cleanLoop now => call.1 = .clean ∧ now ≤ clock
  | .cleanTs now k' => call.1 = .clean ∧ now ≤ clock ∧ (k' = k → Dead T clock)
  | .cleanData now k' => call.1 = .clean ∧ now ≤ clock ∧ (k' = k → Dead T clock)
  | .unlock r => (∀ k' w, call.1 = .set k' w → k' = k → t = t₀ ∧ w = v ∧ r = .ok ∧ ∃ x, T = some x ∧ call.2 + timeout ≤ x) ∧
      (∀ k', call.1 ≠ .get k') ∧ (∀ k', call.1 = .has k' → r ≠ .bool true ∧ (k' = k → Dead T clock)) ∧ call.1 ≠ .del k

/-- What the memory holds of `k`: at most what the assignment has put there, and all of that as long as it has not expired. -/
def Mem (k v : Nat) (T : Option Int) (clock : Int) (heap : List (Int × Nat)) (st : Option Int) (dt : Option Nat) (n : Nat) : Prop :=
  (∀ ts, st = some ts → T = some ts ∧ 2 ≤ n) ∧ (∀ w, dt = some w → w = v ∧ 3 ≤ n) ∧ (∀ ts, (ts, k) ∈ heap → T = some ts ∧ 1 ≤ n) ∧
  (∀ x, T = some x → clock ≤ x → (1 ≤ n → (x, k) ∈ heap) ∧ (2 ≤ n → st = some x) ∧ (3 ≤ n → dt = some v))

theorem Mem.heap_congr {k v : Nat} {T : Option Int} {clock : Int} {heap heap' : List (Int × Nat)} {st : Option Int} {dt : Option Nat} {n : Nat}
    (h : Mem k v T clock heap st dt n) (e : ∀ x, (x, k) ∈ heap' ↔ (x, k) ∈ heap) : Mem k v T clock heap' st dt n := by
  obtain ⟨h1, h2, h3, h4⟩ := h
  exact ⟨h1, h2, fun ts hts => h3 ts ((e ts).1 hts), fun x hx hc => ⟨fun hn => (e x).2 ((h4 x hx hc).1 hn), (h4 x hx hc).2⟩⟩

theorem Mem.drop {k v : Nat} {T : Option Int} {clock : Int} {heap heap' : List (Int × Nat)} {st st' : Option Int} {dt dt' : Option Nat} {n : Nat}
    (h : Mem k v T clock heap st dt n) (hd : Dead T clock) (e1 : ∀ x, (x, k) ∈ heap' → (x, k) ∈ heap) (e2 : st' = st ∨ st' = none) (e3 : dt' = dt ∨ dt' = none) :
    Mem k v T clock heap' st' dt' n := by
  obtain ⟨h1, h2, h3, h4⟩ := h
  obtain ⟨x, hx, hlt⟩ := hd
  refine ⟨fun ts hts => h1 ts ?_, fun w hw => h2 w ?_, fun ts hts => h3 ts (e1 ts hts), fun y hy hc => ?_⟩
  · rcases e2 with e | e
    · rw [← e]; exact hts
    · rw [e] at hts; simp at hts
  · rcases e3 with e | e
    · rw [← e]; exact hw
    · rw [e] at hw; simp at hw
  · rw [hx] at hy; cases hy; omega

/-- What is known of the calls that have ended. -/
def LogOk (timeout : Int) (k v t₀ : Nat) (T : Option Int) (log : List Done) (n : Nat) : Prop :=
  (∀ e ∈ log, ∀ w, e.call = .set k w → e.thread = t₀ ∧ w = v ∧ e.res = .ok ∧ n = 3 ∧ ∃ x, T = some x ∧ e.began + timeout ≤ x ∧ x ≤ e.ended + timeout) ∧
  (∀ e ∈ log, e.call = .get k → ∀ w, e.res = .value w → w = v ∧ ∃ x, T = some x ∧ e.began ≤ x) ∧
  (∀ e ∈ log, e.call = .has k → e.res = .bool true → ∃ x, T = some x ∧ e.began ≤ x) ∧
  (∀ a b, Before log a b → ∀ w, a.call = .set k w → ∀ x, T = some x → b.ended ≤ x → (b.call = .get k → b.res = .value v) ∧ (b.call = .has k → b.res = .bool true))

/-- neither place is that of the assignment of `k` before it has read the clock -/
def NotFirst (k : Nat) (p : Pc) : Prop := (∀ w, p ≠ .setLock k w) ∧ (∀ w, p ≠ .setClock k w)

structure Inv (timeout : Int) (k v t₀ : Nat) (T : Option Int) (s : St) : Prop where
  pc : ∀ t, PcOk timeout k v t₀ T s.clock t (s.now t) (s.pc t)
  todo : ∀ t, ∀ c ∈ s.todo t, c = .del k ∨ (∃ w, c = .set k w) → t = t₀ ∧ c = .set k v
  once : (s.todo t₀).count (.set k v) ≤ 1
  fresh : .set k v ∈ s.todo t₀ → T = none
  notyet : T = none → (.set k v ∈ s.todo t₀) ∨ (∃ w, s.pc t₀ = .setLock k w) ∨ (∃ w, s.pc t₀ = .setClock k w)
  taken : ¬ NotFirst k (s.pc t₀) → .set k v ∉ s.todo t₀
  late : ∀ x, T = some x → x ≤ s.clock + timeout
  mem : Mem k v T s.clock s.heap (s.stamps k) (s.data k) (lvl k T (s.pc t₀))
  log : LogOk timeout k v t₀ T s.log (lvl k T (s.pc t₀))

theorem base_upd {k t t₀ : Nat} {pc : Nat → Pc} {p : Pc} (h : base k p = base k (pc t)) : base k (upd pc t p t₀) = base k (pc t₀) := by
  by_cases e : t₀ = t
  · subst e; rw [upd_same, h]
  · rw [upd_other _ _ e]

theorem lvl_upd {k t t₀ : Nat} {T : Option Int} {pc : Nat → Pc} {p : Pc} (h : base k p = base k (pc t)) : lvl k T (upd pc t p t₀) = lvl k T (pc t₀) := by
  simp only [lvl, base_upd h]

/-- a thread goes on; the level of the assignment stays, or is the new one -/
theorem Inv.move {timeout : Int} {k v t₀ : Nat} {T : Option Int} {s : St} (h : Inv timeout k v t₀ T s) (t : Nat) (p : Pc) (lock' : Option Nat)
    (heap' : List (Int × Nat)) (stamps' : Nat → Option Int) (data' : Nat → Option Nat)
    (hp : PcOk timeout k v t₀ T s.clock t (s.now t) p)
    (hn : t = t₀ → NotFirst k (s.pc t) ∧ NotFirst k p ∨ ¬ NotFirst k (s.pc t) ∧ ¬ NotFirst k p)
    (hm : Mem k v T s.clock heap' (stamps' k) (data' k) (lvl k T (upd s.pc t p t₀)))
    (hl : lvl k T (s.pc t₀) = 3 → lvl k T (upd s.pc t p t₀) = 3) :
    Inv timeout k v t₀ T { s with lock := lock', heap := heap', stamps := stamps', data := data', pc := upd s.pc t p } where
  pc := by
    intro u; by_cases e : u = t
    · subst e; simpa [upd_same] using hp
    · simpa [upd_other _ _ e] using h.pc u
  todo := h.todo
  once := h.once
  fresh := h.fresh
  notyet := by
    intro hT
    rcases h.notyet hT with h1 | h1
    · exact Or.inl h1
    · right
      by_cases e : t₀ = t
      · subst e
        rcases hn rfl with hn | hn
        · rcases h1 with ⟨w, h1⟩ | ⟨w, h1⟩
          · exact absurd h1 (hn.1.1 w)
          · exact absurd h1 (hn.1.2 w)
        · have hn := hn.2
          simp only [upd_same]
          simp only [NotFirst, ne_eq, Classical.not_and_iff_not_or_not, Classical.not_forall, Classical.not_not] at hn
          exact hn
      · simpa [upd_other _ _ e] using h1
  taken := by
    intro hT
    refine h.taken (fun hf => hT ?_)
    by_cases e : t₀ = t
    · subst e
      simp only [upd_same]
      rcases hn rfl with hn | hn
      · exact hn.2
      · exact absurd hf hn.1
    · simpa only [upd_other _ _ e] using hf
  late := h.late
  mem := hm
  log := by
    obtain ⟨h1, h2⟩ := h.log
    refine ⟨fun e he w hw => ?_, h2⟩
    obtain ⟨a, b, c, d, f⟩ := h1 e he w hw
    exact ⟨a, b, c, hl d, f⟩

/-- a call ends -/
theorem Inv.finish {timeout : Int} {k v t₀ : Nat} {T : Option Int} {s : St} (h : Inv timeout k v t₀ T s) (t : Nat) (r : Res) (lock' : Option Nat) (data' : Nat → Option Nat)
    (hn : t = t₀ → NotFirst k (s.pc t))
    (hb : base k (s.pc t) = 3)
    (hm : Mem k v T s.clock s.heap (s.stamps k) (data' k) (lvl k T (s.pc t₀)))
    (hset : ∀ w, (s.now t).1 = .set k w → t = t₀ ∧ w = v ∧ r = .ok ∧ ∃ x, T = some x ∧ (s.now t).2 + timeout ≤ x)
    (hget : (s.now t).1 = .get k → (∀ w, r = .value w → w = v ∧ ∃ x, T = some x ∧ (s.now t).2 ≤ x) ∧
      (lvl k T (s.pc t₀) = 3 → ∀ x, T = some x → s.clock ≤ x → r = .value v))
    (hhas : (s.now t).1 = .has k → (r = .bool true → ∃ x, T = some x ∧ (s.now t).2 ≤ x) ∧
      (lvl k T (s.pc t₀) = 3 → ∀ x, T = some x → s.clock ≤ x → r = .bool true)) :
    Inv timeout k v t₀ T (St.finish { s with lock := lock', data := data' } t r) where
  pc := by
    intro u; by_cases e : u = t
    · subst e; simp [St.finish, upd_same, PcOk]
    · simpa [St.finish, upd_other _ _ e] using h.pc u
  todo := h.todo
  once := h.once
  fresh := h.fresh
  notyet := by
    intro hT
    rcases h.notyet hT with h1 | h1
    · exact Or.inl h1
    · right
      by_cases e : t₀ = t
      · subst e
        have hn := hn rfl
        rcases h1 with ⟨w, h1⟩ | ⟨w, h1⟩
        · exact absurd h1 (hn.1 w)
        · exact absurd h1 (hn.2 w)
      · simpa [St.finish, upd_other _ _ e] using h1
  taken := by
    intro hT
    refine h.taken (fun hf => hT ?_)
    by_cases e : t₀ = t
    · subst e
      simp [St.finish, upd_same, NotFirst]
    · simpa only [St.finish, upd_other _ _ e] using hf
  late := h.late
  mem := by
    simp only [St.finish]
    rw [lvl_upd (by rw [hb]; rfl)]
    exact hm
  log := by
    obtain ⟨h1, h2, h3, h4⟩ := h.log
    have hlv : lvl k T (upd s.pc t .idle t₀) = lvl k T (s.pc t₀) := lvl_upd (by rw [hb]; rfl)
    simp only [St.finish]
    rw [hlv]
    refine ⟨?_, ?_, ?_, ?_⟩
    · intro e he w hw
      rcases List.mem_append.1 he with he | he
      · exact h1 e he w hw
      · simp only [List.mem_singleton] at he
        subst he
        obtain ⟨a, b, c, x, hx, hx'⟩ := hset w hw
        refine ⟨a, b, c, ?_, x, hx, hx', h.late x hx⟩
        subst a
        simp [lvl, hx, hb]
    · intro e he hc w hw
      rcases List.mem_append.1 he with he | he
      · exact h2 e he hc w hw
      · simp only [List.mem_singleton] at he
        subst he
        exact (hget hc).1 w hw
    · intro e he hc hr
      rcases List.mem_append.1 he with he | he
      · exact h3 e he hc hr
      · simp only [List.mem_singleton] at he
        subst he
        exact (hhas hc).1 hr
    · rintro a b ⟨i, j, hij, hi, hj⟩ w hw x hx hbx
      have hjl : j < (s.log ++ [(⟨t, (s.now t).1, (s.now t).2, s.clock, r⟩ : Done)]).length := (List.getElem?_eq_some_iff.1 hj).1
      simp only [List.length_append, List.length_singleton] at hjl
      have hi' : s.log[i]? = some a := by rw [List.getElem?_append_left (by omega)] at hi; exact hi
      by_cases hlast : j = s.log.length
      · subst hlast
        simp only [List.getElem?_append_right (Nat.le_refl _), Nat.sub_self, List.getElem?_cons_zero, Option.some.injEq] at hj
        subst hj
        obtain ⟨_, _, _, h33, _⟩ := h1 a (List.mem_of_getElem? hi') w hw
        exact ⟨fun hc => (hget hc).2 h33 x hx hbx, fun hc => (hhas hc).2 h33 x hx hbx⟩
      · rw [List.getElem?_append_left (by omega)] at hj
        exact h4 a b ⟨i, j, hij, hi', hj⟩ w hw x hx hbx

theorem PcOk.tick {timeout : Int} {k v t₀ : Nat} {T : Option Int} {clock clock' : Int} {t : Nat} {call : Call × Int} {p : Pc}
    (h : PcOk timeout k v t₀ T clock t call p) (hc : clock ≤ clock') : PcOk timeout k v t₀ T clock' t call p := by
  have hd : Dead T clock → Dead T clock' := by rintro ⟨x, h1, h2⟩; exact ⟨x, h1, by omega⟩
  cases p <;> simp only [PcOk] at h ⊢ <;> grind

theorem PcOk.some {timeout : Int} {k v t₀ : Nat} {clock x : Int} {t : Nat} {call : Call × Int} {p : Pc}
    (h : PcOk timeout k v t₀ none clock t call p) (ht : t ≠ t₀) : PcOk timeout k v t₀ (some x) clock t call p := by
  have hd : ¬ Dead none clock := by rintro ⟨x, h1, h2⟩; simp at h1
  cases p <;> simp only [PcOk] at h ⊢ <;> grind

theorem Inv.tick {timeout : Int} {k v t₀ : Nat} {T : Option Int} {s : St} (h : Inv timeout k v t₀ T s) (d : Nat) :
    Inv timeout k v t₀ T { s with clock := s.clock + d } where
  pc := fun t => (h.pc t).tick (by simp only; omega)
  todo := h.todo
  once := h.once
  fresh := h.fresh
  notyet := h.notyet
  taken := h.taken
  late := by intro x hx; have := h.late x hx; simp only; omega
  mem := by
    obtain ⟨h1, h2, h3, h4⟩ := h.mem
    exact ⟨h1, h2, h3, fun x hx hc => h4 x hx (by simp only at hc; omega)⟩
  log := h.log

theorem lvl_three {k : Nat} {T : Option Int} {p : Pc} (h : lvl k T p = 3) : T ≠ none := by
  intro e; simp [lvl, e] at h

/-- a new call begins -/
theorem Inv.begin_ {timeout : Int} {k v t₀ : Nat} {T : Option Int} {s : St} (h : Inv timeout k v t₀ T s) (t : Nat) (c : Call) (cs : List Call)
    (hpc : s.pc t = .idle) (htd : s.todo t = c :: cs) :
    Inv timeout k v t₀ T { s with todo := upd s.todo t cs, now := upd s.now t (c, s.clock), pc := upd s.pc t (entry c) } where
  pc := by
    intro u; by_cases e : u = t
    · subst e
      simp only [upd_same]
      have hc := h.todo u c (by rw [htd]; simp)
      cases c with
      | set k' w =>
        simp only [entry, PcOk]
        refine ⟨trivial, Int.le_refl _, ?_⟩
        rintro rfl
        obtain ⟨h1, h2⟩ := hc (Or.inr ⟨w, rfl⟩)
        cases h2
        refine ⟨h1, ?_, h.fresh (by rw [← h1, htd]; simp)⟩
        trivial
      | get k' => simp [entry, PcOk]
      | has k' => simp [entry, PcOk]
      | del k' =>
        simp only [entry, PcOk]
        have : k' ≠ k := by
          rintro rfl
          have := (hc (Or.inl rfl)).2
          cases this
        simp [this]
      | clean => simp [entry, PcOk]
    · simpa [upd_other _ _ e] using h.pc u
  todo := by
    intro u c' hc'
    by_cases e : u = t
    · subst e
      simp only [upd_same] at hc'
      exact h.todo u c' (by rw [htd]; simp [hc'])
    · simp only [upd_other _ _ e] at hc'
      exact h.todo u c' hc'
  once := by
    have := h.once
    by_cases e : t₀ = t
    · subst e
      simp only [upd_same]
      rw [htd, List.count_cons] at this
      omega
    · simpa [upd_other _ _ e] using this
  fresh := by
    by_cases e : t₀ = t
    · subst e
      simp only [upd_same]
      intro hm
      exact h.fresh (by rw [htd]; simp [hm])
    · simpa [upd_other _ _ e] using h.fresh
  notyet := by
    intro hT
    have := h.notyet hT
    by_cases e : t₀ = t
    · subst e
      simp only [upd_same]
      rw [hpc, htd] at this
      rcases this with h1 | ⟨w, h1⟩ | ⟨w, h1⟩
      · rcases List.mem_cons.1 h1 with h1 | h1
        · right; left; exact ⟨v, by rw [← h1]; rfl⟩
        · left; exact h1
      · simp at h1
      · simp at h1
    · simpa [upd_other _ _ e] using this
  taken := by
    by_cases e : t₀ = t
    · subst e
      simp only [upd_same]
      intro hT hmem
      have ho := h.once
      rw [htd, List.count_cons] at ho
      have h1 : 1 ≤ cs.count (.set k v) := List.one_le_count_iff.2 hmem
      have hc := h.todo t₀ c (by rw [htd]; simp)
      cases c with
      | set k' w =>
        by_cases e : k' = k
        · subst e
          have := (hc (Or.inr ⟨w, rfl⟩)).2
          cases this
          simp at ho; omega
        · exact hT (by simp [NotFirst, entry, e])
      | get k' => exact hT (by simp [NotFirst, entry])
      | has k' => exact hT (by simp [NotFirst, entry])
      | del k' => exact hT (by simp [NotFirst, entry])
      | clean => exact hT (by simp [NotFirst, entry])
    · simpa [upd_other _ _ e] using h.taken
  late := h.late
  mem := by
    have : lvl k T (upd s.pc t (entry c) t₀) = lvl k T (s.pc t₀) := lvl_upd (by rw [hpc]; cases c <;> rfl)
    simp only [this]
    exact h.mem
  log := by
    have : lvl k T (upd s.pc t (entry c) t₀) = lvl k T (s.pc t₀) := lvl_upd (by rw [hpc]; cases c <;> rfl)
    simp only [this]
    exact h.log

theorem upd_key {α : Type} {f : Nat → α} {k k' : Nat} {x : α} (h : k' ≠ k) : upd f k' x k = f k := upd_other _ _ (fun e => h e.symm)

theorem inv_step {timeout : Int} {k v t₀ : Nat} {T : Option Int} {s : St} (h : Inv timeout k v t₀ T s) (t : Nat) : ∃ T', Inv timeout k v t₀ T' (step timeout s t) := by
  have hp := h.pc t
  have hm := h.mem
  -- a move that leaves the memory of `k` and the level alone
  have easy : ∀ (p : Pc) (lock' : Option Nat) (heap' : List (Int × Nat)) (stamps' : Nat → Option Int) (data' : Nat → Option Nat),
      PcOk timeout k v t₀ T s.clock t (s.now t) p → (NotFirst k (s.pc t) ∧ NotFirst k p ∨ ¬ NotFirst k (s.pc t) ∧ ¬ NotFirst k p) → base k p = base k (s.pc t) →
      Mem k v T s.clock heap' (stamps' k) (data' k) (lvl k T (s.pc t₀)) →
      Inv timeout k v t₀ T { s with lock := lock', heap := heap', stamps := stamps', data := data', pc := upd s.pc t p } := by
    intro p lock' heap' stamps' data' h1 h2 h3 h4
    exact h.move t p lock' heap' stamps' data' h1 (fun _ => h2) (by rw [lvl_upd h3]; exact h4) (by rw [lvl_upd h3]; exact id)
  have nodead : ∀ x, T = some x → s.clock ≤ x → ¬ Dead T s.clock := by
    rintro x hx hc ⟨y, hy, hlt⟩
    rw [hx] at hy; cases hy; omega
  have popcongr : ∀ (k' : Nat) (h' : List (Int × Nat)), popItem k' s.heap = some h' → k' ≠ k → ∀ x, (x, k) ∈ h' ↔ (x, k) ∈ s.heap := by
    intro k' h' e hk x
    exact ⟨(mem_popItem e (x, k)).1, fun hx => (mem_popItem e (x, k)).2 hx (fun e => hk e.symm)⟩
  unfold step
  cases hpc : s.pc t with
  | idle =>
    cases htd : s.todo t with
    | nil => exact ⟨T, by simpa [hpc, htd] using h⟩
    | cons c cs => exact ⟨T, by simpa [hpc, htd] using h.begin_ t c cs hpc htd⟩
  | setLock k' w =>
    rw [hpc] at hp
    dsimp only
    split
    · refine ⟨T, easy _ _ _ _ _ hp ?_ (by rw [hpc]; rfl) hm⟩
      by_cases e : k' = k
      · right; subst e; rw [hpc]; simp [NotFirst]
      · left; rw [hpc]; simp [NotFirst, e]
    · exact ⟨T, h⟩
  | setClock k' w =>
    rw [hpc] at hp
    dsimp only [St.at_]
    by_cases e : k' = k
    · subst e
      obtain ⟨h1, h2, h3⟩ := hp
      obtain ⟨h3, h4, h5⟩ := h3 rfl
      subst h3 h4 h5
      have hl0 : lvl k' none (s.pc t) = 0 := by simp [lvl]
      rw [hl0] at hm
      obtain ⟨m1, m2, m3, m4⟩ := hm
      obtain ⟨l1, l2, l3, l4⟩ := h.log
      rw [hl0] at l1
      refine ⟨some (s.clock + timeout), ?_⟩
      refine ⟨?_, h.todo, h.once, ?_, by simp, by simp [upd_same, NotFirst], ?_, ?_, ?_⟩
      · intro u
        by_cases eu : u = t
        · subst eu; simp only [upd_same, PcOk]; refine ⟨h1, fun _ => ⟨?_, ?_, ?_, by omega⟩⟩ <;> trivial
        · simp only [upd_other _ _ eu]; exact (h.pc u).some eu
      · intro hmem
        exact absurd hmem (h.taken (by rw [hpc]; simp [NotFirst]))
      · intro x hx; cases hx; simp
      · simp only [upd_same, lvl, base]
        refine ⟨fun ts hts => ?_, fun z hz => ?_, fun ts hts => ?_, fun x hx hc => by simp⟩
        · have := (m1 ts hts).2; omega
        · have := (m2 z hz).2; omega
        · have := (m3 ts hts).2; omega
      · simp only [upd_same]
        refine ⟨fun e he z hz => ?_, fun e he hc z hz => ?_, fun e he hc hr => ?_, ?_⟩
        · have := (l1 e he z hz).2.2.2.1; omega
        · obtain ⟨_, x, hx, _⟩ := l2 e he hc z hz; simp at hx
        · obtain ⟨x, hx, _⟩ := l3 e he hc hr; simp at hx
        · rintro a b ⟨i, j, hij, hi, hj⟩ z hz
          have := (l1 a (List.mem_of_getElem? hi) z hz).2.2.2.1; omega
    · refine ⟨T, easy _ s.lock s.heap s.stamps s.data ?_ (Or.inl ?_) (by rw [hpc]; simp [base, e]) hm⟩
      · exact ⟨hp.1, fun x => absurd x e⟩
      · rw [hpc]; simp [NotFirst, e]
  | setTest k' w ts =>
    rw [hpc] at hp
    dsimp only [St.at_]
    by_cases e : k' = k
    · subst e
      obtain ⟨h1, h2⟩ := hp
      obtain ⟨h3, h4, h5, h6⟩ := h2 rfl
      subst h3 h4
      have hn : s.stamps k' = none := by
        cases hst : s.stamps k' with
        | none => rfl
        | some z =>
          have := (hm.1 z hst).2
          simp [lvl, hpc, base, h5] at this
      rw [hn]
      refine ⟨T, easy _ s.lock s.heap s.stamps s.data ⟨h1, fun _ => ⟨rfl, rfl, h5, h6⟩⟩ (Or.inl ?_) (by rw [hpc]; rfl) hm⟩
      rw [hpc]; simp [NotFirst]
    · split
      · refine ⟨T, easy _ s.lock s.heap s.stamps s.data ⟨hp.1, e⟩ (Or.inl ?_) (by rw [hpc]; simp [base, e]) hm⟩
        rw [hpc]; simp [NotFirst]
      · refine ⟨T, easy _ s.lock s.heap s.stamps s.data ⟨hp.1, fun x => absurd x e⟩ (Or.inl ?_) (by rw [hpc]; simp [base, e]) hm⟩
        rw [hpc]; simp [NotFirst]
  | setPop k' w ts =>
    rw [hpc] at hp
    dsimp only [St.at_]
    cases hpi : popItem k' s.heap with
    | none =>
      refine ⟨T, easy _ s.lock s.heap s.stamps s.data ?_ (Or.inl ?_) (by rw [hpc]; rfl) hm⟩
      · simp only [PcOk, hp.1]; grind [hp.2]
      · rw [hpc]; simp [NotFirst]
    | some h' =>
      refine ⟨T, easy _ s.lock h' s.stamps s.data hp (Or.inl ?_) (by rw [hpc]; rfl) (hm.heap_congr (popcongr k' h' hpi hp.2))⟩
      rw [hpc]; simp [NotFirst]
  | setDel k' w ts =>
    rw [hpc] at hp
    dsimp only [St.at_]
    cases hst : s.stamps k' with
    | none =>
      refine ⟨T, easy _ s.lock s.heap s.stamps s.data ?_ (Or.inl ?_) (by rw [hpc]; rfl) hm⟩
      · simp only [PcOk, hp.1]; grind [hp.2]
      · rw [hpc]; simp [NotFirst]
    | some z =>
      refine ⟨T, easy _ s.lock s.heap (upd s.stamps k' none) s.data ⟨hp.1, fun x => absurd x hp.2⟩ (Or.inl ?_) (by rw [hpc]; simp [base, hp.2]) (by rw [upd_key hp.2]; exact hm)⟩
      rw [hpc]; simp [NotFirst]
  | setPush k' w ts =>
    rw [hpc] at hp
    dsimp only
    by_cases e : k' = k
    · subst e
      obtain ⟨h1, h2⟩ := hp
      obtain ⟨h3, h4, h5, h6⟩ := h2 rfl
      subst h3 h4
      have hl0 : lvl k' T (s.pc t) = 0 := by simp [lvl, hpc, base]
      have hl1 : lvl k' T (upd s.pc t (.setTs k' w ts) t) = 1 := by simp [lvl, base, h5, upd_same]
      rw [hl0] at hm
      obtain ⟨m1, m2, m3, m4⟩ := hm
      refine ⟨T, h.move t _ s.lock _ s.stamps s.data ⟨h1, fun _ => ⟨rfl, rfl, h5, h6⟩⟩ (fun _ => Or.inl ?_) ?_ (by rw [hl0]; simp)⟩
      · rw [hpc]; simp [NotFirst]
      · rw [hl1]
        refine ⟨fun z hz => ?_, fun z hz => ?_, fun z hz => ?_, fun x hx hc => ⟨fun _ => ?_, by simp, by simp⟩⟩
        · have := (m1 z hz).2; omega
        · have := (m2 z hz).2; omega
        · rcases (mem_insert _ _ _).1 hz with hz | hz
          · cases hz; exact ⟨h5, Nat.le_refl _⟩
          · have := (m3 z hz).2; omega
        · rw [h5] at hx; cases hx
          exact (mem_insert _ _ _).2 (Or.inl rfl)
    · refine ⟨T, easy _ s.lock _ s.stamps s.data ⟨hp.1, fun x => absurd x e⟩ (Or.inl ?_) (by rw [hpc]; simp [base, e]) (hm.heap_congr ?_)⟩
      · rw [hpc]; simp [NotFirst]
      · intro x
        rw [mem_insert]
        simp [show ¬ k = k' from fun x => e x.symm]
  | setTs k' w ts =>
    rw [hpc] at hp
    dsimp only
    by_cases e : k' = k
    · subst e
      obtain ⟨h1, h2⟩ := hp
      obtain ⟨h3, h4, h5, h6⟩ := h2 rfl
      subst h3 h4
      have hl0 : lvl k' T (s.pc t) = 1 := by simp [lvl, hpc, base, h5]
      have hl1 : lvl k' T (upd s.pc t (.setData k' w) t) = 2 := by simp [lvl, base, h5, upd_same]
      rw [hl0] at hm
      obtain ⟨m1, m2, m3, m4⟩ := hm
      refine ⟨T, h.move t _ s.lock s.heap _ s.data ⟨h1, fun _ => ⟨rfl, rfl, ts, h5, h6⟩⟩ (fun _ => Or.inl ?_) ?_ (by rw [hl0]; simp)⟩
      · rw [hpc]; simp [NotFirst]
      · rw [hl1, upd_same]
        refine ⟨fun z hz => ?_, fun z hz => ?_, fun z hz => ⟨(m3 z hz).1, by omega⟩, fun x hx hc => ⟨fun _ => (m4 x hx hc).1 (by omega), fun _ => ?_, by simp⟩⟩
        · cases hz; exact ⟨h5, Nat.le_refl _⟩
        · have := (m2 z hz).2; omega
        · rw [h5] at hx; exact hx
    · refine ⟨T, easy _ s.lock s.heap _ s.data ⟨hp.1, fun x => absurd x e⟩ (Or.inl ?_) (by rw [hpc]; simp [base, e]) (by rw [upd_key e]; exact hm)⟩
      rw [hpc]; simp [NotFirst]
  | setData k' w =>
    rw [hpc] at hp
    dsimp only
    by_cases e : k' = k
    · subst e
      obtain ⟨h1, h2⟩ := hp
      obtain ⟨h3, h4, x, h5, h6⟩ := h2 rfl
      subst h3 h4
      have hl0 : lvl k' T (s.pc t) = 2 := by simp [lvl, hpc, base, h5]
      have hl1 : lvl k' T (upd s.pc t (.unlock .ok) t) = 3 := by simp [lvl, base, h5, upd_same]
      rw [hl0] at hm
      obtain ⟨m1, m2, m3, m4⟩ := hm
      refine ⟨T, h.move t _ s.lock s.heap s.stamps _ ?_ (fun _ => Or.inl ?_) ?_ (by rw [hl0]; simp)⟩
      · simp only [PcOk, h1]
        refine ⟨?_, by simp, by simp, by simp⟩
        intro a b hab _
        cases hab
        refine ⟨?_, ?_, ?_, x, h5, h6⟩ <;> trivial
      · rw [hpc]; simp [NotFirst]
      · rw [hl1, upd_same]
        refine ⟨fun z hz => ⟨(m1 z hz).1, by omega⟩, fun z hz => ?_, fun z hz => ⟨(m3 z hz).1, by omega⟩,
          fun x hx hc => ⟨fun _ => (m4 x hx hc).1 (by omega), fun _ => (m4 x hx hc).2.1 (by omega), fun _ => rfl⟩⟩
        cases hz; exact ⟨rfl, Nat.le_refl _⟩
    · refine ⟨T, easy _ s.lock s.heap s.stamps _ ?_ (Or.inl ?_) (by rw [hpc]; simp [base, e]) (by rw [upd_key e]; exact hm)⟩
      · simp only [PcOk, hp.1]; grind
      · rw [hpc]; simp [NotFirst]
  | getTs k' =>
    rw [hpc] at hp
    dsimp only [St.at_]
    cases hst : s.stamps k' with
    | none =>
      refine ⟨T, h.finish t _ s.lock s.data (fun _ => ?_) (by rw [hpc]; rfl) hm ?_ ?_ ?_⟩
      · rw [hpc]; simp [NotFirst]
      · simp [hp.1]
      · intro hc
        rw [hp.1] at hc; cases hc
        refine ⟨by simp, fun h3 x hx hcl => ?_⟩
        have := (hm.2.2.2 x hx hcl).2.1 (by omega)
        rw [hst] at this; simp at this
      · simp [hp.1]
    | some ts =>
      refine ⟨T, easy _ s.lock s.heap s.stamps s.data ⟨hp.1, hp.2, ?_⟩ (Or.inl ?_) (by rw [hpc]; rfl) hm⟩
      · rintro rfl; exact (hm.1 ts hst).1
      · rw [hpc]; simp [NotFirst]
  | getClock k' ts =>
    rw [hpc] at hp
    dsimp only [St.at_]
    split
    · rename_i hlt
      refine ⟨T, easy _ s.lock s.heap s.stamps s.data ⟨hp.1, fun e => ⟨ts, hp.2.2 e, hlt⟩⟩ (Or.inl ?_) (by rw [hpc]; rfl) hm⟩
      rw [hpc]; simp [NotFirst]
    · rename_i hlt
      refine ⟨T, easy _ s.lock s.heap s.stamps s.data ⟨hp.1, fun e => ⟨ts, hp.2.2 e, by have := hp.2.1; omega⟩⟩ (Or.inl ?_) (by rw [hpc]; rfl) hm⟩
      rw [hpc]; simp [NotFirst]
  | getDrop k' =>
    rw [hpc] at hp
    dsimp only
    refine ⟨T, h.finish t _ s.lock _ (fun _ => ?_) (by rw [hpc]; rfl) ?_ ?_ ?_ ?_⟩
    · rw [hpc]; simp [NotFirst]
    · by_cases e : k' = k
      · exact hm.drop (hp.2 e) (fun _ => id) (Or.inl rfl) (Or.inr (by rw [e, upd_same]))
      · rw [upd_key e]; exact hm
    · simp [hp.1]
    · intro hc
      rw [hp.1] at hc; cases hc
      exact ⟨by simp, fun _ x hx hcl => absurd (hp.2 rfl) (nodead x hx hcl)⟩
    · simp [hp.1]
  | getData k' =>
    rw [hpc] at hp
    dsimp only
    cases hd : s.data k' with
    | none =>
      refine ⟨T, h.finish t _ s.lock s.data (fun _ => ?_) (by rw [hpc]; rfl) hm ?_ ?_ ?_⟩
      · rw [hpc]; simp [NotFirst]
      · simp [hp.1]
      · intro hc
        rw [hp.1] at hc; cases hc
        refine ⟨by simp, fun h3 x hx hcl => ?_⟩
        have := (hm.2.2.2 x hx hcl).2.2 (by omega)
        rw [hd] at this; simp at this
      · simp [hp.1]
    | some w =>
      refine ⟨T, h.finish t _ s.lock s.data (fun _ => ?_) (by rw [hpc]; rfl) hm ?_ ?_ ?_⟩
      · rw [hpc]; simp [NotFirst]
      · simp [hp.1]
      · intro hc
        rw [hp.1] at hc; cases hc
        have hw := (hm.2.1 w hd).1
        subst hw
        refine ⟨fun z hz => ?_, fun _ _ _ _ => rfl⟩
        cases hz
        exact ⟨rfl, hp.2 rfl⟩
      · simp [hp.1]
  | hasTs k' =>
    rw [hpc] at hp
    dsimp only [St.at_]
    cases hst : s.stamps k' with
    | none =>
      refine ⟨T, h.finish t _ s.lock s.data (fun _ => ?_) (by rw [hpc]; rfl) hm ?_ ?_ ?_⟩
      · rw [hpc]; simp [NotFirst]
      · simp [hp.1]
      · simp [hp.1]
      · intro hc
        rw [hp.1] at hc; cases hc
        refine ⟨by simp, fun h3 x hx hcl => ?_⟩
        have := (hm.2.2.2 x hx hcl).2.1 (by omega)
        rw [hst] at this; simp at this
    | some ts =>
      refine ⟨T, easy _ s.lock s.heap s.stamps s.data ⟨hp.1, hp.2, ?_⟩ (Or.inl ?_) (by rw [hpc]; rfl) hm⟩
      · rintro rfl; exact (hm.1 ts hst).1
      · rw [hpc]; simp [NotFirst]
  | hasClock k' ts =>
    rw [hpc] at hp
    dsimp only [St.at_]
    split
    · rename_i hlt
      refine ⟨T, easy _ s.lock s.heap s.stamps s.data ⟨Or.inl ⟨hp.1, rfl⟩, fun e => ⟨ts, hp.2.2 e, hlt⟩⟩ (Or.inl ?_) (by rw [hpc]; rfl) hm⟩
      rw [hpc]; simp [NotFirst]
    · rename_i hlt
      refine ⟨T, h.finish t _ s.lock s.data (fun _ => ?_) (by rw [hpc]; rfl) hm ?_ ?_ ?_⟩
      · rw [hpc]; simp [NotFirst]
      · simp [hp.1]
      · simp [hp.1]
      · intro hc
        rw [hp.1] at hc; cases hc
        exact ⟨fun _ => ⟨ts, hp.2.2 rfl, by have := hp.2.1; omega⟩, fun _ _ _ _ => rfl⟩
  | delLock k' r =>
    rw [hpc] at hp
    dsimp only
    split
    · refine ⟨T, easy _ _ s.heap s.stamps s.data hp (Or.inl ?_) (by rw [hpc]; rfl) hm⟩
      rw [hpc]; simp [NotFirst]
    · exact ⟨T, h⟩
  | delPop k' r =>
    rw [hpc] at hp
    dsimp only [St.at_]
    cases hpi : popItem k' s.heap with
    | none =>
      refine ⟨T, easy _ s.lock s.heap s.stamps s.data ?_ (Or.inl ?_) (by rw [hpc]; rfl) hm⟩
      · simp only [PcOk] at hp ⊢; grind
      · rw [hpc]; simp [NotFirst]
    | some h' =>
      refine ⟨T, easy _ s.lock h' s.stamps s.data hp (Or.inl ?_) (by rw [hpc]; rfl) ?_⟩
      · rw [hpc]; simp [NotFirst]
      · by_cases e : k' = k
        · exact hm.drop (hp.2 e) (fun x => (mem_popItem hpi (x, k)).1) (Or.inl rfl) (Or.inl rfl)
        · exact hm.heap_congr (popcongr k' h' hpi e)
  | delTs k' r =>
    rw [hpc] at hp
    dsimp only [St.at_]
    cases hst : s.stamps k' with
    | none =>
      refine ⟨T, easy _ s.lock s.heap s.stamps s.data ?_ (Or.inl ?_) (by rw [hpc]; rfl) hm⟩
      · simp only [PcOk] at hp ⊢; grind
      · rw [hpc]; simp [NotFirst]
    | some z =>
      refine ⟨T, easy _ s.lock s.heap _ s.data hp (Or.inl ?_) (by rw [hpc]; rfl) ?_⟩
      · rw [hpc]; simp [NotFirst]
      · by_cases e : k' = k
        · exact hm.drop (hp.2 e) (fun _ => id) (Or.inr (by rw [e, upd_same])) (Or.inl rfl)
        · rw [upd_key e]; exact hm
  | delData k' r =>
    rw [hpc] at hp
    dsimp only [St.at_]
    cases hd : s.data k' with
    | none =>
      refine ⟨T, easy _ s.lock s.heap s.stamps s.data ?_ (Or.inl ?_) (by rw [hpc]; rfl) hm⟩
      · simp only [PcOk] at hp ⊢; grind
      · rw [hpc]; simp [NotFirst]
    | some z =>
      refine ⟨T, easy _ s.lock s.heap s.stamps _ ?_ (Or.inl ?_) (by rw [hpc]; rfl) ?_⟩
      · simp only [PcOk] at hp ⊢; grind
      · rw [hpc]; simp [NotFirst]
      · by_cases e : k' = k
        · exact hm.drop (hp.2 e) (fun _ => id) (Or.inl rfl) (Or.inr (by rw [e, upd_same]))
        · rw [upd_key e]; exact hm
  | cleanLock =>
    rw [hpc] at hp
    dsimp only
    split
    · refine ⟨T, easy _ _ s.heap s.stamps s.data hp (Or.inl ?_) (by rw [hpc]; rfl) hm⟩
      rw [hpc]; simp [NotFirst]
    · exact ⟨T, h⟩
  | cleanClock =>
    rw [hpc] at hp
    dsimp only [St.at_]
    refine ⟨T, easy _ s.lock s.heap s.stamps s.data ⟨hp, Int.le_refl _⟩ (Or.inl ?_) (by rw [hpc]; rfl) hm⟩
    rw [hpc]; simp [NotFirst]
  | cleanLoop now =>
    rw [hpc] at hp
    have hun : PcOk timeout k v t₀ T s.clock t (s.now t) (.unlock .ok) := by simp only [PcOk, hp.1]; simp
    have hnf : NotFirst k (s.pc t) := by rw [hpc]; simp [NotFirst]
    dsimp only [St.at_]
    cases hh : s.heap with
    | nil => exact ⟨T, by simpa [hh] using easy _ s.lock s.heap s.stamps s.data hun (Or.inl ⟨hnf, by simp [NotFirst]⟩) (by rw [hpc]; rfl) hm⟩
    | cons y h' =>
      obtain ⟨ts, k'⟩ := y
      dsimp only
      split
      · exact ⟨T, by simpa [hh] using easy _ s.lock s.heap s.stamps s.data hun (Or.inl ⟨hnf, by simp [NotFirst]⟩) (by rw [hpc]; rfl) hm⟩
      · rename_i hlt
        have hdead : k' = k → Dead T s.clock := by
          rintro rfl
          have := (hm.2.2.1 ts (by rw [hh]; simp)).1
          exact ⟨ts, this, by have := hp.2; omega⟩
        refine ⟨T, easy _ s.lock h' s.stamps s.data ⟨hp.1, hp.2, hdead⟩ (Or.inl ⟨hnf, by simp [NotFirst]⟩) (by rw [hpc]; rfl) ?_⟩
        by_cases e : k' = k
        · exact hm.drop (hdead e) (fun x hx => by rw [hh]; exact List.mem_cons_of_mem _ hx) (Or.inl rfl) (Or.inl rfl)
        · refine hm.heap_congr (fun x => ?_)
          rw [hh, List.mem_cons]
          simp [show ¬ k = k' from fun x => e x.symm]
  | cleanTs now k' =>
    rw [hpc] at hp
    have hnf : NotFirst k (s.pc t) := by rw [hpc]; simp [NotFirst]
    dsimp only [St.at_]
    cases hst : s.stamps k' with
    | none =>
      refine ⟨T, easy _ s.lock s.heap s.stamps s.data ?_ (Or.inl ⟨hnf, by simp [NotFirst]⟩) (by rw [hpc]; rfl) hm⟩
      simp only [PcOk, hp.1]; simp
    | some z =>
      refine ⟨T, easy _ s.lock s.heap _ s.data hp (Or.inl ⟨hnf, by simp [NotFirst]⟩) (by rw [hpc]; rfl) ?_⟩
      by_cases e : k' = k
      · exact hm.drop (hp.2.2 e) (fun _ => id) (Or.inr (by rw [e, upd_same])) (Or.inl rfl)
      · rw [upd_key e]; exact hm
  | cleanData now k' =>
    rw [hpc] at hp
    have hnf : NotFirst k (s.pc t) := by rw [hpc]; simp [NotFirst]
    dsimp only [St.at_]
    cases hd : s.data k' with
    | none =>
      refine ⟨T, easy _ s.lock s.heap s.stamps s.data ?_ (Or.inl ⟨hnf, by simp [NotFirst]⟩) (by rw [hpc]; rfl) hm⟩
      simp only [PcOk, hp.1]; simp
    | some z =>
      refine ⟨T, easy _ s.lock s.heap s.stamps _ ⟨hp.1, hp.2.1⟩ (Or.inl ⟨hnf, by simp [NotFirst]⟩) (by rw [hpc]; rfl) ?_⟩
      by_cases e : k' = k
      · exact hm.drop (hp.2.2 e) (fun _ => id) (Or.inl rfl) (Or.inr (by rw [e, upd_same]))
      · rw [upd_key e]; exact hm
  | unlock r =>
    rw [hpc] at hp
    obtain ⟨p1, p2, p3, p4⟩ := hp
    dsimp only
    refine ⟨T, h.finish t _ none s.data (fun _ => ?_) (by rw [hpc]; rfl) hm ?_ ?_ ?_⟩
    · rw [hpc]; simp [NotFirst]
    · intro w hw; exact p1 k w hw rfl
    · intro hc; exact absurd hc (p2 k)
    · intro hc
      obtain ⟨q1, q2⟩ := p3 k hc
      exact ⟨fun e => absurd e q1, fun _ x hx hcl => absurd (q2 rfl) (nodead x hx hcl)⟩

theorem inv_init {timeout : Int} {k v t₀ : Nat} {prog : Nat → List Call} (h : AssignedOnce prog k v t₀) : Inv timeout k v t₀ none (init prog) where
  pc := fun t => by simp [init, PcOk]
  todo := h.1
  once := by simp only [init]; rw [h.2]; exact Nat.le_refl _
  fresh := fun _ => rfl
  notyet := fun _ => Or.inl (List.one_le_count_iff.1 (by simp only [init]; rw [h.2]; exact Nat.le_refl _))
  taken := fun hn => absurd (by simp [init, NotFirst]) hn
  late := by simp
  mem := by simp [Mem, init]
  log := by simp [LogOk, init, Before]

theorem inv_run {timeout : Int} {k v t₀ : Nat} (l : List Ev) {s : St} (h : ∃ T, Inv timeout k v t₀ T s) : ∃ T, Inv timeout k v t₀ T (run timeout s l) := by
  induction l generalizing s with
  | nil => exact h
  | cons e l ih =>
    obtain ⟨T, h⟩ := h
    refine ih ?_
    cases e with
    | run t => exact inv_step h t
    | tick d => exact ⟨T, h.tick d⟩

/-! ## Properties -/

/-- **C246 (found).** Threads use an expiring dict at the same time, in any order, whatever they do with other keys; one of them assigns a value to a key, once.  That assignment returns normally, and every lookup of the
key that ends after it and before the timeout is over (counted from the beginning of the assignment) returns the value; every membership test answers True. -/
theorem C246_found_partial (timeout : Int) (prog : Nat → List Call) (k v t₀ : Nat) (h : AssignedOnce prog k v t₀) (l : List Ev) :
    let log := (run timeout (init prog) l).log
    (∀ e ∈ log, ∀ w, e.call = .set k w → e.thread = t₀ ∧ w = v ∧ e.res = .ok) ∧
    (∀ a b, Before log a b → a.call = .set k v → b.ended ≤ a.began + timeout →
      (b.call = .get k → b.res = .value v) ∧ (b.call = .has k → b.res = .bool true)) := by
  obtain ⟨T, hi⟩ := inv_run (timeout := timeout) l ⟨none, inv_init (timeout := timeout) h⟩
  obtain ⟨l1, l2, l3, l4⟩ := hi.log
  refine ⟨fun e he w hw => ?_, fun a b hb ha hle => ?_⟩
  · obtain ⟨h1, h2, h3, _⟩ := l1 e he w hw
    exact ⟨h1, h2, h3⟩
  · obtain ⟨i, j, hij, hi', hj⟩ := hb
    obtain ⟨_, _, _, _, x, hx, hx1, _⟩ := l1 a (List.mem_of_getElem? hi') v ha
    exact l4 a b ⟨i, j, hij, hi', hj⟩ v ha x hx (by omega)

/-- **C246 (expired).** Nor does a lookup ever return anything else than the value assigned; and none that begins later than the timeout after the end of the assignment returns it, and no such membership test answers True. -/
theorem C246_expired_partial (timeout : Int) (prog : Nat → List Call) (k v t₀ : Nat) (h : AssignedOnce prog k v t₀) (l : List Ev) :
    let log := (run timeout (init prog) l).log
    (∀ b ∈ log, b.call = .get k → ∀ w, b.res = .value w → w = v) ∧
    (∀ a ∈ log, a.call = .set k v → ∀ b ∈ log, a.ended + timeout < b.began →
      (b.call = .get k → ∀ w, b.res ≠ .value w) ∧ (b.call = .has k → b.res ≠ .bool true)) := by
  obtain ⟨T, hi⟩ := inv_run (timeout := timeout) l ⟨none, inv_init (timeout := timeout) h⟩
  obtain ⟨l1, l2, l3, l4⟩ := hi.log
  refine ⟨fun b hb hc w hw => (l2 b hb hc w hw).1, fun a ha hc b hb hlt => ⟨fun hg w hw => ?_, fun hh hr => ?_⟩⟩
  · obtain ⟨_, _, _, _, x, hx, _, hx2⟩ := l1 a ha v hc
    obtain ⟨_, y, hy, hy1⟩ := l2 b hb hg w hw
    rw [hx] at hy; cases hy; omega
  · obtain ⟨_, _, _, _, x, hx, _, hx2⟩ := l1 a ha v hc
    obtain ⟨y, hy, hy1⟩ := l3 b hb hh hr
    rw [hx] at hy; cases hy; omega

/-- thread 0 assigns, thread 1 looks up -/
def progA : Nat → List Call := fun t => if t = 0 then [.set 5 7] else if t = 1 then [.get 5, .has 5, .get 5, .has 5] else if t = 2 then [.set 3 1, .clean] else []

/-- the hypotheses are met by a program of three threads; the value is found before the timeout is over, and is not afterwards -/
example : AssignedOnce progA 5 7 0 ∧
    (run 10 (init progA) ([.run 2, .run 2, .run 0, .run 2, .run 2] ++ List.replicate 4 (.run 2) ++ List.replicate 7 (.run 0) ++ [.tick 9] ++ List.replicate 7 (.run 1) ++
      [.tick 4] ++ List.replicate 4 (.run 1) ++ List.replicate 9 (.run 1))).log =
      [⟨2, .set 3 1, 0, 0, .ok⟩, ⟨0, .set 5 7, 0, 0, .ok⟩, ⟨1, .get 5, 9, 9, .value 7⟩, ⟨1, .has 5, 9, 9, .bool true⟩, ⟨1, .get 5, 13, 13, .keyError⟩, ⟨1, .has 5, 13, 13, .keyError⟩] := by
  refine ⟨⟨fun t c hc h => ?_, by decide⟩, by decide +kernel⟩
  unfold progA at hc
  split at hc
  · subst t; simp at hc; subst hc; simp
  · split at hc
    · simp at hc; rcases hc with rfl | rfl | rfl | rfl <;> simp at h
    · split at hc
      · simp at hc; rcases hc with rfl | rfl <;> simp at h
      · simp at hc

/-- one thread assigns twice, others look up -/
def progB : Nat → List Call := fun t => if t = 0 then [.set 5 7, .set 5 8] else if t = 1 then [.get 5] else if t = 2 then [.get 5] else []

/-- **C246 (overwriting).** The values of a key that is assigned again are not all that a lookup may meet: while the second assignment is being made the key is out of the dict.  A lookup that runs after the first assignment has ended,
long before the timeout, raises KeyError. -/
theorem C246_violates_overwriting : ∃ (timeout : Int) (prog : Nat → List Call) (l : List Ev),
    (∀ t, ∀ c ∈ prog t, c = .get 5 ∨ ∃ w, c = .set 5 w) ∧
    ∃ a b, Before (run timeout (init prog) l).log a b ∧ a.call = .set 5 7 ∧ a.res = .ok ∧ b.call = .get 5 ∧ b.ended ≤ a.began + timeout ∧ b.res = .keyError := by
  refine ⟨10, progB, List.replicate 14 (.run 0) ++ List.replicate 2 (.run 1), fun t c hc => ?_, ⟨0, .set 5 7, 0, 0, .ok⟩, ⟨1, .get 5, 0, 0, .keyError⟩,
    ⟨0, 1, by decide, by decide +kernel, by decide +kernel⟩, rfl, rfl, rfl, by decide, rfl⟩
  unfold progB at hc
  split at hc
  · simp at hc; rcases hc with rfl | rfl <;> simp
  · split at hc
    · simp at hc; exact Or.inl hc
    · split at hc
      · simp at hc; exact Or.inl hc
      · simp at hc

/-- **C246 (lost assignment).** A lookup that has found an entry expired deletes whatever value is there when it comes to it: if another thread has assigned the key anew in the meantime, that value is lost.
A later lookup, made when that assignment has ended and the timeout is not over, raises KeyError. -/
theorem C246_violates_lost : ∃ (timeout : Int) (prog : Nat → List Call) (l : List Ev),
    (∀ t, ∀ c ∈ prog t, c = .get 5 ∨ ∃ w, c = .set 5 w) ∧
    ∃ a b, Before (run timeout (init prog) l).log a b ∧ a.ended ≤ b.began ∧ a.call = .set 5 8 ∧ a.res = .ok ∧ b.call = .get 5 ∧ b.ended ≤ a.began + timeout ∧ b.res = .keyError ∧
      (∀ e ∈ (run timeout (init prog) l).log, ∀ w, e.call = .set 5 w → e.ended ≤ a.ended) ∧
      ((run timeout (init prog) l).pc 0 = .idle ∧ (run timeout (init prog) l).todo 0 = []) := by
  refine ⟨10, progB, List.replicate 8 (.run 0) ++ [.tick 11, .run 1, .run 1, .run 1] ++ List.replicate 10 (.run 0) ++ [.run 1, .tick 1] ++ List.replicate 4 (.run 2), fun t c hc => ?_,
    ⟨0, .set 5 8, 11, 11, .ok⟩, ⟨2, .get 5, 12, 12, .keyError⟩, ⟨1, 3, by decide, by decide +kernel, by decide +kernel⟩, by decide, rfl, rfl, rfl, by decide, rfl, ?_, by decide +kernel, by decide +kernel⟩
  · unfold progB at hc
    split at hc
    · simp at hc; rcases hc with rfl | rfl <;> simp
    · split at hc
      · simp at hc; exact Or.inl hc
      · split at hc
        · simp at hc; exact Or.inl hc
        · simp at hc
  · have : (run 10 (init progB) (List.replicate 8 (.run 0) ++ [.tick 11, .run 1, .run 1, .run 1] ++ List.replicate 10 (.run 0) ++ [.run 1, .tick 1] ++ List.replicate 4 (.run 2))).log =
        [⟨0, .set 5 7, 0, 0, .ok⟩, ⟨0, .set 5 8, 11, 11, .ok⟩, ⟨1, .get 5, 11, 11, .keyError⟩, ⟨2, .get 5, 12, 12, .keyError⟩] := by decide +kernel
    rw [this]
    intro e he w hw
    simp at he
    rcases he with rfl | rfl | rfl | rfl <;> simp at hw ⊢

end Verif.Expiring.Threads
