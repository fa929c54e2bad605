import Verif.Py.Dict
import Verif.Conc.MonitorProps
/-!
# A SelfCleaningDefaultDict used by several threads (satella/coding/structures/dictionaries/expiring.py); C274, C275

Threads assign, look up, delete and clean up, while others do; so does the thread in the background, which is one of them.  Assignments, lookups and cleaning up hold the monitor; deleting does not.
Every access to the dictionary inside, and to the monitor, is a step.  Values do not change in place, and are equal only if they are the same, so the default is one value (`dflt`); in-place changes are those of C13.
`bm` is `background_maintenance`.  `len` is cleaning up, and `in` a lookup; iterating yields nothing (C13).
-/
namespace Verif.Expiring.SelfCleaning
open Verif
open Verif.Conc (upd upd_same upd_other)

/-! ## Model -/

/-- calls: assigning, looking up, deleting, cleaning up.  (Part of the model of `SelfCleaningDefaultDict`, /repo/satella/coding/structures/dictionaries/expiring.py:61-136.) -/
inductive Call where
  | set (k v : Nat)
  | get (k : Nat)
  | del (k : Nat)
  | clean
  deriving DecidableEq, Repr

/-- what a call gives.  (Part of the model of `SelfCleaningDefaultDict`, /repo/satella/coding/structures/dictionaries/expiring.py:61-136.) -/
inductive Res where
  | ok
  | val (v : Nat)
  | keyError
  deriving DecidableEq, Repr

/-- where a thread is.  In `__setitem__`, /repo/satella/coding/structures/dictionaries/expiring.py:121-129: before taking the monitor, before line 124, before `del` (126), before line 129.
In `__getitem__`, :108-119: before taking the monitor, before line 111, before `del` (113), before calling the factory (116).  In `__delitem__`, :104-106: before line 105, before line 106.
In `cleanup`, :131-136: before taking the monitor, before line 134, in the loop with keys left, before `del` (136).  Then before giving the monitor back, or (in `__delitem__`) before returning. -/
inductive Pc where
  | idle
  | setLock (k v : Nat)
  | setTest (k v : Nat)
  | setDel (k : Nat)
  | setData (k v : Nat)
  | getLock (k : Nat)
  | getRead (k : Nat)
  | getDel (k : Nat)
  | getMake (k : Nat)
  | delTest (k : Nat)
  | delDel (k : Nat)
  | cleanLock
  | cleanKeys
  | cleanLoop (ks : List Nat)
  | cleanDel (k : Nat) (ks : List Nat)
  | unlock (r : Res)
  | leave (r : Res)
  deriving DecidableEq, Repr

/-- what is seen: a call begins, a call ends with a result.  (Part of the model of `SelfCleaningDefaultDict`, /repo/satella/coding/structures/dictionaries/expiring.py:61-136.) -/
inductive Ev where
  | began (t : Nat) (c : Call)
  | ended (t : Nat) (c : Call) (r : Res)
  deriving DecidableEq, Repr

/-- what is seen, and, between, that a call takes effect (not in the code).  (Part of the model of `SelfCleaningDefaultDict`, /repo/satella/coding/structures/dictionaries/expiring.py:61-136.) -/
inductive Mark where
  | seen (e : Ev)
  | effect (t : Nat) (c : Call) (r : Res)
  deriving DecidableEq, Repr

/-- `data`, the monitor, the threads with the calls they are in, /repo/satella/coding/structures/dictionaries/expiring.py:89-98; what was seen, without and with effects (not in the code) -/
structure St where
  data : Dict Nat Nat := []
  lock : Option Nat := none
  pc : Nat → Pc := fun _ => .idle
  now : Nat → Call := fun _ => .clean
  log : List Ev := []
  marks : List Mark := []

/-- what happens: a thread makes a call, or goes on by one step.  (Part of the model of `SelfCleaningDefaultDict`, /repo/satella/coding/structures/dictionaries/expiring.py:61-136.) -/
inductive Act where
  | call (t : Nat) (c : Call)
  | go (t : Nat)
  deriving DecidableEq, Repr

/-- a thread goes on.  (Part of the model of `SelfCleaningDefaultDict`, /repo/satella/coding/structures/dictionaries/expiring.py:61-136.) -/
def St.at_ (s : St) (t : Nat) (p : Pc) : St := { s with pc := upd s.pc t p }

/-- a note that the call takes effect; nothing happens in the code.  (Part of the model of `SelfCleaningDefaultDict`, /repo/satella/coding/structures/dictionaries/expiring.py:61-136.) -/
def St.mark (s : St) (t : Nat) (r : Res) : St := { s with marks := s.marks ++ [.effect t (s.now t) r] }

/-- a call ends.  (Part of the model of `SelfCleaningDefaultDict`, /repo/satella/coding/structures/dictionaries/expiring.py:61-136.) -/
def St.finish (s : St) (t : Nat) (r : Res) : St :=
  { s with pc := upd s.pc t .idle, log := s.log ++ [.ended t (s.now t) r], marks := s.marks ++ [.seen (.ended t (s.now t) r)] }

/-- where a call begins, /repo/satella/coding/structures/dictionaries/expiring.py:104-131 -/
def entry : Call → Pc
  | .set k v => .setLock k v
  | .get k => .getLock k
  | .del k => .delTest k
  | .clean => .cleanLock

/-- A step of a thread: `__setitem__`, /repo/satella/coding/structures/dictionaries/expiring.py:121-129, `__getitem__`, :108-119, `__delitem__`, :104-106, `cleanup`, :131-136
(KeyError ends cleaning up, :132) -/
def go (dflt : Nat) (bm : Bool) (s : St) (t : Nat) : St :=
  match s.pc t with
  | .idle => s
  | .setLock k v => if s.lock = none then { s with lock := some t }.at_ t (.setTest k v) else s
  | .setTest k v =>
    if v = dflt then
      if Dict.has s.data k then s.at_ t (.setDel k) else (s.mark t .ok).at_ t (.unlock .ok)
    else s.at_ t (.setData k v)
  | .setDel k =>
    match Dict.get? s.data k with
    | none => (s.mark t .ok).at_ t (.unlock .keyError)
    | some _ => ({ s with data := Dict.del s.data k }.mark t .ok).at_ t (.unlock .ok)
  | .setData k v => ({ s with data := Dict.set s.data k v }.mark t .ok).at_ t (.unlock .ok)
  | .getLock k => if s.lock = none then { s with lock := some t }.at_ t (.getRead k) else s
  | .getRead k =>
    match Dict.get? s.data k with
    | none => (s.mark t (.val dflt)).at_ t (.getMake k)
    | some v => (s.mark t (.val v)).at_ t (if v = dflt then .getDel k else .unlock (.val v))
  | .getDel k =>
    match Dict.get? s.data k with
    | none => s.at_ t (.getMake k)
    | some _ => { s with data := Dict.del s.data k }.at_ t (.unlock (.val dflt))
  | .getMake k => { s with data := if bm then s.data else Dict.set s.data k dflt }.at_ t (.unlock (.val dflt))
  | .delTest k => if Dict.has s.data k then s.at_ t (.delDel k) else (s.mark t .ok).at_ t (.leave .ok)
  | .delDel k =>
    match Dict.get? s.data k with
    | none => (s.mark t .ok).at_ t (.leave .keyError)
    | some _ => ({ s with data := Dict.del s.data k }.mark t .ok).at_ t (.leave .ok)
  | .cleanLock => if s.lock = none then { s with lock := some t }.at_ t .cleanKeys else s
  | .cleanKeys => (s.mark t .ok).at_ t (.cleanLoop (Dict.keys s.data))
  | .cleanLoop [] => s.at_ t (.unlock .ok)
  | .cleanLoop (k :: ks) =>
    match Dict.get? s.data k with
    | none => s.at_ t (.unlock .ok)
    | some v => s.at_ t (if v = dflt then .cleanDel k ks else .cleanLoop ks)
  | .cleanDel k ks =>
    match Dict.get? s.data k with
    | none => s.at_ t (.unlock .ok)
    | some _ => { s with data := Dict.del s.data k }.at_ t (.cleanLoop ks)
  | .unlock r => { s with lock := none }.finish t r
  | .leave r => s.finish t r

/-- what happens does: a thread in a call makes no other.  (Part of the model of `SelfCleaningDefaultDict`, /repo/satella/coding/structures/dictionaries/expiring.py:61-136.) -/
def step (dflt : Nat) (bm : Bool) (s : St) : Act → St
  | .call t c =>
    if s.pc t = .idle then
      { s with pc := upd s.pc t (entry c), now := upd s.now t c, log := s.log ++ [.began t c], marks := s.marks ++ [.seen (.began t c)] }
    else s
  | .go t => go dflt bm s t

/-- a new dictionary, and everything that happens to it, /repo/satella/coding/structures/dictionaries/expiring.py:89-98 -/
def run (dflt : Nat) (bm : Bool) (as : List Act) : St := as.foldl (step dflt bm) {}

/-! ## Specification -/

/-- what is seen -/
def Mark.ev : Mark → Option Ev
  | .seen e => some e
  | .effect .. => none

/-- calls that take effect one after another do what a map that has a value for every key does: it begins with the default; a lookup gives the value of the key, and deleting is assigning the default -/
inductive Legal (dflt : Nat) : List Mark → (Nat → Nat) → Prop where
  | nil : Legal dflt [] (fun _ => dflt)
  | seen {l m} (e : Ev) : Legal dflt l m → Legal dflt (l ++ [.seen e]) m
  | set {l m} (t k v : Nat) : Legal dflt l m → Legal dflt (l ++ [.effect t (.set k v) .ok]) (upd m k v)
  | get {l m} (t k : Nat) : Legal dflt l m → Legal dflt (l ++ [.effect t (.get k) (.val (m k))]) m
  | del {l m} (t k : Nat) : Legal dflt l m → Legal dflt (l ++ [.effect t (.del k) .ok]) (upd m k dflt)
  | clean {l m} (t : Nat) : Legal dflt l m → Legal dflt (l ++ [.effect t .clean .ok]) m

/-- a thread: out of any call; in a call that has not taken effect; in one that has, with a result -/
inductive Phase where
  | out
  | calling (c : Call)
  | acted (c : Call) (r : Res)

/-- the result of a call is that of its effect; or else it is KeyError, and the call deletes, or assigns the default -/
def Ends (dflt : Nat) (c : Call) (r r' : Res) : Prop := r' = r ∨ (r' = .keyError ∧ ∃ k, c = .del k ∨ c = .set k dflt)

/-- every call takes effect once, after it began and before it ended, and ends with the result of it -/
inductive Threads (dflt : Nat) : List Mark → (Nat → Phase) → Prop where
  | nil : Threads dflt [] (fun _ => .out)
  | began {l f} (t c) : Threads dflt l f → f t = .out → Threads dflt (l ++ [.seen (.began t c)]) (upd f t (.calling c))
  | effect {l f} (t c r) : Threads dflt l f → f t = .calling c → Threads dflt (l ++ [.effect t c r]) (upd f t (.acted c r))
  | ended {l f} (t c r r') : Threads dflt l f → f t = .acted c r → Ends dflt c r r' → Threads dflt (l ++ [.seen (.ended t c r')]) (upd f t .out)

/-- whose event it is -/
def Ev.thread : Ev → Nat
  | .began t _ => t
  | .ended t _ _ => t

/-- a call of the thread is underway -/
def Calling (log : List Ev) (t : Nat) (c : Call) : Prop := ∃ a b, log = a ++ .began t c :: b ∧ ∀ e ∈ b, e.thread ≠ t

/-- the call may remove the key -/
def Touches (k : Nat) : Call → Prop
  | .set k' _ => k' = k
  | .get k' => k' = k
  | .del k' => k' = k
  | .clean => True

/-- the call `c` of `t`, which is underway, met one of another thread that may remove the key `k`: at some moment both were underway -/
def Met (log : List Ev) (t : Nat) (c : Call) (k : Nat) : Prop :=
  ∃ p q u c', log = p ++ q ∧ (∀ e ∈ q, e.thread ≠ t) ∧ Calling p t c ∧ u ≠ t ∧ Calling p u c' ∧ Touches k c'

/-! ## Proofs -/

theorem run_snoc (dflt : Nat) (bm : Bool) (as : List Act) (a : Act) : run dflt bm (as ++ [a]) = step dflt bm (run dflt bm as) a := by simp [run]

/-- the value of a key -/
def value (dflt : Nat) (s : St) (k : Nat) : Nat := (Dict.get? s.data k).getD dflt

/-- the phase of a thread in a call -/
def phase (dflt : Nat) (c : Call) : Pc → Phase
  | .idle => .out
  | .getDel _ | .getMake _ => .acted c (.val dflt)
  | .cleanLoop _ | .cleanDel _ _ => .acted c .ok
  | .unlock r | .leave r => .acted c (if r = .keyError then .ok else r)
  | _ => .calling c

/-- the call a thread is in, and where it is in it -/
def CallOk (dflt : Nat) (c : Call) : Pc → Prop
  | .idle => True
  | .setLock k v | .setTest k v => c = .set k v
  | .setDel k => c = .set k dflt
  | .setData k v => c = .set k v
  | .getLock k | .getRead k | .getDel k | .getMake k => c = .get k
  | .delTest k | .delDel k => c = .del k
  | .cleanLock | .cleanKeys | .cleanLoop _ | .cleanDel _ _ => c = .clean
  | .unlock r => r = .keyError → ∃ k, c = .set k dflt
  | .leave r => r = .keyError → ∃ k, c = .del k

/-- the thread has taken the monitor -/
def inside : Pc → Bool
  | .setTest .. | .setDel .. | .setData .. | .getRead .. | .getDel .. | .getMake .. | .cleanKeys | .cleanLoop .. | .cleanDel .. | .unlock .. => true
  | _ => false

/-- the thread is about to remove a key because its value is the default, or to insert that -/
def Dfl (k : Nat) : Pc → Prop
  | .getDel k' | .getMake k' => k' = k
  | .cleanDel k' _ => k' = k
  | _ => False

theorem dfl_inside {k : Nat} {p : Pc} (h : Dfl k p) : inside p = true := by cases p <;> first | exact h.elim | rfl

/-- what always holds -/
structure Inv (dflt : Nat) (s : St) : Prop where
  legal : Legal dflt s.marks (value dflt s)
  threads : Threads dflt s.marks (fun t => phase dflt (s.now t) (s.pc t))
  seen : s.marks.filterMap Mark.ev = s.log
  calls : ∀ t, CallOk dflt (s.now t) (s.pc t)
  lock : ∀ t, inside (s.pc t) = true ↔ s.lock = some t
  dfl : ∀ t k, Dfl k (s.pc t) → value dflt s k = dflt

theorem inv_init (dflt : Nat) : Inv dflt {} where
  legal := .nil
  threads := .nil
  seen := rfl
  calls := fun _ => trivial
  lock := fun t => by simp [inside]
  dfl := fun t k h => h.elim

/-- a step of a thread keeps the invariant -/
theorem Inv.move {dflt : Nat} {s s' : St} {t : Nat} {p : Pc} (I : Inv dflt s) (hpc : s'.pc = upd s.pc t p) (hnow : s'.now = s.now)
    (hleg : Legal dflt s'.marks (value dflt s'))
    (hth : Threads dflt s'.marks (upd (fun u => phase dflt (s.now u) (s.pc u)) t (phase dflt (s.now t) p)))
    (hseen : s'.marks.filterMap Mark.ev = s'.log)
    (hc : CallOk dflt (s.now t) p)
    (hl : s'.lock = if inside p = inside (s.pc t) then s.lock else if inside p then some t else none)
    (hfree : inside p = true → inside (s.pc t) = false → s.lock = none)
    (hd : ∀ k, Dfl k p → value dflt s' k = dflt)
    (hv : inside (s.pc t) = true ∨ ∀ k, value dflt s k = dflt → value dflt s' k = dflt) : Inv dflt s' where
  legal := hleg
  threads := by
    have : (fun u => phase dflt (s'.now u) (s'.pc u)) = upd (fun u => phase dflt (s.now u) (s.pc u)) t (phase dflt (s.now t) p) := by
      funext u
      rw [hpc, hnow]
      by_cases hu : u = t
      · subst hu; rw [upd_same, upd_same]
      · rw [upd_other _ _ hu, upd_other _ _ hu]
    rw [this]; exact hth
  seen := hseen
  calls := by
    intro u
    rw [hpc, hnow]
    by_cases hu : u = t
    · subst hu; rw [upd_same]; exact hc
    · rw [upd_other _ _ hu]; exact I.calls u
  lock := by
    intro u
    rw [hpc, hl]
    have hlt := I.lock t
    by_cases hu : u = t
    · subst hu
      rw [upd_same]
      by_cases he : inside p = inside (s.pc u)
      · rw [if_pos he, he]; exact hlt
      · rw [if_neg he]
        cases hp : inside p <;> simp
    · rw [upd_other _ _ hu, I.lock u]
      by_cases he : inside p = inside (s.pc t)
      · rw [if_pos he]
      · rw [if_neg he]
        cases hp : inside p with
        | true =>
          have := hfree hp (by cases h : inside (s.pc t) with | false => rfl | true => rw [hp, h] at he; exact absurd rfl he)
          rw [this]
          simp only [if_true, Option.some.injEq, reduceCtorEq, false_iff]
          exact fun h => hu h.symm
        | false =>
          have h1 : inside (s.pc t) = true := by cases h : inside (s.pc t) with | true => rfl | false => rw [hp, h] at he; exact absurd rfl he
          rw [hlt.1 h1]
          simp only [Option.some.injEq, Bool.false_eq_true, if_false, reduceCtorEq, iff_false]
          exact fun h => hu h.symm
  dfl := by
    intro u k h
    rw [hpc] at h
    by_cases hu : u = t
    · subst hu; rw [upd_same] at h; exact hd k h
    · rw [upd_other _ _ hu] at h
      rcases hv with hv | hv
      · have h1 := (I.lock u).1 (dfl_inside h)
        rw [(I.lock t).1 hv] at h1
        exact absurd (Option.some.inj h1).symm hu
      · exact hv k (I.dfl u k h)

theorem upd_eta {α : Type} (f : Nat → α) (t : Nat) : upd f t (f t) = f := by
  funext u
  by_cases hu : u = t
  · subst hu; rw [upd_same]
  · rw [upd_other _ _ hu]

/-- a step that is not seen, and after which every key has the value it had -/
theorem Inv.quiet {dflt : Nat} {s s' : St} {t : Nat} {p : Pc} (I : Inv dflt s) (hpc : s'.pc = upd s.pc t p) (hnow : s'.now = s.now)
    (hm : s'.marks = s.marks) (hlog : s'.log = s.log) (hval : value dflt s' = value dflt s) (hph : phase dflt (s.now t) p = phase dflt (s.now t) (s.pc t))
    (hc : CallOk dflt (s.now t) p)
    (hl : s'.lock = if inside p = inside (s.pc t) then s.lock else if inside p then some t else none)
    (hfree : inside p = true → inside (s.pc t) = false → s.lock = none)
    (hd : ∀ k, Dfl k p → value dflt s k = dflt) : Inv dflt s' :=
  I.move hpc hnow (by rw [hm, hval]; exact I.legal)
    (by rw [hm, hph, upd_eta (fun u => phase dflt (s.now u) (s.pc u)) t]; exact I.threads)
    (by rw [hm, hlog]; exact I.seen) hc hl hfree (by rw [hval]; exact hd) (.inr (by rw [hval]; exact fun _ h => h))

/-- a step with which a call takes effect -/
theorem Inv.act {dflt : Nat} {s s' : St} {t : Nat} {p : Pc} {r : Res} (I : Inv dflt s) (hpc : s'.pc = upd s.pc t p) (hnow : s'.now = s.now)
    (hm : s'.marks = s.marks ++ [.effect t (s.now t) r]) (hlog : s'.log = s.log)
    (hleg : Legal dflt (s.marks ++ [.effect t (s.now t) r]) (value dflt s'))
    (hph : phase dflt (s.now t) (s.pc t) = .calling (s.now t)) (hph' : phase dflt (s.now t) p = .acted (s.now t) r)
    (hc : CallOk dflt (s.now t) p) (hl : s'.lock = s.lock) (hin : inside p = inside (s.pc t))
    (hd : ∀ k, Dfl k p → value dflt s' k = dflt)
    (hv : inside (s.pc t) = true ∨ ∀ k, value dflt s k = dflt → value dflt s' k = dflt) : Inv dflt s' :=
  I.move hpc hnow (by rw [hm]; exact hleg) (by rw [hm, hph']; exact .effect t _ r I.threads hph)
    (by rw [hm, hlog, List.filterMap_append, I.seen]; simp [Mark.ev]) hc (by rw [if_pos hin]; exact hl) (fun h1 h2 => by rw [← hin, h1] at h2; cases h2) hd hv

theorem value_del (dflt : Nat) (d : Dict Nat Nat) (k : Nat) : (fun k' => (Dict.get? (Dict.del d k) k').getD dflt) = upd (fun k' => (Dict.get? d k').getD dflt) k dflt := by
  funext k'
  by_cases h : k' = k
  · subst h; rw [upd_same, Dict.get?_del]; simp
  · rw [upd_other _ _ h, Dict.get?_del]; simp [Ne.symm h]

theorem value_set (dflt : Nat) (d : Dict Nat Nat) (k v : Nat) : (fun k' => (Dict.get? (Dict.set d k v) k').getD dflt) = upd (fun k' => (Dict.get? d k').getD dflt) k v := by
  funext k'
  by_cases h : k' = k
  · subst h; rw [upd_same, Dict.get?_set]; simp
  · rw [upd_other _ _ h, Dict.get?_set]; simp [Ne.symm h]

theorem upd_id {m : Nat → Nat} {k v : Nat} (h : m k = v) : upd m k v = m := by subst h; exact upd_eta m k

theorem has_eq (d : Dict Nat Nat) (k : Nat) : Dict.has d k = true ↔ Dict.get? d k ≠ none := by
  unfold Dict.has; cases Dict.get? d k <;> simp

theorem inv_call {dflt : Nat} {s : St} (I : Inv dflt s) (t : Nat) (c : Call) (hi : s.pc t = .idle) :
    Inv dflt { s with pc := upd s.pc t (entry c), now := upd s.now t c, log := s.log ++ [.began t c], marks := s.marks ++ [.seen (.began t c)] } where
  legal := .seen _ I.legal
  threads := by
    have : (fun u => phase dflt (upd s.now t c u) (upd s.pc t (entry c) u)) = upd (fun u => phase dflt (s.now u) (s.pc u)) t (.calling c) := by
      funext u
      by_cases hu : u = t
      · subst hu; simp only [upd_same]; cases c <;> rfl
      · simp only [upd_other _ _ hu]
    show Threads dflt _ (fun u => phase dflt (upd s.now t c u) (upd s.pc t (entry c) u))
    rw [this]
    exact .began t c I.threads (by rw [hi]; rfl)
  seen := by
    show (s.marks ++ [Mark.seen (.began t c)]).filterMap Mark.ev = s.log ++ [.began t c]
    rw [List.filterMap_append, I.seen]; rfl
  calls := by
    intro u
    dsimp only
    by_cases hu : u = t
    · subst hu; simp only [upd_same]; cases c <;> rfl
    · simp only [upd_other _ _ hu]; exact I.calls u
  lock := by
    intro u
    dsimp only
    by_cases hu : u = t
    · subst hu; rw [upd_same, ← I.lock u, hi]; cases c <;> simp [entry, inside]
    · rw [upd_other _ _ hu]; exact I.lock u
  dfl := by
    intro u k h
    dsimp only at h
    by_cases hu : u = t
    · subst hu; rw [upd_same] at h; cases c <;> exact h.elim
    · rw [upd_other _ _ hu] at h; exact I.dfl u k h

theorem inv_finish {dflt : Nat} {s : St} (I : Inv dflt s) (t : Nat) (r : Res) (l : Option Nat) (hp : s.pc t = .unlock r ∧ l = none ∨ s.pc t = .leave r ∧ l = s.lock) :
    Inv dflt ({ s with lock := l }.finish t r) := by
  have hph : phase dflt (s.now t) (s.pc t) = .acted (s.now t) (if r = .keyError then .ok else r) := by rcases hp with ⟨h, _⟩ | ⟨h, _⟩ <;> rw [h] <;> rfl
  have hends : Ends dflt (s.now t) (if r = .keyError then .ok else r) r := by
    by_cases hr : r = .keyError
    · refine .inr ⟨hr, ?_⟩
      have := I.calls t
      rcases hp with ⟨h, _⟩ | ⟨h, _⟩
      · rw [h] at this; obtain ⟨k, hk⟩ := this hr; exact ⟨k, .inr hk⟩
      · rw [h] at this; obtain ⟨k, hk⟩ := this hr; exact ⟨k, .inl hk⟩
    · exact .inl (by rw [if_neg hr])
  refine I.move (t := t) (p := .idle) rfl rfl (.seen _ I.legal) (.ended t (s.now t) _ r I.threads hph hends) ?_ trivial ?_ nofun (fun k h => h.elim) (.inr (fun k h => h))
  · show (s.marks ++ [Mark.seen (.ended t (s.now t) r)]).filterMap Mark.ev = s.log ++ [.ended t (s.now t) r]
    rw [List.filterMap_append, I.seen]; rfl
  · rcases hp with ⟨h, rfl⟩ | ⟨h, rfl⟩ <;> rw [h] <;> rfl

theorem inv_go {dflt : Nat} {bm : Bool} {s : St} (I : Inv dflt s) (t : Nat) : Inv dflt (go dflt bm s t) := by
  have hc := I.calls t
  have hdf := I.dfl t
  cases hpc : s.pc t with
  | idle => simpa only [go, hpc] using I
  | setLock k v =>
    rw [hpc] at hc
    simp only [go, hpc]
    by_cases hl : s.lock = none
    · rw [if_pos hl]
      exact I.quiet (t := t) (p := .setTest k v) rfl rfl rfl rfl rfl (by rw [hpc]; rfl) hc (by rw [hpc]; rfl) (fun _ _ => hl) (fun _ h => h.elim)
    · rw [if_neg hl]; exact I
  | getLock k =>
    rw [hpc] at hc
    simp only [go, hpc]
    by_cases hl : s.lock = none
    · rw [if_pos hl]
      exact I.quiet (t := t) (p := .getRead k) rfl rfl rfl rfl rfl (by rw [hpc]; rfl) hc (by rw [hpc]; rfl) (fun _ _ => hl) (fun _ h => h.elim)
    · rw [if_neg hl]; exact I
  | cleanLock =>
    rw [hpc] at hc
    simp only [go, hpc]
    by_cases hl : s.lock = none
    · rw [if_pos hl]
      exact I.quiet (t := t) (p := .cleanKeys) rfl rfl rfl rfl rfl (by rw [hpc]; rfl) hc (by rw [hpc]; rfl) (fun _ _ => hl) (fun _ h => h.elim)
    · rw [if_neg hl]; exact I
  | setTest k v =>
    rw [hpc] at hc
    simp only [go, hpc]
    by_cases hv : v = dflt
    · rw [if_pos hv]
      subst hv
      by_cases hh : Dict.has s.data k = true
      · rw [if_pos hh]
        exact I.quiet (t := t) (p := .setDel k) rfl rfl rfl rfl rfl (by rw [hpc]; rfl) hc (by rw [hpc]; rfl) (fun _ h => by rw [hpc] at h; cases h) (fun _ h => h.elim)
      · rw [if_neg hh]
        have hn : Dict.get? s.data k = none := Classical.byContradiction fun h => hh ((has_eq _ _).2 h)
        refine I.act (t := t) (p := .unlock .ok) (r := .ok) rfl rfl rfl rfl ?_ (by rw [hpc]; rfl) rfl nofun rfl (by rw [hpc]; rfl) (fun _ h => h.elim) (.inl (by rw [hpc]; rfl))
        have := Legal.set t k v I.legal
        rw [upd_id (by simp [value, hn])] at this
        rw [hc]; exact this
    · rw [if_neg hv]
      exact I.quiet (t := t) (p := .setData k v) rfl rfl rfl rfl rfl (by rw [hpc]; rfl) hc (by rw [hpc]; rfl) (fun _ h => by rw [hpc] at h; cases h) (fun _ h => h.elim)
  | setDel k =>
    rw [hpc] at hc
    simp only [go, hpc]
    cases hg : Dict.get? s.data k with
    | none =>
      refine I.act (t := t) (p := .unlock .keyError) (r := .ok) rfl rfl rfl rfl ?_ (by rw [hpc]; rfl) rfl (fun _ => ⟨k, hc⟩) rfl (by rw [hpc]; rfl) (fun _ h => h.elim) (.inl (by rw [hpc]; rfl))
      have := Legal.set t k dflt I.legal
      rw [upd_id (by simp [value, hg])] at this
      rw [hc]; exact this
    | some x =>
      refine I.act (t := t) (p := .unlock .ok) (r := .ok) rfl rfl rfl rfl ?_ (by rw [hpc]; rfl) rfl nofun rfl (by rw [hpc]; rfl) (fun _ h => h.elim) (.inl (by rw [hpc]; rfl))
      have := Legal.set t k dflt I.legal
      rw [hc]
      show Legal dflt _ (fun k' => (Dict.get? (Dict.del s.data k) k').getD dflt)
      rw [value_del]; exact this
  | setData k v =>
    rw [hpc] at hc
    simp only [go, hpc]
    refine I.act (t := t) (p := .unlock .ok) (r := .ok) rfl rfl rfl rfl ?_ (by rw [hpc]; rfl) rfl nofun rfl (by rw [hpc]; rfl) (fun _ h => h.elim) (.inl (by rw [hpc]; rfl))
    have := Legal.set t k v I.legal
    rw [hc]
    show Legal dflt _ (fun k' => (Dict.get? (Dict.set s.data k v) k').getD dflt)
    rw [value_set]; exact this
  | getRead k =>
    rw [hpc] at hc
    simp only [go, hpc]
    have hleg := Legal.get t k I.legal
    cases hg : Dict.get? s.data k with
    | none =>
      have hk : value dflt s k = dflt := by simp [value, hg]
      rw [hk] at hleg
      exact I.act (t := t) (p := .getMake k) (r := .val dflt) rfl rfl rfl rfl (by rw [hc]; exact hleg) (by rw [hpc]; rfl) rfl hc rfl (by rw [hpc]; rfl)
        (fun k' h => by cases h; exact hk) (.inl (by rw [hpc]; rfl))
    | some v =>
      have hk : value dflt s k = v := by simp [value, hg]
      rw [hk] at hleg
      dsimp only
      by_cases hv : v = dflt
      · rw [if_pos hv]
        subst hv
        exact I.act (t := t) (p := .getDel k) (r := .val v) rfl rfl rfl rfl (by rw [hc]; exact hleg) (by rw [hpc]; rfl) rfl hc rfl (by rw [hpc]; rfl)
          (fun k' h => by cases h; exact hk) (.inl (by rw [hpc]; rfl))
      · rw [if_neg hv]
        exact I.act (t := t) (p := .unlock (.val v)) (r := .val v) rfl rfl rfl rfl (by rw [hc]; exact hleg) (by rw [hpc]; rfl) rfl nofun rfl (by rw [hpc]; rfl)
          (fun _ h => h.elim) (.inl (by rw [hpc]; rfl))
  | getDel k =>
    rw [hpc] at hc hdf
    have hk := hdf k rfl
    simp only [go, hpc]
    cases hg : Dict.get? s.data k with
    | none =>
      exact I.quiet (t := t) (p := .getMake k) rfl rfl rfl rfl rfl (by rw [hpc]; rfl) hc (by rw [hpc]; rfl) (fun _ h => by rw [hpc] at h; cases h) (fun k' h => by cases h; exact hk)
    | some x =>
      refine I.quiet (t := t) (p := .unlock (.val dflt)) rfl rfl rfl rfl ?_ (by rw [hpc]; rfl) nofun (by rw [hpc]; rfl) (fun _ h => by rw [hpc] at h; cases h) (fun _ h => h.elim)
      show (fun k' => (Dict.get? (Dict.del s.data k) k').getD dflt) = _
      rw [value_del]; exact upd_id hk
  | getMake k =>
    rw [hpc] at hc hdf
    have hk := hdf k rfl
    simp only [go, hpc]
    refine I.quiet (t := t) (p := .unlock (.val dflt)) rfl rfl rfl rfl ?_ (by rw [hpc]; rfl) nofun (by rw [hpc]; rfl) (fun _ h => by rw [hpc] at h; cases h) (fun _ h => h.elim)
    cases bm with
    | true => rfl
    | false =>
      show (fun k' => (Dict.get? (Dict.set s.data k dflt) k').getD dflt) = _
      rw [value_set]; exact upd_id hk
  | delTest k =>
    rw [hpc] at hc
    simp only [go, hpc]
    by_cases hh : Dict.has s.data k = true
    · rw [if_pos hh]
      exact I.quiet (t := t) (p := .delDel k) rfl rfl rfl rfl rfl (by rw [hpc]; rfl) hc (by rw [hpc]; rfl) nofun (fun _ h => h.elim)
    · rw [if_neg hh]
      have hn : Dict.get? s.data k = none := Classical.byContradiction fun h => hh ((has_eq _ _).2 h)
      refine I.act (t := t) (p := .leave .ok) (r := .ok) rfl rfl rfl rfl ?_ (by rw [hpc]; rfl) rfl nofun rfl (by rw [hpc]; rfl) (fun _ h => h.elim) (.inr (fun _ h => h))
      have := Legal.del t k I.legal
      rw [upd_id (by simp [value, hn])] at this
      rw [hc]; exact this
  | delDel k =>
    rw [hpc] at hc
    simp only [go, hpc]
    cases hg : Dict.get? s.data k with
    | none =>
      refine I.act (t := t) (p := .leave .keyError) (r := .ok) rfl rfl rfl rfl ?_ (by rw [hpc]; rfl) rfl (fun _ => ⟨k, hc⟩) rfl (by rw [hpc]; rfl) (fun _ h => h.elim) (.inr (fun _ h => h))
      have := Legal.del t k I.legal
      rw [upd_id (by simp [value, hg])] at this
      rw [hc]; exact this
    | some x =>
      have hval : (fun k' => (Dict.get? (Dict.del s.data k) k').getD dflt) = upd (value dflt s) k dflt := value_del dflt s.data k
      refine I.act (t := t) (p := .leave .ok) (r := .ok) rfl rfl rfl rfl ?_ (by rw [hpc]; rfl) rfl nofun rfl (by rw [hpc]; rfl) (fun _ h => h.elim) (.inr ?_)
      · rw [hc]
        show Legal dflt _ (fun k' => (Dict.get? (Dict.del s.data k) k').getD dflt)
        rw [hval]; exact Legal.del t k I.legal
      · intro k' h
        show (fun k' => (Dict.get? (Dict.del s.data k) k').getD dflt) k' = dflt
        rw [hval]
        by_cases hk : k' = k
        · rw [hk, upd_same]
        · rw [upd_other _ _ hk]; exact h
  | cleanKeys =>
    rw [hpc] at hc
    simp only [go, hpc]
    exact I.act (t := t) (p := .cleanLoop _) (r := .ok) rfl rfl rfl rfl (by rw [hc]; exact .clean t I.legal) (by rw [hpc]; rfl) rfl hc rfl (by rw [hpc]; rfl) (fun _ h => h.elim) (.inl (by rw [hpc]; rfl))
  | cleanLoop ks =>
    rw [hpc] at hc
    cases ks with
    | nil =>
      simp only [go, hpc]
      exact I.quiet (t := t) (p := .unlock .ok) rfl rfl rfl rfl rfl (by rw [hpc]; rfl) nofun (by rw [hpc]; rfl) (fun _ h => by rw [hpc] at h; cases h) (fun _ h => h.elim)
    | cons k ks =>
      simp only [go, hpc]
      cases hg : Dict.get? s.data k with
      | none => exact I.quiet (t := t) (p := .unlock .ok) rfl rfl rfl rfl rfl (by rw [hpc]; rfl) nofun (by rw [hpc]; rfl) (fun _ h => by rw [hpc] at h; cases h) (fun _ h => h.elim)
      | some v =>
        dsimp only
        by_cases hv : v = dflt
        · rw [if_pos hv]
          exact I.quiet (t := t) (p := .cleanDel k ks) rfl rfl rfl rfl rfl (by rw [hpc]; rfl) hc (by rw [hpc]; rfl) (fun _ h => by rw [hpc] at h; cases h) (fun k' h => by cases h; simp [value, hg, hv])
        · rw [if_neg hv]
          exact I.quiet (t := t) (p := .cleanLoop ks) rfl rfl rfl rfl rfl (by rw [hpc]; rfl) hc (by rw [hpc]; rfl) (fun _ h => by rw [hpc] at h; cases h) (fun _ h => h.elim)
  | cleanDel k ks =>
    rw [hpc] at hc hdf
    have hk := hdf k rfl
    simp only [go, hpc]
    cases hg : Dict.get? s.data k with
    | none => exact I.quiet (t := t) (p := .unlock .ok) rfl rfl rfl rfl rfl (by rw [hpc]; rfl) nofun (by rw [hpc]; rfl) (fun _ h => by rw [hpc] at h; cases h) (fun _ h => h.elim)
    | some x =>
      refine I.quiet (t := t) (p := .cleanLoop ks) rfl rfl rfl rfl ?_ (by rw [hpc]; rfl) hc (by rw [hpc]; rfl) (fun _ h => by rw [hpc] at h; cases h) (fun _ h => h.elim)
      show (fun k' => (Dict.get? (Dict.del s.data k) k').getD dflt) = _
      rw [value_del]; exact upd_id hk
  | unlock r =>
    simp only [go, hpc]
    exact inv_finish I t r none (.inl ⟨hpc, rfl⟩)
  | leave r =>
    simp only [go, hpc]
    exact inv_finish I t r s.lock (.inr ⟨hpc, rfl⟩)

theorem snoc_ind {α : Type} {P : List α → Prop} (h0 : P []) (h1 : ∀ l a, P l → P (l ++ [a])) (l : List α) : P l := by
  have : ∀ l : List α, P l.reverse := by
    intro l
    induction l with
    | nil => exact h0
    | cons a l ih => rw [List.reverse_cons]; exact h1 _ _ ih
  simpa using this l.reverse

theorem inv_run (dflt : Nat) (bm : Bool) (as : List Act) : Inv dflt (run dflt bm as) := by
  induction as using snoc_ind with
  | h0 => exact inv_init dflt
  | h1 as a ih =>
    rw [run_snoc]
    cases a with
    | go t => exact inv_go ih t
    | call t c =>
      unfold step
      dsimp only
      split
      · next h => exact inv_call ih t c h
      · exact ih

/-- **C274 one map.** Whatever threads do with a SelfCleaningDefaultDict, and however they interleave, every call takes effect at one moment between its beginning and its end, as it would on a map that has
the default as the value of every key not assigned another: a lookup gives the value the key has at that moment, deleting assigns the default, cleaning up changes nothing.  That is so also for deletions, and
assignments of the default, that raise KeyError (C275); no other call raises. -/
theorem C274_one_map (dflt : Nat) (bm : Bool) (as : List Act) :
    ∃ marks f m, marks.filterMap Mark.ev = (run dflt bm as).log ∧ Threads dflt marks f ∧ Legal dflt marks m :=
  have I := inv_run dflt bm as
  ⟨_, _, _, I.seen, I.threads, I.legal⟩

/-! ### KeyError -/

theorem calling_snoc {log : List Ev} {t : Nat} {c : Call} (h : Calling log t c) {e : Ev} (he : e.thread ≠ t) : Calling (log ++ [e]) t c := by
  obtain ⟨a, b, rfl, hb⟩ := h
  refine ⟨a, b ++ [e], by simp, ?_⟩
  intro x hx
  rcases List.mem_append.1 hx with h | h
  · exact hb x h
  · rw [List.mem_singleton.1 h]; exact he

theorem met_snoc {log : List Ev} {t k : Nat} {c : Call} (h : Met log t c k) {e : Ev} (he : e.thread ≠ t) : Met (log ++ [e]) t c k := by
  obtain ⟨p, q, u, c', rfl, hq, h1, h2, h3, h4⟩ := h
  refine ⟨p, q ++ [e], u, c', by simp, ?_, h1, h2, h3, h4⟩
  intro x hx
  rcases List.mem_append.1 hx with h | h
  · exact hq x h
  · rw [List.mem_singleton.1 h]; exact he

/-- the call may raise KeyError -/
def MayRaise (dflt k : Nat) (c : Call) : Prop := c = .del k ∨ c = .set k dflt

/-- what always holds, of KeyErrors -/
structure Err (dflt : Nat) (s : St) : Prop where
  call : ∀ t, s.pc t ≠ .idle → Calling s.log t (s.now t)
  about : ∀ t k, s.pc t = .delDel k ∨ s.pc t = .setDel k → Dict.get? s.data k ≠ none ∨ Met s.log t (s.now t) k
  err : ∀ t, s.pc t = .unlock .keyError ∨ s.pc t = .leave .keyError → ∃ k, MayRaise dflt k (s.now t) ∧ Met s.log t (s.now t) k
  evs : ∀ pre post t c, s.log = pre ++ .ended t c .keyError :: post → ∃ k, MayRaise dflt k c ∧ Met pre t c k

theorem err_init (dflt : Nat) : Err dflt {} where
  call := fun t h => absurd rfl h
  about := fun t k h => by rcases h with h | h <;> cases h
  err := fun t h => by rcases h with h | h <;> cases h
  evs := fun pre post t c h => by cases pre <;> cases h

theorem Err.move {dflt : Nat} {s s' : St} {t : Nat} {p : Pc} (J : Err dflt s) (ht : s.pc t ≠ .idle) (hpc : s'.pc = upd s.pc t p) (hnow : s'.now = s.now) (hlog : s'.log = s.log)
    (hrem : ∀ k, Dict.get? s.data k ≠ none → Dict.get? s'.data k ≠ none ∨ Touches k (s.now t))
    (hp1 : ∀ k, p = .delDel k ∨ p = .setDel k → Dict.get? s'.data k ≠ none)
    (hp2 : p = .unlock .keyError ∨ p = .leave .keyError → ∃ k, MayRaise dflt k (s.now t) ∧ Met s.log t (s.now t) k) : Err dflt s' where
  call := by
    intro u hu
    rw [hnow, hlog]
    by_cases e : u = t
    · subst e; exact J.call u ht
    · rw [hpc, upd_other _ _ e] at hu; exact J.call u hu
  about := by
    intro u k hu
    rw [hpc] at hu
    rw [hnow, hlog]
    by_cases e : u = t
    · subst e; rw [upd_same] at hu; exact .inl (hp1 k hu)
    · rw [upd_other _ _ e] at hu
      rcases J.about u k hu with h | h
      · rcases hrem k h with h | h
        · exact .inl h
        · exact .inr ⟨s.log, [], t, s.now t, by simp, nofun, J.call u (by rcases hu with h | h <;> rw [h] <;> nofun), fun h => e h.symm, J.call t ht, h⟩
      · exact .inr h
  err := by
    intro u hu
    rw [hpc] at hu
    rw [hnow, hlog]
    by_cases e : u = t
    · subst e; rw [upd_same] at hu; exact hp2 hu
    · rw [upd_other _ _ e] at hu; exact J.err u hu
  evs := by rw [hlog]; exact J.evs

theorem snoc_split {α : Type} {l pre post : List α} {a x : α} (h : l ++ [a] = pre ++ x :: post) : (pre = l ∧ a = x ∧ post = []) ∨ ∃ post', l = pre ++ x :: post' := by
  induction post using snoc_ind with
  | h0 =>
    have := List.append_inj' (t₁ := [a]) (t₂ := [x]) h rfl
    exact .inl ⟨this.1.symm, by simpa using this.2, rfl⟩
  | h1 post b _ =>
    have : l ++ [a] = (pre ++ x :: post) ++ [b] := by rw [h]; simp
    exact .inr ⟨post, (List.append_inj' this rfl).1⟩

theorem err_call {dflt : Nat} {s : St} (J : Err dflt s) (t : Nat) (c : Call) (hi : s.pc t = .idle) :
    Err dflt { s with pc := upd s.pc t (entry c), now := upd s.now t c, log := s.log ++ [.began t c], marks := s.marks ++ [.seen (.began t c)] } where
  call := by
    intro u hu
    dsimp only at hu ⊢
    by_cases e : u = t
    · subst e; rw [upd_same]; exact ⟨s.log, [], rfl, nofun⟩
    · rw [upd_other _ _ e] at hu ⊢; exact calling_snoc (J.call u hu) (fun h => e h.symm)
  about := by
    intro u k hu
    dsimp only at hu ⊢
    by_cases e : u = t
    · subst e; rw [upd_same] at hu; rcases hu with h | h <;> cases c <;> cases h
    · rw [upd_other _ _ e] at hu ⊢
      rcases J.about u k hu with h | h
      · exact .inl h
      · exact .inr (met_snoc h (fun h => e h.symm))
  err := by
    intro u hu
    dsimp only at hu ⊢
    by_cases e : u = t
    · subst e; rw [upd_same] at hu; rcases hu with h | h <;> cases c <;> cases h
    · rw [upd_other _ _ e] at hu ⊢
      obtain ⟨k, h1, h2⟩ := J.err u hu
      exact ⟨k, h1, met_snoc h2 (fun h => e h.symm)⟩
  evs := by
    intro pre post u c' h
    rcases snoc_split h with ⟨_, h, _⟩ | ⟨post', h⟩
    · cases h
    · exact J.evs pre post' u c' h

theorem err_finish {dflt : Nat} {s : St} (J : Err dflt s) (t : Nat) (r : Res) (l : Option Nat) (hp : s.pc t = .unlock r ∨ s.pc t = .leave r) :
    Err dflt ({ s with lock := l }.finish t r) where
  call := by
    intro u hu
    simp only [St.finish] at hu ⊢
    by_cases e : u = t
    · subst e; rw [upd_same] at hu; exact absurd rfl hu
    · rw [upd_other _ _ e] at hu; exact calling_snoc (J.call u hu) (fun h => e h.symm)
  about := by
    intro u k hu
    simp only [St.finish] at hu ⊢
    by_cases e : u = t
    · subst e; rw [upd_same] at hu; rcases hu with h | h <;> cases h
    · rw [upd_other _ _ e] at hu
      rcases J.about u k hu with h | h
      · exact .inl h
      · exact .inr (met_snoc h (fun h => e h.symm))
  err := by
    intro u hu
    simp only [St.finish] at hu ⊢
    by_cases e : u = t
    · subst e; rw [upd_same] at hu; rcases hu with h | h <;> cases h
    · rw [upd_other _ _ e] at hu
      obtain ⟨k, h1, h2⟩ := J.err u hu
      exact ⟨k, h1, met_snoc h2 (fun h => e h.symm)⟩
  evs := by
    intro pre post u c' h
    simp only [St.finish] at h
    rcases snoc_split h with ⟨rfl, h, _⟩ | ⟨post', h⟩
    · obtain ⟨rfl, rfl, rfl⟩ := (Ev.ended.injEq ..).mp h
      exact J.err t hp
    · exact J.evs pre post' u c' h

theorem del_rem {d : Dict Nat Nat} {k k' : Nat} (h : Dict.get? d k' ≠ none) : Dict.get? (Dict.del d k) k' ≠ none ∨ k = k' := by
  by_cases e : k = k'
  · exact .inr e
  · left; rw [Dict.get?_del]; simpa [e, Ne.symm e] using h

theorem set_rem {d : Dict Nat Nat} {k k' v : Nat} (h : Dict.get? d k' ≠ none) : Dict.get? (Dict.set d k v) k' ≠ none := by
  rw [Dict.get?_set]; split <;> simp_all

theorem err_go {dflt : Nat} {bm : Bool} {s : St} (I : Inv dflt s) (J : Err dflt s) (t : Nat) : Err dflt (go dflt bm s t) := by
  have hc := I.calls t
  have hab := J.about t
  have nope1 : ∀ {p : Pc} {d : Dict Nat Nat}, (∀ k, p ≠ .delDel k) → (∀ k, p ≠ .setDel k) → ∀ k, p = .delDel k ∨ p = .setDel k → Dict.get? d k ≠ none :=
    fun h1 h2 k h => by rcases h with h | h; exact absurd h (h1 k); exact absurd h (h2 k)
  have nope2 : ∀ {p : Pc}, p ≠ .unlock .keyError → p ≠ .leave .keyError → p = .unlock .keyError ∨ p = .leave .keyError → ∃ k, MayRaise dflt k (s.now t) ∧ Met s.log t (s.now t) k :=
    fun h1 h2 h => by rcases h with h | h; exact absurd h h1; exact absurd h h2
  cases hpc : s.pc t with
  | idle => simpa only [go, hpc] using J
  | setLock k v =>
    have hi : s.pc t ≠ .idle := by rw [hpc]; nofun
    simp only [go, hpc]
    by_cases hl : s.lock = none
    · rw [if_pos hl]; exact J.move (t := t) (p := .setTest k v) hi rfl rfl rfl (fun _ h => .inl h) (nope1 nofun nofun) (nope2 nofun nofun)
    · rw [if_neg hl]; exact J
  | getLock k =>
    have hi : s.pc t ≠ .idle := by rw [hpc]; nofun
    simp only [go, hpc]
    by_cases hl : s.lock = none
    · rw [if_pos hl]; exact J.move (t := t) (p := .getRead k) hi rfl rfl rfl (fun _ h => .inl h) (nope1 nofun nofun) (nope2 nofun nofun)
    · rw [if_neg hl]; exact J
  | cleanLock =>
    have hi : s.pc t ≠ .idle := by rw [hpc]; nofun
    simp only [go, hpc]
    by_cases hl : s.lock = none
    · rw [if_pos hl]; exact J.move (t := t) (p := .cleanKeys) hi rfl rfl rfl (fun _ h => .inl h) (nope1 nofun nofun) (nope2 nofun nofun)
    · rw [if_neg hl]; exact J
  | setTest k v =>
    have hi : s.pc t ≠ .idle := by rw [hpc]; nofun
    simp only [go, hpc]
    by_cases hv : v = dflt
    · rw [if_pos hv]
      by_cases hh : Dict.has s.data k = true
      · rw [if_pos hh]
        exact J.move (t := t) (p := .setDel k) hi rfl rfl rfl (fun _ h => .inl h) (fun k' h => by rcases h with h | h <;> cases h; exact (has_eq _ _).1 hh) (nope2 nofun nofun)
      · rw [if_neg hh]; exact J.move (t := t) (p := .unlock .ok) hi rfl rfl rfl (fun _ h => .inl h) (nope1 nofun nofun) (nope2 nofun nofun)
    · rw [if_neg hv]; exact J.move (t := t) (p := .setData k v) hi rfl rfl rfl (fun _ h => .inl h) (nope1 nofun nofun) (nope2 nofun nofun)
  | setDel k =>
    have hi : s.pc t ≠ .idle := by rw [hpc]; nofun
    rw [hpc] at hc hab
    simp only [go, hpc]
    cases hg : Dict.get? s.data k with
    | none =>
      exact J.move (t := t) (p := .unlock .keyError) hi rfl rfl rfl (fun _ h => .inl h) (nope1 nofun nofun) (fun _ => ⟨k, .inr hc, (hab k (.inr rfl)).resolve_left (fun h => h hg)⟩)
    | some x =>
      exact J.move (t := t) (p := .unlock .ok) hi rfl rfl rfl (fun k' h => (del_rem h).imp id (fun e => by rw [hc]; exact e)) (nope1 nofun nofun) (nope2 nofun nofun)
  | setData k v =>
    have hi : s.pc t ≠ .idle := by rw [hpc]; nofun
    simp only [go, hpc]
    exact J.move (t := t) (p := .unlock .ok) hi rfl rfl rfl (fun _ h => .inl (set_rem h)) (nope1 nofun nofun) (nope2 nofun nofun)
  | getRead k =>
    have hi : s.pc t ≠ .idle := by rw [hpc]; nofun
    simp only [go, hpc]
    cases hg : Dict.get? s.data k with
    | none => exact J.move (t := t) (p := .getMake k) hi rfl rfl rfl (fun _ h => .inl h) (nope1 nofun nofun) (nope2 nofun nofun)
    | some v =>
      dsimp only
      by_cases hv : v = dflt
      · rw [if_pos hv]; exact J.move (t := t) (p := .getDel k) hi rfl rfl rfl (fun _ h => .inl h) (nope1 nofun nofun) (nope2 nofun nofun)
      · rw [if_neg hv]; exact J.move (t := t) (p := .unlock (.val v)) hi rfl rfl rfl (fun _ h => .inl h) (nope1 nofun nofun) (nope2 nofun nofun)
  | getDel k =>
    have hi : s.pc t ≠ .idle := by rw [hpc]; nofun
    rw [hpc] at hc
    simp only [go, hpc]
    cases hg : Dict.get? s.data k with
    | none => exact J.move (t := t) (p := .getMake k) hi rfl rfl rfl (fun _ h => .inl h) (nope1 nofun nofun) (nope2 nofun nofun)
    | some x => exact J.move (t := t) (p := .unlock (.val dflt)) hi rfl rfl rfl (fun k' h => (del_rem h).imp id (fun e => by rw [hc]; exact e)) (nope1 nofun nofun) (nope2 nofun nofun)
  | getMake k =>
    have hi : s.pc t ≠ .idle := by rw [hpc]; nofun
    simp only [go, hpc]
    refine J.move (t := t) (p := .unlock (.val dflt)) hi rfl rfl rfl (fun _ h => .inl ?_) (nope1 nofun nofun) (nope2 nofun nofun)
    cases bm with
    | true => exact h
    | false => exact set_rem h
  | delTest k =>
    have hi : s.pc t ≠ .idle := by rw [hpc]; nofun
    simp only [go, hpc]
    by_cases hh : Dict.has s.data k = true
    · rw [if_pos hh]
      exact J.move (t := t) (p := .delDel k) hi rfl rfl rfl (fun _ h => .inl h) (fun k' h => by rcases h with h | h <;> cases h; exact (has_eq _ _).1 hh) (nope2 nofun nofun)
    · rw [if_neg hh]; exact J.move (t := t) (p := .leave .ok) hi rfl rfl rfl (fun _ h => .inl h) (nope1 nofun nofun) (nope2 nofun nofun)
  | delDel k =>
    have hi : s.pc t ≠ .idle := by rw [hpc]; nofun
    rw [hpc] at hc hab
    simp only [go, hpc]
    cases hg : Dict.get? s.data k with
    | none =>
      exact J.move (t := t) (p := .leave .keyError) hi rfl rfl rfl (fun _ h => .inl h) (nope1 nofun nofun) (fun _ => ⟨k, .inl hc, (hab k (.inl rfl)).resolve_left (fun h => h hg)⟩)
    | some x =>
      exact J.move (t := t) (p := .leave .ok) hi rfl rfl rfl (fun k' h => (del_rem h).imp id (fun e => by rw [hc]; exact e)) (nope1 nofun nofun) (nope2 nofun nofun)
  | cleanKeys =>
    have hi : s.pc t ≠ .idle := by rw [hpc]; nofun
    simp only [go, hpc]
    exact J.move (t := t) (p := .cleanLoop _) hi rfl rfl rfl (fun _ h => .inl h) (nope1 nofun nofun) (nope2 nofun nofun)
  | cleanLoop ks =>
    have hi : s.pc t ≠ .idle := by rw [hpc]; nofun
    cases ks with
    | nil =>
      simp only [go, hpc]
      exact J.move (t := t) (p := .unlock .ok) hi rfl rfl rfl (fun _ h => .inl h) (nope1 nofun nofun) (nope2 nofun nofun)
    | cons k ks =>
      simp only [go, hpc]
      cases hg : Dict.get? s.data k with
      | none => exact J.move (t := t) (p := .unlock .ok) hi rfl rfl rfl (fun _ h => .inl h) (nope1 nofun nofun) (nope2 nofun nofun)
      | some v =>
        dsimp only
        by_cases hv : v = dflt
        · rw [if_pos hv]; exact J.move (t := t) (p := .cleanDel k ks) hi rfl rfl rfl (fun _ h => .inl h) (nope1 nofun nofun) (nope2 nofun nofun)
        · rw [if_neg hv]; exact J.move (t := t) (p := .cleanLoop ks) hi rfl rfl rfl (fun _ h => .inl h) (nope1 nofun nofun) (nope2 nofun nofun)
  | cleanDel k ks =>
    have hi : s.pc t ≠ .idle := by rw [hpc]; nofun
    rw [hpc] at hc
    simp only [go, hpc]
    cases hg : Dict.get? s.data k with
    | none => exact J.move (t := t) (p := .unlock .ok) hi rfl rfl rfl (fun _ h => .inl h) (nope1 nofun nofun) (nope2 nofun nofun)
    | some x => exact J.move (t := t) (p := .cleanLoop ks) hi rfl rfl rfl (fun k' h => .inr (by rw [hc]; trivial)) (nope1 nofun nofun) (nope2 nofun nofun)
  | unlock r =>
    simp only [go, hpc]
    exact err_finish J t r none (.inl hpc)
  | leave r =>
    simp only [go, hpc]
    exact err_finish J t r s.lock (.inr hpc)

theorem err_run (dflt : Nat) (bm : Bool) (as : List Act) : Err dflt (run dflt bm as) := by
  induction as using snoc_ind with
  | h0 => exact err_init dflt
  | h1 as a ih =>
    rw [run_snoc]
    cases a with
    | go t => exact err_go (inv_run dflt bm as) ih t
    | call t c =>
      unfold step
      dsimp only
      split
      · next h => exact err_call ih t c h
      · exact ih

/-- **C275 no call raises (part).** A call of a SelfCleaningDefaultDict raises KeyError only if it deletes a key, or assigns the default to it, and meets a call of another thread that may remove the key: there was a
moment when both were underway.  Missing: such calls; see `C275_two_deletions_violates`, `C275_assignment_violates` and `C275_lookup_violates`. -/
theorem C275_raises_partial (dflt : Nat) (bm : Bool) (as : List Act) (pre post : List Ev) (t : Nat) (c : Call)
    (h : (run dflt bm as).log = pre ++ .ended t c .keyError :: post) : ∃ k, (c = .del k ∨ c = .set k dflt) ∧ Met pre t c k :=
  (err_run dflt bm as).evs pre post t c h

/-- **C275, violated**: two threads delete a key at once; the other deletion of a key that is there is silent, as is that of one that is not, but this one raises KeyError. -/
theorem C275_two_deletions_violates : ∃ as, (run 0 true as).log =
    [.began 0 (.set 7 5), .ended 0 (.set 7 5) .ok, .began 0 (.del 7), .began 1 (.del 7), .ended 0 (.del 7) .ok, .ended 1 (.del 7) .keyError] :=
  ⟨[.call 0 (.set 7 5), .go 0, .go 0, .go 0, .go 0, .call 0 (.del 7), .go 0, .call 1 (.del 7), .go 1, .go 0, .go 0, .go 1, .go 1], by decide +kernel⟩

/-- **C275, violated**: a key is deleted while the default is assigned to it; the assignment raises KeyError. -/
theorem C275_assignment_violates : ∃ as, (run 0 true as).log =
    [.began 0 (.set 7 5), .ended 0 (.set 7 5) .ok, .began 0 (.set 7 0), .began 1 (.del 7), .ended 1 (.del 7) .ok, .ended 0 (.set 7 0) .keyError] :=
  ⟨[.call 0 (.set 7 5), .go 0, .go 0, .go 0, .go 0, .call 0 (.set 7 0), .go 0, .go 0, .call 1 (.del 7), .go 1, .go 1, .go 1, .go 0, .go 0], by decide +kernel⟩

/-- **C275, violated**, with background_maintenance=False: a key never assigned is looked up, and looked up again while it is deleted; the deletion raises KeyError. -/
theorem C275_lookup_violates : ∃ as, (run 0 false as).log =
    [.began 0 (.get 7), .ended 0 (.get 7) (.val 0), .began 1 (.del 7), .began 0 (.get 7), .ended 0 (.get 7) (.val 0), .ended 1 (.del 7) .keyError] :=
  ⟨[.call 0 (.get 7), .go 0, .go 0, .go 0, .go 0, .call 1 (.del 7), .go 1, .call 0 (.get 7), .go 0, .go 0, .go 0, .go 0, .go 1, .go 1], by decide +kernel⟩

/-! ### Calls end -/

/-- how many steps are left at most, if nobody else has the monitor -/
def left (n : Nat) : Pc → Nat
  | .idle => 0
  | .unlock _ | .leave _ => 1
  | .setData .. | .setDel .. => 2
  | .setTest .. => 3
  | .setLock .. => 4
  | .getMake _ => 2
  | .getDel _ => 3
  | .getRead _ => 4
  | .getLock _ => 5
  | .delDel _ => 2
  | .delTest _ => 3
  | .cleanLoop ks => 2 * ks.length + 2
  | .cleanDel _ ks => 2 * ks.length + 3
  | .cleanKeys => 2 * n + 3
  | .cleanLock => 2 * n + 4

/-- where a step leads: the thread goes on, or its call ends -/
def Goes (s s' : St) (t : Nat) : Prop :=
  (s'.pc t ≠ .idle ∧ s'.log = s.log ∧ s'.now = s.now ∧ (s'.lock = s.lock ∨ s'.lock = some t) ∧ left s'.data.length (s'.pc t) < left s.data.length (s.pc t)) ∨
  (s'.pc t = .idle ∧ (∃ r, s'.log = s.log ++ [.ended t (s.now t) r]) ∧ (s'.lock = s.lock ∨ s'.lock = none))

theorem goes_at {s s' : St} {t : Nat} {p : Pc} (hpc : s'.pc = upd s.pc t p) (hp : p ≠ .idle) (hlog : s'.log = s.log) (hnow : s'.now = s.now) (hl : s'.lock = s.lock ∨ s'.lock = some t)
    (hm : left s'.data.length p < left s.data.length (s.pc t)) : Goes s s' t :=
  .inl ⟨by rw [hpc, upd_same]; exact hp, hlog, hnow, hl, by rw [hpc, upd_same]; exact hm⟩

theorem goes (dflt : Nat) (bm : Bool) (s : St) (t : Nat) (hi : s.pc t ≠ .idle) :
    (s.lock ≠ none ∧ inside (s.pc t) = false) ∨ Goes s (go dflt bm s t) t := by
  cases hpc : s.pc t with
  | idle => exact absurd hpc hi
  | setLock k v =>
    simp only [go, hpc]
    by_cases hl : s.lock = none
    · rw [if_pos hl]; exact .inr (goes_at (p := .setTest k v) rfl nofun rfl rfl (.inr rfl) (by rw [hpc]; simp [left]))
    · exact .inl ⟨hl, rfl⟩
  | getLock k =>
    simp only [go, hpc]
    by_cases hl : s.lock = none
    · rw [if_pos hl]; exact .inr (goes_at (p := .getRead k) rfl nofun rfl rfl (.inr rfl) (by rw [hpc]; simp [left]))
    · exact .inl ⟨hl, rfl⟩
  | cleanLock =>
    simp only [go, hpc]
    by_cases hl : s.lock = none
    · rw [if_pos hl]; exact .inr (goes_at (p := .cleanKeys) rfl nofun rfl rfl (.inr rfl) (by rw [hpc]; simp [left, St.at_]))
    · exact .inl ⟨hl, rfl⟩
  | setTest k v =>
    simp only [go, hpc]
    by_cases hv : v = dflt
    · rw [if_pos hv]
      by_cases hh : Dict.has s.data k = true
      · rw [if_pos hh]; exact .inr (goes_at (p := .setDel k) rfl nofun rfl rfl (.inl rfl) (by rw [hpc]; simp [left]))
      · rw [if_neg hh]; exact .inr (goes_at (p := .unlock .ok) rfl nofun rfl rfl (.inl rfl) (by rw [hpc]; simp [left]))
    · rw [if_neg hv]; exact .inr (goes_at (p := .setData k v) rfl nofun rfl rfl (.inl rfl) (by rw [hpc]; simp [left]))
  | setDel k =>
    simp only [go, hpc]
    cases Dict.get? s.data k with
    | none => exact .inr (goes_at (p := .unlock .keyError) rfl nofun rfl rfl (.inl rfl) (by rw [hpc]; simp [left]))
    | some x => exact .inr (goes_at (p := .unlock .ok) rfl nofun rfl rfl (.inl rfl) (by rw [hpc]; simp [left]))
  | setData k v => simp only [go, hpc]; exact .inr (goes_at (p := .unlock .ok) rfl nofun rfl rfl (.inl rfl) (by rw [hpc]; simp [left]))
  | getRead k =>
    simp only [go, hpc]
    cases Dict.get? s.data k with
    | none => exact .inr (goes_at (p := .getMake k) rfl nofun rfl rfl (.inl rfl) (by rw [hpc]; simp [left]))
    | some v =>
      dsimp only
      by_cases hv : v = dflt
      · rw [if_pos hv]; exact .inr (goes_at (p := .getDel k) rfl nofun rfl rfl (.inl rfl) (by rw [hpc]; simp [left]))
      · rw [if_neg hv]; exact .inr (goes_at (p := .unlock (.val v)) rfl nofun rfl rfl (.inl rfl) (by rw [hpc]; simp [left]))
  | getDel k =>
    simp only [go, hpc]
    cases Dict.get? s.data k with
    | none => exact .inr (goes_at (p := .getMake k) rfl nofun rfl rfl (.inl rfl) (by rw [hpc]; simp [left]))
    | some v => exact .inr (goes_at (p := .unlock (.val dflt)) rfl nofun rfl rfl (.inl rfl) (by rw [hpc]; simp [left]))
  | getMake k => simp only [go, hpc]; exact .inr (goes_at (p := .unlock (.val dflt)) rfl nofun rfl rfl (.inl rfl) (by rw [hpc]; simp [left]))
  | delTest k =>
    simp only [go, hpc]
    by_cases hh : Dict.has s.data k = true
    · rw [if_pos hh]; exact .inr (goes_at (p := .delDel k) rfl nofun rfl rfl (.inl rfl) (by rw [hpc]; simp [left]))
    · rw [if_neg hh]; exact .inr (goes_at (p := .leave .ok) rfl nofun rfl rfl (.inl rfl) (by rw [hpc]; simp [left]))
  | delDel k =>
    simp only [go, hpc]
    cases Dict.get? s.data k with
    | none => exact .inr (goes_at (p := .leave .keyError) rfl nofun rfl rfl (.inl rfl) (by rw [hpc]; simp [left]))
    | some x => exact .inr (goes_at (p := .leave .ok) rfl nofun rfl rfl (.inl rfl) (by rw [hpc]; simp [left]))
  | cleanKeys => simp only [go, hpc]; exact .inr (goes_at (p := .cleanLoop (Dict.keys s.data)) rfl nofun rfl rfl (.inl rfl) (by rw [hpc]; simp [left, Dict.keys]))
  | cleanLoop ks =>
    cases ks with
    | nil => simp only [go, hpc]; exact .inr (goes_at (p := .unlock .ok) rfl nofun rfl rfl (.inl rfl) (by rw [hpc]; simp [left]))
    | cons k ks =>
      simp only [go, hpc]
      cases Dict.get? s.data k with
      | none => exact .inr (goes_at (p := .unlock .ok) rfl nofun rfl rfl (.inl rfl) (by rw [hpc]; simp only [left]; omega))
      | some v =>
        dsimp only
        by_cases hv : v = dflt
        · rw [if_pos hv]; exact .inr (goes_at (p := .cleanDel k ks) rfl nofun rfl rfl (.inl rfl) (by rw [hpc]; simp only [left, List.length_cons]; omega))
        · rw [if_neg hv]; exact .inr (goes_at (p := .cleanLoop ks) rfl nofun rfl rfl (.inl rfl) (by rw [hpc]; simp only [left, List.length_cons]; omega))
  | cleanDel k ks =>
    simp only [go, hpc]
    cases Dict.get? s.data k with
    | none => exact .inr (goes_at (p := .unlock .ok) rfl nofun rfl rfl (.inl rfl) (by rw [hpc]; simp only [left]; omega))
    | some v => exact .inr (goes_at (p := .cleanLoop ks) rfl nofun rfl rfl (.inl rfl) (by rw [hpc]; simp only [left]; omega))
  | unlock r => simp only [go, hpc]; exact .inr (.inr ⟨by simp [St.finish], ⟨r, rfl⟩, .inr rfl⟩)
  | leave r => simp only [go, hpc]; exact .inr (.inr ⟨by simp [St.finish], ⟨r, rfl⟩, .inl rfl⟩)

theorem run_append (dflt : Nat) (bm : Bool) (as bs : List Act) : run dflt bm (as ++ bs) = bs.foldl (step dflt bm) (run dflt bm as) := by simp [run]

theorem ends (dflt : Nat) (bm : Bool) (t : Nat) (n : Nat) : ∀ as : List Act, ((run dflt bm as).lock = none ∨ (run dflt bm as).lock = some t) → (run dflt bm as).pc t ≠ .idle →
    left (run dflt bm as).data.length ((run dflt bm as).pc t) < n →
    ∃ m r, (run dflt bm (as ++ List.replicate m (.go t))).log = (run dflt bm as).log ++ [.ended t ((run dflt bm as).now t) r] ∧ (run dflt bm (as ++ List.replicate m (.go t))).lock = none := by
  induction n with
  | zero => intro as _ _ h; cases h
  | succ n ih =>
    intro as hl hi hn
    have I := inv_run dflt bm as
    have hs : run dflt bm (as ++ [.go t]) = go dflt bm (run dflt bm as) t := run_snoc ..
    have I' := inv_run dflt bm (as ++ [.go t])
    rcases goes dflt bm _ t hi with ⟨h1, h2⟩ | ⟨h1, h2, h3, h4, h5⟩ | ⟨h1, ⟨r, h2⟩, h3⟩
    · rcases hl with h | h
      · exact absurd h h1
      · rw [(I.lock t).2 h] at h2; cases h2
    · rw [← hs] at h1 h2 h3 h4 h5
      have hl' : (run dflt bm (as ++ [.go t])).lock = none ∨ (run dflt bm (as ++ [.go t])).lock = some t := by
        rcases h4 with h | h
        · rw [h]; exact hl
        · exact .inr h
      obtain ⟨m, r, h6, h7⟩ := ih _ hl' h1 (by omega)
      refine ⟨m + 1, r, ?_, ?_⟩
      · rw [List.replicate_succ, show as ++ Act.go t :: List.replicate m (Act.go t) = as ++ [.go t] ++ List.replicate m (.go t) by simp, h6, h2, h3]
      · rw [List.replicate_succ, show as ++ Act.go t :: List.replicate m (Act.go t) = as ++ [.go t] ++ List.replicate m (.go t) by simp, h7]
    · rw [← hs] at h1 h2 h3
      refine ⟨1, r, h2, ?_⟩
      show (run dflt bm (as ++ [.go t])).lock = none
      rcases h3 with h | h
      · rw [h]
        rcases hl with h' | h'
        · exact h'
        · have h6 := (I'.lock t).2 (by rw [h, h']); rw [h1] at h6; cases h6
      · exact h

theorem calling_of_snoc {log : List Ev} {t : Nat} {c : Call} {e : Ev} (h : Calling (log ++ [e]) t c) : e = .began t c ∨ (e.thread ≠ t ∧ Calling log t c) := by
  obtain ⟨a, b, h, hb⟩ := h
  induction b using snoc_ind with
  | h0 => exact .inl (by simpa using (List.append_inj' (t₁ := [e]) (t₂ := [Ev.began t c]) h rfl).2)
  | h1 b x _ =>
    have h' : log ++ [e] = (a ++ Ev.began t c :: b) ++ [x] := by rw [h]; simp
    have h2 := List.append_inj' h' rfl
    have hx : e = x := by simpa using h2.2
    exact .inr ⟨by rw [hx]; exact hb x (by simp), a, b, h2.1, fun y hy => hb y (by simp [hy])⟩

theorem threads_calling {dflt : Nat} {l : List Mark} {f : Nat → Phase} (h : Threads dflt l f) (t : Nat) (c : Call) (hc : Calling (l.filterMap Mark.ev) t c) :
    f t = .calling c ∨ ∃ r, f t = .acted c r := by
  induction h with
  | nil => obtain ⟨a, b, h, _⟩ := hc; cases a <;> cases h
  | began u c' hh ho ih =>
    rw [List.filterMap_append] at hc
    rcases calling_of_snoc hc with h | ⟨h1, h2⟩
    · cases h; exact .inl (upd_same ..)
    · have hu : t ≠ u := fun e => h1 e.symm
      rw [upd_other _ _ hu]; exact ih h2
  | effect u c' r hh ho ih =>
    rw [List.filterMap_append] at hc
    rw [show List.filterMap Mark.ev [Mark.effect u c' r] = [] from rfl, List.append_nil] at hc
    have := ih hc
    by_cases hu : t = u
    · subst hu
      rw [upd_same]
      rw [ho] at this
      rcases this with h | ⟨_, h⟩
      · cases h; exact .inr ⟨r, rfl⟩
      · cases h
    · rw [upd_other _ _ hu]; exact this
  | ended u c' r r' hh ho he ih =>
    rw [List.filterMap_append] at hc
    rcases calling_of_snoc hc with h | ⟨h1, h2⟩
    · cases h
    · have hu : t ≠ u := fun e => h1 e.symm
      rw [upd_other _ _ hu]; exact ih h2

/-- what is underway is not idle -/
theorem calling_pc (dflt : Nat) (bm : Bool) (as : List Act) (t : Nat) (c : Call) (h : Calling (run dflt bm as).log t c) : (run dflt bm as).pc t ≠ .idle ∧ (run dflt bm as).now t = c := by
  have I := inv_run dflt bm as
  rw [← I.seen] at h
  have h2 := threads_calling I.threads t c h
  cases hpc : (run dflt bm as).pc t <;> rw [hpc] at h2 <;> simp [phase] at h2 <;> exact ⟨nofun, h2⟩

/-- **C274 no call is stuck.** Whatever threads have done with a SelfCleaningDefaultDict, every call underway can still end: once one other thread at most has ended its call, nobody else is needed. -/
theorem C274_ends (dflt : Nat) (bm : Bool) (as : List Act) (t : Nat) (c : Call) (h : Calling (run dflt bm as).log t c) :
    ∃ u n m r, (run dflt bm (as ++ List.replicate n (.go u) ++ List.replicate m (.go t))).log = (run dflt bm (as ++ List.replicate n (.go u))).log ++ [.ended t c r] := by
  obtain ⟨hi, hn⟩ := calling_pc dflt bm as t c h
  have I := inv_run dflt bm as
  have alone : (run dflt bm as).lock = none ∨ (run dflt bm as).lock = some t → ∃ u n m r, (run dflt bm (as ++ List.replicate n (.go u) ++ List.replicate m (.go t))).log = (run dflt bm (as ++ List.replicate n (.go u))).log ++ [.ended t c r] := by
    intro hl
    obtain ⟨m, r, h1, _⟩ := ends dflt bm t _ as hl hi (Nat.lt_succ_self _)
    refine ⟨t, 0, m, r, ?_⟩
    rw [List.replicate_zero, List.append_nil, h1, hn]
  cases hl : (run dflt bm as).lock with
  | none => exact alone (.inl hl)
  | some u =>
    by_cases hu : u = t
    · exact alone (.inr (by rw [hl, hu]))
    · have hiu : (run dflt bm as).pc u ≠ .idle := by
        intro e
        have := (I.lock u).2 hl
        rw [e] at this; cases this
      obtain ⟨n, r, h1, h2⟩ := ends dflt bm u _ as (.inr hl) hiu (Nat.lt_succ_self _)
      have hc' : Calling (run dflt bm (as ++ List.replicate n (.go u))).log t c := by rw [h1]; exact calling_snoc h hu
      obtain ⟨hi', hn'⟩ := calling_pc dflt bm _ t c hc'
      obtain ⟨m, r', h3, _⟩ := ends dflt bm t _ _ (.inl h2) hi' (Nat.lt_succ_self _)
      exact ⟨u, n, m, r', by rw [h3, hn']⟩

/-- a thread assigns, another looks up twice, between a deletion: the first lookup gives 5, the second the default -/
def demo : List Act := [.call 0 (.set 7 5), .go 0, .go 0, .call 1 (.get 7), .go 1, .go 0, .go 0, .call 2 (.del 7), .go 2, .go 1, .go 1, .go 2, .go 1, .go 2, .call 1 (.get 7), .go 1, .go 1, .go 1, .go 1, .call 0 (.clean), .go 0]

example : (run 0 true demo).log = [.began 0 (.set 7 5), .began 1 (.get 7), .ended 0 (.set 7 5) .ok, .began 2 (.del 7), .ended 1 (.get 7) (.val 5), .ended 2 (.del 7) .ok,
    .began 1 (.get 7), .ended 1 (.get 7) (.val 0), .began 0 .clean] := by decide +kernel

example : Calling (run 0 true demo).log 0 .clean := by
  rw [show (run 0 true demo).log = [.began 0 (.set 7 5), .began 1 (.get 7), .ended 0 (.set 7 5) .ok, .began 2 (.del 7), .ended 1 (.get 7) (.val 5), .ended 2 (.del 7) .ok,
    .began 1 (.get 7), .ended 1 (.get 7) (.val 0)] ++ [.began 0 .clean] by decide +kernel]
  exact ⟨_, [], rfl, nofun⟩

/-- a log that no map allows: a lookup that gives a value never assigned -/
example : ¬ ∃ m, Legal 0 [.effect 1 (.get 7) (.val 5)] m := by
  rintro ⟨m, h⟩
  generalize hl : [Mark.effect 1 (.get 7) (.val 5)] = l at h
  cases h with
  | nil => cases hl
  | seen e h => rename_i l; cases l <;> simp at hl
  | set t k v h => rename_i l _; cases l <;> simp at hl
  | get t k h =>
    rename_i l
    cases l with
    | nil =>
      simp at hl
      obtain ⟨_, rfl, h5⟩ := hl
      generalize hl' : ([] : List Mark) = l at h
      cases h with
      | nil => cases h5
      | _ => exact absurd hl' (by simp)
    | cons x l => simp at hl
  | del t k h => rename_i l _; cases l <;> simp at hl
  | clean t h => rename_i l; cases l <;> simp at hl

end Verif.Expiring.SelfCleaning
