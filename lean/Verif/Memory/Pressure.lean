import Verif.Py.Basic
/-!
# Model of MemoryPressureManager and its conditions (satella/instrumentation/memory/), C44 and C61

One check of the thread is one step: the user's calls come between checks.  What a group of callbacks does when it is called is the subject of C19; here calling one is an event, and whether
some callback raises is up to the environment, which may let it depend on everything that happened before.  Logging is left out.
-/
namespace Verif.Memory
open Verif

/-- what can be seen happening: the callbacks for entering, leaving or remaining in a level are called, those for memory being normal, or an object is cleaned.  (Part of the model of `MemoryPressureManager`, /repo/satella/instrumentation/memory/memthread.py:19-235.) -/
inductive Ev where
  | entered (level : Nat)
  | left (level : Nat)
  | normal
  | remains (level : Nat)
  | cleaned (level object : Nat)
  deriving DecidableEq, Repr

/-- `severity_level`, `stopped`, `objects_to_cleanup_on_entered`, /repo/satella/instrumentation/memory/memthread.py:73-76; whether the thread has died of an exception; what happened -/
structure St where
  level : Nat
  stopped : Bool
  objects : Nat → List Nat
  dead : Bool
  trace : List Ev

/-- a new manager, /repo/satella/instrumentation/memory/memthread.py:53-77 -/
def St.init : St := ⟨0, false, fun _ => [], false, []⟩

/-- the surroundings of one check: whether each condition given by the user holds, which objects are still alive, whether an event ends in an exception, given what happened before.  (Part of the model of `MemoryPressureManager`, /repo/satella/instrumentation/memory/memthread.py:19-235.) -/
structure Env where
  conds : List Bool
  alive : Nat → Bool
  raises : List Ev → Ev → Bool

/-- `calculate_severity_level`, /repo/satella/instrumentation/memory/memthread.py:149-156, with `ZerothSeverity` in front, :61-62: the levels are tried from the last -/
def calculate (conds : List Bool) : Nat :=
  (((true :: conds).zipIdx.reverse.find? (fun e => e.1)).map (fun e => e.2)).getD 0

/-- something happens; `false` if it raised.  (Part of the model of `MemoryPressureManager`, /repo/satella/instrumentation/memory/memthread.py:19-235.) -/
def St.happen (E : Env) (s : St) (e : Ev) : St × Bool := ({ s with trace := s.trace ++ [e] }, !E.raises s.trace e)

/-- the loop over the objects of the level, /repo/satella/instrumentation/memory/memthread.py:102-107: the objects kept -/
def St.clean (E : Env) (level : Nat) : St → List Nat → List Nat → St × Option (List Nat)
  | s, kept, [] => (s, some kept)
  | s, kept, o :: os =>
    if E.alive o then
      match s.happen E (.cleaned level o) with
      | (s', true) => St.clean E level s' (kept ++ [o]) os
      | (s', false) => (s', none)
    else St.clean E level s kept os

/-- one round of the loop that enters a level, /repo/satella/instrumentation/memory/memthread.py:98-110 -/
def St.enter (E : Env) (s : St) : St × Bool :=
  let s := { s with level := s.level + 1 }
  match s.happen E (.entered s.level) with
  | (s, false) => (s, false)
  | (s, true) =>
    match St.clean E s.level s [] (s.objects s.level) with
    | (s, none) => (s, false)
    | (s, some kept) => ({ s with objects := fun l => if l = s.level then kept else s.objects l }, true)

/-- one round of the loop that leaves a level, /repo/satella/instrumentation/memory/memthread.py:111-118 -/
def St.leave (E : Env) (s : St) : St × Bool :=
  match s.happen E (.left s.level) with
  | (s, false) => (s, false)
  | (s, true) =>
    let s := { s with level := s.level - 1 }
    if s.level = 0 then s.happen E .normal else (s, true)

/-- `advance_to_severity_level`, /repo/satella/instrumentation/memory/memthread.py:93-118: the loop, run at most so many rounds; `none` if it is not finished by then; otherwise whether it ended
without an exception -/
def St.advance (E : Env) (target : Nat) : Nat → St → Option (St × Bool)
  | 0, s => if s.level = target then some (s, true) else none
  | n + 1, s =>
    if s.level = target then some (s, true)
    else
      match (if s.level < target then s.enter E else s.leave E) with
      | (s, true) => St.advance E target n s
      | (s, false) => some (s, false)

/-- `loop`, /repo/satella/instrumentation/memory/memthread.py:128-147.  Removing cancelled callbacks (:132-141) changes no event.  An exception ends the thread, /repo/satella/coding/concurrent/thread.py:501-510;
a dead thread checks no more. `none`: the loop does not end within that many rounds. -/
def St.check (E : Env) (rounds : Nat) (s : St) : Option St :=
  if s.dead || s.stopped then some s
  else
    let target := calculate E.conds
    if s.level ≠ target then (s.advance E target rounds).map (fun r => { r.1 with dead := !r.2 })
    else
      let r := s.happen E (.remains target)
      some { r.1 with dead := !r.2 }

/-- what the user and the thread do: `stop`, `resume` (:122-128), `cleanup_on_entered` (:80-91), a check.  (Part of the model of `MemoryPressureManager`, /repo/satella/instrumentation/memory/memthread.py:19-235.) -/
inductive Op where
  | stop
  | resume
  | cleanupOnEntered (level object : Nat)
  | check (E : Env)

/-- one step, /repo/satella/instrumentation/memory/memthread.py:93-147.  A check gets as many rounds as there are levels. -/
def St.step (n : Nat) (s : St) : Op → Option St
  | .stop => some { s with stopped := true }
  | .resume => some { s with stopped := false }
  | .cleanupOnEntered l o => some { s with objects := fun l' => if l' = l then s.objects l ++ [o] else s.objects l' }
  | .check E => s.check E n

/-- a history.  (Part of the model of `MemoryPressureManager`, /repo/satella/instrumentation/memory/memthread.py:19-235.) -/
def St.run (n : Nat) : St → List Op → Option St
  | s, [] => some s
  | s, op :: ops => (s.step n op).bind (fun s => St.run n s ops)

/-! ## Specification -/

/-- `m` is the highest level whose condition holds; level 0 always holds -/
structure IsHighest (conds : List Bool) (m : Nat) : Prop where
  holds : m = 0 ∨ conds[m - 1]? = some true
  above : ∀ k, m < k → conds[k - 1]? ≠ some true

/-- what should happen on a check that finds level `m`, in level `l`, if the objects to clean on entering are `objects` -/
def expected (alive : Nat → Bool) (objects : Nat → List Nat) (l m : Nat) : List Ev :=
  if l < m then (List.range' (l + 1) (m - l)).flatMap (fun k => .entered k :: ((objects k).filter alive).map (.cleaned k))
  else if m < l then (List.range' (m + 1) (l - m)).reverse.map .left ++ (if m = 0 then [.normal] else [])
  else [.remains l]

/-- the objects to clean afterwards: those found dead on entering are forgotten -/
def objectsAfter (alive : Nat → Bool) (objects : Nat → List Nat) (l m : Nat) : Nat → List Nat :=
  fun k => if l < k ∧ k ≤ m then (objects k).filter alive else objects k

/-- events happen in order, until one raises: those that happened, and whether none raised -/
def fire (raises : List Ev → Ev → Bool) : List Ev → List Ev → List Ev × Bool
  | _, [] => ([], true)
  | before, e :: es => if raises before e then ([e], false) else ((e :: (fire raises (before ++ [e]) es).1), (fire raises (before ++ [e]) es).2)

/-- what a manager is: level, whether stopped, objects to clean, or a thread that died; and what should happen at each step, after the events `t`.  After a callback raised nothing is checked any more. -/
inductive Spec (t : List Ev) : Option (Nat × Bool × (Nat → List Nat)) → Op → List Ev → Option (Nat × Bool × (Nat → List Nat)) → Prop
  | stop (l b o) : Spec t (some (l, b, o)) .stop [] (some (l, true, o))
  | resume (l b o) : Spec t (some (l, b, o)) .resume [] (some (l, false, o))
  | cleanup (l b o k x) : Spec t (some (l, b, o)) (.cleanupOnEntered k x) [] (some (l, b, fun k' => if k' = k then o k ++ [x] else o k'))
  | asleep (l o E) : Spec t (some (l, true, o)) (.check E) [] (some (l, true, o))
  | check (l o E m) : IsHighest E.conds m → (fire E.raises t (expected E.alive o l m)).2 = true →
      Spec t (some (l, false, o)) (.check E) (expected E.alive o l m) (some (m, false, objectsAfter E.alive o l m))
  | raised (l o E m) : IsHighest E.conds m → (fire E.raises t (expected E.alive o l m)).2 = false →
      Spec t (some (l, false, o)) (.check E) (fire E.raises t (expected E.alive o l m)).1 none
  | dead (op) : Spec t none op [] none

/-- a history of them -/
inductive Specs : List Ev → Option (Nat × Bool × (Nat → List Nat)) → List Op → List Ev → Option (Nat × Bool × (Nat → List Nat)) → Prop
  | nil (t b) : Specs t b [] [] b
  | cons {t b op es b' ops es' b''} : Spec t b op es b' → Specs (t ++ es) b' ops es' b'' → Specs t b (op :: ops) (es ++ es') b''

/-! ## Proofs -/

/-- induction at the end of a list -/
theorem snoc_induction {α : Type} {P : List α → Prop} (nil : P []) (snoc : ∀ l x, P l → P (l ++ [x])) (l : List α) : P l := by
  have h : P l.reverse.reverse := by
    induction l.reverse with
    | nil => exact nil
    | cons x l ih => rw [List.reverse_cons]; exact snoc _ _ ih
  rwa [List.reverse_reverse] at h

theorem find_highest (l : List Bool) (i : Nat) (h : l[i]? = some true) (ha : ∀ k, i < k → l[k]? ≠ some true) : l.zipIdx.reverse.find? (fun e => e.1) = some (true, i) := by
  induction l using snoc_induction with
  | nil => simp at h
  | snoc l b ih =>
    rw [List.zipIdx_append, List.reverse_append]
    simp only [List.zipIdx_singleton, List.reverse_singleton, List.singleton_append, Nat.zero_add]
    cases b with
    | true =>
      rw [List.find?_cons_of_pos (by rfl)]
      have : ¬ i < l.length := fun hlt => ha l.length hlt (by simp)
      have : i = l.length := by
        have := (List.getElem?_eq_some_iff.1 h).1
        simp at this
        omega
      rw [this]
    | false =>
      rw [List.find?_cons_of_neg (by simp)]
      have hlt : i < l.length := by
        have h1 := (List.getElem?_eq_some_iff.1 h).1
        simp at h1
        rcases Nat.lt_or_ge i l.length with h2 | h2
        · exact h2
        · have : i = l.length := by omega
          subst this
          simp at h
      apply ih
      · rwa [List.getElem?_append_left hlt] at h
      · intro k hk e
        have h1 := (List.getElem?_eq_some_iff.1 e).1
        exact ha k hk (by rw [List.getElem?_append_left h1]; exact e)

theorem exists_highest (conds : List Bool) : ∃ m, IsHighest conds m := by
  induction conds using snoc_induction with
  | nil => exact ⟨0, Or.inl rfl, by simp⟩
  | snoc l b ih =>
    cases b with
    | true =>
      refine ⟨l.length + 1, Or.inr (by simp), fun k hk => ?_⟩
      rw [List.getElem?_eq_none (by simp; omega)]
      simp
    | false =>
      obtain ⟨m, h1, h2⟩ := ih
      refine ⟨m, h1.imp id (fun h => ?_), fun k hk e => ?_⟩
      · rw [List.getElem?_append_left (List.getElem?_eq_some_iff.1 h).1]; exact h
      · have h3 := (List.getElem?_eq_some_iff.1 e).1
        rcases Nat.lt_or_ge (k - 1) l.length with h4 | h4
        · rw [List.getElem?_append_left h4] at e
          exact h2 k hk e
        · simp at h3
          have : k - 1 = l.length := by omega
          rw [this] at e
          simp at e

theorem calculate_eq {conds : List Bool} {m : Nat} (h : IsHighest conds m) : calculate conds = m := by
  unfold calculate
  rw [find_highest (true :: conds) m]
  · rfl
  · rcases h.holds with h | h
    · subst h; rfl
    · cases m with
      | zero => rfl
      | succ m => simpa using h
  · intro k hk
    have := h.above k hk
    cases k with
    | zero => omega
    | succ k => simpa using this

theorem fire_append (r : List Ev → Ev → Bool) (t a b : List Ev) : fire r t (a ++ b) = if (fire r t a).2 then (a ++ (fire r (t ++ a) b).1, (fire r (t ++ a) b).2) else fire r t a := by
  induction a generalizing t with
  | nil => simp [fire]
  | cons e a ih =>
    simp only [List.cons_append, fire]
    split
    · simp
    · rw [ih]
      split <;> simp

theorem fire_all {r : List Ev → Ev → Bool} {t a : List Ev} (h : (fire r t a).2 = true) : (fire r t a).1 = a := by
  have := fire_append r t a []
  rw [List.append_nil, h] at this
  simpa [fire] using congrArg Prod.fst this

theorem clean_eq (E : Env) (level : Nat) (os kept : List Nat) (s : St) :
    St.clean E level s kept os = ({ s with trace := s.trace ++ (fire E.raises s.trace ((os.filter E.alive).map (.cleaned level))).1 },
      if (fire E.raises s.trace ((os.filter E.alive).map (.cleaned level))).2 then some (kept ++ os.filter E.alive) else none) := by
  induction os generalizing s kept with
  | nil => simp [St.clean, fire]
  | cons o os ih =>
    simp only [St.clean, St.happen]
    by_cases ha : E.alive o
    · rw [if_pos ha, List.filter_cons_of_pos ha]
      simp only [List.map_cons, fire]
      cases hr : E.raises s.trace (.cleaned level o) with
      | true => simp
      | false =>
        simp only [Bool.not_false, Bool.false_eq_true, if_false]
        rw [ih]
        simp
    · rw [if_neg ha, List.filter_cons_of_neg (by simpa using ha)]
      exact ih _ _

/-- entering a level -/
theorem enter_eq (E : Env) (s : St) :
    let evs := Ev.entered (s.level + 1) :: ((s.objects (s.level + 1)).filter E.alive).map (.cleaned (s.level + 1))
    ∃ o, s.enter E = ({ s with level := s.level + 1, trace := s.trace ++ (fire E.raises s.trace evs).1, objects := o }, (fire E.raises s.trace evs).2) ∧
      ((fire E.raises s.trace evs).2 = true → o = fun l => if l = s.level + 1 then (s.objects (s.level + 1)).filter E.alive else s.objects l) := by
  simp only [St.enter, St.happen, fire]
  cases hr : E.raises s.trace (.entered (s.level + 1)) with
  | true => exact ⟨s.objects, by simp, by simp⟩
  | false =>
    simp only [Bool.not_false, Bool.false_eq_true, if_false]
    rw [clean_eq]
    dsimp only
    split
    · rename_i h
      split at h
      · cases h
      · rename_i h2
        cases h
        exact ⟨s.objects, by simp at h2; simp [h2], fun h3 => absurd h3 h2⟩
    · rename_i h
      split at h
      · rename_i h2
        cases h
        exact ⟨_, by simp [h2], fun _ => rfl⟩
      · cases h

/-- leaving a level -/
theorem leave_eq (E : Env) (s : St) :
    let evs := Ev.left s.level :: (if s.level - 1 = 0 then [.normal] else [])
    ∃ l, s.leave E = ({ s with level := l, trace := s.trace ++ (fire E.raises s.trace evs).1 }, (fire E.raises s.trace evs).2) ∧ ((fire E.raises s.trace evs).2 = true → l = s.level - 1) := by
  simp only [St.leave, St.happen, fire]
  cases hr : E.raises s.trace (.left s.level) with
  | true => exact ⟨s.level, by simp, by simp⟩
  | false =>
    simp only [Bool.not_false, Bool.false_eq_true, if_false]
    split
    · refine ⟨s.level - 1, ?_, fun _ => rfl⟩
      simp only [fire]
      cases E.raises (s.trace ++ [Ev.left s.level]) .normal <;> simp
    · exact ⟨s.level - 1, by simp [fire], fun _ => rfl⟩

/-- what an advance gives, if these events should happen -/
def Advanced (E : Env) (s : St) (evs : List Ev) (target : Nat) (r : St × Bool) : Prop :=
  r.1.trace = s.trace ++ (fire E.raises s.trace evs).1 ∧ r.2 = (fire E.raises s.trace evs).2 ∧ r.1.stopped = s.stopped ∧ r.1.dead = s.dead ∧
    (r.2 = true → r.1.level = target ∧ r.1.objects = objectsAfter E.alive s.objects s.level target)

theorem advance_here (E : Env) (n : Nat) (s : St) : s.advance E s.level n = some (s, true) := by
  cases n <;> simp [St.advance]

theorem objectsAfter_self (alive : Nat → Bool) (o : Nat → List Nat) (l m : Nat) (h : m ≤ l) : objectsAfter alive o l m = o := by
  funext j
  unfold objectsAfter
  rw [if_neg (by omega)]

theorem advanced_here (E : Env) (n : Nat) (s : St) : ∃ r, s.advance E s.level n = some r ∧ Advanced E s [] s.level r :=
  ⟨_, advance_here E n s, by simp [fire], rfl, rfl, rfl, fun _ => ⟨rfl, (objectsAfter_self _ _ _ _ (Nat.le_refl _)).symm⟩⟩

/-- the events of going up -/
def ups (alive : Nat → Bool) (o : Nat → List Nat) (l d : Nat) : List Ev := (List.range' (l + 1) d).flatMap (fun k => .entered k :: ((o k).filter alive).map (.cleaned k))

theorem ups_congr (alive : Nat → Bool) (o o' : Nat → List Nat) (l d : Nat) (h : ∀ j, l < j → o j = o' j) : ups alive o l d = ups alive o' l d := by
  unfold ups
  rw [List.flatMap_def, List.flatMap_def]
  congr 1
  apply List.map_congr_left
  intro j hj
  rw [List.mem_range'_1] at hj
  rw [h j (by omega)]

theorem advance_up (E : Env) (d n : Nat) (s : St) (hn : d ≤ n) : ∃ r, s.advance E (s.level + d) n = some r ∧ Advanced E s (ups E.alive s.objects s.level d) (s.level + d) r := by
  induction d generalizing n s with
  | zero => exact advanced_here E n s
  | succ d ih =>
    obtain ⟨n, rfl⟩ : ∃ m, n = m + 1 := ⟨n - 1, by omega⟩
    obtain ⟨o, h1, h2⟩ := enter_eq E s
    simp only [St.advance]
    rw [if_neg (by omega), if_pos (by omega), h1]
    clear h1
    have he : ups E.alive s.objects s.level (d + 1) = (Ev.entered (s.level + 1) :: ((s.objects (s.level + 1)).filter E.alive).map (.cleaned (s.level + 1))) ++
        ups E.alive (fun l => if l = s.level + 1 then (s.objects (s.level + 1)).filter E.alive else s.objects l) (s.level + 1) d := by
      rw [ups_congr E.alive (fun l => if l = s.level + 1 then (s.objects (s.level + 1)).filter E.alive else s.objects l) s.objects (s.level + 1) d (fun j hj => by rw [if_neg (by omega)])]
      unfold ups
      rw [List.range'_succ, List.flatMap_cons]
    unfold Advanced
    rw [he, fire_append]
    generalize hevs : Ev.entered (s.level + 1) :: ((s.objects (s.level + 1)).filter E.alive).map (.cleaned (s.level + 1)) = evs at h2 ⊢
    generalize hf : fire E.raises s.trace evs = f at h2 ⊢
    obtain ⟨fs, b⟩ := f
    cases b with
    | false => exact ⟨_, rfl, rfl, rfl, rfl, rfl, by simp⟩
    | true =>
      have hfs := fire_all (by rw [hf])
      rw [hf] at hfs
      dsimp only at hfs h2 ⊢
      have ho := h2 rfl
      subst ho
      subst hfs
      obtain ⟨r, h3, h4, h5, h6, h7, h8⟩ := ih n { s with level := s.level + 1, trace := s.trace ++ fs, objects := fun l => if l = s.level + 1 then (s.objects (s.level + 1)).filter E.alive else s.objects l } (by omega)
      dsimp only at h3 h4 h5 h6 h7 h8
      have ht : s.level + (d + 1) = s.level + 1 + d := by omega
      rw [ht]
      refine ⟨r, h3, ?_, ?_, h6, h7, fun hr => ⟨(h8 hr).1, ?_⟩⟩
      · rw [h4, if_pos rfl, List.append_assoc]
      · rw [h5, if_pos rfl]
      · rw [(h8 hr).2]
        funext j
        unfold objectsAfter
        dsimp only
        by_cases hj : j = s.level + 1
        · subst hj; rw [if_neg (by omega), if_pos rfl, if_pos (by omega)]
        · rw [if_neg hj]
          by_cases hj2 : s.level + 1 < j ∧ j ≤ s.level + 1 + d
          · rw [if_pos hj2, if_pos (by omega)]
          · rw [if_neg hj2, if_neg (by omega)]

/-- the events of going down -/
def downs (m d : Nat) : List Ev := (List.range' (m + 1) d).reverse.map .left ++ (if m = 0 ∧ 0 < d then [.normal] else [])

theorem downs_succ (m d : Nat) : downs m (d + 1) = (Ev.left (m + d + 1) :: (if m + d = 0 then [Ev.normal] else [])) ++ downs m d := by
  unfold downs
  rw [List.range'_concat]
  have e : m + 1 + 1 * d = m + d + 1 := by omega
  rw [e]
  simp only [List.reverse_append, List.reverse_singleton, List.map_append, List.map_cons, List.map_nil, List.singleton_append, List.cons_append]
  congr 1
  by_cases hd : d = 0
  · subst hd
    by_cases hm : m = 0 <;> simp [hm]
  · rw [if_neg (by omega : ¬ m + d = 0)]
    by_cases hm : m = 0
    · rw [if_pos ⟨hm, by omega⟩, if_pos ⟨hm, by omega⟩]; rfl
    · rw [if_neg (by omega), if_neg (by omega)]; rfl

theorem advance_down (E : Env) (m d n : Nat) (s : St) (hl : s.level = m + d) (hn : d ≤ n) : ∃ r, s.advance E m n = some r ∧ Advanced E s (downs m d) m r := by
  induction d generalizing n s with
  | zero =>
    have : m = s.level := by omega
    subst this
    have e : downs s.level 0 = [] := by simp [downs]
    rw [e]
    exact advanced_here E n s
  | succ d ih =>
    obtain ⟨n, rfl⟩ : ∃ m, n = m + 1 := ⟨n - 1, by omega⟩
    obtain ⟨l, h1, h2⟩ := leave_eq E s
    simp only [St.advance]
    rw [if_neg (by omega), if_neg (by omega), h1]
    clear h1
    have he : downs m (d + 1) = (Ev.left s.level :: (if s.level - 1 = 0 then [Ev.normal] else [])) ++ downs m d := by
      rw [downs_succ, hl]
      rfl
    unfold Advanced
    rw [he, fire_append]
    generalize hevs : (Ev.left s.level :: (if s.level - 1 = 0 then [Ev.normal] else [])) = evs at h2 ⊢
    generalize hf : fire E.raises s.trace evs = f at h2 ⊢
    obtain ⟨fs, b⟩ := f
    cases b with
    | false => exact ⟨_, rfl, rfl, rfl, rfl, rfl, by simp⟩
    | true =>
      have hfs := fire_all (by rw [hf])
      rw [hf] at hfs
      dsimp only at hfs h2 ⊢
      have ho := h2 rfl
      subst ho
      subst hfs
      obtain ⟨r, h3, h4, h5, h6, h7, h8⟩ := ih n { s with level := s.level - 1, trace := s.trace ++ fs } (by dsimp only; omega) (by omega)
      dsimp only at h3 h4 h5 h6 h7 h8
      refine ⟨r, h3, ?_, ?_, h6, h7, fun hr => ⟨(h8 hr).1, ?_⟩⟩
      · rw [h4, if_pos rfl, List.append_assoc]
      · rw [h5, if_pos rfl]
      · rw [(h8 hr).2, objectsAfter_self _ _ _ _ (by omega), objectsAfter_self _ _ _ _ (by omega)]

/-- what the model's state is, for the specification -/
def St.view (s : St) : Option (Nat × Bool × (Nat → List Nat)) := if s.dead then none else some (s.level, s.stopped, s.objects)

theorem check_spec (E : Env) (n : Nat) (s : St) (hl : s.dead = false → s.level ≤ n) (hc : E.conds.length = n) :
    ∃ s' es, s.check E n = some s' ∧ s'.trace = s.trace ++ es ∧ Spec s.trace s.view (.check E) es s'.view ∧ (s'.dead = false → s'.level ≤ n) := by
  obtain ⟨m, hm⟩ := exists_highest E.conds
  have hmn : m ≤ n := by
    rcases hm.holds with h | h
    · omega
    · have := (List.getElem?_eq_some_iff.1 h).1
      omega
  unfold St.check
  cases hd : s.dead with
  | true =>
    refine ⟨s, [], by simp, by simp, ?_, by simp [hd]⟩
    simp only [St.view, hd, if_true]
    exact Spec.dead _
  | false =>
    cases hst : s.stopped with
    | true =>
      refine ⟨s, [], by simp, by simp, ?_, fun _ => hl hd⟩
      simp only [St.view, hd, hst, Bool.false_eq_true, if_false]
      exact Spec.asleep _ _ _
    | false =>
      rw [if_neg (by simp), calculate_eq hm]
      dsimp only
      have hv : s.view = some (s.level, false, s.objects) := by simp [St.view, hd, hst]
      rw [hv]
      have fin : ∀ r : St × Bool, Advanced E s (expected E.alive s.objects s.level m) m r → ∃ s' es, (some r).map (fun r => { r.1 with dead := !r.2 : St }) = some s' ∧ s'.trace = s.trace ++ es ∧
          Spec s.trace (some (s.level, false, s.objects)) (.check E) es s'.view ∧ (s'.dead = false → s'.level ≤ n) := by
        rintro ⟨s', ok⟩ ⟨h1, h2, h3, h4, h5⟩
        dsimp only at h1 h2 h3 h4 h5
        refine ⟨_, _, rfl, h1, ?_, ?_⟩
        · cases ok with
          | true =>
            obtain ⟨h6, h7⟩ := h5 rfl
            rw [fire_all h2.symm]
            simp only [St.view, Bool.not_true, Bool.false_eq_true, if_false, h3, h6, h7, hst]
            exact Spec.check _ _ _ _ hm h2.symm
          | false =>
            simp only [St.view, Bool.not_false, if_true]
            exact Spec.raised _ _ _ _ hm h2.symm
        · intro h
          cases ok with
          | true => exact (h5 rfl).1 ▸ hmn
          | false => simp at h
      by_cases hlm : s.level = m
      · rw [if_neg (by simp [hlm])]
        apply fin
        unfold Advanced
        have he : expected E.alive s.objects s.level m = [.remains m] := by simp [expected, hlm]
        rw [he]
        simp only [St.happen, fire]
        cases hr : E.raises s.trace (.remains m) with
        | true => simp
        | false =>
          simp only [Bool.not_false, Bool.false_eq_true, if_false, true_and]
          intro _
          refine ⟨hlm, ?_⟩
          funext j
          unfold objectsAfter
          rw [if_neg (by omega)]
      · rw [if_pos hlm]
        have hln := hl hd
        rcases Nat.lt_or_ge s.level m with h | h
        · obtain ⟨r, h1, h2⟩ := advance_up E (m - s.level) n s (by omega)
          have e1 : s.level + (m - s.level) = m := by omega
          have e2 : expected E.alive s.objects s.level m = ups E.alive s.objects s.level (m - s.level) := by
            unfold expected ups
            rw [if_pos h]
          rw [e1] at h1 h2
          rw [h1]
          exact fin r (by rw [e2]; exact h2)
        · obtain ⟨r, h1, h2⟩ := advance_down E m (s.level - m) n s (by omega) (by omega)
          have e2 : expected E.alive s.objects s.level m = downs m (s.level - m) := by
            unfold expected downs
            rw [if_neg (by omega), if_pos (by omega)]
            by_cases h0 : m = 0
            · rw [if_pos h0, if_pos ⟨h0, by omega⟩]
            · rw [if_neg h0, if_neg (by omega)]
          rw [h1]
          exact fin r (by rw [e2]; exact h2)

/-- **C44.** For every list of conditions, every memory situation at every check, whatever objects live or die and whichever callbacks raise: each check ends, and in every history of checks, `stop`, `resume` and
`cleanup_on_entered`, what happens is what the specification says: severity goes to the highest level whose condition holds; going up fires the entered-callbacks of every level passed in increasing
order, each followed by the cleaning of the objects of that level still alive; going down fires the left-callbacks in decreasing order; memory-normal fires exactly on reaching 0 from above;
remaining fires otherwise; all of this until a callback raises, which is the end of the manager. -/
theorem C44_pressure (n : Nat) (ops : List Op) (hc : ∀ E, .check E ∈ ops → E.conds.length = n) :
    ∃ s, St.run n St.init ops = some s ∧ Specs [] (some (0, false, fun _ => [])) ops s.trace s.view := by
  suffices ∀ s : St, (s.dead = false → s.level ≤ n) → ∃ s' es, St.run n s ops = some s' ∧ s'.trace = s.trace ++ es ∧ Specs s.trace s.view ops es s'.view by
    obtain ⟨s, es, h1, h2, h3⟩ := this St.init (by simp [St.init])
    have h2' : s.trace = es := by simpa [St.init] using h2
    exact ⟨s, h1, by rw [h2']; exact h3⟩
  induction ops with
  | nil => exact fun s _ => ⟨s, [], rfl, by simp, Specs.nil _ _⟩
  | cons op ops ih =>
    intro s hl
    have one : ∃ s' es, s.step n op = some s' ∧ s'.trace = s.trace ++ es ∧ Spec s.trace s.view op es s'.view ∧ (s'.dead = false → s'.level ≤ n) := by
      cases op with
      | check E => exact check_spec E n s hl (hc E (by simp))
      | stop =>
        refine ⟨_, [], rfl, by simp, ?_, hl⟩
        cases hd : s.dead <;> simp only [St.view, hd, if_true, Bool.false_eq_true, if_false]
        · exact Spec.stop _ _ _
        · exact Spec.dead _
      | resume =>
        refine ⟨_, [], rfl, by simp, ?_, hl⟩
        cases hd : s.dead <;> simp only [St.view, hd, if_true, Bool.false_eq_true, if_false]
        · exact Spec.resume _ _ _
        · exact Spec.dead _
      | cleanupOnEntered k x =>
        refine ⟨_, [], rfl, by simp, ?_, hl⟩
        cases hd : s.dead <;> simp only [St.view, hd, if_true, Bool.false_eq_true, if_false]
        · exact Spec.cleanup _ _ _ _ _
        · exact Spec.dead _
    obtain ⟨s1, es1, h1, h2, h3, h4⟩ := one
    obtain ⟨s2, es2, h5, h6, h7⟩ := ih (fun E hE => hc E (by simp [hE])) s1 h4
    refine ⟨s2, es1 ++ es2, by simp [St.run, h1, h5], by rw [h6, h2, List.append_assoc], ?_⟩
    rw [h2] at h7
    exact Specs.cons h3 h7

/-- After a callback raised, the level stays where it was, whatever memory does: the manager is no more. -/
theorem C44_raised_is_final (n : Nat) (s : St) (h : s.dead = true) (ops : List Op) : ∃ s', St.run n s ops = some s' ∧ s'.level = s.level ∧ s'.trace = s.trace := by
  suffices ∃ s', St.run n s ops = some s' ∧ s'.level = s.level ∧ s'.trace = s.trace ∧ s'.dead = true from
    let ⟨s', h1, h2, h3, _⟩ := this; ⟨s', h1, h2, h3⟩
  induction ops generalizing s with
  | nil => exact ⟨s, rfl, rfl, rfl, h⟩
  | cons op ops ih =>
    have : ∃ s1, s.step n op = some s1 ∧ s1.level = s.level ∧ s1.trace = s.trace ∧ s1.dead = true := by
      cases op <;> simp [St.step, St.check, h]
    obtain ⟨s1, h1, h2, h3, h4⟩ := this
    obtain ⟨s2, h5, h6, h7, h8⟩ := ih s1 h4
    exact ⟨s2, by simp [St.run, h1, h5], by rw [h6, h2], by rw [h7, h3], h8⟩

/-! Concrete cases. -/

/-- quiet callbacks, all objects alive but number 9 -/
def quiet (conds : List Bool) : Env := ⟨conds, fun o => o != 9, fun _ _ => false⟩
/-- up two levels at once, remaining, down to nothing -/
def ops0 : List Op := [.cleanupOnEntered 2 8, .cleanupOnEntered 2 9, .check (quiet [true, true, false]), .check (quiet [false, true, false]), .check (quiet [false, false, false]), .check (quiet [false, false, false])]
example : ((St.run 3 St.init ops0).map St.trace) = some [.entered 1, .entered 2, .cleaned 2 8, .remains 2, .left 2, .left 1, .normal, .remains 0] := by decide
example : ∀ E, Op.check E ∈ ops0 → E.conds.length = 3 := by
  intro E h
  simp only [ops0, List.mem_cons, reduceCtorEq, false_or, Op.check.injEq, List.not_mem_nil, or_false] at h
  rcases h with rfl | rfl | rfl | rfl <;> rfl
/-- the callbacks of level 1 raise -/
def loud : Env := ⟨[true, true], fun _ => true, fun _ e => e == .entered 1⟩
example : ((St.run 2 St.init [.check loud, .check (quiet [false, false])]).map (fun s => (s.level, s.dead, s.trace))) = some (1, true, [.entered 1]) := by decide

end Verif.Memory
