import Verif.Ids.Props
import Verif.Conc.Linear
/-!
# C17 under every schedule: the calls of IDAllocator as small steps inside its monitor

`Verif.Ids.Model` treats a call as one step.  Here the bodies are split into accesses to the attributes; between any two of them another thread may run, as in
`Verif.Conc.Monitor`.  The loop of `_extend_the_bound_to` is one of these steps.
-/
namespace Verif.Ids.Alloc
open Verif Verif.Conc

/-- the local variables of a thread, and the calls that have returned to it with what they returned or raised.  (Part of the model of `IDAllocator`,
/repo/satella/coding/concurrent/id_allocator.py:53-141.) -/
structure Loc where
  extends_ : Bool
  howMany : Nat
  x : Int
  returned : List (Op × Res)

/-- a test that raises.  (Part of the model of `IDAllocator`, /repo/satella/coding/concurrent/id_allocator.py:53-141.) -/
def raiseIf (o : Op) (e : Exc) (c : St → Loc → Bool) : Micro St Loc :=
  fun s l => if c s l then (s, { l with returned := l.returned ++ [(o, .exc e)] }, true) else (s, l, false)

/-- the call returns.  (Part of the model of `IDAllocator`, /repo/satella/coding/concurrent/id_allocator.py:53-141.) -/
def give (o : Op) (f : Loc → Res) : Micro St Loc := fun s l => (s, { l with returned := l.returned ++ [(o, f l)] }, false)

/-- an assignment to the attributes.  (Part of the model of `IDAllocator`, /repo/satella/coding/concurrent/id_allocator.py:53-141.) -/
def assign (f : St → Loc → St) : Micro St Loc := fun s l => (f s l, l, false)

/-- an assignment to the local variables.  (Part of the model of `IDAllocator`, /repo/satella/coding/concurrent/id_allocator.py:53-141.) -/
def local_ (f : St → Loc → Loc) : Micro St Loc := fun s l => (s, f s l, false)

/-- the loop of `_extend_the_bound_to`, if it is called, /repo/satella/coding/concurrent/id_allocator.py:81-84 -/
def loop : Micro St Loc := fun s l =>
  if l.extends_ then ({ s with free := (pyRange s.bound l.x).foldl setAdd s.free }, { l with howMany := (pyRange s.bound l.x).length }, false) else (s, l, false)

/-- `self.free_ints.pop()`: the `i`th of them; KeyError if there is none, /repo/satella/coding/concurrent/id_allocator.py:115 -/
def pop (i : Nat) : Micro St Loc := fun s l =>
  match s.free[i % s.free.length]? with
  | none => (s, { l with returned := l.returned ++ [(.allocate i, .exc .keyError)] }, true)
  | some y => ({ s with free := s.free.erase y }, { l with x := y }, false)

/-- the bodies of `mark_as_free`, `allocate_int` and `mark_as_allocated`, run holding the monitor, /repo/satella/coding/concurrent/id_allocator.py:88-141, with `_extend_the_bound_to`, :77-86 -/
def body (startAt : Int) (top : Option Int) : Op → Section St Loc
  | .markFree x =>
    [raiseIf (.markFree x) .valueError (fun _ _ => decide (x < startAt)),
     raiseIf (.markFree x) .valueError (fun s _ => decide (x - startAt ∉ s.allocated)),
     assign (fun s _ => { s with allocated := s.allocated.erase (x - startAt) }),
     assign (fun s _ => { s with free := setAdd s.free (x - startAt) }),
     give (.markFree x) (fun _ => .unit)]
  | .allocate i =>
    [local_ (fun s l => { l with extends_ := s.free.isEmpty }),
     local_ (fun s l => { l with x := clip (limitOf top) (s.bound + 10) }),
     loop,
     assign (fun s l => if l.extends_ then { s with bound := l.x } else s),
     raiseIf (.allocate i) .empty (fun _ l => l.extends_ && l.howMany == 0),
     pop i,
     assign (fun s l => { s with allocated := setAdd s.allocated l.x }),
     give (.allocate i) (fun l => .id (l.x + startAt))]
  | .markAllocated x =>
    [raiseIf (.markAllocated x) .valueError (fun _ _ => decide (x < startAt)),
     raiseIf (.markAllocated x) .valueError (fun _ _ => overLimit (limitOf top) x),
     local_ (fun s l => { l with extends_ := decide (x - startAt ≥ s.bound) }),
     local_ (fun _ l => { l with x := clip (limitOf top) (x - startAt + 1) }),
     loop,
     assign (fun s l => if l.extends_ then { s with bound := l.x } else s),
     raiseIf (.markAllocated x) .alreadyAllocated (fun s l => !l.extends_ && decide (x - startAt ∈ s.allocated)),
     raiseIf (.markAllocated x) .keyError (fun s _ => decide (x - startAt ∉ s.free)),
     assign (fun s _ => { s with free := s.free.erase (x - startAt) }),
     assign (fun s _ => { s with allocated := setAdd s.allocated (x - startAt) }),
     give (.markAllocated x) (fun _ => .unit)]

/-- any number of threads, each with the calls it makes, on a new allocator, /repo/satella/coding/concurrent/id_allocator.py:69-75 -/
def start (startAt : Int) (top : Option Int) (p : Nat → List Op) : Sys St Loc :=
  Sys.init St.init (fun _ => ⟨false, 0, 0, []⟩) (fun t => (p t).map (body startAt top))

/-- the bodies, run alone, do what `step` does -/
theorem body_step (startAt : Int) (top : Option Int) (o : Op) (s : St) (l : Loc) :
    (runSection (body startAt top o) (s, l)).1 = (step startAt top s o).1 ∧
    (runSection (body startAt top o) (s, l)).2.returned = l.returned ++ [(o, (step startAt top s o).2)] := by
  cases o with
  | markFree x =>
    by_cases h1 : x < startAt
    · simp [runSection, body, raiseIf, step, h1]
    · by_cases h2 : x - startAt ∈ s.allocated <;> simp [runSection, body, raiseIf, assign, give, step, h1, h2]
  | allocate i =>
    by_cases h1 : s.free = []
    · by_cases h2 : (pyRange s.bound (clip (limitOf top) (s.bound + 10))).length = 0
      · simp [runSection, body, raiseIf, local_, loop, assign, step, St.extend, h1, h2]
      · generalize hf : ((pyRange s.bound (clip (limitOf top) (s.bound + 10))).foldl setAdd []) = fr
        cases h3 : fr[i % fr.length]? <;>
          simp [runSection, body, raiseIf, local_, loop, assign, step, St.extend, pop, give, h1, h2, h3, hf]
    · cases h3 : s.free[i % s.free.length]? <;>
        simp [runSection, body, raiseIf, local_, loop, assign, step, pop, give, h1, h3]
  | markAllocated x =>
    by_cases h1 : x < startAt
    · simp [runSection, body, raiseIf, step, h1]
    · by_cases h2 : overLimit (limitOf top) x = true
      · simp [runSection, body, raiseIf, step, h1, h2]
      · by_cases h3 : x - startAt ≥ s.bound
        · generalize hf : ((pyRange s.bound (clip (limitOf top) (x - startAt + 1))).foldl setAdd s.free) = fr
          by_cases h4 : x - startAt ∈ fr <;>
            simp [runSection, body, raiseIf, local_, loop, assign, step, St.extend, give, h1, h2, h3, h4, hf]
        · by_cases h4 : x - startAt ∈ s.allocated
          · simp [runSection, body, raiseIf, local_, loop, assign, step, h1, h2, h3, h4]
          · by_cases h5 : x - startAt ∈ s.free <;>
              simp [runSection, body, raiseIf, local_, loop, assign, step, give, h1, h2, h3, h4, h5]

/-- **C17, threads** (partial: the bounds are those of C17_any_limit_partial). Any number of threads make any calls on a new allocator, and may be interrupted between any two accesses to
its attributes.  At every moment of every schedule there is an order of the calls begun so far, with each thread's in its own order, in which the allocator behaves as the set of
identifiers in use, such that every thread that is not in a call was returned, or had raised, exactly that. -/
theorem C17_threads_partial (startAt : Int) (top : Option Int) (hs : 0 ≤ startAt) (p : Nat → List Op) (ts : List Nat) :
    let s := (start startAt top p).run ts
    ∃ (calls : List (Nat × Op)) (results : List Res) (A' : Int → Prop),
      (∀ t, ∃ rest, (calls.filterMap (fun x => if x.1 = t then some x.2 else none)) ++ rest = p t ∧ rest.length = (s.prog t).length) ∧
      History (Spec startAt ((limitOf top).map (· + startAt)) (limitOf top)) (fun _ => False) (calls.map (·.2)) results A' ∧
      ∀ t, s.inside t = none → (s.locals t).returned = resultsOf t (calls.zip results) := by
  intro s
  obtain ⟨calls, h1, -, h3⟩ := C20_linearizable_always (step startAt top) (body startAt top) Loc.returned (body_step startAt top)
    St.init (fun _ => ⟨false, 0, 0, []⟩) (fun _ => rfl) p ts
  obtain ⟨A', h4⟩ := C17_any_limit_partial startAt top hs (calls.map (·.2))
  exact ⟨calls, _, A', h1, h4, h3⟩

/-- the identifiers among what was returned.  (Specification.) -/
def given (l : List (Op × Res)) : List Int := l.filterMap (fun x => match x.2 with | .id y => some y | _ => none)

theorem given_history {lo : Int} {hi markHi : Option Int} : ∀ (calls : List (Nat × Op)) {A : Int → Prop} {rs : List Res} {A' : Int → Prop},
    History (Spec lo hi markHi) A (calls.map (·.2)) rs A' → (∀ t x, (t, Op.markFree x) ∉ calls) →
    ∀ t, (given (resultsOf t (calls.zip rs))).Nodup ∧ (∀ y ∈ given (resultsOf t (calls.zip rs)), ¬ A y ∧ lo ≤ y ∧ Below hi y) ∧
      ∀ u, u ≠ t → ∀ y ∈ given (resultsOf t (calls.zip rs)), y ∉ given (resultsOf u (calls.zip rs)) := by
  intro calls
  induction calls with
  | nil => intro A rs A' _ _ t; simp [resultsOf, given]
  | cons c calls ih =>
    intro A rs A' h hf
    obtain ⟨v, o⟩ := c
    cases rs with
    | nil => cases h
    | cons r rs =>
      obtain ⟨m, h1, h2⟩ := h
      have ih := ih h2 (fun t x hx => hf t x (List.mem_cons_of_mem _ hx))
      have hsub : ∀ y, A y → m y := by
        cases h1 with
        | free => exact absurd List.mem_cons_self (hf v _)
        | _ => intro y hy; first | exact Or.inr hy | exact hy
      have hr : (∃ x, r = .id x ∧ ¬ A x ∧ lo ≤ x ∧ Below hi x ∧ m x) ∨ ∀ x, r ≠ .id x := by
        cases h1 with
        | allocate ha hb hc => exact Or.inl ⟨_, rfl, ha, hb, hc, Or.inl rfl⟩
        | _ => exact Or.inr (fun x hx => by cases hx)
      have hcons : ∀ t, (given (resultsOf t (((v, o) :: calls).zip (r :: rs))) = given (resultsOf t (calls.zip rs))) ∨
          (t = v ∧ ∃ x, r = .id x ∧ ¬ A x ∧ lo ≤ x ∧ Below hi x ∧ m x ∧ given (resultsOf t (((v, o) :: calls).zip (r :: rs))) = x :: given (resultsOf t (calls.zip rs))) := by
        intro t
        simp only [List.zip_cons_cons, resultsOf]
        by_cases htv : v = t
        · rw [if_pos htv]
          rcases hr with ⟨x, rfl, ha, hb, hc, hm⟩ | hr
          · exact Or.inr ⟨htv.symm, x, rfl, ha, hb, hc, hm, by simp [given]⟩
          · refine Or.inl ?_
            cases r with
            | id x => exact absurd rfl (hr x)
            | _ => simp [given]
        · rw [if_neg htv]; exact Or.inl rfl
      intro t
      obtain ⟨i1, i2, i3⟩ := ih t
      have i2' : ∀ y ∈ given (resultsOf t (calls.zip rs)), ¬ A y ∧ lo ≤ y ∧ Below hi y := fun y hy => ⟨fun h => (i2 y hy).1 (hsub y h), (i2 y hy).2⟩
      rcases hcons t with e | ⟨rfl, x, rfl, ha, hb, hc, hm, e⟩
      · rw [e]
        refine ⟨i1, i2', fun u hu y hy => ?_⟩
        rcases hcons u with e' | ⟨rfl, x, rfl, ha, hb, hc, hm, e'⟩
        · rw [e']; exact i3 u hu y hy
        · rw [e', List.mem_cons]
          rintro (rfl | hy')
          · exact (i2 y hy).1 hm
          · exact i3 u hu y hy hy'
      · rw [e]
        refine ⟨List.nodup_cons.2 ⟨fun hx => (i2 x hx).1 hm, i1⟩, ?_, ?_⟩
        · intro y hy
          rcases List.mem_cons.1 hy with rfl | hy
          · exact ⟨ha, hb, hc⟩
          · exact i2' y hy
        · intro u hu y hy
          rcases hcons u with e' | ⟨rfl, _⟩
          · rw [e']
            rcases List.mem_cons.1 hy with rfl | hy
            · exact fun hx => ((ih u).2.1 y hx).1 hm
            · exact i3 u hu y hy
          · exact absurd rfl hu

/-- **C17, threads, no identifier twice** (partial: the bounds are those of C17_any_limit_partial). While nothing is freed, no identifier is given twice, to a thread or to two of them, under any schedule,
and all are at least the starting value. -/
theorem C17_threads_distinct_partial (startAt : Int) (top : Option Int) (hs : 0 ≤ startAt) (p : Nat → List Op) (hp : ∀ t x, Op.markFree x ∉ p t) (ts : List Nat) (t : Nat) :
    let s := (start startAt top p).run ts
    s.inside t = none →
    (given (s.locals t).returned).Nodup ∧ (∀ y ∈ given (s.locals t).returned, startAt ≤ y) ∧
    ∀ u, u ≠ t → s.inside u = none → ∀ y ∈ given (s.locals t).returned, y ∉ given (s.locals u).returned := by
  intro s ht
  obtain ⟨calls, rs, A', h1, h2, h3⟩ := C17_threads_partial startAt top hs p ts
  have hf : ∀ t x, (t, Op.markFree x) ∉ calls := by
    intro u x hx
    obtain ⟨rest, h4, _⟩ := h1 u
    refine hp u x ?_
    rw [← h4]
    exact List.mem_append_left _ (List.mem_filterMap.2 ⟨_, hx, by simp⟩)
  obtain ⟨k1, k2, k3⟩ := given_history calls h2 hf t
  have e := h3 t ht
  rw [show (s.locals t).returned = _ from e]
  refine ⟨k1, fun y hy => (k2 y hy).2.1, fun u hu hi y hy => ?_⟩
  rw [show (s.locals u).returned = _ from h3 u hi]
  exact k3 u hu y hy

/-- two threads that get into each other's way -/
def exTwo : Sys St Loc := (start 3 (some 2) (fun t => if t = 0 then [.allocate 0, .markFree 3, .markFree 3] else if t = 1 then [.allocate 5, .allocate 0, .allocate 0] else [])).run
  (List.replicate 60 [0, 1]).flatten

example : ((exTwo.locals 0).returned.map (·.2), (exTwo.locals 1).returned.map (·.2)) = ([.id 3, .unit, .unit], [.id 4, .id 3, .id 3]) := by decide +kernel

end Verif.Ids.Alloc
