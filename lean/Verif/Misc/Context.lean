import Verif.Py.Dict
import Verif.Py.Run
import Verif.Py.Basic
/-!
# Model of Context (satella/coding/environment.py), C71

One thread: `local` keeps threads apart.  Contexts are numbered in the order they are made; a context's parent was made before it (`parent` is not assigned to by the user).  Names of variables are numbers; they are not names of Context's own
attributes and methods.
-/
namespace Verif.Context
open Verif

/-- a context, /repo/satella/coding/environment.py:21-25; a variable that was deleted has the value `THEY_HATIN`, here `none` -/
structure Card where
  parent : Option Nat
  vars : Dict Nat (Option Nat)
  deriving DecidableEq, Repr

/-- the contexts made so far, `local.thread_context`, and the `with` statements that are open, innermost first, each with the context it was given.  (Part of the model of `Context`, /repo/satella/coding/environment.py:14-110.) -/
structure St where
  cards : List Card
  cur : Option Nat
  withs : List Nat
  deriving DecidableEq, Repr

/-- nothing was made yet.  (Part of the model of `Context`, /repo/satella/coding/environment.py:14-110.) -/
def St.init : St := ⟨[], none, []⟩

/-- what a call gives: nothing, a context, a value, a truth value, an exception.  (Part of the model of `Context`, /repo/satella/coding/environment.py:14-110.) -/
inductive Res where
  | done
  | ctx (c : Nat)
  | val (v : Nat)
  | bool (b : Bool)
  | exc (e : Exc)
  deriving DecidableEq, Repr

/-- `Context(parent)`, `Context.get()`, the beginning and the end of `with c`, `c.k = v`, `c.k`, `del c.k`, `c.does_exist(k)`, `c.push_up(k)`, `c.push_up(k, v)`.  (Part of the model of `Context`, /repo/satella/coding/environment.py:14-110.) -/
inductive Op where
  | new (parent : Option Nat)
  | get
  | enter (c : Nat)
  | exit (c : Nat)
  | setVar (c k v : Nat)
  | getVar (c k : Nat)
  | delVar (c k : Nat)
  | exist (c k : Nat)
  | pushUp (c k : Nat)
  | pushUpVal (c k v : Nat)
  deriving DecidableEq, Repr

/-- `__getattr__`, /repo/satella/coding/environment.py:43-51, `none` for AttributeError; `fuel` bounds the number of parents -/
def lookup (cards : List Card) : Nat → Nat → Nat → Option Nat
  | 0, _, _ => none
  | fuel + 1, c, k =>
    match cards[c]? with
    | none => none
    | some card =>
      match Dict.get? card.vars k with
      | some v => v
      | none =>
        match card.parent with
        | some p => lookup cards fuel p k
        | none => none

/-- `does_exist`, /repo/satella/coding/environment.py:76-87 -/
def doesExist (cards : List Card) : Nat → Nat → Nat → Bool
  | 0, _, _ => false
  | fuel + 1, c, k =>
    match cards[c]? with
    | none => false
    | some card =>
      if Dict.has card.vars k then
        match Dict.get? card.vars k with
        | some none => false
        | _ => true
      else
        match card.parent with
        | none => false
        | some p => doesExist cards fuel p k

/-- a change of the variables of a context.  (Part of the model of `Context`, /repo/satella/coding/environment.py:14-110.) -/
def change (cards : List Card) (c : Nat) (f : Dict Nat (Option Nat) → Dict Nat (Option Nat)) : List Card :=
  match cards[c]? with
  | none => cards
  | some card => cards.set c { card with vars := f card.vars }

/-- the parent of a context.  (Part of the model of `Context`, /repo/satella/coding/environment.py:14-110.) -/
def St.parent (s : St) (c : Nat) : Option Nat := s.cards[c]?.bind Card.parent

/-- one call.  `__init__`, `push_up`, `__getattr__`, `__enter__`, `__setattr__`, `__delattr__`, `does_exist`, `__exit__`, `get`: /repo/satella/coding/environment.py:21-109 -/
def St.step (s : St) : Op → St × Res
  | .new p => ({ s with cards := s.cards ++ [⟨p, []⟩] }, .ctx s.cards.length)
  | .get =>
    match s.cur with
    | some c => (s, .ctx c)
    | none => ({ s with cards := s.cards ++ [⟨none, []⟩], cur := some s.cards.length }, .ctx s.cards.length)
  | .enter c => (⟨s.cards ++ [⟨s.cur, []⟩], some s.cards.length, c :: s.withs⟩, .ctx s.cards.length)
  | .exit c =>
    match s.parent c with
    | none => ({ s with cur := none, withs := s.withs.tail }, .done)
    | some p => ({ s with cur := some p, withs := s.withs.tail }, .done)
  | .setVar c k v => ({ s with cards := change s.cards c (fun d => Dict.set d k (some v)) }, .done)
  | .getVar c k =>
    match lookup s.cards (c + 1) c k with
    | some v => (s, .val v)
    | none => (s, .exc .attributeError)
  | .delVar c k => ({ s with cards := change s.cards c (fun d => Dict.set d k none) }, .done)
  | .exist c k => (s, .bool (doesExist s.cards (c + 1) c k))
  | .pushUp c k =>
    match s.cards[c]? with
    | none => (s, .done)
    | some card =>
      match Dict.get? card.vars k with
      | none => (s, .exc .keyError)
      | some v =>
        match card.parent with
        | none => ({ s with cards := change s.cards c (fun d => Dict.del d k) }, .exc .attributeError)
        | some p => ({ s with cards := change (change s.cards c (fun d => Dict.del d k)) p (fun d => Dict.set d k v) }, .done)
  | .pushUpVal c k v =>
    match s.parent c with
    | none => (s, .exc .attributeError)
    | some p => ({ s with cards := change s.cards p (fun d => Dict.set d k (some v)) }, .done)

/-! ## Specification: cards as functions from names, and the contexts the open `with` statements will go back to -/

/-- what the user knows: how many contexts there are, their parents, what is written on each (nothing, that it is deleted, a value), the current context, and for each open `with` the context that was current before it -/
structure Abs where
  size : Nat
  parent : Nat → Option Nat
  card : Nat → Nat → Option (Option Nat)
  cur : Option Nat
  before : List (Option Nat)

/-- the variable has this value (or none) in the context: the nearest card that mentions it says so -/
inductive Sees (b : Abs) : Nat → Nat → Option Nat → Prop where
  | here (c k v) : b.card c k = some v → Sees b c k v
  | up (c k p v) : b.card c k = none → b.parent c = some p → Sees b p k v → Sees b c k v
  | top (c k) : b.card c k = none → b.parent c = none → Sees b c k none

/-- a new card -/
def Abs.add (b : Abs) (p : Option Nat) : Abs :=
  { b with size := b.size + 1, parent := fun c => if c = b.size then p else b.parent c, card := fun c k => if c = b.size then none else b.card c k }

/-- write on a card -/
def Abs.write (b : Abs) (c k : Nat) (x : Option (Option Nat)) : Abs :=
  { b with card := fun c' k' => if c' = c ∧ k' = k then x else b.card c' k' }

/-- what each call has to do -/
def Spec (b : Abs) : Op → Res → Abs → Prop
  | .new p, r, b' => r = .ctx b.size ∧ b' = b.add p
  | .get, r, b' => (∃ c, b.cur = some c ∧ r = .ctx c ∧ b' = b) ∨ (b.cur = none ∧ r = .ctx b.size ∧ b' = { b.add none with cur := some b.size })
  | .enter _, r, b' => r = .ctx b.size ∧ b' = { b.add b.cur with cur := some b.size, before := b.cur :: b.before }
  | .exit _, r, b' => r = .done ∧ ∃ p rest, b.before = p :: rest ∧ b' = { b with cur := p, before := rest }
  | .setVar c k v, r, b' => r = .done ∧ b' = b.write c k (some (some v))
  | .getVar c k, r, b' => b' = b ∧ ((∃ v, Sees b c k (some v) ∧ r = .val v) ∨ (Sees b c k none ∧ r = .exc .attributeError))
  | .delVar c k, r, b' => r = .done ∧ b' = b.write c k (some none)
  | .exist c k, r, b' => b' = b ∧ ((∃ v, Sees b c k (some v) ∧ r = .bool true) ∨ (Sees b c k none ∧ r = .bool false))
  | .pushUp c k, r, b' => r = .done ∧ ∃ v p, Sees b c k (some v) ∧ b.parent c = some p ∧ b' = (b.write c k none).write p k (some (some v))
  | .pushUpVal c k v, r, b' => r = .done ∧ ∃ p, b.parent c = some p ∧ b' = b.write p k (some (some v))

/-- contexts are made before they are used; a `with` is given a context whose parent is the current context, and ends when it is the innermost one; only a variable with a value of its own is pushed up, from a context with a parent -/
def Guard (s : St) : Op → Prop
  | .new p => ∀ c, p = some c → c < s.cards.length
  | .get => True
  | .enter c => c < s.cards.length ∧ s.parent c = s.cur
  | .exit c => ∃ rest, s.withs = c :: rest
  | .setVar c _ _ => c < s.cards.length
  | .getVar c _ => c < s.cards.length
  | .delVar c _ => c < s.cards.length
  | .exist c _ => c < s.cards.length
  | .pushUp c k => c < s.cards.length ∧ (∃ p, s.parent c = some p) ∧ ∃ v, s.cards[c]?.bind (fun card => Dict.get? card.vars k) = some (some v)
  | .pushUpVal c _ _ => c < s.cards.length ∧ ∃ p, s.parent c = some p

/-- the model represents what the user knows -/
structure Rep (s : St) (b : Abs) : Prop where
  size : b.size = s.cards.length
  parent : ∀ c, b.parent c = s.parent c
  card : ∀ c k, b.card c k = s.cards[c]?.bind (fun card => Dict.get? card.vars k)
  cur : b.cur = s.cur
  down : ∀ c p, s.parent c = some p → p < c
  inside : ∀ c, s.cur = some c → c < s.cards.length
  withs : b.before = s.withs.map s.parent
  open_ : ∀ c ∈ s.withs, c < s.cards.length

/-! ## Proofs -/

theorem parent_append (s : St) (x : Card) (cur : Option Nat) (w : List Nat) (c : Nat) :
    (St.parent ⟨s.cards ++ [x], cur, w⟩ c) = if c = s.cards.length then x.parent else s.parent c := by
  unfold St.parent
  dsimp only
  split
  · rename_i h; subst h; simp
  · rename_i h
    by_cases hc : c < s.cards.length
    · rw [List.getElem?_append_left hc]
    · rw [List.getElem?_eq_none (by simp; omega), List.getElem?_eq_none (by omega)]

theorem card_append (cards : List Card) (x : Card) (c k : Nat) (hx : x.vars = []) :
    (cards ++ [x])[c]?.bind (fun card => Dict.get? card.vars k) = if c = cards.length then none else cards[c]?.bind (fun card => Dict.get? card.vars k) := by
  split
  · rename_i h; subst h; simp [hx]
  · rename_i h
    by_cases hc : c < cards.length
    · rw [List.getElem?_append_left hc]
    · rw [List.getElem?_eq_none (by simp; omega), List.getElem?_eq_none (by omega)]

theorem change_length (cards : List Card) (c : Nat) (f) : (change cards c f).length = cards.length := by
  unfold change
  split <;> simp

theorem change_parent (cards : List Card) (c : Nat) (f) (i : Nat) : (change cards c f)[i]?.bind Card.parent = cards[i]?.bind Card.parent := by
  unfold change
  split
  · rfl
  · rename_i card h
    have hl : c < cards.length := (List.getElem?_eq_some_iff.1 h).1
    by_cases hi : c = i
    · subst hi
      rw [List.getElem?_set_self hl, h]; rfl
    · rw [List.getElem?_set_ne hi]

theorem change_card (cards : List Card) (c : Nat) (f) (hc : c < cards.length) (i k : Nat) :
    (change cards c f)[i]?.bind (fun card => Dict.get? card.vars k) =
      if i = c then cards[i]?.bind (fun card => Dict.get? (f card.vars) k) else cards[i]?.bind (fun card => Dict.get? card.vars k) := by
  unfold change
  rw [List.getElem?_eq_getElem hc]
  dsimp only
  split
  · rename_i h
    subst h
    rw [List.getElem?_set_self hc, List.getElem?_eq_getElem hc]; rfl
  · rename_i h
    rw [List.getElem?_set_ne (fun e => h e.symm)]

theorem lookup_sees (s : St) (b : Abs) (h : Rep s b) (k : Nat) (fuel c : Nat) (hc : c < fuel) (hl : c < s.cards.length) : Sees b c k (lookup s.cards fuel c k) := by
  induction fuel generalizing c with
  | zero => omega
  | succ fuel ih =>
    unfold lookup
    have hg := List.getElem?_eq_getElem hl
    rw [hg]
    dsimp only
    have hcard := h.card c k
    have hpar := h.parent c
    unfold St.parent at hpar
    rw [hg] at hcard hpar
    simp only [Option.bind_some] at hcard hpar
    cases hv : Dict.get? s.cards[c].vars k with
    | some v => exact Sees.here c k v (by rw [hcard, hv])
    | none =>
      dsimp only
      cases hp : s.cards[c].parent with
      | none => exact Sees.top c k (by rw [hcard, hv]) (by rw [hpar, hp])
      | some p =>
        dsimp only
        have hpc := h.down c p (by rw [← h.parent c, hpar, hp])
        exact Sees.up c k p _ (by rw [hcard, hv]) (by rw [hpar, hp]) (ih p (by omega) (by omega))

theorem exist_lookup (cards : List Card) (k : Nat) (fuel c : Nat) : doesExist cards fuel c k = (lookup cards fuel c k).isSome := by
  induction fuel generalizing c with
  | zero => rfl
  | succ fuel ih =>
    unfold doesExist lookup
    cases cards[c]? with
    | none => rfl
    | some card =>
      dsimp only [Dict.has]
      obtain ⟨x, hx⟩ : ∃ x, Dict.get? card.vars k = x := ⟨_, rfl⟩
      simp only [hx]
      cases x with
      | some v => cases v <;> simp
      | none =>
        cases hp : card.parent with
        | none => simp
        | some p => simpa using ih p

theorem rep_add (s : St) (b : Abs) (h : Rep s b) (p cur : Option Nat) (hp : ∀ c, p = some c → c < s.cards.length) (hcur : ∀ c, cur = some c → c ≤ s.cards.length) :
    Rep ⟨s.cards ++ [⟨p, []⟩], cur, s.withs⟩ { b.add p with cur := cur } := by
  refine ⟨?_, ?_, ?_, rfl, ?_, ?_, ?_, ?_⟩
  · simp [Abs.add, h.size]
  · intro c
    rw [parent_append]
    simp only [Abs.add, h.size, h.parent]
  · intro c k
    dsimp only [Abs.add]
    rw [card_append _ _ _ _ rfl, h.size, h.card]
  · intro c q hq
    rw [parent_append] at hq
    split at hq
    · rename_i e; subst e; exact hp q hq
    · exact h.down c q hq
  · intro c hc
    have := hcur c hc
    simp; omega
  · show b.before = s.withs.map _
    rw [h.withs]
    apply List.map_congr_left
    intro c hc
    have := h.open_ c hc
    rw [parent_append, if_neg (by omega)]
  · intro c hc
    have := h.open_ c hc
    simp; omega

theorem rep_write (s : St) (b : Abs) (h : Rep s b) (c k : Nat) (hc : c < s.cards.length) (f : Dict Nat (Option Nat) → Dict Nat (Option Nat)) (x : Option (Option Nat))
    (hf : ∀ d k', Dict.get? (f d) k' = if k = k' then x else Dict.get? d k') :
    Rep { s with cards := change s.cards c f } (b.write c k x) := by
  have hpar : ∀ i, St.parent { s with cards := change s.cards c f } i = s.parent i := fun i => change_parent s.cards c f i
  refine ⟨?_, ?_, ?_, h.cur, ?_, ?_, ?_, ?_⟩
  · show b.size = (change s.cards c f).length
    rw [change_length]; exact h.size
  · intro i; rw [hpar]; exact h.parent i
  · intro i k'
    dsimp only [Abs.write]
    rw [change_card _ _ _ hc, h.card]
    by_cases hi : i = c
    · subst hi
      rw [if_pos rfl, List.getElem?_eq_getElem hc]
      simp only [Option.bind_some, hf]
      by_cases hk : k' = k
      · subst hk; simp
      · rw [if_neg (by simp [hk]), if_neg (fun e => hk e.symm)]
    · rw [if_neg (by simp [hi]), if_neg hi]
  · intro i p; rw [hpar]; exact h.down i p
  · intro i hi
    rw [change_length]; exact h.inside i hi
  · show b.before = s.withs.map _
    rw [h.withs]
    exact List.map_congr_left (fun i _ => (hpar i).symm)
  · intro i hi
    rw [change_length]; exact h.open_ i hi

theorem step_sim (s : St) (b : Abs) (o : Op) (hg : Guard s o) (h : Rep s b) : ∃ b', Spec b o (s.step o).2 b' ∧ Rep (s.step o).1 b' := by
  cases o with
  | new p =>
    refine ⟨b.add p, ⟨by rw [h.size]; rfl, rfl⟩, ?_⟩
    have := rep_add s b h p s.cur hg (fun c hc => Nat.le_of_lt (h.inside c hc))
    rw [← h.cur] at this
    have e : ({ b.add p with cur := b.cur } : Abs) = b.add p := rfl
    rw [e] at this
    have e2 : (⟨s.cards ++ [⟨p, []⟩], b.cur, s.withs⟩ : St) = { s with cards := s.cards ++ [⟨p, []⟩] } := by rw [h.cur]
    rw [e2] at this
    exact this
  | get =>
    simp only [St.step]
    cases hc : s.cur with
    | some c => exact ⟨b, Or.inl ⟨c, by rw [h.cur, hc], rfl, rfl⟩, h⟩
    | none =>
      refine ⟨{ b.add none with cur := some b.size }, Or.inr ⟨by rw [h.cur, hc], by rw [h.size], rfl⟩, ?_⟩
      have := rep_add s b h none (some s.cards.length) (by simp) (by simp)
      rw [← h.size] at this ⊢
      exact this
  | enter c =>
    refine ⟨{ b.add b.cur with cur := some b.size, before := b.cur :: b.before }, ⟨by rw [h.size]; rfl, rfl⟩, ?_⟩
    have hr := rep_add s b h s.cur (some s.cards.length) h.inside (by simp)
    obtain ⟨h1, h2, h3, h4, h5, h6, h7, h8⟩ := hr
    rw [h.cur, h.size]
    refine ⟨h1, h2, h3, h4, h5, h6, ?_, ?_⟩
    · show s.cur :: b.before = (c :: s.withs).map _
      rw [List.map_cons]
      have e1 : St.parent ⟨s.cards ++ [⟨s.cur, []⟩], some s.cards.length, c :: s.withs⟩ c = s.cur := by
        rw [parent_append, if_neg (by have := hg.1; omega)]
        exact hg.2
      have e2 : b.before = s.withs.map (St.parent ⟨s.cards ++ [⟨s.cur, []⟩], some s.cards.length, c :: s.withs⟩) := h7
      exact List.cons_eq_cons.2 ⟨e1.symm, e2⟩
    · intro i hi
      rcases List.mem_cons.1 hi with rfl | hi
      · have := hg.1
        show i < (s.cards ++ [_]).length
        simp; omega
      · exact h8 i hi
  | exit c =>
    obtain ⟨rest, hw⟩ := hg
    have hb := h.withs
    rw [hw, List.map_cons] at hb
    refine ⟨{ b with cur := s.parent c, before := rest.map s.parent }, ⟨?_, _, _, hb, rfl⟩, ?_⟩
    · simp only [St.step]; split <;> rfl
    · have e : (s.step (.exit c)).1 = ⟨s.cards, s.parent c, rest⟩ := by
        simp only [St.step]
        split
        · rename_i hp; rw [hp, hw]; rfl
        · rename_i p hp; rw [hp, hw]; rfl
      rw [e]
      refine ⟨h.size, h.parent, h.card, rfl, h.down, ?_, rfl, ?_⟩
      · intro p hp
        have h1 := h.down c p hp
        have h2 := h.open_ c (by rw [hw]; exact List.mem_cons_self ..)
        show p < s.cards.length
        omega
      · intro i hi
        exact h.open_ i (by rw [hw]; exact List.mem_cons_of_mem _ hi)
  | setVar c k v =>
    exact ⟨_, ⟨rfl, rfl⟩, rep_write s b h c k hg _ _ (fun d k' => by rw [Dict.get?_set])⟩
  | delVar c k =>
    exact ⟨_, ⟨rfl, rfl⟩, rep_write s b h c k hg _ _ (fun d k' => by rw [Dict.get?_set])⟩
  | getVar c k =>
    have hs := lookup_sees s b h k (c + 1) c (by omega) hg
    simp only [St.step]
    cases hl : lookup s.cards (c + 1) c k with
    | some v => rw [hl] at hs; exact ⟨b, ⟨rfl, Or.inl ⟨v, hs, rfl⟩⟩, h⟩
    | none => rw [hl] at hs; exact ⟨b, ⟨rfl, Or.inr ⟨hs, rfl⟩⟩, h⟩
  | exist c k =>
    have hs := lookup_sees s b h k (c + 1) c (by omega) hg
    simp only [St.step, exist_lookup]
    cases hl : lookup s.cards (c + 1) c k with
    | some v => rw [hl] at hs; exact ⟨b, ⟨rfl, Or.inl ⟨v, hs, rfl⟩⟩, h⟩
    | none => rw [hl] at hs; exact ⟨b, ⟨rfl, Or.inr ⟨hs, rfl⟩⟩, h⟩
  | pushUp c k =>
    obtain ⟨hc, ⟨p, hp⟩, v, hv⟩ := hg
    have hg := List.getElem?_eq_getElem hc
    rw [hg] at hv
    simp only [Option.bind_some] at hv
    have hp' : s.cards[c].parent = some p := by
      unfold St.parent at hp
      rw [hg] at hp
      exact hp
    have hpc := h.down c p hp
    simp only [St.step, hg, hv, hp']
    refine ⟨(b.write c k none).write p k (some (some v)), ⟨rfl, v, p, ?_, by rw [h.parent, hp], rfl⟩, ?_⟩
    · exact Sees.here c k _ (by rw [h.card, hg]; exact hv)
    · have h1 := rep_write s b h c k hc (fun d => Dict.del d k) none (fun d k' => by rw [Dict.get?_del])
      exact rep_write _ _ h1 p k (by show p < (change _ _ _).length; rw [change_length]; omega) (fun d => Dict.set d k (some v)) _ (fun d k' => by rw [Dict.get?_set])
  | pushUpVal c k v =>
    obtain ⟨hc, p, hp⟩ := hg
    have hpc := h.down c p hp
    simp only [St.step, hp]
    exact ⟨_, ⟨rfl, p, by rw [h.parent, hp], rfl⟩, rep_write s b h p k (by omega) _ _ (fun d k' => by rw [Dict.get?_set])⟩

/-- the user knows of nothing yet -/
def Abs.init : Abs := ⟨0, fun _ => none, fun _ _ => none, none, []⟩

theorem rep_init : Rep St.init Abs.init :=
  ⟨rfl, fun _ => rfl, fun _ _ => rfl, rfl, by simp [St.init, St.parent], by simp [St.init], rfl, by simp [St.init]⟩

/-- **C71** (partial: `with` is given a context whose parent is the current context, and only variables that have a value on the card itself are pushed up, from a context with a parent). In every history, a variable has the value that the nearest
  card above that mentions it says, none if that card says it is deleted; writing, deleting and pushing up change one variable of the cards concerned and nothing else; after a `with`, the context that was current before is current again. -/
theorem C71_context_partial (ops : List Op) (h : AllSteps Guard St.step St.init ops) : ∃ b, History Spec Abs.init ops (runOps St.step St.init ops).2 b := by
  obtain ⟨b, h1, _⟩ := history_of_sim' Rep Guard step_sim St.init Abs.init ops h rep_init
  exact ⟨b, h1⟩

/-- what the nearest card says is unique, so the specification leaves no choice -/
theorem C71_sees_unique (b : Abs) (c k : Nat) (x y : Option Nat) (hx : Sees b c k x) (hy : Sees b c k y) : x = y := by
  induction hx with
  | here c k v h1 =>
    cases hy with
    | here _ _ _ h2 => rw [h1] at h2; injection h2
    | up _ _ _ _ h2 => rw [h1] at h2; cases h2
    | top _ _ h2 => rw [h1] at h2; cases h2
  | up c k p v h1 hp _ ih =>
    cases hy with
    | here _ _ _ h2 => rw [h1] at h2; cases h2
    | up _ _ _ _ _ hp' h2 => rw [hp] at hp'; injection hp' with e; subst e; exact ih h2
    | top _ _ _ hp' => rw [hp] at hp'; cases hp'
  | top c k h1 hp =>
    cases hy with
    | here _ _ _ h2 => rw [h1] at h2; cases h2
    | up _ _ _ _ _ hp' _ => rw [hp] at hp'; cases hp'
    | top _ _ _ _ => rfl

/-- **C71, violated by `with Context()` where there is a current context**, the use that is documented: after the `with`, the thread has lost its context; `Context.get()` gives an empty one, and the variable set before is gone. -/
theorem C71_with_violates (v : Nat) :
    (runOps St.step St.init [.get, .setVar 0 7 v, .new none, .enter 1, .getVar 2 7, .exit 1, .get, .getVar 3 7]).2 =
      [.ctx 0, .done, .ctx 1, .ctx 2, .val v, .done, .ctx 3, .exc .attributeError] := by rfl

/-- **C71, violated by pushing up**: a variable that a context inherits cannot be pushed up (KeyError), though `push_up` is documented to take its current value; pushing up a deleted variable deletes it in the parent; and pushing up in a context without
  a parent raises AttributeError and loses the variable. -/
theorem C71_push_violates (v : Nat) :
    (runOps St.step St.init [.new none, .new (some 0), .new (some 1), .setVar 0 7 v, .getVar 2 7, .pushUp 2 7]).2 = [.ctx 0, .ctx 1, .ctx 2, .done, .val v, .exc .keyError] ∧
    (runOps St.step St.init [.new none, .new (some 0), .setVar 0 7 v, .delVar 1 7, .pushUp 1 7, .getVar 0 7]).2 = [.ctx 0, .ctx 1, .done, .done, .done, .exc .attributeError] ∧
    (runOps St.step St.init [.new none, .setVar 0 7 v, .pushUp 0 7, .getVar 0 7]).2 = [.ctx 0, .done, .exc .attributeError, .exc .attributeError] := ⟨rfl, rfl, rfl⟩

/-! Cases that meet the hypotheses -/

/-- two nested `with`, each given a context whose parent is the current one; variables set, deleted and pushed up -/
def exampleOps : List Op := [.get, .setVar 0 7 5, .new (some 0), .enter 1, .getVar 2 7, .setVar 2 8 6, .new (some 2), .enter 3, .delVar 4 7, .getVar 4 7, .setVar 4 9 1, .pushUp 4 9, .exit 3, .getVar 2 9, .exit 1, .get, .getVar 0 7, .exist 0 8]

example : AllSteps Guard St.step St.init exampleOps := by
  simp [exampleOps, AllSteps, Guard, St.step, St.init, St.parent, change, lookup, Dict.set, Dict.get?, Dict.del]
example : (runOps St.step St.init exampleOps).2 =
    [.ctx 0, .done, .ctx 1, .ctx 2, .val 5, .done, .ctx 3, .ctx 4, .done, .exc .attributeError, .done, .done, .done, .val 1, .done, .ctx 0, .val 5, .bool false] := by rfl

end Verif.Context
