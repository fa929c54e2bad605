/-!
# An iterator of `SyncableDroppable.get_archive` served from memory, among other calls, C283

`get_archive` is a generator that walks the list of items in memory by index, while items are added to the end of that list, are deleted from its beginning when they are moved into the database, or the list is replaced.
One iterator is modelled, since iterators do not change anything.  Not modelled: what an iterator gives from the database (it answers `db`, and no more is said about it), and whether the items moved are in the database.
-/
namespace Verif.Syncable.Archive

/-- a key and its value.  (Part of the model of `SyncableDroppable`, /repo/satella/coding/structures/syncable_droppable.py:82-402.) -/
abbrev Item := Int × Nat

/-- the iterator: there is none or it is over; not asked yet; suspended at the `yield`, :220, at an index of the list of items in memory or of a list that was replaced since,
/repo/satella/coding/structures/syncable_droppable.py:203-220 -/
inductive It where
  | over
  | fresh (start stop : Int)
  | running (old : Option (List Item)) (i : Nat) (start stop : Int)

/-- what happens: new data; items older than the span are moved into the database; all are; items older than a key are dropped; `get_archive` is called; its iterator is asked for an item.
(Part of the model of `SyncableDroppable`, /repo/satella/coding/structures/syncable_droppable.py:82-402.) -/
inductive Act where
  | add (k : Int) (v : Nat)
  | keep
  | sync
  | drop (cutoff : Int)
  | make (start stop : Int)
  | next

/-- what is returned; `stop` is StopIteration.  (Part of the model of `SyncableDroppable`, /repo/satella/coding/structures/syncable_droppable.py:82-402.) -/
inductive Ret where
  | unit
  | valueError
  | item (x : Item)
  | stop
  | db
  deriving DecidableEq

/-- the list `data_in_memory`, `stop_entry` and the iterator, /repo/satella/coding/structures/syncable_droppable.py:108-121 -/
structure St where
  mem : List Item := []
  last : Option Int := none
  it : It := .over

/-- `self.data_in_memory = new`: an iterator goes on with the list it has, /repo/satella/coding/structures/syncable_droppable.py:159, :272, :285 -/
def St.replace (s : St) (new : List Item) : St :=
  { s with mem := new, it := match s.it with | .running none i a b => .running (some s.mem) i a b | it => it }

/-- the loop of `get_archive` until the next `yield`, with the items left from the index on, /repo/satella/coding/structures/syncable_droppable.py:215-220 -/
def scan (a b : Int) : List Item → Nat → Option (Item × Nat)
  | [], _ => none
  | x :: l, i => if x.1 < a then scan a b l (i + 1) else if x.1 > b then none else some (x, i + 1)

/-- the iterator goes on, /repo/satella/coding/structures/syncable_droppable.py:215-220 -/
def St.resume (s : St) (old : Option (List Item)) (i : Nat) (a b : Int) : St × Ret :=
  match scan a b ((old.getD s.mem).drop i) i with
  | none => ({ s with it := .over }, .stop)
  | some (x, j) => ({ s with it := .running old j a b }, .item x)

/-- what happens does: `on_new_data`, /repo/satella/coding/structures/syncable_droppable.py:295-313, `cleanup_keep_in_memory`, :255-273, `sync_to_db`, :153-159, `cleanup_keep_in_db` if all items are in memory, :276-289, for any `cutoff_span`,
`get_archive`, :203-234 -/
def step (span : Int) (s : St) : Act → St × Ret
  | .add k v =>
    match s.last with
    | some e => if k ≤ e then (s, .valueError) else ({ s with mem := s.mem ++ [(k, v)], last := some k }, .unit)
    | none => ({ s with mem := s.mem ++ [(k, v)], last := some k }, .unit)
  | .keep =>
    match s.last with
    | none => (s, .unit)
    | some e =>
      if s.mem = [] then (s, .unit)
      else if s.mem.all (fun x => decide (x.1 ≤ e - span)) then (s.replace [], .unit)
      else ({ s with mem := s.mem.drop (s.mem.takeWhile (fun x => decide (x.1 ≤ e - span))).length }, .unit)
  | .sync => (s.replace [], .unit)
  | .drop c =>
    let new := s.mem.filter (fun x => decide (x.1 ≥ c))
    if s.mem = [] then (s, .unit)
    else ({ s.replace new with last := if new = [] then none else s.last }, .unit)
  | .make a b => ({ s with it := .fresh a b }, .unit)
  | .next =>
    match s.it with
    | .over => (s, .stop)
    | .fresh a b =>
      match s.mem with
      | [] => ({ s with it := .over }, .stop)
      | x :: _ => if x.1 ≤ a then s.resume none 0 a b else ({ s with it := .over }, .db)
    | .running old i a b => s.resume old i a b

/-- the state after a history of a series whose latest key in the database is `e0`, if any.  (Part of the model of `SyncableDroppable`, /repo/satella/coding/structures/syncable_droppable.py:82-402.) -/
def after (span : Int) (e0 : Option Int) (as : List Act) : St := as.foldl (fun s a => (step span s a).1) { last := e0 }

/-- what an act returns after a history.  (Part of the model of `SyncableDroppable`, /repo/satella/coding/structures/syncable_droppable.py:82-402.) -/
def ret (span : Int) (e0 : Option Int) (as : List Act) (a : Act) : Ret := (step span (after span e0 as) a).2

/-! ## Specification -/

/-- the iterator asked for an item -/
def isNext : Act → Bool
  | .next => true
  | _ => false

/-- what the iterator answered while `q` happened after `as` -/
def answers (span : Int) (e0 : Option Int) : List Act → List Act → List Ret
  | _, [] => []
  | as, a :: q => (if isNext a then [ret span e0 as a] else []) ++ answers span e0 (as ++ [a]) q

/-- the key is asked for -/
def within (a b : Int) (x : Item) : Bool := decide (a ≤ x.1 ∧ x.1 ≤ b)

/-! ## Proofs -/

theorem after_snoc (span : Int) (e0 : Option Int) (as : List Act) (a : Act) : after span e0 (as ++ [a]) = (step span (after span e0 as) a).1 := by simp [after]

theorem snoc_ind {β : Type _} {P : List β → Prop} (l : List β) (h0 : P []) (h1 : ∀ l a, P l → P (l ++ [a])) : P l := by
  suffices h : ∀ l : List β, P l.reverse by simpa using h l.reverse
  intro l
  induction l with
  | nil => exact h0
  | cons a l ih => simpa using h1 _ a ih

theorem answers_snoc (span : Int) (e0 : Option Int) (as q : List Act) (a : Act) : answers span e0 as (q ++ [a]) = answers span e0 as q ++ (if isNext a then [ret span e0 (as ++ q) a] else []) := by
  induction q generalizing as with
  | nil => simp [answers]
  | cons b q ih => simp only [List.cons_append, answers, ih, List.append_assoc]; simp

/-- keys ascend -/
def Asc (l : List Item) : Prop := l.Pairwise (fun x y => x.1 < y.1)

/-- what holds of the memory -/
structure Mem (as : List Act) (s : St) : Prop where
  asc : Asc s.mem
  last : ∀ x ∈ s.mem, ∃ e, s.last = some e ∧ x.1 ≤ e
  added : ∀ x ∈ s.mem, .add x.1 x.2 ∈ as

theorem asc_snoc {l : List Item} (h : Asc l) {k : Int} {v : Nat} (hk : ∀ x ∈ l, x.1 < k) : Asc (l ++ [(k, v)]) := by
  unfold Asc
  rw [List.pairwise_append]
  exact ⟨h, List.pairwise_singleton _ _, fun x hx y hy => by rw [List.mem_singleton.1 hy]; exact hk x hx⟩

/-- what an act other than a call of the iterator does to the memory -/
theorem mem_step (span : Int) (s : St) (a : Act) :
    ((step span s a).1.mem = s.mem ∧ (step span s a).1.last = s.last) ∨
    (∃ k v, a = .add k v ∧ (step span s a).1.mem = s.mem ++ [(k, v)] ∧ (step span s a).1.last = some k ∧ (∀ e, s.last = some e → e < k) ∧ (step span s a).1.it = s.it) ∨
    ((step span s a).1.mem.Sublist s.mem ∧ ((step span s a).1.last = s.last ∨ (step span s a).1.mem = [])) := by
  cases a with
  | add k v =>
    simp only [step]
    cases h : s.last with
    | none => exact .inr (.inl ⟨k, v, rfl, rfl, rfl, nofun, rfl⟩)
    | some e =>
      dsimp only
      by_cases hk : k ≤ e
      · rw [if_pos hk]; exact .inl ⟨rfl, h⟩
      · rw [if_neg hk]; exact .inr (.inl ⟨k, v, rfl, rfl, rfl, fun e' h' => by cases h'; omega, rfl⟩)
  | keep =>
    simp only [step]
    cases h : s.last with
    | none => exact .inl ⟨rfl, h⟩
    | some e =>
      dsimp only
      split
      · exact .inl ⟨rfl, h⟩
      split
      · exact .inr (.inr ⟨List.nil_sublist _, .inr rfl⟩)
      · exact .inr (.inr ⟨List.drop_sublist _ _, .inl rfl⟩)
  | sync => exact .inr (.inr ⟨List.nil_sublist _, .inr rfl⟩)
  | drop c =>
    simp only [step, St.replace]
    split
    · exact .inl ⟨rfl, rfl⟩
    refine .inr (.inr ⟨List.filter_sublist, ?_⟩)
    dsimp only
    split
    · rename_i h; exact .inr h
    · exact .inl rfl
  | make a b => exact .inl ⟨rfl, rfl⟩
  | next =>
    refine .inl ?_
    simp only [step]
    split
    · exact ⟨rfl, rfl⟩
    · split
      · exact ⟨rfl, rfl⟩
      · split
        · unfold St.resume; split <;> exact ⟨rfl, rfl⟩
        · exact ⟨rfl, rfl⟩
    · unfold St.resume; split <;> exact ⟨rfl, rfl⟩

theorem mem_run (span : Int) (e0 : Option Int) (as : List Act) : Mem as (after span e0 as) := by
  induction as using snoc_ind with
  | h0 => exact ⟨List.Pairwise.nil, nofun, nofun⟩
  | h1 as a ih =>
    rw [after_snoc]
    rcases mem_step span (after span e0 as) a with ⟨h1, h2⟩ | ⟨k, v, h0, h1, h2, h3, _⟩ | ⟨h1, h2⟩
    · refine ⟨h1 ▸ ih.asc, fun x hx => ?_, fun x hx => ?_⟩
      · rw [h1] at hx; rw [h2]; exact ih.last x hx
      · rw [h1] at hx; exact List.mem_append_left _ (ih.added x hx)
    · refine ⟨?_, fun x hx => ?_, fun x hx => ?_⟩
      · rw [h1]
        refine asc_snoc ih.asc (fun x hx => ?_)
        obtain ⟨e, he, hxe⟩ := ih.last x hx
        have := h3 e he
        omega
      · rw [h1] at hx
        refine ⟨k, h2, ?_⟩
        rcases List.mem_append.1 hx with hx | hx
        · obtain ⟨e, he, hxe⟩ := ih.last x hx
          have := h3 e he
          omega
        · rw [List.mem_singleton.1 hx]; exact Int.le_refl _
      · rw [h1] at hx
        rcases List.mem_append.1 hx with hx | hx
        · exact List.mem_append_left _ (ih.added x hx)
        · rw [List.mem_singleton.1 hx, h0]; simp
    · refine ⟨List.Pairwise.sublist h1 ih.asc, fun x hx => ?_, fun x hx => List.mem_append_left _ (ih.added x (h1.subset hx))⟩
      rcases h2 with h2 | h2
      · rw [h2]; exact ih.last x (h1.subset hx)
      · rw [h2] at hx; cases hx

/-- what the loop finds -/
theorem scan_spec (a b : Int) (l : List Item) (i : Nat) (hl : Asc l) :
    (scan a b l i = none ∧ ∀ x ∈ l, within a b x = false) ∨
    ∃ l1 x l2, l = l1 ++ x :: l2 ∧ scan a b l i = some (x, i + l1.length + 1) ∧ within a b x = true ∧ ∀ y ∈ l1, within a b y = false := by
  induction l generalizing i with
  | nil => exact .inl ⟨rfl, nofun⟩
  | cons y l ih =>
    have hy := List.pairwise_cons.1 hl
    unfold scan
    by_cases h1 : y.1 < a
    · rw [if_pos h1]
      have hw : within a b y = false := by simp only [within, decide_eq_false_iff_not]; omega
      rcases ih (i + 1) hy.2 with ⟨h2, h3⟩ | ⟨l1, x, l2, h2, h3, h4, h5⟩
      · refine .inl ⟨h2, fun x hx => ?_⟩
        rcases List.mem_cons.1 hx with rfl | hx
        · exact hw
        · exact h3 x hx
      · refine .inr ⟨y :: l1, x, l2, by rw [h2]; rfl, by rw [h3]; simp; omega, h4, fun z hz => ?_⟩
        rcases List.mem_cons.1 hz with rfl | hz
        · exact hw
        · exact h5 z hz
    · rw [if_neg h1]
      by_cases h2 : y.1 > b
      · rw [if_pos h2]
        refine .inl ⟨rfl, fun x hx => ?_⟩
        simp only [within, decide_eq_false_iff_not]
        rcases List.mem_cons.1 hx with rfl | hx
        · omega
        · have := hy.1 x hx; omega
      · rw [if_neg h2]
        exact .inr ⟨[], y, l, rfl, rfl, by simp only [within, decide_eq_true_eq]; omega, nofun⟩

/-- what the iterator gave, and has still to give -/
structure Given (a b : Int) (as : List Act) (given rest : List Item) : Prop where
  asc : Asc given
  less : ∀ x ∈ given, ∀ y ∈ rest, x.1 < y.1
  inside : ∀ x ∈ given, within a b x = true
  rasc : Asc rest
  added : ∀ x ∈ given ++ rest, .add x.1 x.2 ∈ as

/-- what was in memory when the iterator was first asked -/
def base (span : Int) (e0 : Option Int) (p q : List Act) (a b : Int) : List Item := (after span e0 (p ++ .make a b :: q.takeWhile (fun x => !isNext x))).mem

theorem takeWhile_any {β : Type _} {P : β → Bool} {q : List β} (h : ∃ a ∈ q, P a = false) (r : List β) : (q ++ r).takeWhile P = q.takeWhile P := by
  induction q with
  | nil => obtain ⟨_, h, _⟩ := h; cases h
  | cons b q ih =>
    obtain ⟨a, ha, h⟩ := h
    simp only [List.cons_append, List.takeWhile_cons]
    by_cases hb : P b = true
    · rw [if_pos hb, if_pos hb, ih ⟨a, (List.mem_cons.1 ha).resolve_left (fun e => by rw [e, hb] at h; cases h), h⟩]
    · rw [if_neg hb, if_neg hb]

theorem dropWhile_nil {β : Type _} {P : β → Bool} {q : List β} (h : q.dropWhile P = []) : ∀ y ∈ q, P y = true := by
  induction q with
  | nil => nofun
  | cons b q ih =>
    rw [List.dropWhile_cons] at h
    by_cases hb : P b = true
    · rw [if_pos hb] at h
      intro y hy
      rcases List.mem_cons.1 hy with rfl | hy
      · exact hb
      · exact ih h y hy
    · rw [if_neg hb] at h; cases h

/-- the iterator, told by what happened since it was made -/
inductive Tells (span : Int) (e0 : Option Int) (p q : List Act) (a b : Int) : Prop where
  | fresh (h : ∀ x ∈ q, isNext x = false) (hi : (after span e0 (p ++ .make a b :: q)).it = .fresh a b) (ha : answers span e0 (p ++ [.make a b]) q = [])
  | running (h : ∃ x ∈ q, isNext x = true) (old : Option (List Item)) (i : Nat) (given : List Item) (hi : (after span e0 (p ++ .make a b :: q)).it = .running old i a b)
      (ha : answers span e0 (p ++ [.make a b]) q = given.map .item) (hg : Given a b (p ++ .make a b :: q) given ((old.getD (after span e0 (p ++ .make a b :: q)).mem).drop i))
      (hb : .keep ∉ q.dropWhile (fun x => !isNext x) → ∀ x ∈ base span e0 p q a b, within a b x = true → x ∈ given ∨ x ∈ (old.getD (after span e0 (p ++ .make a b :: q)).mem).drop i)
      (hl : old = none → ∀ x ∈ given, ∃ e, (after span e0 (p ++ .make a b :: q)).last = some e ∧ x.1 ≤ e)
  | over (h : ∃ x ∈ q, isNext x = true) (given : List Item) (k : Nat) (hi : (after span e0 (p ++ .make a b :: q)).it = .over)
      (ha : answers span e0 (p ++ [.make a b]) q = given.map .item ++ List.replicate k .stop) (hg : Given a b (p ++ .make a b :: q) given [])
      (hb : .keep ∉ q.dropWhile (fun x => !isNext x) → ∀ x ∈ base span e0 p q a b, within a b x = true → x ∈ given)
  | db (h : ∃ x ∈ q, isNext x = true) (k : Nat) (hi : (after span e0 (p ++ .make a b :: q)).it = .over) (ha : answers span e0 (p ++ [.make a b]) q = .db :: List.replicate k .stop)

/-- one turn: from what is given and left, what is given and left next -/
theorem given_turn {a b : Int} {as : List Act} {given l : List Item} {i : Nat} (G : Given a b as given (l.drop i)) :
    (scan a b (l.drop i) i = none ∧ Given a b as given [] ∧ ∀ x ∈ l.drop i, within a b x = false) ∨
    ∃ x j, scan a b (l.drop i) i = some (x, j) ∧ Given a b as (given ++ [x]) (l.drop j) ∧ (∀ y ∈ l.drop i, within a b y = true → y = x ∨ y ∈ l.drop j) := by
  rcases scan_spec a b (l.drop i) i G.rasc with ⟨h1, h2⟩ | ⟨l1, x, l2, h1, h2, h3, h4⟩
  · exact .inl ⟨h1, ⟨G.asc, nofun, G.inside, List.Pairwise.nil, fun y hy => G.added y (by simp at hy; simp [hy])⟩, h2⟩
  · have hj : l.drop (i + l1.length + 1) = l2 := by
      have : l.drop (i + l1.length + 1) = (l.drop i).drop (l1.length + 1) := by rw [List.drop_drop]; congr 1
      rw [this, h1]
      simp
    have hasc := G.rasc
    rw [h1] at hasc
    unfold Asc at hasc
    rw [List.pairwise_append, List.pairwise_cons] at hasc
    refine .inr ⟨x, _, h2, ?_, ?_⟩
    · rw [hj]
      refine ⟨?_, fun y hy z hz => ?_, fun y hy => ?_, hasc.2.1.2, fun y hy => G.added y ?_⟩
      · exact asc_snoc (k := x.1) (v := x.2) G.asc (fun y hy => G.less y hy x (by rw [h1]; simp))
      · rcases List.mem_append.1 hy with hy | hy
        · exact G.less y hy z (by rw [h1]; simp [hz])
        · rw [List.mem_singleton.1 hy]; exact hasc.2.1.1 z hz
      · rcases List.mem_append.1 hy with hy | hy
        · exact G.inside y hy
        · rw [List.mem_singleton.1 hy]; exact h3
      · rw [h1]
        simp only [List.mem_append, List.mem_cons, List.not_mem_nil, or_false] at hy ⊢
        rcases hy with (hy | hy) | hy
        · exact .inl hy
        · exact .inr (.inr (.inl hy))
        · exact .inr (.inr (.inr hy))
    · intro y hy hw
      rw [hj]
      rw [h1] at hy
      rcases List.mem_append.1 hy with hy | hy
      · rw [h4 y hy] at hw; cases hw
      · exact List.mem_cons.1 hy

theorem Given.mono {a b : Int} {as bs : List Act} {given rest rest' : List Item} (G : Given a b as given rest) (h : ∀ x ∈ as, x ∈ bs) (hr : rest'.Sublist rest) : Given a b bs given rest' :=
  ⟨G.asc, fun x hx y hy => G.less x hx y (hr.subset hy), G.inside, List.Pairwise.sublist hr G.rasc, fun x hx => h _ (G.added x (by
    rcases List.mem_append.1 hx with hx | hx
    · exact List.mem_append_left _ hx
    · exact List.mem_append_right _ (hr.subset hx)))⟩

/-- what an act other than one of the iterator does -/
theorem other (span : Int) (s : St) (x : Act) (hn : isNext x = false) (hm : ∀ a b, x ≠ .make a b) :
    ((step span s x).1.it = s.it ∧
      (((step span s x).1.mem = s.mem ∧ (step span s x).1.last = s.last) ∨
       (∃ k v, x = .add k v ∧ (step span s x).1.mem = s.mem ++ [(k, v)] ∧ (step span s x).1.last = some k ∧ ∀ e, s.last = some e → e < k) ∨
       (x = .keep ∧ ∃ n, (step span s x).1.mem = s.mem.drop n ∧ (step span s x).1.last = s.last))) ∨
    (step span s x).1.it = (match s.it with | .running none i a b => .running (some s.mem) i a b | it => it) := by
  cases x with
  | add k v =>
    refine .inl ?_
    simp only [step]
    cases h : s.last with
    | none => exact ⟨rfl, .inr (.inl ⟨k, v, rfl, rfl, rfl, nofun⟩)⟩
    | some e =>
      dsimp only
      by_cases hk : k ≤ e
      · rw [if_pos hk]; exact ⟨rfl, .inl ⟨rfl, h⟩⟩
      · rw [if_neg hk]; exact ⟨rfl, .inr (.inl ⟨k, v, rfl, rfl, rfl, fun e' h' => by cases h'; omega⟩)⟩
  | keep =>
    simp only [step]
    cases h : s.last with
    | none => exact .inl ⟨rfl, .inl ⟨rfl, h⟩⟩
    | some e =>
      dsimp only
      split
      · exact .inl ⟨rfl, .inl ⟨rfl, h⟩⟩
      split
      · exact .inr rfl
      · exact .inl ⟨rfl, .inr (.inr ⟨trivial, _, rfl, rfl⟩)⟩
  | sync => exact .inr rfl
  | drop c =>
    simp only [step]
    split
    · exact .inl ⟨rfl, .inl ⟨rfl, rfl⟩⟩
    · exact .inr rfl
  | make a b => exact absurd rfl (hm a b)
  | next => cases hn

theorem tells (span : Int) (e0 : Option Int) (p q : List Act) (a b : Int) (hq : ∀ c d, .make c d ∉ q) : Tells span e0 p q a b := by
  induction q using snoc_ind with
  | h0 => exact .fresh nofun (by rw [after_snoc]; rfl) rfl
  | h1 q x ih =>
    have ih := ih (fun c d h => hq c d (List.mem_append_left _ h))
    have hm : ∀ c d, x ≠ .make c d := fun c d h => hq c d (by simp [h])
    have hsn : p ++ .make a b :: (q ++ [x]) = (p ++ .make a b :: q) ++ [x] := by simp
    have hpq : p ++ [Act.make a b] ++ q = p ++ .make a b :: q := by simp
    have hM := mem_run span e0 (p ++ .make a b :: q)
    have hM' := mem_run span e0 (p ++ .make a b :: (q ++ [x]))
    have hsub : ∀ y ∈ p ++ .make a b :: q, y ∈ p ++ .make a b :: (q ++ [x]) := fun y hy => by rw [hsn]; exact List.mem_append_left _ hy
    have hbase : (∃ y ∈ q, isNext y = true) → base span e0 p (q ++ [x]) a b = base span e0 p q a b := by
      rintro ⟨y, hy, h⟩
      unfold base
      rw [takeWhile_any ⟨y, hy, by simp [h]⟩]
    have hkeep : .keep ∉ (q ++ [x]).dropWhile (fun x => !isNext x) → .keep ∉ q.dropWhile (fun x => !isNext x) := fun h h' => h (by
      rw [List.dropWhile_append]
      split
      · rename_i h0; rw [List.isEmpty_iff.1 h0] at h'; cases h'
      · exact List.mem_append_left _ h')
    by_cases hn : isNext x = true
    · have hx : x = .next := by cases x <;> first | rfl | cases hn
      subst hx
      have hhave : ∃ y ∈ q ++ [Act.next], isNext y = true := ⟨.next, by simp, rfl⟩
      have hans : answers span e0 (p ++ [.make a b]) (q ++ [.next]) = answers span e0 (p ++ [.make a b]) q ++ [(step span (after span e0 (p ++ .make a b :: q)) .next).2] := by
        rw [answers_snoc, if_pos hn, hpq]; rfl
      -- a turn of a running iterator
      have turn : ∀ (old : Option (List Item)) (i : Nat) (given : List Item), step span (after span e0 (p ++ .make a b :: q)) .next = (after span e0 (p ++ .make a b :: q)).resume old i a b →
          answers span e0 (p ++ [.make a b]) q = given.map .item → Given a b (p ++ .make a b :: q) given ((old.getD (after span e0 (p ++ .make a b :: q)).mem).drop i) →
          (.keep ∉ q.dropWhile (fun x => !isNext x) → ∀ x ∈ base span e0 p (q ++ [.next]) a b, within a b x = true → x ∈ given ∨ x ∈ (old.getD (after span e0 (p ++ .make a b :: q)).mem).drop i) →
          (old = none → ∀ x ∈ given, ∃ e, (after span e0 (p ++ .make a b :: q)).last = some e ∧ x.1 ≤ e) → Tells span e0 p (q ++ [.next]) a b := by
        intro old i given hs ha hg hb hl
        rcases given_turn hg with ⟨h1, h2, h3⟩ | ⟨y, j, h1, h2, h3⟩
        · have hs' : step span (after span e0 (p ++ .make a b :: q)) .next = ({ after span e0 (p ++ .make a b :: q) with it := .over }, .stop) := by
            rw [hs, St.resume, h1]
          refine .over hhave given 1 (by rw [hsn, after_snoc, hs']) (by rw [hans, hs', ha]; rfl) (h2.mono hsub (List.Sublist.refl _)) (fun hk z hz hw => ?_)
          rcases hb (hkeep hk) z hz hw with h | h
          · exact h
          · rw [h3 z h] at hw; cases hw
        · have hs' : step span (after span e0 (p ++ .make a b :: q)) .next = ({ after span e0 (p ++ .make a b :: q) with it := .running old j a b }, .item y) := by
            rw [hs, St.resume, h1]
          have haf : after span e0 (p ++ .make a b :: (q ++ [.next])) = { after span e0 (p ++ .make a b :: q) with it := .running old j a b } := by rw [hsn, after_snoc, hs']
          refine .running hhave old j (given ++ [y]) (by rw [haf]) (by rw [hans, hs', ha]; simp) ?_ ?_ ?_
          · rw [haf]; exact h2.mono hsub (List.Sublist.refl _)
          · rw [haf]
            intro hk z hz hw
            rcases hb (hkeep hk) z hz hw with h | h
            · exact .inl (List.mem_append_left _ h)
            · rcases h3 z h hw with h | h
              · exact .inl (by rw [h]; simp)
              · exact .inr h
          · rw [haf]
            intro ho z hz
            rcases List.mem_append.1 hz with hz | hz
            · exact hl ho z hz
            · rw [List.mem_singleton.1 hz]
              subst ho
              refine hM.last y ?_
              rcases scan_spec a b _ i hg.rasc with ⟨h5, _⟩ | ⟨l1, y', l2, h5, h6, _, _⟩
              · rw [h5] at h1; cases h1
              · rw [h6] at h1
                cases h1
                exact List.mem_of_mem_drop (i := i) (by rw [show (after span e0 (p ++ Act.make a b :: q)).mem.drop i = l1 ++ y :: l2 from h5]; simp)
      cases ih with
      | fresh h hi ha =>
        have hb0 : base span e0 p (q ++ [.next]) a b = (after span e0 (p ++ .make a b :: q)).mem := by
          unfold base
          have : (q ++ [Act.next]).takeWhile (fun x => !isNext x) = q := by
            rw [List.takeWhile_append_of_pos (fun y hy => by simp [h y hy])]
            simp [isNext]
          rw [this]
        cases hmem : (after span e0 (p ++ .make a b :: q)).mem with
        | nil =>
          have hs' : step span (after span e0 (p ++ .make a b :: q)) .next = ({ after span e0 (p ++ .make a b :: q) with it := .over }, .stop) := by simp only [step, hi, hmem]
          refine .over hhave [] 1 (by rw [hsn, after_snoc, hs']) (by rw [hans, hs', ha]; rfl) ⟨List.Pairwise.nil, nofun, nofun, List.Pairwise.nil, nofun⟩ (fun _ z hz _ => ?_)
          rw [hb0, hmem] at hz; cases hz
        | cons y l =>
          by_cases hy : y.1 ≤ a
          · refine turn none 0 [] (by simp only [step, hi, hmem, if_pos hy]) ha ⟨List.Pairwise.nil, nofun, nofun, by simpa using hM.asc, by simpa using hM.added⟩ (fun _ z hz _ => .inr ?_) nofun
            rw [hb0] at hz
            simpa using hz
          · have hs' : step span (after span e0 (p ++ .make a b :: q)) .next = ({ after span e0 (p ++ .make a b :: q) with it := .over }, .db) := by simp only [step, hi, hmem, if_neg hy]
            exact .db hhave 0 (by rw [hsn, after_snoc, hs']) (by rw [hans, hs', ha]; rfl)
      | running h old i given hi ha hg hb hl =>
        exact turn old i given (by simp only [step, hi]) ha hg (by rw [hbase h]; exact hb) hl
      | over h given k hi ha hg hb =>
        have hs' : step span (after span e0 (p ++ .make a b :: q)) .next = (after span e0 (p ++ .make a b :: q), .stop) := by simp only [step, hi]
        refine .over hhave given (k + 1) (by rw [hsn, after_snoc, hs', hi]) (by rw [hans, hs', ha, List.replicate_succ', List.append_assoc]) (hg.mono hsub (List.Sublist.refl _)) (fun hk => ?_)
        rw [hbase h]; exact hb (hkeep hk)
      | db h k hi ha =>
        have hs' : step span (after span e0 (p ++ .make a b :: q)) .next = (after span e0 (p ++ .make a b :: q), .stop) := by simp only [step, hi]
        exact .db hhave (k + 1) (by rw [hsn, after_snoc, hs', hi]) (by rw [hans, hs', ha, List.replicate_succ', List.cons_append])
    · have hn : isNext x = false := by simpa using hn
      have hans : answers span e0 (p ++ [.make a b]) (q ++ [x]) = answers span e0 (p ++ [.make a b]) q := by
        rw [answers_snoc, hn]; simp
      have hoth := other span (after span e0 (p ++ .make a b :: q)) x hn hm
      rw [← after_snoc, ← hsn] at hoth
      have hin : ∀ {P : Prop}, (∃ y ∈ q, isNext y = true) → ((∃ y ∈ q ++ [x], isNext y = true) → P) → P := fun ⟨y, hy, h⟩ f => f ⟨y, List.mem_append_left _ hy, h⟩
      cases ih with
      | fresh h hi ha =>
        refine .fresh (fun y hy => ?_) ?_ (by rw [hans, ha])
        · rcases List.mem_append.1 hy with hy | hy
          · exact h y hy
          · rw [List.mem_singleton.1 hy]; exact hn
        · rw [hi] at hoth
          rcases hoth with ⟨h1, _⟩ | h1 <;> exact h1
      | over h given k hi ha hg hb =>
        refine hin h (fun h' => .over h' given k ?_ (by rw [hans, ha]) (hg.mono hsub (List.Sublist.refl _)) (fun hk => by rw [hbase h]; exact hb (hkeep hk)))
        rw [hi] at hoth
        rcases hoth with ⟨h1, _⟩ | h1 <;> exact h1
      | db h k hi ha =>
        refine hin h (fun h' => .db h' k ?_ (by rw [hans, ha]))
        rw [hi] at hoth
        rcases hoth with ⟨h1, _⟩ | h1 <;> exact h1
      | running h old i given hi ha hg hb hl =>
        refine hin h (fun h' => ?_)
        rw [hi] at hoth
        cases old with
        | some l =>
          have h1 : (after span e0 (p ++ .make a b :: (q ++ [x]))).it = .running (some l) i a b := by
            rcases hoth with ⟨h1, _⟩ | h1 <;> exact h1
          exact .running h' (some l) i given h1 (by rw [hans, ha]) (hg.mono hsub (List.Sublist.refl _)) (fun hk => by rw [hbase h]; exact hb (hkeep hk)) nofun
        | none =>
          rcases hoth with ⟨h1, ⟨h2, h3⟩ | ⟨k, v, h0, h2, h3, h4⟩ | ⟨h0, n, h2, h3⟩⟩ | h1
          · refine .running h' none i given h1 (by rw [hans, ha]) ?_ (fun hk => ?_) ?_
            · rw [h2]; exact hg.mono hsub (List.Sublist.refl _)
            · rw [hbase h, h2]; exact hb (hkeep hk)
            · rw [h3]; exact hl
          · have hlt : ∀ z ∈ given, z.1 < k := fun z hz => by
              obtain ⟨e, he, hze⟩ := hl rfl z hz
              have := h4 e he
              omega
            have hdr : ((after span e0 (p ++ .make a b :: q)).mem ++ [(k, v)]).drop i = (after span e0 (p ++ .make a b :: q)).mem.drop i ++ [(k, v)].drop (i - (after span e0 (p ++ .make a b :: q)).mem.length) := List.drop_append
            refine .running h' none i given h1 (by rw [hans, ha]) ⟨hg.asc, fun z hz y hy => ?_, hg.inside, ?_, fun z hz => ?_⟩ (fun hk => ?_) (fun _ z hz => ?_)
            · rw [h2] at hy
              simp only [Option.getD_none] at hy
              rw [hdr] at hy
              rcases List.mem_append.1 hy with hy | hy
              · exact hg.less z hz y hy
              · rw [List.mem_singleton.1 (List.mem_of_mem_drop hy)]; exact hlt z hz
            · exact List.Pairwise.sublist (List.drop_sublist _ _) hM'.asc
            · rcases List.mem_append.1 hz with hz | hz
              · exact hsub _ (hg.added z (List.mem_append_left _ hz))
              · exact hM'.added z (List.mem_of_mem_drop hz)
            · rw [hbase h, h2]
              intro z hz hw
              rcases hb (hkeep hk) z hz hw with h | h
              · exact .inl h
              · refine .inr ?_
                simp only [Option.getD_none]
                rw [hdr]
                exact List.mem_append_left _ h
            · have := hlt z hz
              exact ⟨k, h3, by omega⟩
          · refine .running h' none i given h1 (by rw [hans, ha]) ?_ (fun hk => absurd ?_ hk) ?_
            · rw [h2]
              refine hg.mono hsub ?_
              simp only [Option.getD_none, List.drop_drop]
              rw [Nat.add_comm, ← List.drop_drop]
              exact List.drop_sublist _ _
            · rw [List.dropWhile_append]
              split
              · rename_i hall
                obtain ⟨y, hy, hyn⟩ := h
                have := dropWhile_nil (List.isEmpty_iff.1 hall) y hy
                rw [hyn] at this; cases this
              · simp [h0]
            · rw [h3]; exact hl
          · exact .running h' (some _) i given h1 (by rw [hans, ha]) (hg.mono hsub (List.Sublist.refl _)) (fun hk => by rw [hbase h]; exact hb (hkeep hk)) nofun

/-! ## C283 -/

/-- **C283 an iterator of `get_archive` that does not turn to the database gives items that were added, whose keys are asked for, with ascending keys, and then stops for good**, whatever is called while it is underway. -/
theorem C283_ascending (span : Int) (e0 : Option Int) (p q : List Act) (a b : Int) (hq : ∀ c d, .make c d ∉ q) (hdb : .db ∉ answers span e0 (p ++ [.make a b]) q) :
    ∃ (given : List Item) (k : Nat), answers span e0 (p ++ [.make a b]) q = given.map .item ++ List.replicate k .stop ∧ given.Pairwise (fun x y => x.1 < y.1) ∧
      ∀ x ∈ given, a ≤ x.1 ∧ x.1 ≤ b ∧ .add x.1 x.2 ∈ p ++ q := by
  have fin : ∀ {given rest : List Item}, Given a b (p ++ .make a b :: q) given rest → given.Pairwise (fun x y => x.1 < y.1) ∧ ∀ x ∈ given, a ≤ x.1 ∧ x.1 ≤ b ∧ .add x.1 x.2 ∈ p ++ q := by
    intro given rest G
    refine ⟨G.asc, fun x hx => ?_⟩
    have h1 := G.inside x hx
    simp only [within, decide_eq_true_eq] at h1
    have h2 := G.added x (List.mem_append_left _ hx)
    refine ⟨h1.1, h1.2, ?_⟩
    rcases List.mem_append.1 h2 with h2 | h2
    · exact List.mem_append_left _ h2
    · exact List.mem_append_right _ ((List.mem_cons.1 h2).resolve_left nofun)
  cases tells span e0 p q a b hq with
  | fresh h hi ha => exact ⟨[], 0, by rw [ha]; rfl, List.Pairwise.nil, nofun⟩
  | running h old i given hi ha hg hb hl => exact ⟨given, 0, by rw [ha]; simp, fin hg⟩
  | over h given k hi ha hg hb => exact ⟨given, k, ha, fin hg⟩
  | db h k hi ha => rw [ha] at hdb; simp at hdb

/-- **C283 an iterator of `get_archive` that stops has given every item asked for that was in memory when it was first asked**, if `cleanup` did not eject items from memory since it was first asked.
Missing: the case that it did, where items are passed over, `C283_passed_over_violates`. -/
theorem C283_complete_partial (span : Int) (e0 : Option Int) (p q1 q2 : List Act) (a b : Int) (hq : ∀ c d, .make c d ∉ q1 ++ q2) (hk : .keep ∉ q2) (hq1 : .next ∉ q1)
    (hdb : .db ∉ answers span e0 (p ++ [.make a b]) (q1 ++ .next :: q2)) (hs : .stop ∈ answers span e0 (p ++ [.make a b]) (q1 ++ .next :: q2))
    (x : Item) (hx : x ∈ (after span e0 (p ++ .make a b :: q1)).mem) (ha : a ≤ x.1) (hb : x.1 ≤ b) :
    .item x ∈ answers span e0 (p ++ [.make a b]) (q1 ++ .next :: q2) := by
  have hbase : base span e0 p (q1 ++ .next :: q2) a b = (after span e0 (p ++ .make a b :: q1)).mem := by
    unfold base
    have : (q1 ++ Act.next :: q2).takeWhile (fun x => !isNext x) = q1 := by
      rw [List.takeWhile_append_of_pos (fun y hy => by cases y <;> first | rfl | exact absurd hy hq1)]
      simp [isNext]
    rw [this]
  have hw : within a b x = true := by simp [within, ha, hb]
  have hk' : Act.keep ∉ (q1 ++ .next :: q2).dropWhile (fun x => !isNext x) := by
    rw [List.dropWhile_append_of_pos (fun y hy => by cases y <;> first | rfl | exact absurd hy hq1)]
    simpa [isNext] using hk
  have hx : x ∈ base span e0 p (q1 ++ .next :: q2) a b := by rw [hbase]; exact hx
  cases tells span e0 p (q1 ++ .next :: q2) a b (fun c d => by have := hq c d; simpa using this) with
  | fresh h hi ha => rw [ha] at hs; cases hs
  | running h old i given hi ha hg hb hl => rw [ha] at hs; simp at hs
  | over h given k hi ha hg hb =>
    rw [ha]
    exact List.mem_append_left _ (List.mem_map_of_mem (hb hk' x hx hw))
  | db h k hi ha => rw [ha] at hdb; simp at hdb

/-- **C283 violated: an iterator of `get_archive` passes over items that are still in memory, if `cleanup` ejects items from memory while it is underway**: it gives the items of 0 and 1, those are ejected, and it stops, although the item of 11 was asked for, was in memory when the iterator was first asked, and still is. -/
theorem C283_passed_over_violates :
    answers 3 none [.add 0 10, .add 1 11, .add 11 12, .add 12 13, .make 0 20] [.next, .next, .keep, .next, .next] = [.item (0, 10), .item (1, 11), .stop, .stop] ∧
    ((11, 12) : Item) ∈ (after 3 none [.add 0 10, .add 1 11, .add 11 12, .add 12 13, .make 0 20]).mem ∧
    ((11, 12) : Item) ∈ (after 3 none [.add 0 10, .add 1 11, .add 11 12, .add 12 13, .make 0 20, .next, .next, .keep]).mem := by decide

/-- the hypotheses of `C283_ascending` and `C283_complete_partial` are met by an iterator underway while an item is added, the memory is written to the database and another item is added -/
example : answers 9 none ([.add 0 10, .add 1 11, .add 2 12, .add 9 9] ++ [.make 1 5]) ([.keep, .add 10 1] ++ .next :: [.sync, .next, .add 11 1, .next, .next]) = [.item (1, 11), .item (2, 12), .stop, .stop] ∧
    ((2, 12) : Item) ∈ (after 9 none ([.add 0 10, .add 1 11, .add 2 12, .add 9 9] ++ .make 1 5 :: [.keep, .add 10 1])).mem := by decide

/-- an item added while the iterator is underway is given, also if there were older ones in the database -/
example : answers 3 none [.add 0 10, .make 0 5] [.next, .add 4 4, .next, .add 7 7, .next] = [.item (0, 10), .item (4, 4), .stop] ∧
    answers 3 (some 7) [.add 5 5, .add 8 10, .make 8 9] [.next, .add 9 4, .next, .next] = [.item (8, 10), .item (9, 4), .stop] := by decide

/-- an iterator asked for keys before those in memory turns to the database; one of dropped items goes on with those it had -/
example : answers 3 none [.add 3 10, .make 0 5] [.next, .next] = [.db, .stop] ∧
    answers 3 none [.add 0 10, .add 1 11, .make 0 5] [.next, .drop 2, .add 1 7, .next, .next] = [.item (0, 10), .item (1, 11), .stop] := by decide

end Verif.Syncable.Archive
