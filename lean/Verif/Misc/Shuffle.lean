/-!
# Shuffling together, and random words

`/repo/satella/random.py`.  `random.shuffle` and `random.choice` are parameters: the first rearranges
what it gets, the second takes one of what it gets.
-/
namespace Verif.Shuffle

/-- `[arg[i] for i in indices]`, `/repo/satella/random.py:71`; `none` is the IndexError. -/
def pick {V : Type} (arg : List V) : List Nat → Option (List V)
  | [] => some []
  | i :: rest =>
    match arg[i]? with
    | none => none
    | some v =>
      match pick arg rest with
      | none => none
      | some l => some (v :: l)

/-- The outer comprehension, `/repo/satella/random.py:71`. -/
def pickAll {V : Type} (indices : List Nat) : List (List V) → Option (List (List V))
  | [] => some []
  | arg :: rest =>
    match pick arg indices with
    | none => none
    | some l =>
      match pickAll indices rest with
      | none => none
      | some ls => some (l :: ls)

/-- `shuffle_together(*args)`, `/repo/satella/random.py:49-71`; `shuffle` is `random.shuffle`. -/
def shuffleTogether {V : Type} (shuffle : List Nat → List Nat) : List (List V) → Option (List (List V))
  | [] => some []
  | a :: rest => pickAll (shuffle (List.range a.length)) (a :: rest)

/-- `[random.choice(choice) for _ in range(length)]`, `/repo/satella/random.py:31`: `draws` are the numbers
drawn, `none` the IndexError of choosing from nothing. -/
def randomWord {V : Type} (choice : List V) : List Nat → Option (List V)
  | [] => some []
  | d :: draws =>
    match choice[d % choice.length]? with
    | none => none
    | some v =>
      match randomWord choice draws with
      | none => none
      | some l => some (v :: l)

/-- `random_word(length, choice)`, `/repo/satella/random.py:11-31`, for a stream of draws. A negative length is as 0 (`range`). -/
def word {V : Type} (choice : List V) (length : Int) (draw : Nat → Nat) : Option (List V) :=
  randomWord choice ((List.range length.toNat).map draw)

/-! ## Specification -/

/-- `random.shuffle` only rearranges. -/
def Rearranges (shuffle : List Nat → List Nat) : Prop := ∀ l, (shuffle l).Perm l

/-- All sequences are of this length. -/
def AllOf {V : Type} (n : Nat) (args : List (List V)) : Prop := ∀ a ∈ args, a.length = n

/-- The row `i`: what the sequences have at `i`. -/
def row {V : Type} (args : List (List V)) (i : Nat) : List (Option V) := args.map (fun a => a[i]?)

/-! ## Properties -/

theorem pick_some {V : Type} (arg : List V) (idx : List Nat) (h : ∀ i ∈ idx, i < arg.length) :
    ∃ l, pick arg idx = some l ∧ l.length = idx.length ∧ ∀ (j : Nat), l[j]? = (idx[j]?).bind (fun i => arg[i]?) := by
  induction idx with
  | nil => exact ⟨[], rfl, rfl, by simp⟩
  | cons i idx ih =>
    obtain ⟨l, h1, h2, h3⟩ := ih (fun x hx => h x (List.mem_cons_of_mem _ hx))
    have hi := h i (List.mem_cons_self ..)
    refine ⟨arg[i] :: l, by simp [pick, List.getElem?_eq_getElem hi, h1], by simp [h2], ?_⟩
    intro j
    cases j with
    | zero => simp [List.getElem?_eq_getElem hi]
    | succ j => simpa using h3 j

theorem pick_none {V : Type} (arg : List V) (idx : List Nat) : pick arg idx = none ↔ ∃ i ∈ idx, arg.length ≤ i := by
  induction idx with
  | nil => simp [pick]
  | cons i idx ih =>
    simp only [pick, List.mem_cons, exists_eq_or_imp]
    by_cases hi : i < arg.length
    · rw [List.getElem?_eq_getElem hi]
      simp only
      cases hp : pick arg idx with
      | none => simp [ih.1 hp]
      | some l =>
        simp only [reduceCtorEq, false_iff, not_or]
        refine ⟨by omega, fun hex => ?_⟩
        rw [ih.2 hex] at hp
        simp at hp
    · rw [List.getElem?_eq_none (by omega)]
      simp; left; omega

theorem pickAll_some {V : Type} (idx : List Nat) (args : List (List V)) (h : ∀ a ∈ args, ∀ i ∈ idx, i < a.length) :
    ∃ ls, pickAll idx args = some ls ∧ ls.length = args.length ∧ AllOf idx.length ls ∧ ∀ (j i : Nat), idx[j]? = some i → row ls j = row args i := by
  induction args with
  | nil => exact ⟨[], rfl, rfl, by simp [AllOf], fun j i _ => rfl⟩
  | cons a args ih =>
    obtain ⟨ls, h1, h2, h3, h4⟩ := ih (fun x hx => h x (List.mem_cons_of_mem _ hx))
    obtain ⟨l, g1, g2, g3⟩ := pick_some a idx (h a (List.mem_cons_self ..))
    refine ⟨l :: ls, by simp [pickAll, g1, h1], by simp [h2], ?_, ?_⟩
    · intro x hx
      rcases List.mem_cons.1 hx with rfl | hx
      · exact g2
      · exact h3 x hx
    · intro j i hij
      have := h4 j i hij
      simp only [row] at this ⊢
      simp only [List.map_cons, this]
      rw [g3 j, hij]
      rfl

theorem pick_perm {V : Type} (arg : List V) (idx : List Nat) (hp : idx.Perm (List.range arg.length)) : ∃ l, pick arg idx = some l ∧ l.Perm arg := by
  have hpick : ∀ idx, (∀ i ∈ idx, i < arg.length) → pick arg idx = some (idx.filterMap (fun i => arg[i]?)) := by
    intro idx
    induction idx with
    | nil => intro _; rfl
    | cons i idx ih =>
      intro h
      have hi := h i (List.mem_cons_self ..)
      rw [pick, List.getElem?_eq_getElem hi, ih (fun x hx => h x (List.mem_cons_of_mem _ hx))]
      rw [List.filterMap_cons, List.getElem?_eq_getElem hi]
  refine ⟨_, hpick idx (fun i hi => by simpa using (hp.mem_iff.1 hi)), ?_⟩
  refine (hp.filterMap _).trans ?_
  have : (List.range arg.length).filterMap (fun i => arg[i]?) = arg := by
    clear hp hpick
    induction arg with
    | nil => rfl
    | cons a arg ih =>
      rw [List.length_cons, List.range_succ_eq_map, List.filterMap_cons]
      simp only [List.getElem?_cons_zero, List.filterMap_map]
      congr 1
  rw [this]

/-- **C198 (shuffled together)** Given sequences of one length, as many come back, and there is one
rearrangement of the indices such that what they have at any index is what all of them had at another:
elements at one index stay together; each sequence keeps its elements. -/
theorem C198_together {V : Type} (shuffle : List Nat → List Nat) (hs : Rearranges shuffle) (args : List (List V)) (n : Nat) (hn : AllOf n args) :
    ∃ out σ, shuffleTogether shuffle args = some out ∧ out.length = args.length ∧ AllOf n out ∧ List.Perm σ (List.range n) ∧
      (∀ (j i : Nat), σ[j]? = some i → row out j = row args i) ∧ ∀ (k : Nat) a, args[k]? = some a → ∃ b, out[k]? = some b ∧ b.Perm a := by
  cases args with
  | nil => exact ⟨[], List.range n, rfl, rfl, by simp [AllOf], List.Perm.refl _, fun j i _ => rfl, by simp⟩
  | cons a rest =>
    have ha : a.length = n := hn a (List.mem_cons_self ..)
    have hp : (shuffle (List.range a.length)).Perm (List.range n) := by rw [ha]; exact hs _
    have hlt : ∀ x ∈ a :: rest, ∀ i ∈ shuffle (List.range a.length), i < x.length := by
      intro x hx i hi
      rw [hn x hx]
      simpa using hp.mem_iff.1 hi
    obtain ⟨ls, h1, h2, h3, h4⟩ := pickAll_some _ (a :: rest) hlt
    refine ⟨ls, _, h1, h2, ?_, hp, h4, ?_⟩
    · rw [hp.length_eq, List.length_range] at h3; exact h3
    · have hall : ∀ (args : List (List V)) (ls : List (List V)) (idx : List Nat), idx.Perm (List.range n) → AllOf n args → pickAll idx args = some ls →
          ∀ (k : Nat) a, args[k]? = some a → ∃ b, ls[k]? = some b ∧ b.Perm a := by
        intro args
        induction args with
        | nil => intro ls idx _ _ _ k a h; simp at h
        | cons x xs ih =>
          intro ls idx hp hn h k a hk
          obtain ⟨l, g1, g2⟩ := pick_perm x idx (by rw [hn x (List.mem_cons_self ..)]; exact hp)
          simp only [pickAll, g1] at h
          split at h
          · simp at h
          · rename_i ls' hls
            simp only [Option.some.injEq] at h
            subst h
            cases k with
            | zero => simp at hk; subst hk; exact ⟨l, by simp, g2⟩
            | succ k => simpa using ih ls' idx hp (fun y hy => hn y (List.mem_cons_of_mem _ hy)) hls k a (by simpa using hk)
      exact hall (a :: rest) ls _ hp hn h1

theorem randomWord_spec {V : Type} (choice : List V) (draws : List Nat) (w : List V) (h : randomWord choice draws = some w) : w.length = draws.length ∧ ∀ v ∈ w, v ∈ choice := by
  induction draws generalizing w with
  | nil => simp [randomWord] at h; subst h; simp
  | cons d draws ih =>
    simp only [randomWord] at h
    split at h
    · simp at h
    · rename_i v hv
      split at h
      · simp at h
      · rename_i l hl
        simp only [Option.some.injEq] at h
        subst h
        obtain ⟨h1, h2⟩ := ih l hl
        refine ⟨by simp [h1], fun x hx => ?_⟩
        rcases List.mem_cons.1 hx with rfl | hx
        · exact List.mem_of_getElem? hv
        · exact h2 x hx

/-- **C198 (random words)** A word has the length asked for and is made of what was given to choose
from; there is none exactly if something is to be chosen out of nothing. -/
theorem C198_word {V : Type} (choice : List V) (length : Int) (draw : Nat → Nat) :
    (∀ w, word choice length draw = some w → w.length = length.toNat ∧ ∀ v ∈ w, v ∈ choice) ∧ (word choice length draw = none ↔ 0 < length ∧ choice = []) := by
  constructor
  · intro w h
    have := randomWord_spec choice _ w h
    simpa using this
  · have key : ∀ draws, randomWord choice draws = none ↔ draws ≠ [] ∧ choice = [] := by
      intro draws
      induction draws with
      | nil => simp [randomWord]
      | cons d draws ih =>
        cases choice with
        | nil => simp [randomWord]
        | cons c cs =>
          have hlt : d % (c :: cs).length < (c :: cs).length := Nat.mod_lt _ (by simp)
          simp only [randomWord, List.getElem?_eq_getElem hlt]
          cases hr : randomWord (c :: cs) draws with
          | none => exact absurd (ih.1 hr).2 (by simp)
          | some l => simp
    unfold word
    rw [key]
    simp only [ne_eq, List.map_eq_nil_iff, List.range_eq_nil, and_congr_left_iff]
    intro _
    omega

/-- **C199 (sequences of different lengths), the violation** A longer sequence that is not the first
loses elements silently. -/
theorem C199_longer_violates {V : Type} (shuffle : List Nat → List Nat) (hs : Rearranges shuffle) (a b : List V) (h : a.length < b.length) :
    ∃ x y, shuffleTogether shuffle [a, b] = some [x, y] ∧ y.length < b.length := by
  have hlt : ∀ x ∈ [a, b], ∀ i ∈ shuffle (List.range a.length), i < x.length := by
    intro x hx i hi
    have : i < a.length := by simpa using (hs _).mem_iff.1 hi
    simp at hx
    rcases hx with rfl | rfl <;> omega
  obtain ⟨ls, h1, h2, h3, _⟩ := pickAll_some _ [a, b] hlt
  match ls, h2 with
  | [x, y], _ =>
    refine ⟨x, y, h1, ?_⟩
    have := h3 y (by simp)
    rw [this, (hs _).length_eq, List.length_range]
    exact h

/-- **C199 (sequences of different lengths), the part that holds** If the first sequence is longer
than another, the call fails with IndexError. -/
theorem C199_shorter_partial {V : Type} (shuffle : List Nat → List Nat) (hs : Rearranges shuffle) (a : List V) (rest : List (List V)) (b : List V) (hb : b ∈ rest)
    (h : b.length < a.length) : shuffleTogether shuffle (a :: rest) = none := by
  have hmem : b.length ∈ shuffle (List.range a.length) := (hs _).mem_iff.2 (by simpa using h)
  have key : ∀ args : List (List V), b ∈ args → pickAll (shuffle (List.range a.length)) args = none := by
    intro args
    induction args with
    | nil => intro h; simp at h
    | cons x xs ih =>
      intro hx
      simp only [pickAll]
      rcases List.mem_cons.1 hx with rfl | hx
      · rw [(pick_none _ _).2 ⟨_, hmem, Nat.le_refl _⟩]
      · rw [ih hx]
        cases pick x (shuffle (List.range a.length)) <;> rfl
  exact key _ (List.mem_cons_of_mem _ hb)

example : shuffleTogether List.reverse [[1, 2, 3], [10, 20, 30]] = some [[3, 2, 1], [30, 20, 10]] := by decide
example : Rearranges List.reverse := fun l => List.reverse_perm l
example : AllOf 3 [[1, 2, 3], [10, 20, 30]] := by simp [AllOf]
example : word "abc".toList 4 (fun i => 2 * i) = some ['a', 'c', 'b', 'a'] := by decide

end Verif.Shuffle
