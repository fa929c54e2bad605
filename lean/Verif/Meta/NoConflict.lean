/-!
# Metaclasses without conflicts

`/repo/satella/coding/metaclasses.py:87-151`.

A class is the number of its birth: `object` is 0, `type` is 1 and a class created later has a
larger number than its bases and than its own metaclass.  A class is known by its method resolution
order and by its metaclass, which is all `metaclass_maker` looks at.
-/
namespace Verif.NoConflict

/-- What Python knows of a class: `__mro__` (itself first) and `type(cls)`.  (Part of the model of `skip_redundant`, /repo/satella/coding/metaclasses.py:87-95.) -/
structure Cls where
  mro : List Nat
  typ : Nat
  deriving Repr, DecidableEq

/-- All the classes of a process by order of creation.  (Part of the model of `skip_redundant`, /repo/satella/coding/metaclasses.py:87-95.) -/
abbrev Heap := List Cls

/-- `inspect.getmro(c)`.  (Part of the model of `skip_redundant`, /repo/satella/coding/metaclasses.py:87-95.) -/
def mro (h : Heap) (c : Nat) : List Nat := ((h[c]?).map Cls.mro).getD []

/-- `type(c)`.  (Part of the model of `skip_redundant`, /repo/satella/coding/metaclasses.py:87-95.) -/
def typ (h : Heap) (c : Nat) : Nat := ((h[c]?).map Cls.typ).getD 1

/-- part of the model of `skip_redundant`, /repo/satella/coding/metaclasses.py:87-95 -/
inductive Exc where
  /-- `type.__new__`: metaclass conflict -/
  | conflict
  /-- `type.__new__`: cannot create a consistent method resolution order -/
  | noOrder
  /-- `metaclasses.py:127` -/
  | incompatible
  /-- recursion too deep -/
  | recursion
  deriving Repr, DecidableEq

/-- `skip_redundant`, `/repo/satella/coding/metaclasses.py:87-95`, the skip set as a list. -/
def skipRedundant : List Nat → List Nat → List Nat
  | _, [] => []
  | skip, x :: rest => if x ∈ skip then skipRedundant skip rest else x :: skipRedundant (x :: skip) rest

/-- `remove_redundant`, `/repo/satella/coding/metaclasses.py:98-102`. -/
def removeRedundant (h : Heap) (metas : List Nat) : List Nat :=
  skipRedundant (1 :: metas.flatMap (fun m => (mro h m).drop 1)) metas

/-- How `type.__new__` picks the metaclass of a new class (CPython's `_PyType_CalculateMetaclass`):
`none` is the conflict.  Not code of /repo, but it is what `metaclass(name, bases, a_dict)` at
`/repo/satella/coding/metaclasses.py:138` and `:151` runs. -/
def winner (h : Heap) : Nat → List Nat → Option Nat
  | w, [] => some w
  | w, b :: rest =>
    if typ h b ∈ mro h w then winner h w rest
    else if w ∈ mro h (typ h b) then winner h (typ h b) rest
    else none

/-- The process: its classes and `memoized_metaclasses_map`, `/repo/satella/coding/metaclasses.py:105`. -/
structure World where
  heap : Heap
  memo : List (List Nat × Nat)

/-- `metaclass(name, bases, a_dict)`: `type.__new__`, as at `/repo/satella/coding/metaclasses.py:138`.
The merging of the resolution orders of the bases is the parameter `lin`.  Metaclasses with their own
`__new__`, and the namespace of the class, are not modelled. -/
def typeNew (lin : List (List Nat) → Option (List Nat)) (w : World) (mt : Nat) (bases : List Nat) :
    World × Except Exc Nat :=
  let bs := if bases.isEmpty then [0] else bases
  match winner w.heap mt bs with
  | none => (w, .error .conflict)
  | some m =>
    match lin (bs.map (mro w.heap)) with
    | none => (w, .error .noOrder)
    | some l => ({ w with heap := w.heap ++ [⟨w.heap.length :: l, m⟩] }, .ok w.heap.length)

/-- `get_noconflict_metaclass`, `/repo/satella/coding/metaclasses.py:108-132`; the recursion through
`metaclass_maker_f()(meta_name, needed_metas, {})` (`:130`, `:135-140`) is bounded by the fuel. -/
def noconflict (lin : List (List Nat) → Option (List Nat)) :
    Nat → World → List Nat → List Nat → List Nat → World × Except Exc Nat
  | 0, w, _, _, _ => (w, .error .recursion)
  | fuel + 1, w, bases, left, right =>
    let needed := removeRedundant w.heap (left ++ bases.map (typ w.heap) ++ right)
    match w.memo.lookup needed with
    | some m => (w, .ok m)
    | none =>
      match needed with
      | [] => ({ w with memo := ([], 1) :: w.memo }, .ok 1)
      | [m] => ({ w with memo := ([m], m) :: w.memo }, .ok m)
      | _ :: _ :: _ =>
        if needed = bases then (w, .error .incompatible)
        else
          match noconflict lin fuel w needed [] [] with
          | (w1, .error e) => (w1, .error e)
          | (w1, .ok mm) =>
            match typeNew lin w1 mm needed with
            | (w2, .error e) => (w2, .error e)
            | (w2, .ok m) => ({ w2 with memo := (needed, m) :: w2.memo }, .ok m)

/-- `metaclass_maker_f(left, right)(name, bases, a_dict)`, `/repo/satella/coding/metaclasses.py:135-140`;
with no left and right metaclasses it is `metaclass_maker`, `/repo/satella/coding/metaclasses.py:143-151`. -/
def make (lin : List (List Nat) → Option (List Nat)) (fuel : Nat) (w : World) (bases left right : List Nat) :
    World × Except Exc Nat :=
  match noconflict lin fuel w bases left right with
  | (w1, .error e) => (w1, .error e)
  | (w1, .ok m) => typeNew lin w1 m bases

/-! ## Specification -/

/-- What Python guarantees of any set of classes (`/repo/satella/coding/metaclasses.py:87-151` only
reads it): `object` and `type` come first; a class comes after its ancestors and, but for those two,
after its metaclass; ancestors of ancestors are ancestors; the type of a class is a metaclass. -/
structure Classes (h : Heap) : Prop where
  two : 2 ≤ h.length
  object_mro : mro h 0 = [0]
  type_mro : mro h 1 = [1, 0]
  object_typ : typ h 0 = 1
  type_typ : typ h 1 = 1
  self : ∀ c, c < h.length → ∃ t, mro h c = c :: t ∧ ∀ d ∈ t, d < c
  trans : ∀ c d e, d ∈ mro h c → e ∈ mro h d → e ∈ mro h c
  older : ∀ c, 2 ≤ c → c < h.length → typ h c < c
  typ_meta : ∀ c, c < h.length → 1 ∈ mro h (typ h c)

/-- The merging of resolution orders gives all ancestors of the bases and nothing else. -/
def Merges (lin : List (List Nat) → Option (List Nat)) : Prop :=
  ∀ ls l, lin ls = some l → ∀ x, x ∈ l ↔ ∃ l' ∈ ls, x ∈ l'

/-- `m` is `x` or derives from it. -/
def Derives (h : Heap) (m x : Nat) : Prop := x ∈ mro h m

/-- Every class of `h` is still there, unchanged. -/
def Grows (h h' : Heap) : Prop := ∃ extra, h' = h ++ extra

/-! ## Auxiliary lemmas -/

theorem mro_lt {h : Heap} {c : Nat} {x : Nat} (hx : x ∈ mro h c) : c < h.length := by
  unfold mro at hx
  by_cases hc : c < h.length
  · exact hc
  · rw [List.getElem?_eq_none (by omega)] at hx; simp at hx

theorem mem_le {h : Heap} (H : Classes h) {c x : Nat} (hx : x ∈ mro h c) : x ≤ c := by
  obtain ⟨t, ht, hlt⟩ := H.self c (mro_lt hx)
  rw [ht] at hx
  rcases List.mem_cons.1 hx with rfl | hx
  · exact Nat.le_refl _
  · exact Nat.le_of_lt (hlt x hx)

theorem mem_self {h : Heap} (H : Classes h) {c : Nat} (hc : c < h.length) : c ∈ mro h c := by
  obtain ⟨t, ht, _⟩ := H.self c hc
  simp [ht]

theorem mem_drop {h : Heap} (H : Classes h) {c x : Nat} (hc : c < h.length) :
    x ∈ (mro h c).drop 1 ↔ x ∈ mro h c ∧ x ≠ c := by
  obtain ⟨t, ht, hlt⟩ := H.self c hc
  rw [ht]
  simp only [List.drop_succ_cons, List.drop_zero, List.mem_cons]
  constructor
  · intro hx; exact ⟨Or.inr hx, fun he => by have := hlt x hx; omega⟩
  · rintro ⟨rfl | hx, hne⟩
    · exact absurd rfl hne
    · exact hx

theorem mem_skip (skip l : List Nat) (x : Nat) : x ∈ skipRedundant skip l ↔ x ∈ l ∧ x ∉ skip := by
  induction l generalizing skip with
  | nil => simp [skipRedundant]
  | cons y l ih =>
    simp only [skipRedundant]
    split
    · rename_i hy
      rw [ih]; grind
    · rename_i hy
      simp only [List.mem_cons, ih]; grind

theorem skip_nodup (skip l : List Nat) : (skipRedundant skip l).Nodup := by
  induction l generalizing skip with
  | nil => simp [skipRedundant]
  | cons y l ih =>
    simp only [skipRedundant]
    split
    · exact ih skip
    · exact List.nodup_cons.2 ⟨by simp [mem_skip], ih _⟩

theorem skip_sublist (skip l : List Nat) : (skipRedundant skip l).Sublist l := by
  induction l generalizing skip with
  | nil => simp [skipRedundant]
  | cons y l ih =>
    simp only [skipRedundant]
    split
    · exact (ih skip).cons _
    · exact (ih _).cons_cons _

theorem mem_needed {h : Heap} (H : Classes h) {metas : List Nat} (hm : ∀ m ∈ metas, m < h.length) (x : Nat) :
    x ∈ removeRedundant h metas ↔ x ∈ metas ∧ x ≠ 1 ∧ ∀ m ∈ metas, x ∈ mro h m → x = m := by
  unfold removeRedundant
  rw [mem_skip]
  simp only [List.mem_cons, List.mem_flatMap, not_or, not_exists, not_and]
  constructor
  · rintro ⟨h1, h2, h3⟩
    refine ⟨h1, h2, fun m hmm hx => ?_⟩
    have := h3 m hmm
    rw [mem_drop H (hm m hmm)] at this
    by_cases he : x = m
    · exact he
    · exact absurd ⟨hx, he⟩ this
  · rintro ⟨h1, h2, h3⟩
    refine ⟨h1, h2, fun m hmm => ?_⟩
    rw [mem_drop H (hm m hmm)]
    rintro ⟨hx, hne⟩
    exact hne (h3 m hmm hx)

theorem ne_zero {h : Heap} (H : Classes h) {m : Nat} (hm : 1 ∈ mro h m) : m ≠ 0 := by
  rintro rfl; rw [H.object_mro] at hm; simp at hm

/-- Going up: from any metaclass of a list one reaches a most derived one of it. -/
theorem cover {h : Heap} (H : Classes h) {metas : List Nat} (hm : ∀ m ∈ metas, 1 ∈ mro h m) :
    ∀ (n m : Nat), h.length - m ≤ n → m ∈ metas → m = 1 ∨ ∃ x ∈ removeRedundant h metas, m ∈ mro h x := by
  have hlen : ∀ m ∈ metas, m < h.length := fun m hmm => mro_lt (hm m hmm)
  intro n
  induction n with
  | zero => intro m hn hmm; have := hlen m hmm; omega
  | succ n ih =>
    intro m hn hmm
    by_cases h1 : m = 1
    · exact Or.inl h1
    by_cases hx : m ∈ removeRedundant h metas
    · exact Or.inr ⟨m, hx, mem_self H (hlen m hmm)⟩
    · rw [mem_needed H hlen] at hx
      have : ∃ m' ∈ metas, m ∈ mro h m' ∧ m ≠ m' := by
        apply Classical.byContradiction
        intro hno
        apply hx
        refine ⟨hmm, h1, fun m' hm' hmem => ?_⟩
        apply Classical.byContradiction
        intro hne
        exact hno ⟨m', hm', hmem, hne⟩
      obtain ⟨m', hm', hmem, hne⟩ := this
      have hle := mem_le H hmem
      have hlt := hlen m' hm'
      rcases ih m' (by omega) hm' with rfl | ⟨x, hx', hmx⟩
      · rw [H.type_mro] at hmem
        have := ne_zero H (hm m hmm)
        simp at hmem; omega
      · exact Or.inr ⟨x, hx', H.trans _ _ _ hmx hmem⟩

theorem mro_append {h : Heap} (extra : List Cls) {c : Nat} (hc : c < h.length) : mro (h ++ extra) c = mro h c := by
  unfold mro; rw [List.getElem?_append_left hc]

theorem typ_append {h : Heap} (extra : List Cls) {c : Nat} (hc : c < h.length) : typ (h ++ extra) c = typ h c := by
  unfold typ; rw [List.getElem?_append_left hc]

theorem mro_new (h : Heap) (k : Cls) : mro (h ++ [k]) h.length = k.mro := by simp [mro]
theorem typ_new (h : Heap) (k : Cls) : typ (h ++ [k]) h.length = k.typ := by simp [typ]

theorem mro_mono {h : Heap} (extra : List Cls) {c x : Nat} (hx : x ∈ mro h c) : x ∈ mro (h ++ extra) c := by
  rw [mro_append _ (mro_lt hx)]; exact hx

theorem winner_spec {h : Heap} (H : Classes h) (bs : List Nat) :
    ∀ w m, w < h.length → (∀ b ∈ bs, b < h.length) → winner h w bs = some m → w ∈ mro h m ∧ ∀ b ∈ bs, typ h b ∈ mro h m := by
  induction bs with
  | nil => intro w m hw hb hm; simp [winner] at hm; subst hm; exact ⟨mem_self H hw, by simp⟩
  | cons b bs ih =>
    intro w m hw hb hm
    have hb' : ∀ b ∈ bs, b < h.length := fun x hx => hb x (List.mem_cons_of_mem _ hx)
    have hbl := hb b (List.mem_cons_self ..)
    simp only [winner] at hm
    split at hm
    · rename_i ht
      obtain ⟨h1, h2⟩ := ih w m hw hb' hm
      exact ⟨h1, fun x hx => by
        rcases List.mem_cons.1 hx with rfl | hx
        · exact H.trans _ _ _ h1 ht
        · exact h2 x hx⟩
    · split at hm
      · rename_i ht
        obtain ⟨h1, h2⟩ := ih _ m (mro_lt (H.typ_meta b hbl)) hb' hm
        exact ⟨H.trans _ _ _ h1 ht, fun x hx => by
          rcases List.mem_cons.1 hx with rfl | hx
          · exact h1
          · exact h2 x hx⟩
      · simp at hm

theorem winner_self {h : Heap} (bs : List Nat) (w : Nat) (hb : ∀ b ∈ bs, typ h b ∈ mro h w) : winner h w bs = some w := by
  induction bs with
  | nil => rfl
  | cons b bs ih =>
    simp only [winner, if_pos (hb b (List.mem_cons_self ..))]
    exact ih (fun x hx => hb x (List.mem_cons_of_mem _ hx))

/-- The bases Python takes when none are given. -/
theorem bases_lt {h : Heap} (H : Classes h) {bases : List Nat} (hb : ∀ b ∈ bases, b < h.length) :
    ∀ b ∈ (if bases.isEmpty then [0] else bases), b < h.length := by
  have := H.two
  cases bases with
  | nil => simp; omega
  | cons a l => simpa using hb

theorem add_classes {h : Heap} (H : Classes h) {m : Nat} {bs l : List Nat} (hm : 1 ∈ mro h m) (hb : ∀ b ∈ bs, b < h.length)
    (hl : ∀ x, x ∈ l ↔ ∃ l' ∈ bs.map (mro h), x ∈ l') : Classes (h ++ [⟨h.length :: l, m⟩]) := by
  have two := H.two
  have hlt : ∀ d ∈ l, d < h.length := fun d hd => by
    obtain ⟨l', hl', hd'⟩ := (hl d).1 hd
    obtain ⟨b, hb', rfl⟩ := List.mem_map.1 hl'
    have := mem_le H hd'; have := hb b hb'; omega
  have old : ∀ {c x}, x ∈ mro (h ++ [⟨h.length :: l, m⟩]) c → c ≠ h.length → x ∈ mro h c := by
    intro c x hx hc
    have := mro_lt hx
    rw [List.length_append] at this
    rw [mro_append _ (by simp at this; omega)] at hx
    exact hx
  constructor
  · simp; omega
  · rw [mro_append _ (by omega)]; exact H.object_mro
  · rw [mro_append _ (by omega)]; exact H.type_mro
  · rw [typ_append _ (by omega)]; exact H.object_typ
  · rw [typ_append _ (by omega)]; exact H.type_typ
  · intro c hc
    by_cases hcl : c = h.length
    · subst hcl; rw [mro_new]; exact ⟨l, rfl, hlt⟩
    · have : c < h.length := by simp at hc; omega
      rw [mro_append _ this]; exact H.self c this
  · intro c d e hd he
    by_cases hcl : c = h.length
    · subst hcl
      rw [mro_new] at hd ⊢
      rcases List.mem_cons.1 hd with rfl | hd
      · rw [mro_new] at he; exact he
      · have hdl := hlt d hd
        have he' := old he (by omega)
        obtain ⟨l', hl', hd'⟩ := (hl d).1 hd
        obtain ⟨b, hb', rfl⟩ := List.mem_map.1 hl'
        exact List.mem_cons_of_mem _ ((hl e).2 ⟨_, hl', H.trans _ _ _ hd' he'⟩)
    · have hd' := old hd hcl
      have := mem_le H hd'
      have := mro_lt hd'
      exact mro_mono _ (H.trans _ _ _ hd' (old he (by omega)))
  · intro c hc2 hc
    by_cases hcl : c = h.length
    · subst hcl; rw [typ_new]; exact mro_lt hm
    · have : c < h.length := by simp at hc; omega
      rw [typ_append _ this]; exact H.older c hc2 this
  · intro c hc
    by_cases hcl : c = h.length
    · subst hcl; rw [typ_new]; exact mro_mono _ hm
    · have : c < h.length := by simp at hc; omega
      rw [typ_append _ this]; exact mro_mono _ (H.typ_meta c this)

/-- The invariant: sound classes, and a remembered metaclass derives from all it was made for. -/
structure Inv (w : World) : Prop where
  classes : Classes w.heap
  memo : ∀ k m, w.memo.lookup k = some m → 1 ∈ mro w.heap m ∧ ∀ x ∈ k, x ∈ mro w.heap m

/-- What a step keeps. -/
structure Keeps (w w' : World) : Prop where
  inv : Inv w'
  grows : Grows w.heap w'.heap
  memo : ∀ k m, w.memo.lookup k = some m → w'.memo.lookup k = some m

theorem Grows.trans {a b c : Heap} (h1 : Grows a b) (h2 : Grows b c) : Grows a c := by
  obtain ⟨x, rfl⟩ := h1; obtain ⟨y, rfl⟩ := h2; exact ⟨x ++ y, by simp⟩
theorem Keeps.trans {a b c : World} (h1 : Keeps a b) (h2 : Keeps b c) : Keeps a c :=
  ⟨h2.inv, h1.grows.trans h2.grows, fun k m h => h2.memo k m (h1.memo k m h)⟩
theorem Keeps.refl {a : World} (h : Inv a) : Keeps a a := ⟨h, ⟨[], by simp⟩, fun _ _ h => h⟩

theorem typeNew_spec {lin : List (List Nat) → Option (List Nat)} (L : Merges lin) {w : World} (I : Inv w) {mt : Nat} {bases : List Nat}
    (hm : 1 ∈ mro w.heap mt) (hb : ∀ b ∈ bases, b < w.heap.length) :
    Keeps w (typeNew lin w mt bases).1 ∧ (typeNew lin w mt bases).1.memo = w.memo ∧
    match (typeNew lin w mt bases).2 with
    | .ok c => c = w.heap.length ∧ c < (typeNew lin w mt bases).1.heap.length ∧
        (∀ b ∈ bases, typ w.heap b ∈ mro w.heap (typ (typeNew lin w mt bases).1.heap c)) ∧
        mt ∈ mro w.heap (typ (typeNew lin w mt bases).1.heap c) ∧
        (∀ x, x ∈ mro (typeNew lin w mt bases).1.heap c ↔ x = c ∨ (bases = [] ∧ x = 0) ∨ ∃ b ∈ bases, x ∈ mro w.heap b) ∧
        ((∀ b ∈ bases, typ w.heap b ∈ mro w.heap mt) → typ (typeNew lin w mt bases).1.heap c = mt)
    | .error e => (typeNew lin w mt bases).1 = w ∧ (e = .noOrder ∨ e = .conflict ∧ ¬ ∀ b ∈ bases, typ w.heap b ∈ mro w.heap mt) := by
  have H := I.classes
  have two := H.two
  have hbs := bases_lt H hb
  have hself : (∀ b ∈ bases, typ w.heap b ∈ mro w.heap mt) → winner w.heap mt (if bases.isEmpty then [0] else bases) = some mt := by
    intro h
    apply winner_self
    cases bases with
    | nil => simp [H.object_typ, hm]
    | cons a l => simpa using h
  cases hw : winner w.heap mt (if bases.isEmpty then [0] else bases) with
  | none =>
    have : typeNew lin w mt bases = (w, .error .conflict) := by simp only [typeNew, hw]
    rw [this]
    refine ⟨Keeps.refl I, rfl, rfl, Or.inr ⟨rfl, fun h => ?_⟩⟩
    rw [hself h] at hw; simp at hw
  | some m =>
    cases hl : lin ((if bases.isEmpty then [0] else bases).map (mro w.heap)) with
    | none =>
      have : typeNew lin w mt bases = (w, .error .noOrder) := by simp only [typeNew, hw, hl]
      rw [this]
      exact ⟨Keeps.refl I, rfl, rfl, Or.inl rfl⟩
    | some l =>
      have : typeNew lin w mt bases = ({ w with heap := w.heap ++ [⟨w.heap.length :: l, m⟩] }, .ok w.heap.length) := by
        simp only [typeNew, hw, hl]
      rw [this]
      obtain ⟨h1, h2⟩ := winner_spec H _ _ _ (mro_lt hm) hbs hw
      have hl' := L _ _ hl
      have C := add_classes H (H.trans _ _ _ h1 hm) hbs hl'
      refine ⟨⟨⟨C, fun k x hk => ?_⟩, ⟨_, rfl⟩, fun _ _ h => h⟩, rfl, rfl, by simp, ?_, ?_, ?_, ?_⟩
      · obtain ⟨a, b⟩ := I.memo k x hk
        exact ⟨mro_mono _ a, fun y hy => mro_mono _ (b y hy)⟩
      · intro b hb'
        rw [typ_new]
        apply h2
        cases bases with
        | nil => simp at hb'
        | cons a l => simpa using hb'
      · rw [typ_new]; exact h1
      · intro x
        rw [mro_new]
        simp only [List.mem_cons, hl' x]
        cases bases with
        | nil => simp [H.object_mro]
        | cons a l => simp only [List.isEmpty_cons, Bool.false_eq_true, if_false, List.mem_map]; grind
      · intro h
        rw [typ_new]
        rw [hself h] at hw
        exact (Option.some.inj hw).symm

theorem noconflict_spec {lin : List (List Nat) → Option (List Nat)} (L : Merges lin) (fuel : Nat) :
    ∀ (w : World) (bases left right : List Nat), Inv w → (∀ b ∈ bases, b < w.heap.length) → (∀ m ∈ left ++ right, 1 ∈ mro w.heap m) →
    Keeps w (noconflict lin fuel w bases left right).1 ∧
    match (noconflict lin fuel w bases left right).2 with
    | .ok m => 1 ∈ mro (noconflict lin fuel w bases left right).1.heap m ∧
        (∀ x ∈ left ++ bases.map (typ w.heap) ++ right, x ∈ mro (noconflict lin fuel w bases left right).1.heap m) ∧
        (noconflict lin fuel w bases left right).1.memo.lookup (removeRedundant w.heap (left ++ bases.map (typ w.heap) ++ right)) = some m
    | .error e => e = .noOrder ∨ (e = .incompatible ∧ left ++ right ≠ []) ∨ (e = .recursion ∧ ∃ x ∈ 0 :: (left ++ bases.map (typ w.heap) ++ right), fuel ≤ x) := by
  induction fuel with
  | zero => intro w bases left right I hb hm; exact ⟨Keeps.refl I, Or.inr (Or.inr ⟨rfl, 0, by simp, Nat.le_refl _⟩)⟩
  | succ fuel ih =>
    intro w bases left right I hb hm
    have H := I.classes
    have hmetas : ∀ m ∈ left ++ bases.map (typ w.heap) ++ right, 1 ∈ mro w.heap m := by
      intro m h
      simp only [List.mem_append, List.mem_map] at h
      rcases h with (h | ⟨b, hb', rfl⟩) | h
      · exact hm m (by simp [h])
      · exact H.typ_meta b (hb b hb')
      · exact hm m (by simp [h])
    have hlen : ∀ m ∈ left ++ bases.map (typ w.heap) ++ right, m < w.heap.length := fun m h => mro_lt (hmetas m h)
    have hcov : ∀ m ∈ left ++ bases.map (typ w.heap) ++ right, m = 1 ∨ ∃ x ∈ removeRedundant w.heap (left ++ bases.map (typ w.heap) ++ right), m ∈ mro w.heap x :=
      fun m h => cover H hmetas _ m (Nat.le_refl _) h
    have hneed := mem_needed H hlen
    simp only [noconflict]
    generalize hmt : left ++ bases.map (typ w.heap) ++ right = metas at *
    generalize hn : removeRedundant w.heap metas = needed at *
    cases hlk : w.memo.lookup needed with
    | some m =>
      simp only
      obtain ⟨h1, h2⟩ := I.memo _ _ hlk
      refine ⟨Keeps.refl I, h1, fun x hx => ?_, hlk⟩
      rcases hcov x hx with rfl | ⟨y, hy, hxy⟩
      · exact h1
      · exact H.trans _ _ _ (h2 y hy) hxy
    | none =>
      have hadd : ∀ (w1 : World) (m : Nat), Keeps w w1 → 1 ∈ mro w1.heap m → (∀ x ∈ needed, x ∈ mro w1.heap m) →
          Keeps w { w1 with memo := (needed, m) :: w1.memo } ∧ 1 ∈ mro w1.heap m ∧ (∀ x ∈ metas, x ∈ mro w1.heap m) ∧
          List.lookup needed ((needed, m) :: w1.memo) = some m := by
        intro w1 m K h1 h2
        refine ⟨⟨⟨K.inv.classes, fun k x hk => ?_⟩, K.grows, fun k x hk => ?_⟩, h1, fun x hx => ?_, by simp⟩
        · simp only [List.lookup_cons] at hk
          by_cases he : k = needed
          · subst he; simp at hk; subst hk; exact ⟨h1, h2⟩
          · have : (k == needed) = false := by simp [he]
            rw [this] at hk
            exact K.inv.memo k x hk
        · simp only [List.lookup_cons]
          by_cases he : k = needed
          · subst he; rw [hlk] at hk; simp at hk
          · have : (k == needed) = false := by simp [he]
            rw [this]
            exact K.memo k x hk
        · rcases hcov x hx with rfl | ⟨y, hy, hxy⟩
          · exact h1
          · obtain ⟨extra, he⟩ := K.grows
            exact K.inv.classes.trans _ _ _ (h2 y hy) (he ▸ mro_mono extra hxy)
      have t1 : 1 ∈ mro w.heap 1 := by simp [H.type_mro]
      match needed, hlk, hadd, hneed, hcov with
      | [], hlk, hadd, hneed, hcov =>
        exact hadd w 1 (Keeps.refl I) t1 (by simp)
      | [m], hlk, hadd, hneed, hcov =>
        have hmm := ((hneed m).1 (by simp)).1
        exact hadd w m (Keeps.refl I) (hmetas m hmm) (by simpa using mem_self H (hlen m hmm))
      | a :: b :: l, hlk, hadd, hneed, hcov =>
        simp only
        have hbig : ∀ x ∈ a :: b :: l, 2 ≤ x := fun x hx => by
          obtain ⟨h1, h2, _⟩ := (hneed x).1 hx
          have := ne_zero H (hmetas x h1); omega
        split
        · rename_i heq
          refine ⟨Keeps.refl I, Or.inr (Or.inl ⟨rfl, fun hlr => ?_⟩)⟩
          -- without left and right metaclasses the oldest base would be its own metaclass
          have hl0 : left = [] := (List.append_eq_nil_iff.1 hlr).1
          have hr0 : right = [] := (List.append_eq_nil_iff.1 hlr).2
          subst hl0 hr0
          have key : ∀ n x, x ∈ bases → x + n ≥ w.heap.length → False := by
            intro n
            induction n with
            | zero => intro x hx hge; have := hb x hx; omega
            | succ n ihn =>
              intro x hx hge
              have hx' := ((hneed x).1 (heq ▸ hx)).1
              rw [← hmt] at hx'
              simp only [List.nil_append, List.append_nil, List.mem_map] at hx'
              obtain ⟨c, hc, hcx⟩ := hx'
              have h2 := H.older c (hbig c (heq ▸ hc)) (hb c hc)
              exact ihn c hc (by omega)
          exact key w.heap.length a (heq ▸ List.mem_cons_self ..) (by omega)
        · have hnlt : ∀ x ∈ a :: b :: l, x < w.heap.length := fun x hx => hlen x ((hneed x).1 hx).1
          obtain ⟨K, hr⟩ := ih w (a :: b :: l) [] [] I hnlt (by simp)
          rcases hgo : noconflict lin fuel w (a :: b :: l) [] [] with ⟨w1, r⟩
          rw [hgo] at K hr
          cases r with
          | error e =>
            simp only at hr ⊢
            refine ⟨K, ?_⟩
            rcases hr with h | ⟨_, h⟩ | ⟨h, x, hx, hfx⟩
            · exact Or.inl h
            · exact absurd rfl h
            · refine Or.inr (Or.inr ⟨h, ?_⟩)
              rcases List.mem_cons.1 hx with rfl | hx
              · have hf : fuel = 0 := by omega
                have := hbig a (by simp)
                exact ⟨a, List.mem_cons_of_mem _ ((hneed a).1 (by simp)).1, by omega⟩
              · simp only [List.nil_append, List.append_nil] at hx
                obtain ⟨c, hc, rfl⟩ := List.mem_map.1 hx
                have := H.older c (hbig c hc) (hnlt c hc)
                exact ⟨c, List.mem_cons_of_mem _ ((hneed c).1 hc).1, by omega⟩
          | ok mm =>
            simp only at hr ⊢
            obtain ⟨h1, h2, h3⟩ := hr
            obtain ⟨extra, he⟩ := K.grows
            have hlt1 : ∀ x ∈ a :: b :: l, x < w1.heap.length := fun x hx => by
              have := hnlt x hx; simp only at he; rw [he]; simp; omega
            have T := typeNew_spec L K.inv h1 hlt1
            have hty : ∀ x ∈ a :: b :: l, typ w1.heap x ∈ mro w1.heap mm := fun x hx => by
              simp only at he
              have e1 : typ w1.heap x = typ w.heap x := by rw [he]; exact typ_append _ (hnlt x hx)
              rw [e1]
              exact h2 _ (by simp only [List.nil_append, List.append_nil]; exact List.mem_map.2 ⟨x, hx, rfl⟩)
            rcases hgt : typeNew lin w1 mm (a :: b :: l) with ⟨w2, r⟩
            rw [hgt] at T
            cases r with
            | error e =>
              simp only at T ⊢
              obtain ⟨K2, _, _, hor⟩ := T
              refine ⟨K.trans K2, ?_⟩
              rcases hor with h | ⟨_, h⟩
              · exact Or.inl h
              · exact absurd hty h
            | ok m =>
              simp only at T ⊢
              obtain ⟨K2, _, hc, hlt2, _, hmm, hall, _⟩ := T
              refine hadd w2 m (K.trans K2) ?_ ?_
              · exact (hall 1).2 (Or.inr (Or.inr ⟨a, by simp, by
                  simp only at he; rw [he]; exact mro_mono _ (hmetas a ((hneed a).1 (by simp)).1)⟩))
              · intro x hx
                exact (hall x).2 (Or.inr (Or.inr ⟨x, hx, mem_self K.inv.classes (hlt1 x hx)⟩))

theorem Grows.mro {a b : Heap} (g : Grows a b) {c : Nat} (hc : c < a.length) : mro b c = mro a c := by
  obtain ⟨x, rfl⟩ := g; exact mro_append _ hc
theorem Grows.typ {a b : Heap} (g : Grows a b) {c : Nat} (hc : c < a.length) : typ b c = typ a c := by
  obtain ⟨x, rfl⟩ := g; exact typ_append _ hc
theorem Grows.len {a b : Heap} (g : Grows a b) : a.length ≤ b.length := by
  obtain ⟨x, rfl⟩ := g; simp

/-- What `make` does, the whole of it. -/
theorem make_spec {lin : List (List Nat) → Option (List Nat)} (L : Merges lin) (fuel : Nat) (w : World) (bases left right : List Nat)
    (I : Inv w) (hb : ∀ b ∈ bases, b < w.heap.length) (hm : ∀ m ∈ left ++ right, 1 ∈ mro w.heap m) :
    Keeps w (make lin fuel w bases left right).1 ∧
    match (make lin fuel w bases left right).2 with
    | .ok c => w.heap.length ≤ c ∧ c < (make lin fuel w bases left right).1.heap.length ∧
        (∀ x ∈ left ++ bases.map (typ w.heap) ++ right, x ∈ mro (make lin fuel w bases left right).1.heap (typ (make lin fuel w bases left right).1.heap c)) ∧
        (∀ x, x ∈ mro (make lin fuel w bases left right).1.heap c ↔ x = c ∨ (bases = [] ∧ x = 0) ∨ ∃ b ∈ bases, x ∈ mro w.heap b) ∧
        (make lin fuel w bases left right).1.memo.lookup (removeRedundant w.heap (left ++ bases.map (typ w.heap) ++ right)) =
          some (typ (make lin fuel w bases left right).1.heap c)
    | .error e => e = .noOrder ∨ (e = .incompatible ∧ left ++ right ≠ []) ∨ (e = .recursion ∧ ∃ x ∈ 0 :: (left ++ bases.map (typ w.heap) ++ right), fuel ≤ x) := by
  obtain ⟨K, hr⟩ := noconflict_spec L fuel w bases left right I hb hm
  unfold make
  rcases hgo : noconflict lin fuel w bases left right with ⟨w1, r⟩
  rw [hgo] at K hr
  cases r with
  | error e => exact ⟨K, hr⟩
  | ok m =>
    simp only at hr K ⊢
    obtain ⟨h1, h2, h3⟩ := hr
    have g := K.grows
    have hlt1 : ∀ x ∈ bases, x < w1.heap.length := fun x hx => by have := hb x hx; have := g.len; omega
    obtain ⟨K2, hmemo, T⟩ := typeNew_spec L K.inv h1 hlt1
    refine ⟨K.trans K2, ?_⟩
    have hty : ∀ x ∈ bases, typ w1.heap x ∈ mro w1.heap m := fun x hx => by
      rw [g.typ (hb x hx)]
      exact h2 _ (by simp only [List.mem_append, List.mem_map]; exact Or.inl (Or.inr ⟨x, hx, rfl⟩))
    cases hr : (typeNew lin w1 m bases).2 with
    | error e =>
      rw [hr] at T
      simp only at T ⊢
      rcases T.2 with h | ⟨_, h⟩
      · exact Or.inl h
      · exact absurd hty h
    | ok c =>
      rw [hr] at T
      simp only at T ⊢
      obtain ⟨hc, hlt2, _, hmm, hall, hsame⟩ := T
      have ht := hsame hty
      refine ⟨by have := g.len; omega, hlt2, fun x hx => ?_, fun x => ?_, ?_⟩
      · rw [ht, K2.grows.mro (mro_lt h1)]; exact h2 x hx
      · rw [hall]
        constructor
        · rintro (h | h | ⟨b, hb', h⟩)
          · exact Or.inl h
          · exact Or.inr (Or.inl h)
          · exact Or.inr (Or.inr ⟨b, hb', by rw [g.mro (hb b hb')] at h; exact h⟩)
        · rintro (h | h | ⟨b, hb', h⟩)
          · exact Or.inl h
          · exact Or.inr (Or.inl h)
          · exact Or.inr (Or.inr ⟨b, hb', by rw [g.mro (hb b hb')]; exact h⟩)
      · rw [hmemo, ht]; exact h3

/-- A fresh interpreter: `object` and `type`, and the empty `memoized_metaclasses_map`
(`/repo/satella/coding/metaclasses.py:105`). -/
def start : World := ⟨[⟨[0], 1⟩, ⟨[1, 0], 1⟩], []⟩

/-- What may happen in a process: `metaclass_maker_f(left, right)` is called on existing classes and
metaclasses, or the program defines a class on its own, `class C(*bases, metaclass=mt)`. -/
inductive Later (lin : List (List Nat) → Option (List Nat)) : World → World → Prop
  | refl (w) : Later lin w w
  | make {w w'} (fuel : Nat) (bases left right : List Nat) : Later lin w w' → (∀ b ∈ bases, b < w'.heap.length) →
      (∀ m ∈ left ++ right, Derives w'.heap m 1) → Later lin w (make lin fuel w' bases left right).1
  | define {w w'} (mt : Nat) (bases : List Nat) : Later lin w w' → (∀ b ∈ bases, b < w'.heap.length) →
      Derives w'.heap mt 1 → Later lin w (typeNew lin w' mt bases).1

theorem start_inv : Inv start := by
  refine ⟨⟨by decide, by decide, by decide, by decide, by decide, ?_, ?_, ?_, ?_⟩, by simp [start]⟩
  · intro c hc
    have : c = 0 ∨ c = 1 := by simp [start] at hc; omega
    rcases this with rfl | rfl
    · exact ⟨[], by decide, by simp⟩
    · exact ⟨[0], by decide, by simp⟩
  · intro c d e hd he
    have hc := mro_lt hd
    have : c = 0 ∨ c = 1 := by simp [start] at hc; omega
    rcases this with rfl | rfl
    · have : d = 0 := by simpa [start, mro] using hd
      subst this; exact he
    · have : d = 1 ∨ d = 0 := by simpa [start, mro] using hd
      rcases this with rfl | rfl
      · exact he
      · have : e = 0 := by simpa [start, mro] using he
        subst this; exact hd
  · intro c h2 hc; simp [start] at hc; omega
  · intro c hc
    have : c = 0 ∨ c = 1 := by simp [start] at hc; omega
    rcases this with rfl | rfl <;> decide

theorem later_keeps {lin : List (List Nat) → Option (List Nat)} (L : Merges lin) {w w' : World} (I : Inv w) (h : Later lin w w') : Keeps w w' := by
  induction h with
  | refl => exact Keeps.refl I
  | make fuel bases left right _ hb hm ih => exact ih.trans (make_spec L fuel _ bases left right ih.inv hb hm).1
  | define mt bases _ hb hm ih => exact ih.trans (typeNew_spec L ih.inv hm hb).1

theorem skip_mono_congr {h h' : Heap} (g : Grows h h') {metas : List Nat} (hm : ∀ m ∈ metas, m < h.length) :
    removeRedundant h' metas = removeRedundant h metas := by
  unfold removeRedundant
  have : metas.flatMap (fun m => (mro h' m).drop 1) = metas.flatMap (fun m => (mro h m).drop 1) := by
    induction metas with
    | nil => rfl
    | cons a l ih =>
      simp only [List.flatMap_cons]
      rw [g.mro (hm a (by simp)), ih (fun m hm' => hm m (List.mem_cons_of_mem _ hm'))]
  rw [this]

/-! ## Properties -/

/-- **C180 (the new class and its metaclass)** At any moment of any program, a class made from
existing classes is a new one, whose ancestors are exactly those of its bases and itself, and whose
metaclass derives from the metaclass of every base and from every metaclass asked for on the left or
on the right; and all other classes are as they were. -/
theorem C180_compatible {lin : List (List Nat) → Option (List Nat)} (L : Merges lin) {w : World} (R : Later lin start w)
    (fuel : Nat) (bases left right : List Nat) (hb : ∀ b ∈ bases, b < w.heap.length) (hm : ∀ m ∈ left ++ right, Derives w.heap m 1)
    (w' : World) (c : Nat) (h : make lin fuel w bases left right = (w', .ok c)) :
    Grows w.heap w'.heap ∧ w.heap.length ≤ c ∧ c < w'.heap.length ∧
    (∀ b ∈ bases, Derives w'.heap (typ w'.heap c) (typ w'.heap b)) ∧
    (∀ m ∈ left ++ right, Derives w'.heap (typ w'.heap c) m) ∧
    (∀ x, Derives w'.heap c x ↔ x = c ∨ (bases = [] ∧ x = 0) ∨ ∃ b ∈ bases, Derives w'.heap b x) := by
  obtain ⟨K, T⟩ := make_spec L fuel w bases left right (later_keeps L start_inv R).inv hb hm
  rw [h] at K T
  simp only at K T
  obtain ⟨h1, h2, h3, h4, _⟩ := T
  refine ⟨K.grows, h1, h2, fun b hb' => ?_, fun m hm' => ?_, fun x => ?_⟩
  · rw [K.grows.typ (hb b hb')]
    exact h3 _ (by simp only [List.mem_append, List.mem_map]; exact Or.inl (Or.inr ⟨b, hb', rfl⟩))
  · exact h3 _ (by simp only [List.mem_append] at hm' ⊢; rcases hm' with h | h <;> simp [h])
  · unfold Derives
    rw [h4]
    constructor
    · rintro (h | h | ⟨b, hb', h⟩)
      · exact Or.inl h
      · exact Or.inr (Or.inl h)
      · exact Or.inr (Or.inr ⟨b, hb', by rw [K.grows.mro (hb b hb')]; exact h⟩)
    · rintro (h | h | ⟨b, hb', h⟩)
      · exact Or.inl h
      · exact Or.inr (Or.inl h)
      · exact Or.inr (Or.inr ⟨b, hb', by rw [K.grows.mro (hb b hb')] at h; exact h⟩)

/-- **C180 (no conflict)** `metaclass_maker` never fails with a conflict of metaclasses, nor by
endless recursion: for some depth of recursion the only failure left is that the resolution orders
of the bases, or of their metaclasses, cannot be merged. -/
theorem C180_no_conflict {lin : List (List Nat) → Option (List Nat)} (L : Merges lin) {w : World} (R : Later lin start w)
    (bases : List Nat) (hb : ∀ b ∈ bases, b < w.heap.length) :
    ∃ n, ∀ fuel, n ≤ fuel → ∀ e, (make lin fuel w bases [] []).2 = .error e → e = .noOrder := by
  refine ⟨w.heap.length, fun fuel hf e he => ?_⟩
  have I := (later_keeps L start_inv R).inv
  obtain ⟨K, T⟩ := make_spec L fuel w bases [] [] I hb (by simp)
  rw [he] at T
  simp only at T
  rcases T with h | ⟨_, h⟩ | ⟨_, x, hx, hfx⟩
  · exact h
  · exact absurd rfl h
  · have := I.classes.two
    rcases List.mem_cons.1 hx with rfl | hx
    · omega
    · simp only [List.nil_append, List.append_nil] at hx
      obtain ⟨b, hb', rfl⟩ := List.mem_map.1 hx
      have := mro_lt (I.classes.typ_meta b (hb b hb'))
      omega

/-- **C180 (one metaclass)** Two classes made, at any two moments of a program, from bases having the
same metaclasses in the same order have the very same metaclass. -/
theorem C180_one_metaclass {lin : List (List Nat) → Option (List Nat)} (L : Merges lin) {w w1 w2 w3 : World} (R : Later lin start w)
    (fuel1 fuel2 : Nat) (bases1 bases2 : List Nat) (hb1 : ∀ b ∈ bases1, b < w.heap.length) (hb2 : ∀ b ∈ bases2, b < w2.heap.length)
    (c1 c2 : Nat) (h1 : make lin fuel1 w bases1 [] [] = (w1, .ok c1)) (l : Later lin w1 w2)
    (h2 : make lin fuel2 w2 bases2 [] [] = (w3, .ok c2)) (same : bases1.map (typ w3.heap) = bases2.map (typ w3.heap)) :
    typ w3.heap c1 = typ w3.heap c2 := by
  have I := (later_keeps L start_inv R).inv
  obtain ⟨K1, T1⟩ := make_spec L fuel1 w bases1 [] [] I hb1 (by simp)
  rw [h1] at K1 T1
  have K2 := later_keeps L K1.inv l
  obtain ⟨K3, T3⟩ := make_spec L fuel2 w2 bases2 [] [] K2.inv hb2 (by simp)
  rw [h2] at K3 T3
  simp only at K1 K2 K3 T1 T3
  obtain ⟨_, hlt, _, _, m1⟩ := T1
  obtain ⟨_, _, _, _, m3⟩ := T3
  have g := K1.grows.trans (K2.grows.trans K3.grows)
  have e1 : bases1.map (typ w.heap) = bases1.map (typ w3.heap) :=
    List.map_congr_left (fun b hb => (g.typ (hb1 b hb)).symm)
  have e2 : bases2.map (typ w2.heap) = bases2.map (typ w3.heap) :=
    List.map_congr_left (fun b hb => (K3.grows.typ (hb2 b hb)).symm)
  have m1' := K3.memo _ _ (K2.memo _ _ m1)
  simp only [List.nil_append, List.append_nil] at m1' m3
  have hl1 : ∀ m ∈ bases1.map (typ w.heap), m < w.heap.length := fun m hm => by
    obtain ⟨b, hb, rfl⟩ := List.mem_map.1 hm
    exact mro_lt (I.classes.typ_meta b (hb1 b hb))
  rw [← skip_mono_congr (K1.grows.trans K2.grows) hl1, e1, same, ← e2, m3] at m1'
  have := Option.some.inj m1'
  rw [(K2.grows.trans K3.grows).typ hlt, this]

/-- **C180 (minimal)** The metaclasses a combined metaclass is made of are, in the order asked for
and each once, exactly those that no other of the given metaclasses derives from. -/
theorem C180_minimal {h : Heap} (H : Classes h) (metas : List Nat) (hm : ∀ m ∈ metas, m < h.length) :
    (removeRedundant h metas).Sublist metas ∧ (removeRedundant h metas).Nodup ∧
    ∀ x, x ∈ removeRedundant h metas ↔ x ∈ metas ∧ x ≠ 1 ∧ ∀ m ∈ metas, Derives h m x → m = x :=
  ⟨skip_sublist _ _, skip_nodup _ _, fun x => by
    rw [mem_needed H hm]; unfold Derives; exact ⟨fun ⟨a, b, c⟩ => ⟨a, b, fun m h1 h2 => (c m h1 h2).symm⟩, fun ⟨a, b, c⟩ => ⟨a, b, fun m h1 h2 => (c m h1 h2).symm⟩⟩⟩

/-! ## Examples -/

/-- A simple merging: all ancestors, each once. -/
def lin1 (ls : List (List Nat)) : Option (List Nat) := some ls.flatten.eraseDups

theorem lin1_merges : Merges lin1 := by
  intro ls l h x
  simp only [lin1, Option.some.injEq] at h
  subst h
  simp [List.mem_flatten]

/-- Two metaclasses (2, 3), a class of each (4, 5); `class C(4, 5)` fails on its own... -/
def two : World := ((typeNew lin1 (typeNew lin1 (typeNew lin1 (typeNew lin1 start 1 [1]).1 1 [1]).1 2 []).1 3 []).1)

example : Later lin1 start two :=
  .define 3 [] (.define 2 [] (.define 1 [1] (.define 1 [1] (.refl _) (by decide) (by unfold Derives; decide)) (by decide) (by unfold Derives; decide))
    (by decide) (by unfold Derives; decide)) (by decide) (by unfold Derives; decide)
example : (typeNew lin1 two 2 [4, 5]).2 = .error .conflict := rfl
/-- ...but can be made: 6 is the combined metaclass, 7 and 9 the classes. -/
example : (make lin1 10 two [4, 5] [] []).2 = .ok 7 ∧ typ (make lin1 10 two [4, 5] [] []).1.heap 7 = 6 ∧
    (make lin1 10 (make lin1 10 two [4, 5] [] []).1 [4, 5] [] []).2 = .ok 8 ∧
    typ (make lin1 10 (make lin1 10 two [4, 5] [] []).1 [4, 5] [] []).1.heap 8 = 6 :=
  ⟨rfl, rfl, rfl, rfl⟩
example : Classes start.heap ∧ removeRedundant two.heap [1, 2, 1, 3, 2] = [2, 3] := ⟨start_inv.classes, by decide⟩

end Verif.NoConflict
