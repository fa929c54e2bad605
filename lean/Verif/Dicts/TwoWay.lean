import Verif.Py.Basic
import Verif.Py.Dict
import Verif.Py.Run

/-!
# TwoWayDictionary (satella/coding/structures/dictionaries/objects.py), C98, C99
-/
namespace Verif.TwoWay

open Verif

/-! ## Model -/

/-- the two dictionaries of one side: `data` and `reverse_data`; the other side has them the other way round, /repo/satella/coding/structures/dictionaries/objects.py:151-161 -/
structure St (A B : Type) where
  data : Dict A B
  rev : Dict B A

/-- the other side, `reverse`, /repo/satella/coding/structures/dictionaries/objects.py:158-161, :197-202 -/
def St.flip {A B : Type} (s : St A B) : St B A := ⟨s.rev, s.data⟩

/-- calls on one side, with those inherited from MutableMapping, /repo/satella/coding/structures/dictionaries/objects.py:170-202 -/
inductive Op (A B : Type) where
  | get (k : A)
  | contains (k : A)
  | len
  | iter
  | set (k : A) (v : B)
  | del (k : A)
  | pop (k : A) (default : Option B)
  | popitem
  | clear
  | setdefault (k : A) (v : B)

/-- what a call returns, /repo/satella/coding/structures/dictionaries/objects.py:170-202 -/
inductive Res (A B : Type) where
  | unit
  | keyError
  | valueError
  | val (v : B)
  | bool (b : Bool)
  | nat (n : Nat)
  | keys (l : List A)
  | item (k : A) (v : B)

section
variable {A B : Type} [DecidableEq A] [DecidableEq B]

/-- `__init__` with the items of a dictionary, /repo/satella/coding/structures/dictionaries/objects.py:151-161; `none` is ValueError -/
def init (d : Dict A B) : Option (St A B) :=
  let r : Dict B A := d.foldl (fun r p => Dict.set r p.2 p.1) []
  if r.length ≠ d.length then none else some ⟨d, r⟩

/-- `__setitem__`, /repo/satella/coding/structures/dictionaries/objects.py:176-187; `none` is ValueError -/
def setitem (s : St A B) (k : A) (v : B) : Option (St A B) :=
  if Dict.has s.rev v then none
  else
    let rev := match Dict.get? s.data k with
      | some p => Dict.del s.rev p
      | none => s.rev
    some ⟨Dict.set s.data k v, Dict.set rev v k⟩

/-- `__delitem__`, /repo/satella/coding/structures/dictionaries/objects.py:189-192; `none` is KeyError -/
def delitem (s : St A B) (k : A) : Option (St A B) :=
  match Dict.get? s.data k with
  | some v => some ⟨Dict.del s.data k, Dict.del s.rev v⟩
  | none => none

/-- `popitem` of MutableMapping, for the first key of /repo/satella/coding/structures/dictionaries/objects.py:194-195 -/
def popitem (s : St A B) : Option (A × B × St A B) :=
  match s.data with
  | [] => none
  | (k, v) :: _ => (delitem s k).map fun s' => (k, v, s')

/-- `clear` of MutableMapping: `popitem` until KeyError, with /repo/satella/coding/structures/dictionaries/objects.py:189-195 -/
def clearLoop : Nat → St A B → St A B
  | 0, s => s
  | n + 1, s =>
    match popitem s with
    | none => s
    | some (_, _, s') => clearLoop n s'

/-- one call on one side, /repo/satella/coding/structures/dictionaries/objects.py:170-202 -/
def step1 (s : St A B) : Op A B → St A B × Res A B
  | .get k => (s, match Dict.get? s.data k with | some v => .val v | none => .keyError)
  | .contains k => (s, .bool (Dict.get? s.data k).isSome)
  | .len => (s, .nat s.data.length)
  | .iter => (s, .keys (Dict.keys s.data))
  | .set k v => match setitem s k v with | some s' => (s', .unit) | none => (s, .valueError)
  | .del k => match delitem s k with | some s' => (s', .unit) | none => (s, .keyError)
  | .pop k d =>
    match Dict.get? s.data k with
    | some v => match delitem s k with | some s' => (s', .val v) | none => (s, .keyError)
    | none => (s, match d with | some v => .val v | none => .keyError)
  | .popitem => match popitem s with | some (k, v, s') => (s', .item k v) | none => (s, .keyError)
  | .clear => (clearLoop (s.data.length + 1) s, .unit)
  | .setdefault k v =>
    match Dict.get? s.data k with
    | some w => (s, .val w)
    | none => match setitem s k v with | some s' => (s', .val v) | none => (s, .valueError)

/-- a call on the dictionary or on its reverse, /repo/satella/coding/structures/dictionaries/objects.py:197-202 -/
inductive Call (A B : Type) where
  | here (o : Op A B)
  | reverse (o : Op B A)

/-- what it returns, /repo/satella/coding/structures/dictionaries/objects.py:197-202 -/
inductive Out (A B : Type) where
  | here (r : Res A B)
  | reverse (r : Res B A)

/-- a call on either side, /repo/satella/coding/structures/dictionaries/objects.py:158-161 -/
def step (s : St A B) : Call A B → St A B × Out A B
  | .here o => ((step1 s o).1, .here (step1 s o).2)
  | .reverse o => ((step1 s.flip o).1.flip, .reverse (step1 s.flip o).2)
end

/-! ## Specification -/

section
variable {A B : Type}

/-- which keys are mapped to which values -/
abbrev Rel (A B : Type) := A → B → Prop

/-- one to one -/
def OneToOne (R : Rel A B) : Prop := (∀ a b c, R a b → R a c → b = c) ∧ (∀ a b c, R a c → R b c → a = b)

/-- all keys, each once -/
def Lists (R : Rel A B) (l : List A) : Prop := l.Nodup ∧ ∀ a, a ∈ l ↔ ∃ b, R a b

/-- `k` is mapped to `v` instead of what it was mapped to -/
def SetTo (R : Rel A B) (k : A) (v : B) (R' : Rel A B) : Prop := ∀ a b, R' a b ↔ (a = k ∧ b = v) ∨ (a ≠ k ∧ R a b)

/-- `k` is not mapped -/
def Removed (R : Rel A B) (k : A) (R' : Rel A B) : Prop := ∀ a b, R' a b ↔ a ≠ k ∧ R a b

/-- the specification of a call: that of a dictionary, except that a value that is mapped to already is refused -/
def Spec1 (R : Rel A B) : Op A B → Res A B → Rel A B → Prop
  | .get k, r, R' => R' = R ∧ ((∃ v, R k v ∧ r = .val v) ∨ ((∀ v, ¬ R k v) ∧ r = .keyError))
  | .contains k, r, R' => R' = R ∧ ∃ x, r = .bool x ∧ (x = true ↔ ∃ v, R k v)
  | .len, r, R' => R' = R ∧ ∃ l, Lists R l ∧ r = .nat l.length
  | .iter, r, R' => R' = R ∧ ∃ l, Lists R l ∧ r = .keys l
  | .set k v, r, R' => ((∀ a, ¬ R a v) ∧ r = .unit ∧ SetTo R k v R') ∨ ((∃ a, R a v) ∧ r = .valueError ∧ R' = R)
  | .del k, r, R' => ((∃ v, R k v) ∧ r = .unit ∧ Removed R k R') ∨ ((∀ v, ¬ R k v) ∧ r = .keyError ∧ R' = R)
  | .pop k d, r, R' => (∃ v, R k v ∧ r = .val v ∧ Removed R k R') ∨
      ((∀ v, ¬ R k v) ∧ R' = R ∧ ((∃ v, d = some v ∧ r = .val v) ∨ (d = none ∧ r = .keyError)))
  | .popitem, r, R' => (∃ k v, R k v ∧ r = .item k v ∧ Removed R k R') ∨ ((∀ k v, ¬ R k v) ∧ r = .keyError ∧ R' = R)
  | .clear, r, R' => r = .unit ∧ ∀ a b, ¬ R' a b
  | .setdefault k v, r, R' => (∃ w, R k w ∧ r = .val w ∧ R' = R) ∨
      ((∀ w, ¬ R k w) ∧ (((∀ a, ¬ R a v) ∧ r = .val v ∧ SetTo R k v R') ∨ ((∃ a, R a v) ∧ r = .valueError ∧ R' = R)))

/-- on either side: the reverse is the same mapping seen from the values -/
def Spec (R : Rel A B) : Call A B → Out A B → Rel A B → Prop
  | .here o, .here r, R' => Spec1 R o r R'
  | .reverse o, .reverse r, R' => Spec1 (fun b a => R a b) o r (fun b a => R' a b)
  | _, _, _ => False
end

/-! ## Proofs -/

section
variable {A B : Type} [DecidableEq A] [DecidableEq B]

/-- both dictionaries say what is mapped to what -/
def Rep (s : St A B) (R : Rel A B) : Prop :=
  Dict.WF s.data ∧ Dict.WF s.rev ∧ (∀ a b, Dict.get? s.data a = some b ↔ R a b) ∧ (∀ a b, Dict.get? s.rev b = some a ↔ R a b)

theorem Rep.flip {s : St A B} {R : Rel A B} (h : Rep s R) : Rep s.flip (fun b a => R a b) :=
  ⟨h.2.1, h.1, fun a b => h.2.2.2 b a, fun a b => h.2.2.1 b a⟩

theorem Rep.oneToOne {s : St A B} {R : Rel A B} (h : Rep s R) : OneToOne R := by
  obtain ⟨_, _, hd, hr⟩ := h
  refine ⟨fun a b c h1 h2 => ?_, fun a b c h1 h2 => ?_⟩
  · rw [← hd] at h1 h2; rw [h1] at h2; exact Option.some.inj h2
  · rw [← hr] at h1 h2; rw [h1] at h2; exact Option.some.inj h2

theorem Rep.none_iff {s : St A B} {R : Rel A B} (h : Rep s R) (k : A) : Dict.get? s.data k = none ↔ ∀ v, ¬ R k v := by
  constructor
  · intro e v hv; rw [← h.2.2.1, e] at hv; cases hv
  · intro hn
    cases e : Dict.get? s.data k with
    | none => rfl
    | some v => exact absurd ((h.2.2.1 k v).1 e) (hn v)

theorem setitem_spec (s : St A B) (R : Rel A B) (k : A) (v : B) (h : Rep s R) :
    (∃ s' R', setitem s k v = some s' ∧ (∀ a, ¬ R a v) ∧ SetTo R k v R' ∧ Rep s' R') ∨ (setitem s k v = none ∧ ∃ a, R a v) := by
  have h' := h
  obtain ⟨hw, hwr, hd, hr⟩ := h
  have h1to1 := h'.oneToOne
  unfold setitem Dict.has
  cases hv : Dict.get? s.rev v with
  | some a => right; exact ⟨rfl, a, (hr a v).1 hv⟩
  | none =>
    left
    have hnv : ∀ a, ¬ R a v := fun a ha => by rw [← hr, hv] at ha; cases ha
    refine ⟨_, fun a b => (a = k ∧ b = v) ∨ (a ≠ k ∧ R a b), rfl, hnv, fun _ _ => Iff.rfl, Dict.wf_set hw _ _, ?_, ?_, ?_⟩
    · refine Dict.wf_set ?_ _ _
      cases Dict.get? s.data k with
      | none => exact hwr
      | some p => exact Dict.wf_del hwr p
    · intro a b
      dsimp only
      rw [Dict.get?_set]
      by_cases e : k = a
      · subst e; simp [eq_comm]
      · rw [if_neg e, hd]; simp [Ne.symm e]
    · intro a b
      dsimp only
      rw [Dict.get?_set]
      by_cases e : v = b
      · subst e
        rw [if_pos rfl]
        constructor
        · intro h; injection h with h; exact Or.inl ⟨h.symm, rfl⟩
        · rintro (⟨rfl, _⟩ | ⟨_, h⟩)
          · rfl
          · exact absurd h (hnv a)
      · rw [if_neg e]
        have hb : ¬ (b = v) := fun h => e h.symm
        cases hk : Dict.get? s.data k with
        | none =>
          dsimp only
          rw [hr]
          constructor
          · intro hab
            refine Or.inr ⟨?_, hab⟩
            rintro rfl
            rw [← hd, hk] at hab; cases hab
          · rintro (⟨_, h⟩ | ⟨_, h⟩)
            · exact absurd h hb
            · exact h
        | some p =>
          dsimp only
          rw [Dict.get?_del]
          have hkp : R k p := (hd k p).1 hk
          by_cases ep : p = b
          · subst ep
            rw [if_pos rfl]
            constructor
            · intro h; cases h
            · rintro (⟨_, h⟩ | ⟨h1, h2⟩)
              · exact absurd h hb
              · exact absurd (h1to1.2 a k p h2 hkp) h1
          · rw [if_neg ep, hr]
            constructor
            · intro hab
              refine Or.inr ⟨?_, hab⟩
              rintro rfl
              exact ep (h1to1.1 a p b hkp hab)
            · rintro (⟨_, h⟩ | ⟨_, h⟩)
              · exact absurd h hb
              · exact h

theorem delitem_spec (s : St A B) (R : Rel A B) (k : A) (h : Rep s R) :
    (∃ v s' R', R k v ∧ Dict.get? s.data k = some v ∧ delitem s k = some s' ∧ Removed R k R' ∧ Rep s' R' ∧ s'.data = Dict.del s.data k) ∨ (delitem s k = none ∧ ∀ v, ¬ R k v) := by
  have h' := h
  obtain ⟨hw, hwr, hd, hr⟩ := h
  have h1to1 := h'.oneToOne
  unfold delitem
  cases hk : Dict.get? s.data k with
  | none => right; exact ⟨rfl, (h'.none_iff k).1 hk⟩
  | some v =>
    left
    have hkv : R k v := (hd k v).1 hk
    refine ⟨v, _, fun a b => a ≠ k ∧ R a b, hkv, rfl, rfl, fun _ _ => Iff.rfl, ⟨Dict.wf_del hw k, Dict.wf_del hwr v, ?_, ?_⟩, rfl⟩
    · intro a b
      dsimp only
      rw [Dict.get?_del]
      by_cases e : k = a
      · subst e; simp
      · rw [if_neg e, hd]; simp [Ne.symm e]
    · intro a b
      dsimp only
      rw [Dict.get?_del]
      by_cases e : v = b
      · subst e
        rw [if_pos rfl]
        constructor
        · intro h; cases h
        · rintro ⟨h1, h2⟩; exact absurd (h1to1.2 a k v h2 hkv) h1
      · rw [if_neg e, hr]
        constructor
        · intro hab
          refine ⟨?_, hab⟩
          rintro rfl
          exact e (h1to1.1 a v b hkv hab)
        · exact fun h => h.2

theorem popitem_spec (s : St A B) (R : Rel A B) (h : Rep s R) :
    (∃ k v s' R', popitem s = some (k, v, s') ∧ R k v ∧ Removed R k R' ∧ Rep s' R' ∧ s'.data.length < s.data.length) ∨ (popitem s = none ∧ ∀ a b, ¬ R a b) := by
  unfold popitem
  cases hs : s.data with
  | nil => right; exact ⟨rfl, fun a b hab => by rw [← h.2.2.1, hs] at hab; cases hab⟩
  | cons p l =>
    obtain ⟨k, v⟩ := p
    have hk : Dict.get? s.data k = some v := by rw [hs]; simp [Dict.get?]
    have hkv : R k v := (h.2.2.1 k v).1 hk
    left
    rcases delitem_spec s R k h with ⟨v', s', R', _, _, e, hrm, hrep, hdel⟩ | ⟨_, hn⟩
    · refine ⟨k, v, s', R', by simp [e], hkv, hrm, hrep, ?_⟩
      rw [hdel, ← hs]
      exact Dict.length_del_lt ((Dict.get?_isSome_iff _ _).1 (by rw [hk]; rfl))
    · exact absurd hkv (hn v)

theorem clearLoop_spec (n : Nat) (s : St A B) (R : Rel A B) (h : Rep s R) (hn : s.data.length < n) :
    ∃ R', (∀ a b, ¬ R' a b) ∧ Rep (clearLoop n s) R' := by
  induction n generalizing s R with
  | zero => omega
  | succ n ih =>
    rcases popitem_spec s R h with ⟨k, v, s', R1, e, _, _, hrep, hl⟩ | ⟨e, hall⟩
    · obtain ⟨R', hnone, hrep'⟩ := ih s' R1 hrep (by omega)
      exact ⟨R', hnone, by simpa [clearLoop, e] using hrep'⟩
    · exact ⟨R, hall, by simpa [clearLoop, e] using h⟩

theorem lists_of_rep (s : St A B) (R : Rel A B) (h : Rep s R) : Lists R (Dict.keys s.data) := by
  refine ⟨h.1, fun a => ?_⟩
  rw [← Dict.get?_isSome_iff, Option.isSome_iff_exists]
  simp only [h.2.2.1]

theorem step1_sim (s : St A B) (R : Rel A B) (o : Op A B) (h : Rep s R) :
    ∃ R', Spec1 R o (step1 s o).2 R' ∧ Rep (step1 s o).1 R' := by
  have hd := h.2.2.1
  cases o with
  | get k =>
    refine ⟨R, ⟨rfl, ?_⟩, h⟩
    simp only [step1]
    cases hk : Dict.get? s.data k with
    | none => right; exact ⟨(h.none_iff k).1 hk, rfl⟩
    | some v => left; exact ⟨v, (hd k v).1 hk, rfl⟩
  | contains k =>
    refine ⟨R, ⟨rfl, _, rfl, ?_⟩, h⟩
    rw [Option.isSome_iff_exists]
    simp only [hd]
  | len => exact ⟨R, ⟨rfl, _, lists_of_rep s R h, by simp [step1, Dict.keys]⟩, h⟩
  | iter => exact ⟨R, ⟨rfl, _, lists_of_rep s R h, rfl⟩, h⟩
  | set k v =>
    rcases setitem_spec s R k v h with ⟨s', R', e, h1, h2, hrep⟩ | ⟨e, ha⟩
    · exact ⟨R', by simp only [step1, e]; exact Or.inl ⟨h1, rfl, h2⟩, by simpa only [step1, e] using hrep⟩
    · exact ⟨R, by simp only [step1, e]; exact Or.inr ⟨ha, rfl, rfl⟩, by simpa only [step1, e] using h⟩
  | del k =>
    rcases delitem_spec s R k h with ⟨v, s', R', hv, _, e, hrm, hrep, _⟩ | ⟨e, hk⟩
    · exact ⟨R', by simp only [step1, e]; exact Or.inl ⟨⟨v, hv⟩, rfl, hrm⟩, by simpa only [step1, e] using hrep⟩
    · exact ⟨R, by simp only [step1, e]; exact Or.inr ⟨hk, rfl, rfl⟩, by simpa only [step1, e] using h⟩
  | pop k d =>
    simp only [step1]
    cases hk : Dict.get? s.data k with
    | none =>
      refine ⟨R, Or.inr ⟨(h.none_iff k).1 hk, rfl, ?_⟩, h⟩
      cases d with
      | none => exact Or.inr ⟨rfl, rfl⟩
      | some v => exact Or.inl ⟨v, rfl, rfl⟩
    | some v =>
      rcases delitem_spec s R k h with ⟨v', s', R', _, _, e, hrm, hrep, _⟩ | ⟨_, hn⟩
      · exact ⟨R', by simp only [e]; exact Or.inl ⟨v, (hd k v).1 hk, rfl, hrm⟩, by simpa only [e] using hrep⟩
      · exact absurd ((hd k v).1 hk) (hn v)
  | popitem =>
    rcases popitem_spec s R h with ⟨k, v, s', R', e, hk, hrm, hrep, _⟩ | ⟨e, hall⟩
    · exact ⟨R', by simp only [step1, e]; exact Or.inl ⟨k, v, hk, rfl, hrm⟩, by simpa only [step1, e] using hrep⟩
    · exact ⟨R, by simp only [step1, e]; exact Or.inr ⟨hall, rfl, rfl⟩, by simpa only [step1, e] using h⟩
  | clear =>
    obtain ⟨R', hn, hrep⟩ := clearLoop_spec (s.data.length + 1) s R h (by omega)
    exact ⟨R', ⟨rfl, hn⟩, hrep⟩
  | setdefault k v =>
    simp only [step1]
    cases hk : Dict.get? s.data k with
    | none =>
      have hn := (h.none_iff k).1 hk
      rcases setitem_spec s R k v h with ⟨s', R', e, h1, h2, hrep⟩ | ⟨e, ha⟩
      · exact ⟨R', by simp only [e]; exact Or.inr ⟨hn, Or.inl ⟨h1, rfl, h2⟩⟩, by simpa only [e] using hrep⟩
      · exact ⟨R, by simp only [e]; exact Or.inr ⟨hn, Or.inr ⟨ha, rfl, rfl⟩⟩, by simpa only [e] using h⟩
    | some w => exact ⟨R, Or.inl ⟨w, (hd k w).1 hk, rfl, rfl⟩, h⟩

theorem step_sim (s : St A B) (R : Rel A B) (o : Call A B) (h : Rep s R) :
    ∃ R', Spec R o (step s o).2 R' ∧ Rep (step s o).1 R' := by
  cases o with
  | here o => exact step1_sim s R o h
  | reverse o =>
    obtain ⟨R', h1, h2⟩ := step1_sim s.flip _ o h.flip
    exact ⟨fun a b => R' b a, h1, h2.flip⟩

omit [DecidableEq A] in
theorem fold_rev (d : Dict A B) (r : Dict B A) (hw : Dict.WF d) (hwr : Dict.WF r) :
    Dict.WF (d.foldl (fun r p => Dict.set r p.2 p.1) r) ∧ (d.foldl (fun r p => Dict.set r p.2 p.1) r).length ≤ r.length + d.length ∧
    ((d.map Prod.snd).Nodup → (∀ b ∈ d.map Prod.snd, b ∉ Dict.keys r) →
      (d.foldl (fun r p => Dict.set r p.2 p.1) r) = r ++ d.map (fun p => (p.2, p.1))) ∧
    (¬ ((d.map Prod.snd).Nodup ∧ (∀ b ∈ d.map Prod.snd, b ∉ Dict.keys r)) → (d.foldl (fun r p => Dict.set r p.2 p.1) r).length < r.length + d.length) := by
  induction d generalizing r with
  | nil => exact ⟨hwr, by simp, by simp, fun h => absurd ⟨by simp, by simp⟩ h⟩
  | cons p d ih =>
    have hwd : Dict.WF d := by unfold Dict.WF at hw ⊢; simp only [List.map_cons, List.nodup_cons] at hw; exact hw.2
    obtain ⟨h1, h2, h3, h4⟩ := ih (Dict.set r p.2 p.1) hwd (Dict.wf_set hwr _ _)
    simp only [List.foldl_cons, List.length_cons]
    have hle := Dict.length_set_le r p.2 p.1
    refine ⟨h1, by omega, ?_, ?_⟩
    · intro hn hk
      simp only [List.map_cons, List.nodup_cons] at hn
      have hp : p.2 ∉ Dict.keys r := hk p.2 (by simp)
      rw [h3 hn.2 ?_, Dict.set_of_not_mem hp]
      · simp
      · intro b hb hmem
        rw [Dict.mem_keys_set] at hmem
        rcases hmem with rfl | hmem
        · exact hn.1 hb
        · exact hk b (by simp at hb ⊢; exact Or.inr hb) hmem
    · intro hn
      by_cases hp : p.2 ∈ Dict.keys r
      · have := Dict.length_set_mem hp p.1; omega
      · refine Nat.lt_of_lt_of_le (h4 ?_) (by omega)
        rintro ⟨a, b⟩
        refine hn ⟨?_, ?_⟩
        · simp only [List.map_cons, List.nodup_cons]
          refine ⟨fun hm => ?_, a⟩
          exact b p.2 hm (by rw [Dict.mem_keys_set]; simp)
        · intro c hc hcr
          simp only [List.map_cons, List.mem_cons] at hc
          rcases hc with rfl | hc
          · exact hp hcr
          · exact b c hc (by rw [Dict.mem_keys_set]; exact Or.inr hcr)

theorem init_rep (d : Dict A B) (hw : Dict.WF d) (s : St A B) (h : init d = some s) : Rep s (fun a b => (a, b) ∈ d) ∧ (d.map Prod.snd).Nodup := by
  obtain ⟨h1, _, h3, h4⟩ := fold_rev d [] hw Dict.wf_nil
  unfold init at h
  dsimp only at h
  split at h
  · cases h
  · rename_i hl
    simp only [List.length_nil, Nat.zero_add] at h4
    have hn : (d.map Prod.snd).Nodup := by
      by_cases hn : (d.map Prod.snd).Nodup
      · exact hn
      · have := h4 (fun h => hn h.1); omega
    have e := h3 hn (by intro b _ hb; simp [Dict.keys] at hb)
    injection h with h; subst h
    refine ⟨⟨hw, h1, fun a b => Dict.mem_iff hw |>.symm, fun a b => ?_⟩, hn⟩
    rw [← Dict.mem_iff h1]
    simp only [e, List.nil_append, List.mem_map, Prod.mk.injEq, Prod.exists]
    constructor
    · rintro ⟨a', b', hm, rfl, rfl⟩; exact hm
    · intro hm; exact ⟨a, b, hm, rfl, rfl⟩

/-- **C98, construction**: refused exactly if a value repeats; otherwise the items are those given, both ways. -/
theorem C98_init (d : Dict A B) (hw : Dict.WF d) : (init d = none ↔ ¬ (d.map Prod.snd).Nodup) := by
  constructor
  · intro h hn
    obtain ⟨_, _, h3, _⟩ := fold_rev d [] hw Dict.wf_nil
    have e := h3 hn (by intro b _ hb; simp [Dict.keys] at hb)
    unfold init at h
    dsimp only at h
    rw [e] at h
    simp at h
  · intro hn
    cases h : init d with
    | none => rfl
    | some s => exact absurd (init_rep d hw s h).2 hn

/-- **C98**: whatever is called on a TwoWayDictionary or on its reverse, in whatever order, both are always the same one-to-one mapping, read from the keys and from the values, and a call that raises changes nothing. -/
theorem C98_two_way (d : Dict A B) (hw : Dict.WF d) (s : St A B) (h : init d = some s) (calls : List (Call A B)) :
    ∃ R', History Spec (fun a b => (a, b) ∈ d) calls (runOps step s calls).2 R' ∧ OneToOne R' ∧
      (∀ a b, Dict.get? (runOps step s calls).1.data a = some b ↔ R' a b) ∧ (∀ a b, Dict.get? (runOps step s calls).1.rev b = some a ↔ R' a b) := by
  obtain ⟨R', h1, h2⟩ := history_of_sim (spec := Spec) Rep (fun _ => True) (fun s b o _ => step_sim s b o) s _ calls (fun _ _ => trivial) (init_rep d hw s h).1
  exact ⟨R', h1, h2.oneToOne, h2.2.2.1, h2.2.2.2⟩

end

/-! ### done -/

/-- what can be done with an attribute of an object, /repo/satella/coding/structures/dictionaries/objects.py:140, :197-202: a slot can be set, a property without a setter cannot -/
inductive Attr where
  | slot
  | property
deriving DecidableEq

/-- the attributes of a TwoWayDictionary, /repo/satella/coding/structures/dictionaries/objects.py:140, :197 -/
def attrKind (name : String) : Attr := if name = "reverse" then .property else .slot

/-- the cycle of the two sides: whether each still refers to the other, /repo/satella/coding/structures/dictionaries/objects.py:158-161 -/
structure Cycle where
  here : Bool
  there : Bool
deriving DecidableEq

/-- `done`, /repo/satella/coding/structures/dictionaries/objects.py:142-149: `self.reverse.reverse = None`, then `self.reverse = None`; whether AttributeError was raised -/
def done (c : Cycle) : Cycle × Bool :=
  match attrKind "reverse" with
  | .property => (c, true)
  | .slot => ({ here := false, there := false }, false)

/-- `__exit__`, /repo/satella/coding/structures/dictionaries/objects.py:166-168: what comes out of the block — its exception, by a number, or AttributeError (0) -/
def exit (c : Cycle) (exc : Option Nat) : Cycle × Option Nat :=
  match done c with
  | (c', true) => (c', some 0)
  | (c', false) => (c', exc)

/-- **C99, violated**: `done()` always raises AttributeError, as `reverse` is a property that cannot be set, and the reference cycle stays.  So every `with` block ends with AttributeError, which also hides the exception of the block. -/
theorem C99_done_violates (c : Cycle) (exc : Option Nat) : done c = (c, true) ∧ exit c exc = (c, some 0) := ⟨rfl, rfl⟩

/-! ### Concrete cases -/

example : (init [(1, "a"), (2, "b")]).isSome = true := by decide
example : (init [(1, "a"), (2, "a")]).isSome = false := by decide
example : Dict.WF [(1, "a"), (2, "b")] := by unfold Dict.WF; decide
/-- a value that is mapped already is refused, also if the key is the same -/
example : (runOps step ⟨[(1, "a")], [("a", 1)]⟩ [.here (.set 1 "a"), .here (.set 1 "b"), .reverse (.get "b"), .reverse (.contains "a"), .reverse (.set "c" 2), .here (.get 2), .here .len]).2 =
    [.here .valueError, .here .unit, .reverse (.val 1), .reverse (.bool false), .reverse .unit, .here (.val "c"), .here (.nat 2)] := by rfl

end Verif.TwoWay
