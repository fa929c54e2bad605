/-!
# Deep comparison (satella/coding/deep_compare.py), C127, C128

Keys of dictionaries and elements of sets are ints. Floats, bytes and bytearrays behave as the ints and strings here do.
-/
namespace Verif.DeepCompare

/-! ## Model -/

/-- values given to assert_equal; `obj` has the equality of `object` and no length, the equality of `bad` raises TypeError; /repo/satella/coding/deep_compare.py:36-63 -/
inductive V
  | int (n : Int)
  | str (s : List Char)
  | none
  | seq (tup : Bool) (l : List V)
  | dict (d : List (Int × V))
  | set (frozen : Bool) (l : List Int)
  | obj (id : Nat)
  | bad (id : Nat)

/-- what the call may raise, /repo/satella/coding/deep_compare.py:4-22 -/
inductive Err | notEqual | lengthMismatch | keyNotFound | typeError | indexError
deriving DecidableEq

/-- `len(b)`, as at /repo/satella/coding/deep_compare.py:41, :46, :51 -/
def len : V → Option Nat
  | .str s => some s.length
  | .seq _ l => some l.length
  | .dict d => some d.length
  | .set _ l => some l.length
  | _ => none

/-- what iteration over `b` gives, as `zip` does at /repo/satella/coding/deep_compare.py:48 -/
def iter : V → List V
  | .str s => s.map (fun c => .str [c])
  | .seq _ l => l
  | .dict d => d.map (fun p => .int p.1)
  | .set _ l => l.map .int
  | _ => []

/-- `key in l` for a list, as at /repo/satella/coding/deep_compare.py:54 -/
def inList (k : Int) : List V → Except Err Bool
  | [] => .ok false
  | .int n :: r => if n = k then .ok true else inList k r
  | .bad _ :: _ => .error .typeError
  | _ :: r => inList k r

/-- `key in b`, /repo/satella/coding/deep_compare.py:54 -/
def contains (b : V) (k : Int) : Except Err Bool :=
  match b with
  | .seq _ l => inList k l
  | .dict d => .ok (d.any (fun p => p.1 = k))
  | .set _ l => .ok (l.contains k)
  | _ => .error .typeError

/-- `b[key]`, /repo/satella/coding/deep_compare.py:56 -/
def getitem (b : V) (k : Int) : Except Err V :=
  match b with
  | .seq _ l =>
    match (if 0 ≤ k then l[k.toNat]? else if -k ≤ l.length then l[l.length - (-k).toNat]? else Option.none) with
    | some v => .ok v
    | Option.none => .error .indexError
  | .dict d =>
    match d.find? (fun p => p.1 = k) with
    | some p => .ok p.2
    | Option.none => .error .indexError
  | _ => .error .typeError

/-- `a != b` of sets, /repo/satella/coding/deep_compare.py:43; `b` is asked for its length before -/
def setEq (l : List Int) : V → Bool
  | .set _ l' => l.all (fun x => l'.contains x) && l'.all (fun x => l.contains x)
  | _ => false

mutual

/-- `assert_equal`, /repo/satella/coding/deep_compare.py:25-63 -/
def assertEqual : V → V → Except Err Unit
  | .int n, .int m => if n = m then .ok () else .error .notEqual
  | .str s, .str t => if s = t then .ok () else .error .notEqual
  | .none, .none => .ok ()
  | .int _, .bad _ => .error .typeError
  | .str _, .bad _ => .error .typeError
  | .none, .bad _ => .error .typeError
  | .int _, _ => .error .notEqual
  | .str _, _ => .error .notEqual
  | .none, _ => .error .notEqual
  | .set _ l, b =>
    match len b with
    | Option.none => .error .typeError
    | some n => if l.length ≠ n then .error .lengthMismatch else if setEq l b then .ok () else .error .lengthMismatch
  | .seq _ l, b =>
    match len b with
    | Option.none => .error .typeError
    | some n => if l.length ≠ n then .error .lengthMismatch else assertZip l (iter b)
  | .dict d, b =>
    match len b with
    | Option.none => .error .typeError
    | some n => if d.length ≠ n then .error .lengthMismatch else assertKeys d b
  | .obj i, .obj j => if i = j then .ok () else .error .notEqual
  | .obj _, .bad _ => .ok ()
  | .bad _, _ => .ok ()
  | .obj _, _ => .error .notEqual

/-- the loop over `zip(a, b)`, /repo/satella/coding/deep_compare.py:48-49 -/
def assertZip : List V → List V → Except Err Unit
  | a :: l, b :: m =>
    match assertEqual a b with
    | .error e => .error e
    | .ok _ => assertZip l m
  | _, _ => .ok ()

/-- the loop over keys, /repo/satella/coding/deep_compare.py:53-56 -/
def assertKeys : List (Int × V) → V → Except Err Unit
  | [], _ => .ok ()
  | (k, v) :: d, b =>
    match contains b k with
    | .error e => .error e
    | .ok false => .error .keyNotFound
    | .ok true =>
      match getitem b k with
      | .error e => .error e
      | .ok w =>
        match assertEqual v w with
        | .error e => .error e
        | .ok _ => assertKeys d b

end

/-! ## Specification -/

/-- `==` of Python: lists equal lists and tuples equal tuples, with equal elements; dictionaries have the same keys with equal values; sets, frozen or not, have the same elements -/
inductive PyEq : V → V → Prop
  | int (n) : PyEq (.int n) (.int n)
  | str (s) : PyEq (.str s) (.str s)
  | none : PyEq .none .none
  | obj (i) : PyEq (.obj i) (.obj i)
  | seq (t) (l m : List V) : l.length = m.length → (∀ (i : Nat) a b, l[i]? = some a → m[i]? = some b → PyEq a b) → PyEq (.seq t l) (.seq t m)
  | dict (d e : List (Int × V)) : (∀ k, k ∈ d.map Prod.fst ↔ k ∈ e.map Prod.fst) → (∀ k v w, (k, v) ∈ d → (k, w) ∈ e → PyEq v w) → PyEq (.dict d) (.dict e)
  | set (f g) (l m : List Int) : (∀ x, x ∈ l ↔ x ∈ m) → PyEq (.set f l) (.set g m)

/-- values that exist: keys and elements of sets are different from each other; no value has an equality that raises -/
inductive WF : V → Prop
  | int (n) : WF (.int n)
  | str (s) : WF (.str s)
  | none : WF .none
  | obj (i) : WF (.obj i)
  | seq (t) (l : List V) : (∀ a ∈ l, WF a) → WF (.seq t l)
  | dict (d : List (Int × V)) : (d.map Prod.fst).Nodup → (∀ k v, (k, v) ∈ d → WF v) → WF (.dict d)
  | set (f) (l : List Int) : l.Nodup → WF (.set f l)

/-- wherever the first value has a list, tuple, dictionary or set, the second has the same kind of container -/
inductive Alike : V → V → Prop
  | int (n) (b) : Alike (.int n) b
  | str (s) (b) : Alike (.str s) b
  | none (b) : Alike .none b
  | obj (i) (b) : Alike (.obj i) b
  | seq (t) (l m : List V) : (∀ (i : Nat) a b, l[i]? = some a → m[i]? = some b → Alike a b) → Alike (.seq t l) (.seq t m)
  | dict (d e : List (Int × V)) : (∀ k v w, (k, v) ∈ d → (k, w) ∈ e → Alike v w) → Alike (.dict d) (.dict e)
  | set (f g) (l m : List Int) : Alike (.set f l) (.set g m)

/-- Inequal, with any reason -/
def Inequal : Except Err Unit → Prop
  | .error .notEqual | .error .lengthMismatch | .error .keyNotFound => True
  | _ => False

/-! ## Proofs -/

theorem length_le_of_subset {α : Type} [DecidableEq α] : ∀ (a b : List α), a.Nodup → (∀ x ∈ a, x ∈ b) → a.length ≤ b.length
  | [], _, _, _ => Nat.zero_le _
  | x :: a, b, hn, hs => by
    rw [List.nodup_cons] at hn
    have hx : x ∈ b := hs x (by simp)
    have := length_le_of_subset a (b.erase x) hn.2 (by
      intro y hy
      refine (List.mem_erase_of_ne ?_).2 (hs y (by simp [hy]))
      rintro rfl
      exact hn.1 hy)
    rw [List.length_erase_of_mem hx] at this
    have hpos : 0 < b.length := List.length_pos_of_mem hx
    simp only [List.length_cons]
    omega

theorem same_length {α : Type} [DecidableEq α] {a b : List α} (ha : a.Nodup) (hb : b.Nodup) (h : ∀ x, x ∈ a ↔ x ∈ b) : a.length = b.length :=
  Nat.le_antisymm (length_le_of_subset a b ha (fun x hx => (h x).1 hx)) (length_le_of_subset b a hb (fun x hx => (h x).2 hx))

theorem subset_of_length {α : Type} [DecidableEq α] {a b : List α} (ha : a.Nodup) (h : ∀ x ∈ a, x ∈ b) (hl : a.length = b.length) : ∀ x ∈ b, x ∈ a := by
  intro x hx
  apply Classical.byContradiction
  intro hna
  have := length_le_of_subset a (b.erase x) ha (by
    intro y hy
    refine (List.mem_erase_of_ne ?_).2 (h y hy)
    rintro rfl
    exact hna hy)
  rw [List.length_erase_of_mem hx] at this
  have hpos : 0 < b.length := List.length_pos_of_mem hx
  omega

/-- what find? gives in a dictionary -/
theorem find_iff {e : List (Int × V)} (hn : (e.map Prod.fst).Nodup) (k : Int) (w : V) : e.find? (fun p => p.1 = k) = some (k, w) ↔ (k, w) ∈ e := by
  induction e with
  | nil => simp
  | cons p e ih =>
    obtain ⟨k', w'⟩ := p
    rw [List.map_cons, List.nodup_cons] at hn
    rw [List.find?_cons]
    by_cases hk : k' = k
    · subst hk
      simp only [decide_true, Option.some.injEq, Prod.mk.injEq, true_and, List.mem_cons]
      constructor
      · rintro rfl; exact Or.inl rfl
      · rintro (h | h)
        · exact h.symm
        · exact absurd (List.mem_map_of_mem h) hn.1
    · have : ¬ (k = k') := fun h => hk h.symm
      simp [hk, this, ih hn.2]

theorem getitem_dict {e : List (Int × V)} (hn : (e.map Prod.fst).Nodup) {k : Int} {w : V} (h : (k, w) ∈ e) : getitem (.dict e) k = .ok w := by
  simp only [getitem, (find_iff hn k w).2 h]

/-- keys have equal values -/
def KeysEq (d e : List (Int × V)) : Prop := ∀ k v, (k, v) ∈ d → ∃ w, (k, w) ∈ e ∧ PyEq v w

mutual

theorem main : ∀ (a b : V), WF a → WF b → Alike a b → (PyEq a b ∧ assertEqual a b = .ok ()) ∨ (¬ PyEq a b ∧ Inequal (assertEqual a b))
  | .int n, b, _, hb, _ => by
    cases b with
    | int m =>
      by_cases h : n = m
      · subst h; exact Or.inl ⟨.int n, by simp [assertEqual]⟩
      · refine Or.inr ⟨fun hp => ?_, by simp [assertEqual, h, Inequal]⟩
        cases hp; exact h rfl
    | bad => cases hb
    | _ => exact Or.inr ⟨(fun hp => by cases hp), by simp [assertEqual, Inequal]⟩
  | .str n, b, _, hb, _ => by
    cases b with
    | str m =>
      by_cases h : n = m
      · subst h; exact Or.inl ⟨.str n, by simp [assertEqual]⟩
      · refine Or.inr ⟨fun hp => ?_, by simp [assertEqual, h, Inequal]⟩
        cases hp; exact h rfl
    | bad => cases hb
    | _ => exact Or.inr ⟨(fun hp => by cases hp), by simp [assertEqual, Inequal]⟩
  | .none, b, _, hb, _ => by
    cases b with
    | none => exact Or.inl ⟨.none, by simp [assertEqual]⟩
    | bad => cases hb
    | _ => exact Or.inr ⟨(fun hp => by cases hp), by simp [assertEqual, Inequal]⟩
  | .obj n, b, _, hb, _ => by
    cases b with
    | obj m =>
      by_cases h : n = m
      · subst h; exact Or.inl ⟨.obj n, by simp [assertEqual]⟩
      · refine Or.inr ⟨fun hp => ?_, by simp [assertEqual, h, Inequal]⟩
        cases hp; exact h rfl
    | bad => cases hb
    | _ => exact Or.inr ⟨(fun hp => by cases hp), by simp [assertEqual, Inequal]⟩
  | .bad _, _, ha, _, _ => by cases ha
  | .set f l, b, ha, hb, hal => by
    cases hal with
    | set _ g _ m =>
      cases ha with
      | set _ _ hl =>
        cases hb with
        | set _ _ hm =>
          simp only [assertEqual, len]
          by_cases he : ∀ x, x ∈ l ↔ x ∈ m
          · refine Or.inl ⟨.set _ _ _ _ he, ?_⟩
            rw [if_neg (by simp [same_length hl hm he]), if_pos]
            simp only [setEq, Bool.and_eq_true, List.all_eq_true, List.contains_iff_mem]
            exact ⟨fun x hx => (he x).1 hx, fun x hx => (he x).2 hx⟩
          · refine Or.inr ⟨fun hp => by cases hp with | set _ _ _ _ h => exact he h, ?_⟩
            split
            · simp [Inequal]
            · rw [if_neg]
              · simp [Inequal]
              · simp only [setEq, Bool.and_eq_true, List.all_eq_true, List.contains_iff_mem]
                intro h
                exact he (fun x => ⟨h.1 x, h.2 x⟩)
  | .seq t l, b, ha, hb, hal => by
    cases hal with
    | seq _ _ m hz =>
      cases ha with
      | seq _ _ hl =>
        cases hb with
        | seq _ _ hm =>
          simp only [assertEqual, len, iter]
          by_cases hlen : l.length = m.length
          · rw [if_neg (by simpa using hlen)]
            rcases mainZip l m hlen hl hm hz with ⟨h1, h2⟩ | ⟨h1, h2⟩
            · exact Or.inl ⟨.seq _ _ _ hlen h1, h2⟩
            · exact Or.inr ⟨fun hp => by cases hp with | seq _ _ _ _ h => exact h1 h, h2⟩
          · rw [if_pos hlen]
            exact Or.inr ⟨fun hp => by cases hp with | seq _ _ _ h _ => exact hlen h, by simp [Inequal]⟩
  | .dict d, b, ha, hb, hal => by
    cases hal with
    | dict _ e hz =>
      cases ha with
      | dict _ hdn hd =>
        cases hb with
        | dict _ hen he =>
          simp only [assertEqual, len]
          by_cases hlen : d.length = e.length
          · rw [if_neg (by simpa using hlen)]
            rcases mainKeys d e hd hen he hz with ⟨h1, h2⟩ | ⟨h1, h2⟩
            · refine Or.inl ⟨.dict _ _ ?_ ?_, h2⟩
              · have h3 : ∀ k ∈ d.map Prod.fst, k ∈ e.map Prod.fst := by
                  intro k hk
                  obtain ⟨⟨k', v⟩, hp, rfl⟩ := List.mem_map.1 hk
                  obtain ⟨w, hw, _⟩ := h1 k' v hp
                  exact List.mem_map.2 ⟨(k', w), hw, rfl⟩
                exact fun k => ⟨h3 k, subset_of_length hdn h3 (by simpa using hlen) k⟩
              · intro k v w hv hw
                obtain ⟨w', hw', hq⟩ := h1 k v hv
                have e1 := (find_iff hen k w).2 hw
                rw [(find_iff hen k w').2 hw'] at e1
                simp only [Option.some.injEq, Prod.mk.injEq, true_and] at e1
                exact e1 ▸ hq
            · refine Or.inr ⟨fun hp => ?_, h2⟩
              cases hp with
              | dict _ _ hk hv =>
                apply h1
                intro k v hkv
                obtain ⟨⟨k', w⟩, hp, e1⟩ := List.mem_map.1 ((hk k).1 (List.mem_map_of_mem (f := Prod.fst) hkv))
                simp only at e1
                subst e1
                exact ⟨w, hp, hv _ _ _ hkv hp⟩
          · rw [if_pos hlen]
            refine Or.inr ⟨fun hp => ?_, by simp [Inequal]⟩
            cases hp with
            | dict _ _ hk _ =>
              have := same_length hdn hen hk
              simp only [List.length_map] at this
              exact hlen this

theorem mainZip : ∀ (l m : List V), l.length = m.length → (∀ a ∈ l, WF a) → (∀ a ∈ m, WF a) → (∀ (i : Nat) a b, l[i]? = some a → m[i]? = some b → Alike a b) →
    ((∀ (i : Nat) a b, l[i]? = some a → m[i]? = some b → PyEq a b) ∧ assertZip l m = .ok ()) ∨ (¬ (∀ (i : Nat) a b, l[i]? = some a → m[i]? = some b → PyEq a b) ∧ Inequal (assertZip l m))
  | [], m, _, _, _, _ => Or.inl ⟨by intro i a b h; simp at h, by simp [assertZip]⟩
  | a :: l, [], h, _, _, _ => by simp at h
  | a :: l, b :: m, h, hl, hm, hz => by
    have h0 := main a b (hl a (by simp)) (hm b (by simp)) (hz 0 a b rfl rfl)
    have h1 := mainZip l m (by simpa using h) (fun x hx => hl x (by simp [hx])) (fun x hx => hm x (by simp [hx])) (fun i x y hx hy => hz (i + 1) x y (by simpa using hx) (by simpa using hy))
    rcases h0 with ⟨p0, e0⟩ | ⟨p0, e0⟩
    · rcases h1 with ⟨p1, e1⟩ | ⟨p1, e1⟩
      · refine Or.inl ⟨?_, by simp [assertZip, e0, e1]⟩
        intro i x y hx hy
        cases i with
        | zero => simp at hx hy; subst hx; subst hy; exact p0
        | succ i => exact p1 i x y (by simpa using hx) (by simpa using hy)
      · refine Or.inr ⟨fun hp => p1 (fun i x y hx hy => hp (i + 1) x y (by simpa using hx) (by simpa using hy)), ?_⟩
        simpa [assertZip, e0] using e1
    · refine Or.inr ⟨fun hp => p0 (hp 0 a b rfl rfl), ?_⟩
      cases he : assertEqual a b with
      | ok _ => rw [he] at e0; exact absurd e0 (by simp [Inequal])
      | error e => simpa [assertZip, he] using he ▸ e0

theorem mainKeys : ∀ (d e : List (Int × V)), (∀ k v, (k, v) ∈ d → WF v) → (e.map Prod.fst).Nodup → (∀ k v, (k, v) ∈ e → WF v) → (∀ k v w, (k, v) ∈ d → (k, w) ∈ e → Alike v w) →
    (KeysEq d e ∧ assertKeys d (.dict e) = .ok ()) ∨ (¬ KeysEq d e ∧ Inequal (assertKeys d (.dict e)))
  | [], e, _, _, _, _ => Or.inl ⟨by intro k v h; simp at h, by simp [assertKeys]⟩
  | (k, v) :: d, e, hd, hen, he, hz => by
    have h1 := mainKeys d e (fun k v h => hd k v (by simp [h])) hen he (fun k v w h h' => hz k v w (by simp [h]) h')
    by_cases hk : ∃ w, (k, w) ∈ e
    · obtain ⟨w, hw⟩ := hk
      have hc : contains (.dict e) k = .ok true := by
        simp only [contains, Except.ok.injEq, List.any_eq_true, decide_eq_true_eq]
        exact ⟨(k, w), hw, rfl⟩
      have h0 := main v w (hd k v (by simp)) (he k w hw) (hz k v w (by simp) hw)
      have huniq : ∀ w', (k, w') ∈ e → w' = w := by
        intro w' hw'
        have e1 := (find_iff hen k w).2 hw
        rw [(find_iff hen k w').2 hw'] at e1
        simpa using e1
      rcases h0 with ⟨p0, e0⟩ | ⟨p0, e0⟩
      · rcases h1 with ⟨p1, e1⟩ | ⟨p1, e1⟩
        · refine Or.inl ⟨?_, by simp [assertKeys, hc, getitem_dict hen hw, e0, e1]⟩
          intro k' v' hm
          rcases List.mem_cons.1 hm with h | h
          · cases h; exact ⟨w, hw, p0⟩
          · exact p1 k' v' h
        · refine Or.inr ⟨fun hp => p1 (fun k' v' h => hp k' v' (by simp [h])), ?_⟩
          simpa [assertKeys, hc, getitem_dict hen hw, e0] using e1
      · refine Or.inr ⟨fun hp => ?_, ?_⟩
        · obtain ⟨w', hw', hq⟩ := hp k v (by simp)
          exact p0 (huniq w' hw' ▸ hq)
        · cases hee : assertEqual v w with
          | ok _ => rw [hee] at e0; exact absurd e0 (by simp [Inequal])
          | error x => simpa [assertKeys, hc, getitem_dict hen hw, hee] using hee ▸ e0
    · refine Or.inr ⟨fun hp => ?_, ?_⟩
      · obtain ⟨w', hw', _⟩ := hp k v (by simp)
        exact hk ⟨w', hw'⟩
      · have hc : contains (.dict e) k = .ok false := by
          simp only [contains, Except.ok.injEq]
          rw [Bool.eq_false_iff]
          intro ht
          simp only [List.any_eq_true, decide_eq_true_eq] at ht
          obtain ⟨⟨k', w⟩, hm, e1⟩ := ht
          simp only at e1
          subst e1
          exact hk ⟨w, hm⟩
        simp [assertKeys, hc, Inequal]

end

theorem alike_of_eq {a b : V} (h : PyEq a b) : Alike a b := by
  induction h with
  | int n => exact .int _ _
  | str n => exact .str _ _
  | none => exact .none _
  | obj n => exact .obj _ _
  | seq t l m _ _ ih => exact .seq _ _ _ ih
  | dict d e _ _ ih => exact .dict _ _ ih
  | set f g l m _ => exact .set _ _ _ _

/-- **C127 (values of the same kinds)**: when wherever the first value has a list, tuple, dictionary or set the second has the same, assert_equal returns if they are equal, and raises Inequal otherwise. -/
theorem C127_assert_equal (a b : V) (ha : WF a) (hb : WF b) (h : Alike a b) :
    (PyEq a b → assertEqual a b = .ok ()) ∧ (¬ PyEq a b → Inequal (assertEqual a b)) := by
  rcases main a b ha hb h with ⟨p, e⟩ | ⟨p, e⟩
  · exact ⟨fun _ => e, fun h => absurd p h⟩
  · exact ⟨fun h => absurd h p, fun _ => e⟩

/-- **C127 (equal values)**: of any two equal values assert_equal returns. -/
theorem C127_equal_passes (a b : V) (ha : WF a) (hb : WF b) (h : PyEq a b) : assertEqual a b = .ok () :=
  (C127_assert_equal a b ha hb (alike_of_eq h)).1 h

/-- a dictionary with a list with a set, and another with the keys in another order -/
def v1 : V := .dict [(1, .seq false [.set false [1, 2], .str ['a']]), (2, .none)]
def v2 : V := .dict [(2, .none), (1, .seq false [.set true [2, 1], .str ['a']])]
def v3 : V := .dict [(2, .none), (1, .seq false [.set true [2, 3], .str ['a']])]

theorem wf1 (m n : Int) (f : Bool) (h : m ≠ n) : WF (.seq false [.set f [m, n], .str ['a']]) := by
  refine .seq _ _ (fun a ha => ?_)
  simp only [List.mem_cons, List.not_mem_nil, or_false] at ha
  rcases ha with rfl | rfl
  · exact .set _ _ (by simpa using h)
  · exact .str _

example : WF v1 ∧ WF v3 ∧ Alike v1 v3 := by
  refine ⟨.dict _ (by decide) ?_, .dict _ (by decide) ?_, .dict _ _ ?_⟩
  · intro k v h
    simp only [List.mem_cons, Prod.mk.injEq, List.not_mem_nil, or_false] at h
    rcases h with ⟨_, rfl⟩ | ⟨_, rfl⟩
    · exact wf1 _ _ _ (by decide)
    · exact .none
  · intro k v h
    simp only [List.mem_cons, Prod.mk.injEq, List.not_mem_nil, or_false] at h
    rcases h with ⟨_, rfl⟩ | ⟨_, rfl⟩
    · exact .none
    · exact wf1 _ _ _ (by decide)
  · intro k v w h h'
    simp only [List.mem_cons, Prod.mk.injEq, List.not_mem_nil, or_false] at h h'
    rcases h with ⟨rfl, rfl⟩ | ⟨rfl, rfl⟩ <;> rcases h' with ⟨h1, rfl⟩ | ⟨h1, rfl⟩
    · exact absurd h1 (by decide)
    · refine .seq _ _ _ (fun i a b ha hb => ?_)
      match i with
      | 0 => simp at ha hb; subst ha; subst hb; exact .set _ _ _ _
      | 1 => simp at ha hb; subst ha; subst hb; exact .str _ _
      | i + 2 => simp at ha
    · exact .none _
    · exact absurd h1 (by decide)
example : assertEqual v1 v2 = .ok () := by simp [v1, v2, assertEqual, len, assertKeys, contains, getitem, assertZip, iter, setEq]
example : assertEqual v1 v3 = .error .lengthMismatch := by simp [v1, v3, assertEqual, len, assertKeys, contains, getitem, assertZip, iter, setEq]

/-- **C127, sets**: a set is unequal to anything that has a length and is not a set. -/
theorem C127_set_of_other_kind (f : Bool) (l : List Int) (b : V) (hb : (∃ t m, b = .seq t m) ∨ ∃ d, b = .dict d) : Inequal (assertEqual (.set f l) b) := by
  rcases hb with ⟨t, m, rfl⟩ | ⟨d, rfl⟩ <;> simp only [assertEqual, len] <;> split <;> simp [Inequal, setEq]

example : assertEqual (.set false [1]) (.seq false [.int 1]) = .error .lengthMismatch := by simp [assertEqual, len, setEq]

/-! ## C128 -/

/-- **C128 (violation), kinds**: a list passes as equal to a tuple, and to a dictionary with the same keys. -/
theorem C128_kinds_violates : ∃ a b c : V, WF a ∧ WF b ∧ WF c ∧ ¬ PyEq a b ∧ ¬ PyEq a c ∧ assertEqual a b = .ok () ∧ assertEqual a c = .ok () := by
  refine ⟨.seq false [.int 1], .seq true [.int 1], .dict [(1, .none)], .seq _ _ ?_, .seq _ _ ?_, .dict _ (by decide) ?_, (fun h => by cases h), (fun h => by cases h), by simp [assertEqual, len, iter, assertZip], by simp [assertEqual, len, iter, assertZip]⟩
  · intro a ha; simp at ha; subst ha; exact .int _
  · intro a ha; simp at ha; subst ha; exact .int _
  · intro k v h; simp at h; rw [h.2]; exact .none

/-- **C128 (violation), dictionaries and lists**: a dictionary passes as equal to a list that has its keys among its elements, and its values at these positions. -/
theorem C128_dict_list_violates : ∃ a b : V, WF a ∧ WF b ∧ ¬ PyEq a b ∧ assertEqual a b = .ok () := by
  refine ⟨.dict [(0, .int 0)], .seq false [.int 0], .dict _ (by decide) ?_, .seq _ _ ?_, (fun h => by cases h), by simp [assertEqual, len, assertKeys, contains, inList, getitem]⟩
  · intro k v h; simp at h; rw [h.2]; exact .int _
  · intro a ha; simp at ha; subst ha; exact .int _

/-- positions may be counted from the end -/
example : getitem (.seq false [.int 1, .int 2, .int (-1)]) (-1) = .ok (.int (-1)) ∧ getitem (.seq false [.int 7, .int 8]) (-2) = .ok (.int 7) ∧ getitem (.seq false [.int 7]) (-2) = .error .indexError ∧
    assertEqual (.dict [(-1, .int (-1))]) (.seq false [.int (-1)]) = .ok () := by
  simp [assertEqual, len, assertKeys, contains, inList, getitem]

/-- **C128 (violation), order of arguments**: a list of characters passes as equal to a string, but not the other way round. -/
theorem C128_symmetry_violates : ∃ a b : V, WF a ∧ WF b ∧ ¬ PyEq a b ∧ assertEqual a b = .ok () ∧ Inequal (assertEqual b a) := by
  refine ⟨.seq false [.str ['x']], .str ['x'], .seq _ _ ?_, .str _, (fun h => by cases h), by simp [assertEqual, len, iter, assertZip], by simp [assertEqual, Inequal]⟩
  intro a ha; simp at ha; subst ha; exact .str _

/-- **C128 (violation), TypeError**: comparing a list with a number raises TypeError, not Inequal. -/
theorem C128_type_error_violates : ∃ a b : V, WF a ∧ WF b ∧ ¬ PyEq a b ∧ assertEqual a b = .error .typeError := by
  refine ⟨.seq false [.int 1], .int 1, .seq _ _ ?_, .int _, (fun h => by cases h), by simp [assertEqual, len]⟩
  intro a ha; simp at ha; subst ha; exact .int _

/-- **C128 (violation), values whose equality raises**: such a value passes as equal to everything. -/
theorem C128_raising_equality_violates : ∀ (i : Nat) (b : V), assertEqual (.bad i) b = .ok () ∧ ¬ PyEq (.bad i) b := by
  intro i b
  exact ⟨by cases b <;> simp [assertEqual], fun h => by cases h⟩

/-- **C128 (violation), lists and sets**: a list passes as equal to a set with the same elements if it has them in the order in which the set is gone through, and is Inequal otherwise. -/
theorem C128_list_set_violates : ∃ a b c : V, WF a ∧ WF b ∧ WF c ∧ ¬ PyEq a c ∧ ¬ PyEq b c ∧ assertEqual a c = .ok () ∧ Inequal (assertEqual b c) := by
  refine ⟨.seq false [.int 1, .int 2], .seq false [.int 2, .int 1], .set false [1, 2], .seq _ _ ?_, .seq _ _ ?_, .set _ _ (by decide), (fun h => by cases h), (fun h => by cases h),
    by simp [assertEqual, len, iter, assertZip], by simp [assertEqual, len, iter, assertZip, Inequal]⟩
  · intro a ha; simp at ha; rcases ha with rfl | rfl <;> exact .int _
  · intro a ha; simp at ha; rcases ha with rfl | rfl <;> exact .int _

/-- **C128 (violation), dictionaries and sets**: comparing a dictionary with a set that has its keys raises TypeError, not Inequal. -/
theorem C128_dict_set_violates (k : Int) (v : V) (f : Bool) (l : List Int) (d : List (Int × V)) (hl : l.length = d.length + 1) (hk : k ∈ l) :
    ¬ PyEq (.dict ((k, v) :: d)) (.set f l) ∧ assertEqual (.dict ((k, v) :: d)) (.set f l) = .error .typeError := by
  refine ⟨(fun h => by cases h), ?_⟩
  simp [assertEqual, len, hl, assertKeys, contains, hk, getitem]

theorem inList_true {k : Int} : ∀ {l : List V}, inList k l = .ok true → .int k ∈ l
  | [], h => by simp [inList] at h
  | .int n :: r, h => by
    by_cases e : n = k
    · simp [e]
    · simp only [inList, if_neg e] at h
      exact List.mem_cons_of_mem _ (inList_true h)
  | .bad _ :: _, h => by simp [inList] at h
  | .str _ :: r, h => List.mem_cons_of_mem _ (inList_true (by simpa [inList] using h))
  | .none :: r, h => List.mem_cons_of_mem _ (inList_true (by simpa [inList] using h))
  | .seq _ _ :: r, h => List.mem_cons_of_mem _ (inList_true (by simpa [inList] using h))
  | .dict _ :: r, h => List.mem_cons_of_mem _ (inList_true (by simpa [inList] using h))
  | .set _ _ :: r, h => List.mem_cons_of_mem _ (inList_true (by simpa [inList] using h))
  | .obj _ :: r, h => List.mem_cons_of_mem _ (inList_true (by simpa [inList] using h))

theorem assertKeys_seq {t : Bool} {l : List V} : ∀ (d : List (Int × V)), assertKeys d (.seq t l) = .ok () → ∀ p ∈ d, .int p.1 ∈ l
  | [], _ => by simp
  | (k, v) :: d, h => by
    simp only [assertKeys, contains] at h
    cases hc : inList k l with
    | error e => simp [hc] at h
    | ok b =>
      cases b with
      | false => simp [hc] at h
      | true =>
        simp only [hc] at h
        cases hg : getitem (.seq t l) k with
        | error e => simp [hg] at h
        | ok w =>
          simp only [hg] at h
          cases ha : assertEqual v w with
          | error e => simp [ha] at h
          | ok u =>
            simp only [ha] at h
            intro p hp
            rcases List.mem_cons.1 hp with rfl | hp
            · exact inList_true hc
            · exact assertKeys_seq d h p hp

/-- **C128 (partial)**, what a dictionary passes as equal to: a dictionary, or a list or tuple as long as it that has all its keys among its elements; something without elements if it is empty. -/
theorem C128_dictionary_partial (d : List (Int × V)) (b : V) (h : assertEqual (.dict d) b = .ok ()) :
    (∃ e, b = .dict e ∧ d.length = e.length) ∨ (∃ t l, b = .seq t l ∧ d.length = l.length ∧ ∀ p ∈ d, .int p.1 ∈ l) ∨
    (d = [] ∧ (b = .str [] ∨ ∃ f, b = .set f [])) := by
  cases b with
  | int n => simp [assertEqual, len] at h
  | none => simp [assertEqual, len] at h
  | obj i => simp [assertEqual, len] at h
  | bad i => simp [assertEqual, len] at h
  | dict e =>
    refine .inl ⟨e, rfl, ?_⟩
    by_cases hl : d.length = e.length
    · exact hl
    · simp [assertEqual, len, hl] at h
  | seq t l =>
    refine .inr (.inl ⟨t, l, rfl, ?_⟩)
    by_cases hl : d.length = l.length
    · simp only [assertEqual, len, ne_eq, hl, not_true_eq_false, if_false] at h
      exact ⟨hl, assertKeys_seq d h⟩
    · simp [assertEqual, len, hl] at h
  | str s =>
    refine .inr (.inr ?_)
    by_cases hl : d.length = s.length
    · simp only [assertEqual, len, ne_eq, hl, not_true_eq_false, if_false] at h
      cases d with
      | nil => exact ⟨rfl, .inl (by rw [List.length_eq_zero_iff.1 hl.symm])⟩
      | cons p d => simp [assertKeys, contains] at h
    · simp [assertEqual, len, hl] at h
  | set f l =>
    refine .inr (.inr ?_)
    by_cases hl : d.length = l.length
    · simp only [assertEqual, len, ne_eq, hl, not_true_eq_false, if_false] at h
      cases d with
      | nil => exact ⟨rfl, .inr ⟨f, by rw [List.length_eq_zero_iff.1 hl.symm]⟩⟩
      | cons p d =>
        simp only [assertKeys, contains] at h
        cases hc : l.contains p.1 <;> rw [hc] at h <;> simp [getitem] at h
    · simp [assertEqual, len, hl] at h

example : assertEqual (.dict []) (.set true []) = .ok () ∧ assertEqual (.dict [(0, .int 5)]) (.seq false [.int 5]) = .error .keyNotFound := by
  simp [assertEqual, len, assertKeys, contains, inList]

theorem eq_symm {a b : V} (h : PyEq a b) : PyEq b a := by
  induction h with
  | int n => exact .int _
  | str n => exact .str _
  | none => exact .none
  | obj n => exact .obj _
  | seq t l m hl _ ih => exact .seq _ _ _ hl.symm (fun i a b ha hb => ih i b a hb ha)
  | dict d e hk _ ih => exact .dict _ _ (fun k => (hk k).symm) (fun k v w hv hw => ih k w v hw hv)
  | set f g l m h => exact .set _ _ _ _ (fun x => (h x).symm)

/-- **C128 (partial)**: for values of the same kinds in both directions the order of arguments does not matter. -/
theorem C128_symmetry_partial (a b : V) (ha : WF a) (hb : WF b) (h : Alike a b) (h' : Alike b a) : assertEqual a b = .ok () ↔ assertEqual b a = .ok () := by
  rcases main a b ha hb h with ⟨p, e⟩ | ⟨p, e⟩ <;> rcases main b a hb ha h' with ⟨p', e'⟩ | ⟨p', e'⟩
  · simp [e, e']
  · exact absurd (eq_symm p) p'
  · exact absurd (eq_symm p') p
  · constructor
    · intro x; rw [x] at e; exact absurd e (by simp [Inequal])
    · intro x; rw [x] at e'; exact absurd e' (by simp [Inequal])

end Verif.DeepCompare
