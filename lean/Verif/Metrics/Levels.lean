import Verif.Metrics.Registry
import Verif.Metrics.Data

/-!
# Levels of metrics and what is reported (satella/instrumentation/metrics/metric_types/base.py), C119, C120

Metrics are made with getMetric and their levels are assigned; reset is left out (C107).  `enable_timestamp` of containers is left out.
-/
namespace Verif.MetricTree

open Verif

/-! ## Model -/

/-- the values of MetricLevel, /repo/satella/instrumentation/metrics/metric_types/base.py:9-13 -/
def Level.num : Level → Nat
  | .disabled => 1
  | .runtime => 2
  | .debug => 3
  | .inherit => 4

/-- `level`, /repo/satella/instrumentation/metrics/metric_types/base.py:96-101; the loop is bounded by the number of metrics, `none` is AttributeError above the root -/
def levelOf (s : St) : Nat → Nat → Option Level
  | 0, _ => none
  | fuel + 1, id =>
    match s.nodes[id]? with
    | some n =>
      if n.level = .inherit then
        match n.parent with
        | some p => levelOf s fuel p
        | none => none
      else some n.level
    | none => none

/-- `metric.level`, /repo/satella/instrumentation/metrics/metric_types/base.py:96-101 -/
def level (s : St) (id : Nat) : Option Level := levelOf s s.nodes.length id

/-- `can_process_this_level`, /repo/satella/instrumentation/metrics/metric_types/base.py:114-115, with `__ge__`, :15-16 -/
def canProcess (s : St) (id : Nat) (l : Level) : Bool :=
  match level s id with
  | some e => decide (e.num ≥ l.num)
  | none => false

/-- `handle`, /repo/satella/instrumentation/metrics/metric_types/base.py:137-142, on the values taken so far by each metric -/
def handle {ν : Type} (s : St) (taken : Nat → List ν) (id : Nat) (l : Level) (v : ν) : Nat → List ν :=
  if canProcess s id l then fun j => if j = id then taken j ++ [v] else taken j else taken

/-- calls: getMetric, and assigning the level of the metric of a name; /repo/satella/instrumentation/metrics/__init__.py:62, base.py:103-109 -/
inductive Op where
  | get (c : Call)
  | assign (name : Path) (l : Level)

/-- the results: those of getMetric, or that of an assignment, which may be AssertionError; there may be no such metric to assign to.  /repo/satella/instrumentation/metrics/metric_types/base.py:103-109 -/
inductive Res2 where
  | got (r : Res)
  | done
  | assertion
  | noMetric
deriving DecidableEq

/-- the setter of `level`, /repo/satella/instrumentation/metrics/metric_types/base.py:103-109 -/
def assign (s : St) (id : Nat) (l : Level) : St × Res2 :=
  match s.nodes[id]? with
  | some n => if l = .inherit ∧ n.part = "" then (s, .assertion) else (setLevel s id (some l), .done)
  | none => (s, .noMetric)

/-- one call, /repo/satella/instrumentation/metrics/__init__.py:62-101, base.py:103-109 -/
def step2 (types : Types) (s : St) : Op → St × Res2
  | .get c => ((step types s c).1, .got (step types s c).2)
  | .assign p l =>
    match Dict.get? s.reg p with
    | some id => assign s id l
    | none => (s, .noMetric)

/-- whether a child is reported: `child.level <= self.level`, /repo/satella/instrumentation/metrics/metric_types/base.py:120 -/
def included (s : St) (child parent : Nat) : Bool :=
  match level s child, level s parent with
  | some a, some b => decide (a.num ≤ b.num)
  | _, _ => false

open Verif.Metrics in
/-- `to_metric_data`, /repo/satella/instrumentation/metrics/metric_types/base.py:117-127; `D` is what leaf metrics report; the depth is bounded by the number of metrics -/
def toData {Λ ν : Type} [DecidableEq Λ] (H : Name × Λ → Nat) (types : Types) (D : Nat → Coll Λ ν) (s : St) : Nat → Nat → Coll Λ ν
  | 0, _ => []
  | fuel + 1, id =>
    match s.nodes[id]? with
    | some n =>
      if types n.kind = some true then D id
      else Coll.prefixWith n.part.toList (n.children.foldl (fun out c => if included s c id then Coll.addColl H out (toData H types D s fuel c) else out) [])
    | none => []

/-! ## Specification -/

/-- the level in effect: that of the metric, or if it is INHERIT, that in effect for the metric above -/
inductive InEffect (b : Abs) : Path → Level → Prop
  | own {p : Path} {i : Nat} {k : String} {l : Level} : b p = some (i, k, l) → l ≠ .inherit → InEffect b p l
  | above {p : Path} {x : String} {i : Nat} {k : String} {l : Level} : b (p ++ [x]) = some (i, k, .inherit) → InEffect b p l → InEffect b (p ++ [x]) l

/-- the specification of the calls: getMetric as before; assigning changes the level of one metric, but the root cannot be INHERIT -/
def Spec2 (b : Abs) (o : Op) (r : Res2) (b' : Abs) : Prop :=
  match o with
  | .get c => ∃ r', r = .got r' ∧ Spec b c r' b'
  | .assign p l =>
    (b p = none ∧ r = .noMetric ∧ b' = b) ∨
    (b p ≠ none ∧ p = [] ∧ l = .inherit ∧ r = .assertion ∧ b' = b) ∨
    (∃ i k l', b p = some (i, k, l') ∧ (p = [] → l ≠ .inherit) ∧ r = .done ∧ b' = fun q => if q = p then some (i, k, l) else b q)

/-- the calls considered: as for getMetric, and no part of a name is empty or has a dot -/
def Fine2 (types : Types) (s : St) : Op → Prop
  | .get c => Fine types s c ∧ ∀ x ∈ c.name, x ≠ "" ∧ '.' ∉ x.toList
  | .assign _ _ => True

/-! ## Proofs -/

/-- what holds of the metrics besides that they are a tree -/
structure Inv (types : Types) (s : St) : Prop where
  tree : Tree s
  root : ∀ i k l, absOf s [] = some (i, k, l) → l ≠ .inherit
  parts : ∀ p, absOf s p ≠ none → ∀ x ∈ p, x ≠ "" ∧ '.' ∉ x.toList
  noLeaf : ∀ p x i k l, absOf s (p ++ [x]) ≠ none → absOf s p = some (i, k, l) → types k ≠ some true

theorem levelOf_spec {s : St} (h : Tree s) (hr : ∀ i k l, absOf s [] = some (i, k, l) → l ≠ .inherit) (fuel : Nat) :
    ∀ p i, Dict.get? s.reg p = some i → i < fuel → ∃ l, levelOf s fuel i = some l ∧ InEffect (absOf s) p l ∧ l ≠ .inherit := by
  induction fuel with
  | zero => intro p i _ hi; omega
  | succ fuel ih =>
    intro p i hp hi
    obtain ⟨n, hn⟩ := h.node p i hp
    have ha : absOf s p = some (i, n.kind, n.level) := absOf_some.2 ⟨hp, n, hn, rfl, rfl⟩
    simp only [levelOf, hn]
    by_cases hl : n.level = .inherit
    · rw [if_pos hl]
      rcases snoc_cases p with rfl | ⟨q, x, rfl⟩
      · exact absurd hl (hr _ _ _ ha)
      · obtain ⟨_, j, hj, hpar, hlt⟩ := h.above q x i n hp hn
        rw [hpar]
        obtain ⟨l, h1, h2, h3⟩ := ih q j hj (by omega)
        rw [hl] at ha
        exact ⟨l, h1, .above ha h2, h3⟩
    · rw [if_neg hl]
      exact ⟨_, rfl, .own ha hl, hl⟩

theorem level_spec {types : Types} {s : St} (h : Inv types s) {p : Path} {i : Nat} (hp : Dict.get? s.reg p = some i) :
    ∃ l, level s i = some l ∧ InEffect (absOf s) p l ∧ l ≠ .inherit :=
  levelOf_spec h.tree h.root _ p i hp (h.tree.lt hp)

/-- there is only one level in effect -/
theorem InEffect.unique {b : Abs} {p : Path} {l m : Level} (h1 : InEffect b p l) (h2 : InEffect b p m) : l = m := by
  induction h1 with
  | own ha hne =>
    cases h2 with
    | own hb _ => rw [ha] at hb; cases hb; rfl
    | above hb _ => rw [ha] at hb; cases hb; exact absurd rfl hne
  | @above p x i k l ha _ ih =>
    generalize hq : p ++ [x] = q at h2
    cases h2 with
    | own hb hne => rw [← hq, ha] at hb; cases hb; exact absurd rfl hne
    | @above p' x' _ _ _ hb h =>
      have := List.append_inj_left' hq rfl
      subst this
      exact ih h

theorem InEffect.ne {b : Abs} {p : Path} {l : Level} (h : InEffect b p l) : l ≠ .inherit := by
  induction h with
  | own _ h => exact h
  | above _ _ ih => exact ih

theorem empty_inv (types : Types) : Inv types empty := by
  have : ∀ p, absOf empty p = none := by intro p; simp [absOf, empty]
  refine ⟨tree_empty, ?_, ?_, ?_⟩
  · intro i k l h; rw [this] at h; cases h
  · intro p h; exact absurd (this p) h
  · intro p x i k l h; exact absurd (this _) h

theorem spec_inv {types : Types} (hb : types "base" ≠ some true) {s s' : St} {c : Call} {r : Res} (hf : Fine2 types s (.get c)) (h : Inv types s) (ht : Tree s') (hs : Spec (absOf s) c r (absOf s')) : Inv types s' := by
  obtain ⟨⟨f1, f2, f3⟩, f4⟩ := hf
  rcases hs with ⟨_, _, _, _, _, _, e⟩ | ⟨hno, id, l, _, h1, h2, h3, h4, h5, h6, _⟩
  · refine ⟨ht, ?_, ?_, ?_⟩
    · rw [e]; exact h.root
    · rw [e]; exact h.parts
    · rw [e]; exact h.noLeaf
  · refine ⟨ht, ?_, ?_, ?_⟩
    · intro i k l' hx
      by_cases e : c.name = []
      · rw [e] at h1 h2 h3
        rw [h1] at hx
        cases hx
        cases hb0 : absOf s [] with
        | none =>
          rw [h3 hb0, if_pos rfl]
          have := (f2 e).2
          cases hl : c.level with
          | none => simp
          | some q => rw [hl] at this; simpa using this
        | some t =>
          obtain ⟨i0, k0, l0⟩ := t
          rw [(h2 i0 k0 l0 hb0).2]
          have := (f2 e).2
          cases hl : c.level with
          | none => exact h.root i0 k0 l0 hb0
          | some q => rw [hl] at this; simpa using this
      · by_cases hb0 : absOf s [] = none
        · have := (h6 [] i k l' (Ne.symm e) hb0 hx).2
          rw [this]; simp
        · rw [h4 [] (Ne.symm e) hb0] at hx
          exact h.root i k l' hx
    · intro p hp x hx
      by_cases e : p = c.name
      · exact f4 x (e ▸ hx)
      · by_cases hb0 : absOf s p = none
        · exact f4 x (((h5 p e hb0).1 hp).subset hx)
        · exact h.parts p hb0 x hx
    · intro p x i k l' hpx hp
      -- the metric above exists before, or is made now
      have hk : absOf s p = none → p ≠ c.name → types k ≠ some true := by
        intro h0 hne
        rw [(h6 p i k l' hne h0 hp).1]
        exact hb
      by_cases e : p ++ [x] = c.name
      · have hne : p ≠ c.name := by
          intro e2; rw [← e2] at e; simp at e
        cases h0 : absOf s p with
        | none => exact hk h0 hne
        | some t =>
          rw [h4 p hne (by rw [h0]; simp)] at hp
          obtain ⟨a, n, b, cc, _⟩ := absOf_some.1 hp
          rw [← cc]
          exact f3 p x (by rw [e]; exact List.prefix_refl _) i n a b
      · cases hx0 : absOf s (p ++ [x]) with
        | some t =>
          have hs1 : absOf s (p ++ [x]) ≠ none := by rw [hx0]; simp
          have hpn : absOf s p ≠ none := by
            obtain ⟨t1, t2, t3⟩ := t
            obtain ⟨a, n, b, _⟩ := absOf_some.1 hx0
            obtain ⟨_, j, hj, _⟩ := h.tree.above p x t1 n a b
            rw [Ne, absOf_none h.tree, hj]; simp
          cases h0 : absOf s p with
          | none => exact absurd h0 hpn
          | some u =>
            obtain ⟨u1, u2, u3⟩ := u
            have hu := h.noLeaf p x u1 u2 u3 hs1 h0
            by_cases e2 : p = c.name
            · subst e2
              obtain ⟨he, _⟩ := h2 u1 u2 u3 h0
              rw [h1] at hp
              cases hp
              -- the type is the one it had
              have : absOf s c.name = some (u1, u2, u3) := h0
              obtain ⟨a, n, b, cc, _⟩ := absOf_some.1 this
              rw [← hno u1 u2 u3 this]
              exact hu
            · rw [h4 p e2 hpn, h0] at hp
              cases hp
              exact hu
        | none =>
          have hpre := (h5 (p ++ [x]) e hx0).1 hpx
          have hne : p ≠ c.name := by
            intro e2
            rw [← e2] at hpre
            have := hpre.length_le
            simp at this
            omega
          cases h0 : absOf s p with
          | none => exact hk h0 hne
          | some t =>
            rw [h4 p hne (by rw [h0]; simp)] at hp
            obtain ⟨a, n, b, cc, _⟩ := absOf_some.1 hp
            rw [← cc]
            exact f3 p x hpre i n a b

theorem step2_sim (types : Types) (hb : types "base" ≠ some true) (s : St) (o : Op) (hf : Fine2 types s o) (h : Inv types s) :
    Spec2 (absOf s) o (step2 types s o).2 (absOf (step2 types s o).1) ∧ Inv types (step2 types s o).1 := by
  cases o with
  | get c =>
    obtain ⟨h1, h2⟩ := step_sim types hb s c hf.1 h.tree
    exact ⟨⟨_, rfl, h1⟩, spec_inv hb hf h h2 h1⟩
  | assign p l =>
    simp only [step2, Spec2]
    cases hg : Dict.get? s.reg p with
    | none => exact ⟨Or.inl ⟨(absOf_none h.tree).2 hg, rfl, rfl⟩, h⟩
    | some id =>
      obtain ⟨n, hn⟩ := h.tree.node p id hg
      have ha : absOf s p = some (id, n.kind, n.level) := absOf_some.2 ⟨hg, n, hn, rfl, rfl⟩
      have hpart : n.part = "" ↔ p = [] := by
        constructor
        · intro e
          rcases snoc_cases p with rfl | ⟨q, x, rfl⟩
          · rfl
          · have h1 := (h.tree.above q x id n hg hn).1
            have h2 := (h.parts (q ++ [x]) (by rw [ha]; simp) x (by simp)).1
            rw [e] at h1
            exact absurd h1.symm h2
        · rintro rfl
          exact (h.tree.root id n hg hn).2.2
      simp only [assign, hn]
      split
      · rename_i hc
        exact ⟨Or.inr (Or.inl ⟨by rw [ha]; simp, hpart.1 hc.2, hc.1, rfl, rfl⟩), h⟩
      · rename_i hc
        obtain ⟨t1, t2⟩ := setLevel_spec h.tree ha (some l)
        simp only [Option.getD_some] at t2
        have hroot : p = [] → l ≠ .inherit := fun e hl => hc ⟨hl, hpart.2 e⟩
        refine ⟨Or.inr (Or.inr ⟨id, n.kind, n.level, ha, hroot, rfl, funext t2⟩), t1, ?_, ?_, ?_⟩
        · intro i k l' hx
          rw [t2] at hx
          split at hx
          · rename_i e; cases hx; exact hroot e.symm
          · exact h.root i k l' hx
        · intro q hq
          refine h.parts q ?_
          intro hz
          rw [t2] at hq
          split at hq
          · rename_i e; rw [e, ha] at hz; cases hz
          · exact hq hz
        · intro q x i k l' hq hx
          have hq' : absOf s (q ++ [x]) ≠ none := by
            intro hz
            rw [t2] at hq
            split at hq
            · rename_i e; rw [e, ha] at hz; cases hz
            · exact hq hz
          rw [t2] at hx
          split at hx
          · rename_i e
            cases hx
            exact h.noLeaf q x id n.kind n.level hq' (e ▸ ha)
          · exact h.noLeaf q x i k l' hq' hx

theorem reach (types : Types) (hb : types "base" ≠ some true) (ops : List Op) (hf : AllSteps (Fine2 types) (step2 types) empty ops) :
    ∃ b, History Spec2 (fun _ => none) ops (runOps (step2 types) empty ops).2 b ∧ Inv types (runOps (step2 types) empty ops).1 ∧ b = absOf (runOps (step2 types) empty ops).1 :=
  history_of_sim' (spec := Spec2) (fun s b => Inv types s ∧ b = absOf s) (Fine2 types)
    (by
      rintro s b o hf ⟨hi, rfl⟩
      obtain ⟨h1, h2⟩ := step2_sim types hb s o hf hi
      exact ⟨_, h1, h2, rfl⟩) empty (fun _ => none) ops hf ⟨empty_inv types, by funext p; simp [absOf, empty]⟩

/-- **C119, the level in effect**: after any calls of getMetric and assignments of levels, every metric has a level in effect: its own, or if it is INHERIT, that of the metric above; it is never INHERIT, and computing it never fails. -/
theorem C119_level (types : Types) (hb : types "base" ≠ some true) (ops : List Op) (hf : AllSteps (Fine2 types) (step2 types) empty ops) :
    ∃ b, History Spec2 (fun _ => none) ops (runOps (step2 types) empty ops).2 b ∧
      ∀ p i k l, b p = some (i, k, l) → ∃ e, level (runOps (step2 types) empty ops).1 i = some e ∧ InEffect b p e ∧ e ≠ .inherit := by
  obtain ⟨b, h1, h2, h3⟩ := reach types hb ops hf
  refine ⟨b, h1, fun p i k l hp => ?_⟩
  subst h3
  exact level_spec h2 (absOf_some.1 hp).1

/-- **C119, handle**: a metric takes a value given for level RUNTIME exactly if RUNTIME or DEBUG is in effect for it, and a value given for level DEBUG exactly if DEBUG is; no other metric is affected. -/
theorem C119_handle {ν : Type} (types : Types) (hb : types "base" ≠ some true) (ops : List Op) (hf : AllSteps (Fine2 types) (step2 types) empty ops) :
    ∃ b, History Spec2 (fun _ => none) ops (runOps (step2 types) empty ops).2 b ∧
      ∀ p i k l e, b p = some (i, k, l) → InEffect b p e → ∀ (taken : Nat → List ν) (v : ν) (j : Nat),
        handle (runOps (step2 types) empty ops).1 taken i .runtime v j = (if j = i ∧ (e = .runtime ∨ e = .debug) then taken j ++ [v] else taken j) ∧
        handle (runOps (step2 types) empty ops).1 taken i .debug v j = (if j = i ∧ e = .debug then taken j ++ [v] else taken j) := by
  obtain ⟨b, h1, h2⟩ := C119_level types hb ops hf
  refine ⟨b, h1, fun p i k l e hp he taken v j => ?_⟩
  obtain ⟨e', h3, h4, h5⟩ := h2 p i k l hp
  obtain rfl := he.unique h4
  simp only [handle, canProcess, h3]
  cases e <;> by_cases hj : j = i <;> simp [Level.num, hj] <;> exact absurd rfl h5

/-! ## What is reported -/

open Verif.Metrics

variable {Λ ν : Type} [DecidableEq Λ] {H : Name × Λ → Nat}

/-- the name with the parts above in front, separated by dots -/
def qualify : Path → Name → Name
  | [], n => n
  | x :: xs, n => x.toList ++ '.' :: qualify xs n

/-- the name up to the first dot -/
def headPart (n : Name) : Name := n.takeWhile (· ≠ '.')

/-- the collection of a leaf metric: one entry per name and labels, and the names are its own, or begin with its own and a dot (base.py:165-167 and the other leaf metrics) -/
def LeafData (part : String) (d : Coll Λ ν) : Prop :=
  OnePerKey d ∧ ∀ m, Has d m → m.name = part.toList ∨ ∃ r, m.name = part.toList ++ '.' :: r

/-- every level in effect on the way from `p` down to `p ++ r` is at most that above it -/
def Descends (b : Abs) (p r : Path) : Prop :=
  ∀ q x, q ++ [x] <+: r → ∀ e f, InEffect b (p ++ q ++ [x]) e → InEffect b (p ++ q) f → e.num ≤ f.num

theorem takeWhile_append_dot (a b : Name) (h : '.' ∉ a) : (a ++ '.' :: b).takeWhile (· ≠ '.') = a := by
  induction a with
  | nil => simp
  | cons c a ih =>
    have hc : c ≠ '.' := fun e => h (by simp [e])
    have := ih (fun hm => h (by simp [hm]))
    simp [hc]
    simpa using this

theorem takeWhile_no_dot (a : Name) (h : '.' ∉ a) : a.takeWhile (· ≠ '.') = a := by
  induction a with
  | nil => simp
  | cons c a ih =>
    have hc : c ≠ '.' := fun e => h (by simp [e])
    have := ih (fun hm => h (by simp [hm]))
    simp [hc]
    simpa using this

omit [DecidableEq Λ] in
theorem leafData_head {part : String} {d : Coll Λ ν} (h : LeafData part d) (hd : '.' ∉ part.toList) {m : MD Λ ν} (hm : Has d m) : headPart m.name = part.toList := by
  rcases h.2 m hm with e | ⟨r, e⟩
  · rw [e]; exact takeWhile_no_dot _ hd
  · rw [e]; exact takeWhile_append_dot _ _ hd

theorem addColl_disjoint (a : Coll Λ ν) (ha : OnePerKey a) : ∀ b : Coll Λ ν, OnePerKey b → (∀ e ∈ a, ∀ e' ∈ b, e.md.key ≠ e'.md.key) →
    OnePerKey (Coll.addColl H a b) ∧ ∀ x, Has (Coll.addColl H a b) x ↔ Has b x ∨ Has a x := by
  induction a with
  | nil => intro b hb _; exact ⟨hb, fun x => by simp [Coll.addColl, Has]⟩
  | cons e a ih =>
    intro b hb hd
    have ha' := List.pairwise_cons.1 ha
    have hc : contains H b e.md = false := by
      rw [Bool.eq_false_iff]
      intro hc
      simp only [contains, List.any_eq_true, Slot.is, Bool.and_eq_true, decide_eq_true_eq] at hc
      obtain ⟨e', he', _, hk⟩ := hc
      exact hd e (by simp) e' he' hk.symm
    rw [addColl_cons]
    have hadd : Coll.add H b e.md = b ++ [⟨H e.md.key, e.md⟩] := by simp [Coll.add, hc]
    rw [hadd]
    obtain ⟨h1, h2⟩ := ih ha'.2 (b ++ [⟨H e.md.key, e.md⟩])
      (List.pairwise_append.2 ⟨hb, List.pairwise_singleton _ _, fun e1 h1 e2 h2 => by
        simp only [List.mem_singleton] at h2
        subst h2
        exact Ne.symm (hd e (by simp) e1 h1)⟩)
      (fun e1 h1 e2 h2 => by
        rcases List.mem_append.1 h2 with h2 | h2
        · exact hd e1 (by simp [h1]) e2 h2
        · simp only [List.mem_singleton] at h2
          subst h2
          exact Ne.symm (ha'.1 e1 h1))
    refine ⟨h1, fun x => ?_⟩
    rw [h2]
    simp only [Has, List.mem_append, List.mem_cons]
    constructor
    · rintro (⟨e', h | rfl | h, rfl⟩ | ⟨e', h, rfl⟩)
      · exact Or.inl ⟨e', h, rfl⟩
      · exact Or.inr ⟨e, Or.inl rfl, rfl⟩
      · cases h
      · exact Or.inr ⟨e', Or.inr h, rfl⟩
    · rintro (⟨e', h, rfl⟩ | ⟨e', rfl | h, rfl⟩)
      · exact Or.inl ⟨e', Or.inl h, rfl⟩
      · exact Or.inl ⟨_, Or.inr (Or.inl rfl), rfl⟩
      · exact Or.inr ⟨e', h, rfl⟩

/-- the loop over the children, if what they report is disjoint -/
theorem fold_children (inc : Nat → Bool) (T : Nat → Coll Λ ν) (part : Nat → Name) (cs : List Nat) (hn : cs.Nodup) (hinj : ∀ c ∈ cs, ∀ d ∈ cs, part c = part d → c = d)
    (hT : ∀ c ∈ cs, OnePerKey (T c) ∧ ∀ m, Has (T c) m → headPart m.name = part c) :
    ∀ out : Coll Λ ν, OnePerKey out → (∀ m, Has out m → ∀ c ∈ cs, headPart m.name ≠ part c) →
      OnePerKey (cs.foldl (fun out c => if inc c then Coll.addColl H out (T c) else out) out) ∧
      ∀ m, Has (cs.foldl (fun out c => if inc c then Coll.addColl H out (T c) else out) out) m ↔ Has out m ∨ ∃ c ∈ cs, inc c = true ∧ Has (T c) m := by
  induction cs with
  | nil => intro out h _; exact ⟨h, fun m => by simp⟩
  | cons c cs ih =>
    intro out ho hd
    have hn' := List.nodup_cons.1 hn
    have ih := ih hn'.2 (fun a ha b hb => hinj a (by simp [ha]) b (by simp [hb])) (fun a ha => hT a (by simp [ha]))
    obtain ⟨hc1, hc2⟩ := hT c (by simp)
    simp only [List.foldl_cons]
    by_cases hi : inc c = true
    · rw [if_pos hi]
      obtain ⟨h1, h2⟩ := addColl_disjoint (H := H) out ho (T c) hc1 (fun e he e' he' hk => by
        have a := hd e.md ⟨e, he, rfl⟩ c (by simp)
        have b := hc2 e'.md ⟨e', he', rfl⟩
        simp only [MD.key, Prod.mk.injEq] at hk
        rw [hk.1] at a
        exact a b)
      obtain ⟨h3, h4⟩ := ih _ h1 (fun m hm d hdm => by
        rcases (h2 m).1 hm with hm | hm
        · rw [hc2 m hm]
          intro e
          have := hinj c (by simp) d (by simp [hdm]) e
          exact hn'.1 (this ▸ hdm)
        · exact hd m hm d (by simp [hdm]))
      refine ⟨h3, fun m => ?_⟩
      rw [h4, h2]
      simp only [List.mem_cons]
      constructor
      · rintro ((h | h) | ⟨d, h5, h6, h7⟩)
        · exact Or.inr ⟨c, Or.inl rfl, hi, h⟩
        · exact Or.inl h
        · exact Or.inr ⟨d, Or.inr h5, h6, h7⟩
      · rintro (h | ⟨d, rfl | h5, h6, h7⟩)
        · exact Or.inl (Or.inr h)
        · exact Or.inl (Or.inl h7)
        · exact Or.inr ⟨d, h5, h6, h7⟩
    · rw [if_neg hi]
      obtain ⟨h3, h4⟩ := ih out ho (fun m hm d hdm => hd m hm d (by simp [hdm]))
      refine ⟨h3, fun m => ?_⟩
      rw [h4]
      simp only [List.mem_cons]
      constructor
      · rintro (h | ⟨d, h5, h6, h7⟩)
        · exact Or.inl h
        · exact Or.inr ⟨d, Or.inr h5, h6, h7⟩
      · rintro (h | ⟨d, rfl | h5, h6, h7⟩)
        · exact Or.inl h
        · exact absurd h6 hi
        · exact Or.inr ⟨d, h5, h6, h7⟩

theorem included_iff {types : Types} {s : St} (h : Inv types s) {p : Path} {x : String} {i c : Nat} (hp : Dict.get? s.reg p = some i) (hc : Dict.get? s.reg (p ++ [x]) = some c) :
    included s c i = true ↔ ∀ e f, InEffect (absOf s) (p ++ [x]) e → InEffect (absOf s) p f → e.num ≤ f.num := by
  obtain ⟨f, f1, f2, _⟩ := level_spec h hp
  obtain ⟨e, e1, e2, _⟩ := level_spec h hc
  simp only [included, e1, f1, decide_eq_true_eq]
  constructor
  · intro hl e' f' he hf
    rw [he.unique e2, hf.unique f2]
    exact hl
  · intro hh; exact hh e f e2 f2

/-- the parts in front of the names reported by the metric at `p ++ r`, seen from `p` -/
def above (p r : Path) : Path :=
  match p.getLast? with
  | none => r.dropLast
  | some x => (x :: r).dropLast

theorem above_snoc (q : Path) (x : String) (r : Path) : above (q ++ [x]) r = (x :: r).dropLast := by simp [above]

theorem toData_spec {types : Types} {s : St} (h : Inv types s) (D : Nat → Coll Λ ν)
    (hD : ∀ p x i k l, absOf s (p ++ [x]) = some (i, k, l) → types k = some true → LeafData x (D i)) (hroot : types "base" ≠ some true) (fuel : Nat) :
    ∀ p i, Dict.get? s.reg p = some i → s.nodes.length ≤ i + fuel →
      OnePerKey (toData H types D s fuel i) ∧
      (∀ q x, p = q ++ [x] → ∀ m, Has (toData H types D s fuel i) m → headPart m.name = x.toList) ∧
      ∀ m, Has (toData H types D s fuel i) m ↔ ∃ r j k l m0, absOf s (p ++ r) = some (j, k, l) ∧ types k = some true ∧ Descends (absOf s) p r ∧ Has (D j) m0 ∧ m = { m0 with name := qualify (above p r) m0.name } := by
  induction fuel with
  | zero =>
    intro p i hp hl
    have := h.tree.lt hp
    omega
  | succ fuel ih =>
    intro p i hp hl
    obtain ⟨n, hn⟩ := h.tree.node p i hp
    have ha : absOf s p = some (i, n.kind, n.level) := absOf_some.2 ⟨hp, n, hn, rfl, rfl⟩
    simp only [toData, hn]
    by_cases hleaf : types n.kind = some true
    · -- a leaf metric
      rw [if_pos hleaf]
      rcases snoc_cases p with rfl | ⟨q, x, rfl⟩
      · exact absurd hleaf (by rw [(h.tree.root i n hp hn).2.1]; exact hroot)
      · have hd := hD q x i _ _ ha hleaf
        have hx := (h.parts (q ++ [x]) (by rw [ha]; simp) x (by simp)).2
        refine ⟨hd.1, ?_, ?_⟩
        · intro q' x' e m hm
          obtain ⟨_, e2⟩ := List.append_inj' e rfl
          cases e2
          exact leafData_head hd hx hm
        · intro m
          constructor
          · intro hm
            refine ⟨[], i, n.kind, n.level, m, by simpa using ha, hleaf, ?_, hm, ?_⟩
            · intro q' x' hpre
              simp at hpre
            · simp [above, qualify]
          · rintro ⟨r, j, k, l, m0, h1, h2, _, h4, rfl⟩
            cases r with
            | nil =>
              rw [List.append_nil, ha] at h1
              cases h1
              simpa [above, qualify] using h4
            | cons y r =>
              exfalso
              -- nothing is below a leaf
              have hb : absOf s (q ++ [x] ++ [y]) ≠ none := by
                have key : ∀ (n : Nat) (t : Path), t.length = n → absOf s (q ++ [x] ++ [y] ++ t) ≠ none → absOf s (q ++ [x] ++ [y]) ≠ none := by
                  intro n
                  induction n with
                  | zero => intro t ht hh; rw [List.eq_nil_of_length_eq_zero ht, List.append_nil] at hh; exact hh
                  | succ n ihn =>
                    intro t ht hh
                    rcases snoc_cases t with rfl | ⟨t', z, rfl⟩
                    · simp at ht
                    · refine ihn t' (by simpa using ht) ?_
                      obtain ⟨⟨a1, a2, a3⟩, ha'⟩ := Option.ne_none_iff_exists'.1 hh
                      rw [← List.append_assoc] at ha'
                      obtain ⟨b1, m1, b2, _⟩ := absOf_some.1 ha'
                      obtain ⟨_, j', hj', _⟩ := h.tree.above _ z a1 m1 b1 b2
                      rw [Ne, absOf_none h.tree, hj']
                      simp
                refine key r.length r rfl ?_
                rw [List.append_assoc _ [y] r, List.singleton_append, h1]
                simp
              exact h.noLeaf (q ++ [x]) y i _ _ hb ha hleaf
    · -- a container
      rw [if_neg hleaf]
      obtain ⟨hnd, hkids⟩ := h.tree.kids p i n hp hn
      -- the part of a child
      have hchild : ∀ c ∈ n.children, ∃ x, Dict.get? s.reg (p ++ [x]) = some c := fun c hc => (hkids c).1 hc
      let part : Nat → Name := fun c => match s.nodes[c]? with | some m => m.part.toList | none => []
      have hpart : ∀ c x, Dict.get? s.reg (p ++ [x]) = some c → part c = x.toList ∧ i < c := by
        intro c x hc
        obtain ⟨m, hm⟩ := h.tree.node _ _ hc
        obtain ⟨h1, j, h2, _, h3⟩ := h.tree.above p x c m hc hm
        rw [hp] at h2
        cases h2
        exact ⟨by simp only [part, hm, h1], h3⟩
      have hT : ∀ c ∈ n.children, OnePerKey (toData H types D s fuel c) ∧ ∀ m, Has (toData H types D s fuel c) m → headPart m.name = part c := by
        intro c hc
        obtain ⟨x, hx⟩ := hchild c hc
        obtain ⟨a, b, _⟩ := ih (p ++ [x]) c hx (by have := (hpart c x hx).2; omega)
        exact ⟨a, fun m hm => by rw [(hpart c x hx).1]; exact b p x rfl m hm⟩
      have hinj : ∀ c ∈ n.children, ∀ d ∈ n.children, part c = part d → c = d := by
        intro c hc d hd e
        obtain ⟨x, hx⟩ := hchild c hc
        obtain ⟨y, hy⟩ := hchild d hd
        rw [(hpart c x hx).1, (hpart d y hy).1] at e
        have : x = y := String.ext_iff.2 e
        rw [this, hy] at hx
        exact (Option.some.inj hx).symm
      obtain ⟨f1, f2⟩ := fold_children (H := H) (fun c => included s c i) (toData H types D s fuel) part n.children hnd hinj hT [] List.Pairwise.nil (fun m hm => by obtain ⟨e, he, _⟩ := hm; cases he)
      obtain ⟨g1, g2⟩ := C42_prefix f1 n.part.toList
      refine ⟨g1, ?_, ?_⟩
      · intro q x e m hm
        obtain ⟨m0, _, rfl⟩ := (g2 m).1 hm
        subst e
        have hx := h.parts (q ++ [x]) (by rw [ha]; simp) x (by simp)
        have he := (h.tree.above q x i n hp hn).1
        have hne : n.part.toList ≠ [] := by
          rw [he]; intro e; exact hx.1 (String.ext_iff.2 (by simpa using e))
        simp only [joinName, if_neg hne]
        rw [he]
        exact takeWhile_append_dot _ _ hx.2
      · intro m
        rw [g2]
        -- the name with the part of this metric
        have hname : ∀ (x : String) (r : Path) (nm : Name), joinName n.part.toList (qualify (above (p ++ [x]) r) nm) = qualify (above p (x :: r)) nm := by
          intro x r nm
          rw [above_snoc]
          rcases snoc_cases p with rfl | ⟨q, y, rfl⟩
          · rw [(h.tree.root i n hp hn).2.2]
            simp [joinName, above]
          · rw [above_snoc]
            have hy := h.parts (q ++ [y]) (by rw [ha]; simp) y (by simp)
            have he := (h.tree.above q y i n hp hn).1
            have hne : n.part.toList ≠ [] := by
              rw [he]; intro e; exact hy.1 (String.ext_iff.2 (by simpa using e))
            rw [he] at hne
            simp only [joinName, he, if_neg hne, List.dropLast_cons_cons, qualify]
        constructor
        · rintro ⟨m1, hm1, rfl⟩
          rcases (f2 m1).1 hm1 with hz | ⟨c, hc, hinc, hm⟩
          · obtain ⟨e, he, _⟩ := hz; cases he
          · obtain ⟨x, hx⟩ := hchild c hc
            obtain ⟨r, j, k, l, m0, h1, h2, h3, h4, rfl⟩ := ((ih (p ++ [x]) c hx (by have := (hpart c x hx).2; omega)).2.2 m1).1 hm
            refine ⟨x :: r, j, k, l, m0, by simpa using h1, h2, ?_, h4, by simp only [hname]⟩
            intro q y hpre e f he hf
            cases q with
            | nil =>
              rw [List.nil_append, List.cons_prefix_cons] at hpre
              obtain ⟨rfl, _⟩ := hpre
              exact (included_iff h hp hx).1 hinc e f (by simpa using he) (by simpa using hf)
            | cons z q =>
              rw [List.cons_append, List.cons_prefix_cons] at hpre
              obtain ⟨rfl, hpre⟩ := hpre
              exact h3 q y hpre e f (by simpa using he) (by simpa using hf)
        · rintro ⟨r, j, k, l, m0, h1, h2, h3, h4, rfl⟩
          cases r with
          | nil =>
            rw [List.append_nil, ha] at h1
            cases h1
            exact absurd h2 hleaf
          | cons x r =>
            -- the child on the way exists
            have hb : absOf s (p ++ [x]) ≠ none := by
              have key : ∀ (n : Nat) (t : Path), t.length = n → absOf s (p ++ [x] ++ t) ≠ none → absOf s (p ++ [x]) ≠ none := by
                intro n
                induction n with
                | zero => intro t ht hh; rw [List.eq_nil_of_length_eq_zero ht, List.append_nil] at hh; exact hh
                | succ n ihn =>
                  intro t ht hh
                  rcases snoc_cases t with rfl | ⟨t', z, rfl⟩
                  · simp at ht
                  · refine ihn t' (by simpa using ht) ?_
                    obtain ⟨⟨a1, a2, a3⟩, ha'⟩ := Option.ne_none_iff_exists'.1 hh
                    rw [← List.append_assoc] at ha'
                    obtain ⟨b1, m1, b2, _⟩ := absOf_some.1 ha'
                    obtain ⟨_, j', hj', _⟩ := h.tree.above _ z a1 m1 b1 b2
                    rw [Ne, absOf_none h.tree, hj']
                    simp
              refine key r.length r rfl ?_
              rw [List.append_assoc, List.singleton_append, h1]
              simp
            obtain ⟨⟨c, k', l'⟩, hc⟩ := Option.ne_none_iff_exists'.1 hb
            have hx := (absOf_some.1 hc).1
            have hcm : c ∈ n.children := (hkids c).2 ⟨x, hx⟩
            refine ⟨{ m0 with name := qualify (above (p ++ [x]) r) m0.name }, (f2 _).2 (Or.inr ⟨c, hcm, ?_, ?_⟩), by simp only [hname]⟩
            · refine (included_iff h hp hx).2 (fun e f he hf => ?_)
              exact h3 [] x (by simp) e f (by simpa using he) (by simpa using hf)
            · refine ((ih (p ++ [x]) c hx (by have := (hpart c x hx).2; omega)).2.2 _).2 ⟨r, j, k, l, m0, by simpa using h1, h2, ?_, h4, rfl⟩
              intro q y hpre e f he hf
              exact h3 (x :: q) y (by rw [List.cons_append, List.cons_prefix_cons]; exact ⟨rfl, hpre⟩) e f (by simpa using he) (by simpa using hf)

/-- **C120, what is reported**: after any calls of getMetric and assignments of levels, the root reports exactly the entries of the leaf metrics for which the level in effect does not rise on the way from the root, each under its full name; and at most one entry per name and labels. -/
theorem C120_reported (types : Types) (hb : types "base" ≠ some true) (ops : List Op) (hf : AllSteps (Fine2 types) (step2 types) empty ops) :
    ∃ b, History Spec2 (fun _ => none) ops (runOps (step2 types) empty ops).2 b ∧
      ∀ (D : Nat → Coll Λ ν), (∀ p x i k l, b (p ++ [x]) = some (i, k, l) → types k = some true → LeafData x (D i)) → ∀ root k0 l0, b [] = some (root, k0, l0) →
        let out := toData H types D (runOps (step2 types) empty ops).1 (runOps (step2 types) empty ops).1.nodes.length root
        OnePerKey out ∧ ∀ m, Has out m ↔ ∃ p j k l m0, b p = some (j, k, l) ∧ types k = some true ∧ Descends b [] p ∧ Has (D j) m0 ∧ m = { m0 with name := qualify p.dropLast m0.name } := by
  obtain ⟨b, h1, h2, h3⟩ := reach types hb ops hf
  refine ⟨b, h1, fun D hD root k0 l0 hr => ?_⟩
  subst h3
  obtain ⟨a, _, c⟩ := toData_spec (H := H) h2 D hD hb (runOps (step2 types) empty ops).1.nodes.length [] root (absOf_some.1 hr).1 (by omega)
  refine ⟨a, fun m => ?_⟩
  have := c m
  simpa [above] using this

/-- **C120, levels**: if no metric below the root has a level of its own, everything is reported; a leaf metric whose level in effect is higher than that of the root is not. -/
theorem C120_levels (b : Abs) (p : Path) : ((∀ q x i k l, b (q ++ [x]) = some (i, k, l) → l = .inherit) → Descends b [] p) ∧
    (∀ e f, InEffect b p e → InEffect b [] f → f.num < e.num → (∀ q x, q ++ [x] <+: p → ∃ g, InEffect b q g) → ¬ Descends b [] p) := by
  constructor
  · intro h q x _ e f he hf
    simp only [List.nil_append] at he hf
    generalize hq : q ++ [x] = r at he
    cases he with
    | own hb hne => rw [← hq] at hb; exact absurd (h _ _ _ _ _ hb) hne
    | @above p' x' _ _ _ _ h' =>
      have := List.append_inj_left' hq rfl
      subst this
      rw [h'.unique hf]
      exact Nat.le_refl _
  · intro e f he hf hlt hall hd
    have key : ∀ (n : Nat) (q : Path), q.length = n → q <+: p → ∀ g, InEffect b q g → g.num ≤ f.num := by
      intro n
      induction n with
      | zero => intro q hq _ g hg; rw [List.eq_nil_of_length_eq_zero hq] at hg; rw [hg.unique hf]; exact Nat.le_refl _
      | succ n ih =>
        intro q hq hpre g hg
        rcases snoc_cases q with rfl | ⟨q', x, rfl⟩
        · simp at hq
        · obtain ⟨g', hg'⟩ := hall q' x hpre
          have h1 := ih q' (by simpa using hq) ((List.prefix_append q' [x]).trans hpre) g' hg'
          have h2 := hd q' x hpre g g' (by simpa using hg) (by simpa using hg')
          omega
    have := key p.length p rfl (List.prefix_refl _) e he
    omega

/-- a leaf metric made under a container which is then set to DEBUG, then the leaf itself is set to INHERIT -/
def someCalls : List Op := [.get ⟨["a", "b"], "counter", none⟩, .assign ["a"] .debug, .assign ["a", "b"] .inherit, .assign [] .inherit]

example : AllSteps (Fine2 someTypes) (step2 someTypes) empty someCalls :=
  ⟨⟨⟨by decide, by simp, by intro p x _ i n h; simp [empty] at h⟩, by decide +kernel⟩, trivial, trivial, trivial, trivial⟩
example : (runOps (step2 someTypes) empty someCalls).2 = [.got (.ok 2), .done, .done, .assertion] := by decide +kernel
example : someTypes "base" ≠ some true := by decide
example : level (runOps (step2 someTypes) empty someCalls).1 2 = some .debug := by decide +kernel
example : handle (runOps (step2 someTypes) empty someCalls).1 (fun _ => []) 2 .debug 7 2 = [7] := by decide +kernel
-- not reported, as DEBUG is above RUNTIME of the root; reported if it is not set to DEBUG
example : (toData (Λ := Nat) (ν := Nat) (fun _ => 0) someTypes (fun _ => [⟨0, { name := ['b'], value := 7, labels := 0 }⟩]) (runOps (step2 someTypes) empty someCalls).1 3 0).length = 0 := by decide +kernel
example : toData (Λ := Nat) (ν := Nat) (fun _ => 0) someTypes (fun _ => [⟨0, { name := ['b'], value := 7, labels := 0 }⟩]) (runOps (step2 someTypes) empty (someCalls.take 1)).1 3 0 = [⟨0, { name := ['a', '.', 'b'], value := 7, labels := 0 }⟩] := by decide +kernel
example : LeafData (Λ := Nat) (ν := Nat) "b" [⟨0, { name := ['b'], value := 7, labels := 0 }⟩] := ⟨List.pairwise_singleton _ _, fun m hm => Or.inl (by obtain ⟨e, he, rfl⟩ := hm; simp at he; subst he; decide)⟩

end Verif.MetricTree
