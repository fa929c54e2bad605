import Verif.Py.Basic
import Verif.Py.Dict
import Verif.Py.Run

/-!
# getMetric and the tree of metrics (satella/instrumentation/metrics/__init__.py, metric_types/base.py), C106, C107

A name is the list of its parts; `'.'.join` gives different strings for different lists of parts without dots, except that the
empty name and the empty list are both the root.  Names with an empty part (`a..b`, `.a`) and with forbidden characters are left out.
`metrics_lock` makes the calls sequential.
-/
namespace Verif.MetricTree

open Verif

/-! ## Model -/

/-- a metric name, split at the dots, /repo/satella/instrumentation/metrics/__init__.py:80 -/
abbrev Path := List String

/-- MetricLevel, /repo/satella/instrumentation/metrics/metric_types/base.py:9-13 -/
inductive Level where
  | disabled | runtime | debug | inherit
deriving DecidableEq

/-- a metric object, /repo/satella/instrumentation/metrics/metric_types/base.py:66-87; `kind` is CLASS_NAME, objects are numbered -/
structure Node where
  part : String
  parent : Option Nat
  kind : String
  level : Level
  children : List Nat
deriving DecidableEq

/-- all metric objects ever made, and the dictionary `metrics`, /repo/satella/instrumentation/metrics/__init__.py:17 -/
structure St where
  nodes : List Node
  reg : Dict Path Nat

/-- what getMetric raises, /repo/satella/instrumentation/metrics/__init__.py:72-101 and base.py:169-170 -/
inductive Res where
  | ok (id : Nat)
  | alreadyExists
  | keyError
  | typeError
deriving DecidableEq

/-- METRIC_NAMES_TO_CLASSES: `none` if there is no such class, otherwise whether it is a LeafMetric; /repo/satella/instrumentation/metrics/__init__.py:47, base.py:151-170 -/
abbrev Types := String → Option Bool

/-- `append_child`, /repo/satella/instrumentation/metrics/metric_types/base.py:111-112 -/
def appendChild (s : St) (p c : Nat) : St :=
  match s.nodes[p]? with
  | some n => { s with nodes := s.nodes.set p { n with children := n.children ++ [c] } }
  | none => s

/-- whether `append_child` raises TypeError, /repo/satella/instrumentation/metrics/metric_types/base.py:169-170 -/
def isLeaf (types : Types) (s : St) (p : Nat) : Bool :=
  match s.nodes[p]? with
  | some n => types n.kind == some true
  | none => false

/-- a new metric, registered, /repo/satella/instrumentation/metrics/__init__.py:38-54 -/
def create (s : St) (pre : Path) (n : Node) : St := { nodes := s.nodes ++ [n], reg := Dict.set s.reg pre s.nodes.length }

/-- `_process_metric`, /repo/satella/instrumentation/metrics/__init__.py:34-58, for the name `pre`, the beginning of `full`; `cur` is `root_metric` -/
def process (types : Types) (s : St) (cur : Option Nat) (full : Path) (type : String) (level : Option Level) (pre : Path) : St × Res :=
  match Dict.get? s.reg pre with
  | some id => (s, .ok id)
  | none =>
    let id := s.nodes.length
    if pre = [] then (create s [] { part := "", parent := none, kind := "base", level := .runtime, children := [] }, .ok id)
    else if pre = full ∧ types type = none then (s, .keyError)
    else
      let kind := if pre = full then type else "base"
      let s1 := create s pre { part := pre.getLastD "", parent := cur, kind := kind, level := level.getD .inherit, children := [] }
      match cur with
      | none => (s1, .ok id)
      | some p => if isLeaf types s1 p then (s1, .typeError) else (appendChild s1 p id, .ok id)

/-- the loop over the parts of the name, /repo/satella/instrumentation/metrics/__init__.py:94-96 -/
def loop (types : Types) (full : Path) (type : String) (level : Option Level) : St → Option Nat → Path → List String → St × Res
  | s, some cur, _, [] => (s, .ok cur)
  | s, none, _, [] => (s, .keyError)
  | s, cur, pre, x :: rest =>
    match process types s cur full type level (pre ++ [x]) with
    | (s', .ok id) => loop types full type level s' (some id) (pre ++ [x]) rest
    | (s', r) => (s', r)

/-- `metric.level = metric_level`, /repo/satella/instrumentation/metrics/__init__.py:98-99, base.py:103-109 -/
def setLevel (s : St) (id : Nat) : Option Level → St
  | none => s
  | some l =>
    match s.nodes[id]? with
    | some n => { s with nodes := s.nodes.set id { n with level := l } }
    | none => s

/-- `getMetric`, /repo/satella/instrumentation/metrics/__init__.py:62-101 -/
def getMetric (types : Types) (s : St) (name : Path) (type : String) (level : Option Level) : St × Res :=
  let exists_ := match Dict.get? s.reg name with
    | some id => match s.nodes[id]? with | some n => n.kind != type | none => false
    | none => false
  if exists_ then (s, .alreadyExists)
  else
    match process types s none name type level [] with
    | (s1, .ok root) =>
      match loop types name type level s1 (some root) [] name with
      | (s2, .ok id) => (setLevel s2 id level, .ok id)
      | r => r
    | r => r

/-- `get_fully_qualified_name`, /repo/satella/instrumentation/metrics/metric_types/base.py:40-46, as a path; the loop is bounded by the number of metrics -/
def fqn (s : St) : Nat → Nat → List String
  | 0, _ => []
  | fuel + 1, id =>
    match s.nodes[id]? with
    | some n => match n.parent with
      | none => []
      | some p => fqn s fuel p ++ [n.part]
    | none => []

/-- `reset`, /repo/satella/instrumentation/metrics/metric_types/base.py:48-64; `false` is KeyError -/
def reset (s : St) (id : Nat) : St × Bool :=
  match s.nodes[id]? with
  | none => (s, false)
  | some n =>
    let wiped (reg : Dict Path Nat) : St := { nodes := s.nodes.set id { n with children := [] }, reg := reg }
    if n.part = "" then (wiped [], true)
    else
      let name := fqn s s.nodes.length id
      let reg := s.reg.filter (fun p => !(name.isPrefixOf p.1 && decide (name ≠ p.1)))
      if Dict.has reg name then (wiped (Dict.del reg name), true) else ({ s with reg := reg }, false)

/-- a call of getMetric, /repo/satella/instrumentation/metrics/__init__.py:64-67 -/
structure Call where
  name : Path
  type : String
  level : Option Level

/-- one call, /repo/satella/instrumentation/metrics/__init__.py:62-101 -/
def step (types : Types) (s : St) (c : Call) : St × Res := getMetric types s c.name c.type c.level

/-! ## Specification -/

/-- the metrics that exist: which object, of which type, with which level of its own -/
abbrev Abs := Path → Option (Nat × String × Level)

/-- the specification of getMetric.  A metric that exists is returned, if it has the type, and MetricAlreadyExists is raised if not.  Otherwise it is made, with all that are missing above it, which get the same level, except the root, which gets RUNTIME; everything else stays as it is. -/
def Spec (b : Abs) (c : Call) (r : Res) (b' : Abs) : Prop :=
  (∃ id k l, b c.name = some (id, k, l) ∧ k ≠ c.type ∧ r = .alreadyExists ∧ b' = b) ∨
  ((∀ id k l, b c.name = some (id, k, l) → k = c.type) ∧
    ∃ id l, r = .ok id ∧ b' c.name = some (id, c.type, l) ∧
      (∀ id' k' l', b c.name = some (id', k', l') → id = id' ∧ l = c.level.getD l') ∧
      (b c.name = none → l = c.level.getD (if c.name = [] then .runtime else .inherit)) ∧
      (∀ p, p ≠ c.name → b p ≠ none → b' p = b p) ∧
      (∀ p, p ≠ c.name → b p = none → (b' p ≠ none ↔ p <+: c.name)) ∧
      (∀ p i k l, p ≠ c.name → b p = none → b' p = some (i, k, l) → k = "base" ∧ l = if p = [] then .runtime else c.level.getD .inherit) ∧
      (∀ p q i, b' p ≠ none → (b' p).map Prod.fst = some i → (b' q).map Prod.fst = some i → p = q))

/-- the metrics registered are a tree: every one except the root is the child of the one above it, once, and knows its own name -/
structure Tree (s : St) : Prop where
  node : ∀ p i, Dict.get? s.reg p = some i → ∃ n, s.nodes[i]? = some n
  inj : ∀ p q i, Dict.get? s.reg p = some i → Dict.get? s.reg q = some i → p = q
  above : ∀ p x i n, Dict.get? s.reg (p ++ [x]) = some i → s.nodes[i]? = some n → n.part = x ∧ ∃ j, Dict.get? s.reg p = some j ∧ n.parent = some j ∧ j < i
  root : ∀ i n, Dict.get? s.reg [] = some i → s.nodes[i]? = some n → n.parent = none ∧ n.kind = "base" ∧ n.part = ""
  kids : ∀ p j n, Dict.get? s.reg p = some j → s.nodes[j]? = some n → n.children.Nodup ∧ ∀ c, c ∈ n.children ↔ ∃ x, Dict.get? s.reg (p ++ [x]) = some c

/-- the calls considered: the type exists, the root is of type base and not asked to inherit (an assertion, base.py:106-108, which the model leaves out), and there is no leaf metric above -/
def Fine (types : Types) (s : St) (c : Call) : Prop :=
  types c.type ≠ none ∧ (c.name = [] → c.type = "base" ∧ c.level ≠ some .inherit) ∧
    ∀ p x, p ++ [x] <+: c.name → ∀ i n, Dict.get? s.reg p = some i → s.nodes[i]? = some n → types n.kind ≠ some true

/-! ## Proofs -/

def absOf (s : St) : Abs := fun p =>
  match Dict.get? s.reg p with
  | some i => match s.nodes[i]? with | some n => some (i, n.kind, n.level) | none => none
  | none => none

theorem absOf_some {s : St} {p : Path} {i : Nat} {k : String} {l : Level} :
    absOf s p = some (i, k, l) ↔ Dict.get? s.reg p = some i ∧ ∃ n, s.nodes[i]? = some n ∧ n.kind = k ∧ n.level = l := by
  unfold absOf
  cases h : Dict.get? s.reg p with
  | none => simp
  | some j =>
    simp only []
    cases h2 : s.nodes[j]? with
    | none =>
      simp
      rintro rfl n hn
      rw [h2] at hn; cases hn
    | some n =>
      simp only [Option.some.injEq, Prod.mk.injEq]
      constructor
      · rintro ⟨rfl, rfl, rfl⟩; exact ⟨rfl, n, h2, rfl, rfl⟩
      · rintro ⟨rfl, m, hm, rfl, rfl⟩
        rw [h2] at hm; cases hm; exact ⟨rfl, rfl, rfl⟩

theorem absOf_none {s : St} (h : Tree s) {p : Path} : absOf s p = none ↔ Dict.get? s.reg p = none := by
  unfold absOf
  cases hp : Dict.get? s.reg p with
  | none => simp
  | some i =>
    obtain ⟨n, hn⟩ := h.node p i hp
    simp [hn]

theorem Tree.lt {s : St} (h : Tree s) {p : Path} {i : Nat} (hp : Dict.get? s.reg p = some i) : i < s.nodes.length := by
  obtain ⟨n, hn⟩ := h.node p i hp
  exact (List.getElem?_eq_some_iff.1 hn).1

theorem get?_set' (d : Dict Path Nat) (k p : Path) (v : Nat) : Dict.get? (Dict.set d k v) p = if p = k then some v else Dict.get? d p := by
  rw [Dict.get?_set]
  by_cases h : p = k
  · simp [h]
  · simp [h, Ne.symm h]

theorem snoc_cases (p : Path) : p = [] ∨ ∃ q x, p = q ++ [x] := by
  rcases List.eq_nil_or_concat p with h | ⟨q, x, h⟩
  · exact Or.inl h
  · exact Or.inr ⟨q, x, by simpa using h⟩

/-- making the root -/
theorem create_root {s : St} (h : Tree s) (h0 : Dict.get? s.reg [] = none) :
    Tree (create s [] { part := "", parent := none, kind := "base", level := .runtime, children := [] }) ∧ ∀ p, Dict.get? s.reg p = none := by
  have hnone : ∀ p : Path, Dict.get? s.reg p = none := by
    have : ∀ (n : Nat) (p : Path), p.length = n → Dict.get? s.reg p = none := by
      intro n
      induction n with
      | zero => intro p hp; cases p with | nil => exact h0 | cons => cases hp
      | succ n ih =>
        intro p hp
        rcases snoc_cases p with rfl | ⟨q, x, rfl⟩
        · exact h0
        · cases hg : Dict.get? s.reg (q ++ [x]) with
          | none => rfl
          | some i =>
            obtain ⟨m, hm⟩ := h.node _ _ hg
            obtain ⟨_, j, hj, _⟩ := h.above q x i m hg hm
            rw [ih q (by simpa using hp)] at hj
            cases hj
    intro p; exact this _ p rfl
  have hreg : ∀ p, Dict.get? (create s [] { part := "", parent := none, kind := "base", level := .runtime, children := [] }).reg p = if [] = p then some s.nodes.length else none := by
    intro p
    simp only [create, Dict.get?_set, hnone]
  refine ⟨⟨?_, ?_, ?_, ?_, ?_⟩, hnone⟩
  · intro p i hp
    rw [hreg] at hp
    split at hp
    · cases hp; simp [create]
    · cases hp
  · intro p q i hp hq
    rw [hreg] at hp hq
    split at hp
    · split at hq
      · rename_i h1 h2; rw [← h1, ← h2]
      · cases hq
    · cases hp
  · intro p x i n hp _
    rw [hreg] at hp
    simp at hp
  · intro i n hp hn
    rw [hreg] at hp
    simp at hp
    subst hp
    simp [create] at hn
    subst hn
    exact ⟨rfl, rfl, rfl⟩
  · intro p j n hp hn
    rw [hreg] at hp
    split at hp
    · cases hp
      simp [create] at hn
      subst hn
      refine ⟨by simp, fun c => ?_⟩
      simp only [hreg]
      simp
    · cases hp

/-- making a metric below another -/
theorem create_below {types : Types} {s : St} (h : Tree s) {q : Path} {x : String} {j : Nat} {k : String} {l : Level}
    (hn : Dict.get? s.reg (q ++ [x]) = none) (hj : Dict.get? s.reg q = some j) :
    let s' := appendChild (create s (q ++ [x]) { part := x, parent := some j, kind := k, level := l, children := [] }) j s.nodes.length
    Tree s' ∧ (∀ p, absOf s' p = if p = q ++ [x] then some (s.nodes.length, k, l) else absOf s p) ∧
      (isLeaf types (create s (q ++ [x]) { part := x, parent := some j, kind := k, level := l, children := [] }) j = isLeaf types s j) := by
  intro s'
  have hjl := h.lt hj
  obtain ⟨n, hnj⟩ := h.node q j hj
  have hnj' : (s.nodes ++ [{ part := x, parent := some j, kind := k, level := l, children := [] }])[j]? = some n := by
    rw [List.getElem?_append_left hjl]; exact hnj
  have hreg : ∀ p, Dict.get? s'.reg p = if p = q ++ [x] then some s.nodes.length else Dict.get? s.reg p := by
    intro p
    simp only [s', appendChild, create, hnj', get?_set']
  have hnodes : ∀ i, s'.nodes[i]? = if i = j then some { n with children := n.children ++ [s.nodes.length] }
      else if i = s.nodes.length then some { part := x, parent := some j, kind := k, level := l, children := [] } else s.nodes[i]? := by
    intro i
    simp only [s', appendChild, create, hnj']
    rw [List.getElem?_set]
    by_cases hij : j = i
    · subst hij
      have : j < s.nodes.length + 1 := by omega
      simp [this]
    · rw [if_neg hij, if_neg (Ne.symm hij)]
      rw [List.getElem?_append]
      by_cases hlt : i < s.nodes.length
      · have : i ≠ s.nodes.length := by omega
        simp [hlt, this]
      · rw [if_neg hlt]
        by_cases he : i = s.nodes.length
        · subst he; simp
        · rw [if_neg he]
          have h1 : s.nodes[i]? = none := List.getElem?_eq_none (by omega)
          rw [h1]
          exact List.getElem?_eq_none (by simp; omega)
  have hold : ∀ p i, Dict.get? s.reg p = some i → i ≠ s.nodes.length := by
    intro p i hp e
    have := h.lt hp
    omega
  have hxne : ∀ p (y : String), p ≠ p ++ [y] := by
    intro p y e
    have := congrArg List.length e
    simp at this
  have ht : Tree s' := by
    refine ⟨?_, ?_, ?_, ?_, ?_⟩
    · intro p i hp
      rw [hreg] at hp
      rw [hnodes]
      split at hp
      · cases hp
        have : s.nodes.length ≠ j := by omega
        simp [this]
      · obtain ⟨m, hm⟩ := h.node p i hp
        split
        · exact ⟨_, rfl⟩
        · rw [if_neg (hold p i hp)]; exact ⟨m, hm⟩
    · intro p p' i hp hp'
      rw [hreg] at hp hp'
      split at hp <;> split at hp'
      · rename_i e1 e2; rw [e1, e2]
      · cases hp; exact absurd rfl (hold _ _ hp')
      · cases hp'; exact absurd rfl (hold _ _ hp)
      · exact h.inj p p' i hp hp'
    · intro p y i m hp hm
      rw [hreg] at hp
      rw [hnodes] at hm
      split at hp
      · rename_i e
        cases hp
        have e1 := List.append_inj' e rfl
        obtain ⟨rfl, e2⟩ := e1
        cases e2
        have : s.nodes.length ≠ j := by omega
        rw [if_neg this, if_pos rfl] at hm
        cases hm
        refine ⟨rfl, j, ?_, rfl, hjl⟩
        rw [hreg, if_neg (hxne p x)]
        exact hj
      · rw [if_neg (hold _ _ hp)] at hm
        have hup : ∀ a, Dict.get? s.reg p = some a → Dict.get? s'.reg p = some a := by
          intro a ha
          rw [hreg]
          split
          · rename_i e; subst e; rw [hn] at ha; cases ha
          · exact ha
        split at hm
        · rename_i e
          subst e
          cases hm
          obtain ⟨h1, a, h2, h3, h4⟩ := h.above p y i n hp hnj
          exact ⟨h1, a, hup a h2, h3, h4⟩
        · obtain ⟨h1, a, h2, h3, h4⟩ := h.above p y i m hp hm
          exact ⟨h1, a, hup a h2, h3, h4⟩
    · intro i m hp hm
      rw [hreg, if_neg (by simp)] at hp
      rw [hnodes, if_neg (hold _ _ hp)] at hm
      split at hm
      · rename_i e; subst e; cases hm; exact h.root i n hp hnj
      · exact h.root i m hp hm
    · intro p a m hp hm
      rw [hreg] at hp
      rw [hnodes] at hm
      have hnew : ∀ p', (∃ y, Dict.get? s'.reg (p' ++ [y]) = some s.nodes.length) ↔ p' = q := by
        intro p'
        constructor
        · rintro ⟨y, hy⟩
          rw [hreg] at hy
          split at hy
          · rename_i e; exact (List.append_inj' e rfl).1
          · exact absurd rfl (hold _ _ hy)
        · rintro rfl
          exact ⟨x, by rw [hreg, if_pos rfl]⟩
      split at hp
      · cases hp
        rename_i e
        subst e
        have : s.nodes.length ≠ j := by omega
        rw [if_neg this, if_pos rfl] at hm
        cases hm
        refine ⟨by simp, fun c => ?_⟩
        simp only [List.not_mem_nil, false_iff]
        rintro ⟨y, hy⟩
        rw [hreg] at hy
        split at hy
        · rename_i e
          have := congrArg List.length e
          simp at this
        · obtain ⟨m', hm'⟩ := h.node _ _ hy
          obtain ⟨_, a, ha, _⟩ := h.above _ _ _ _ hy hm'
          rw [hn] at ha; cases ha
      · rw [if_neg (hold _ _ hp)] at hm
        split at hm
        · rename_i e
          subst e
          have hpq := h.inj p q a hp hj
          subst hpq
          cases hm
          obtain ⟨k1, k2⟩ := h.kids p a n hj hnj
          refine ⟨?_, fun c => ?_⟩
          · rw [List.nodup_append]
            refine ⟨k1, by simp, ?_⟩
            intro c hc d hd
            simp at hd
            subst hd
            obtain ⟨y, hy⟩ := (k2 c).1 hc
            exact hold _ _ hy
          · simp only [List.mem_append, List.mem_singleton]
            constructor
            · rintro (hc | rfl)
              · obtain ⟨y, hy⟩ := (k2 c).1 hc
                refine ⟨y, ?_⟩
                rw [hreg]
                split
                · rename_i e; rw [e, hn] at hy; cases hy
                · exact hy
              · exact (hnew p).2 rfl
            · rintro ⟨y, hy⟩
              rw [hreg] at hy
              split at hy
              · cases hy; exact Or.inr rfl
              · exact Or.inl ((k2 c).2 ⟨y, hy⟩)
        · rename_i hne
          obtain ⟨k1, k2⟩ := h.kids p a m hp hm
          refine ⟨k1, fun c => ?_⟩
          rw [k2 c]
          have hpq : p ≠ q := by
            rintro rfl
            rw [hj] at hp; cases hp; exact hne rfl
          constructor
          · rintro ⟨y, hy⟩
            refine ⟨y, ?_⟩
            rw [hreg]
            split
            · rename_i e; exact absurd (List.append_inj' e rfl).1 hpq
            · exact hy
          · rintro ⟨y, hy⟩
            rw [hreg] at hy
            split at hy
            · rename_i e; exact absurd (List.append_inj' e rfl).1 hpq
            · exact ⟨y, hy⟩
  refine ⟨ht, ?_, ?_⟩
  · intro p
    apply Option.ext
    rintro ⟨i, k', l'⟩
    rw [absOf_some, hreg, hnodes]
    split
    · constructor
      · rintro ⟨h1, m, h2, h3, h4⟩
        cases h1
        have : s.nodes.length ≠ j := by omega
        rw [if_neg this, if_pos rfl] at h2
        cases h2
        simp [← h3, ← h4]
      · intro e
        cases e
        have : s.nodes.length ≠ j := by omega
        refine ⟨rfl, _, by rw [if_neg this, if_pos rfl], rfl, rfl⟩
    · rw [absOf_some]
      constructor
      · rintro ⟨h1, m, h2, h3, h4⟩
        refine ⟨h1, ?_⟩
        rw [if_neg (hold _ _ h1)] at h2
        split at h2
        · rename_i e
          subst e
          cases h2
          exact ⟨n, hnj, h3, h4⟩
        · exact ⟨m, h2, h3, h4⟩
      · rintro ⟨h1, m, h2, h3, h4⟩
        refine ⟨h1, ?_⟩
        rw [if_neg (hold _ _ h1)]
        split
        · rename_i e
          subst e
          rw [hnj] at h2
          cases h2
          exact ⟨_, rfl, h3, h4⟩
        · exact ⟨m, h2, h3, h4⟩
  · simp only [isLeaf, create, hnj', hnj]

/-- what the loop does: it makes the metrics that are missing -/
theorem loop_spec {types : Types} {full : Path} {type : String} {level : Option Level} (hty : types type ≠ none) (rest : List String) :
    ∀ (s : St) (cur : Nat) (pre : Path), full = pre ++ rest → Tree s → Dict.get? s.reg pre = some cur →
      (∀ p x, p ++ [x] <+: full → ∀ i n, Dict.get? s.reg p = some i → s.nodes[i]? = some n → types n.kind ≠ some true) → types "base" ≠ some true →
      ∃ s' id, loop types full type level s (some cur) pre rest = (s', .ok id) ∧ Tree s' ∧ Dict.get? s'.reg full = some id ∧
        (∀ p, absOf s p ≠ none → absOf s' p = absOf s p) ∧
        (∀ p, absOf s p = none → (absOf s' p ≠ none ↔ p <+: full ∧ ¬ p <+: pre)) ∧
        (∀ p i k l, absOf s p = none → absOf s' p = some (i, k, l) → k = (if p = full then type else "base") ∧ l = level.getD .inherit) := by
  induction rest with
  | nil =>
    intro s cur pre hf ht hc _ _
    simp at hf
    subst hf
    refine ⟨s, cur, rfl, ht, hc, fun _ _ => rfl, fun p hp => ?_, fun p i k l h1 h2 => by rw [h1] at h2; cases h2⟩
    simp [hp]
  | cons x rest ih =>
    intro s cur pre hf ht hc hl hb
    have hpx : pre ++ [x] <+: full := ⟨rest, by simp [hf]⟩
    simp only [loop, process]
    cases hg : Dict.get? s.reg (pre ++ [x]) with
    | some id =>
      simp only []
      obtain ⟨s', id', h1, h2, h3, h4, h5, h6⟩ := ih s id (pre ++ [x]) (by simp [hf]) ht hg hl hb
      refine ⟨s', id', h1, h2, h3, h4, fun p hp => ?_, h6⟩
      rw [h5 p hp]
      constructor
      · rintro ⟨a, b⟩; exact ⟨a, fun hx => b (hx.trans ⟨[x], rfl⟩)⟩
      · rintro ⟨a, b⟩
        refine ⟨a, fun hx => ?_⟩
        rcases List.prefix_concat_iff.1 hx with e | e
        · rw [e, absOf_none ht, hg] at hp; cases hp
        · exact b e
    | none =>
      have hne : pre ++ [x] ≠ [] := by simp
      simp only []
      rw [if_neg hne, if_neg (by intro hx; exact hty hx.2)]
      obtain ⟨c1, c2, c3⟩ := create_below (types := types) (k := if pre ++ [x] = full then type else "base") (l := level.getD .inherit) ht hg hc
      have hlast : (pre ++ [x]).getLastD "" = x := by simp
      rw [hlast, c3]
      have hnl : isLeaf types s cur = false := by
        obtain ⟨n, hn⟩ := ht.node _ _ hc
        have := hl pre x hpx cur n hc hn
        simp [isLeaf, hn, this]
      rw [hnl]
      simp only [Bool.false_eq_true, if_false]
      have hreg : Dict.get? (appendChild (create s (pre ++ [x]) { part := x, parent := some cur, kind := if pre ++ [x] = full then type else "base", level := level.getD .inherit, children := [] }) cur s.nodes.length).reg (pre ++ [x]) = some s.nodes.length := by
        have := c2 (pre ++ [x])
        rw [if_pos rfl] at this
        exact (absOf_some.1 this).1
      generalize hS : appendChild (create s (pre ++ [x]) { part := x, parent := some cur, kind := if pre ++ [x] = full then type else "base", level := level.getD .inherit, children := [] }) cur s.nodes.length = S at *
      have hl' : ∀ p y, p ++ [y] <+: full → ∀ i n, Dict.get? S.reg p = some i → S.nodes[i]? = some n → types n.kind ≠ some true := by
        intro p y hp i n h1 h2
        have h3 : absOf S p = some (i, n.kind, n.level) := absOf_some.2 ⟨h1, n, h2, rfl, rfl⟩
        rw [c2 p] at h3
        split at h3
        · rename_i e
          have hnf : pre ++ [x] ≠ full := by
            intro e2
            rw [← e2, ← e] at hp
            have := hp.length_le
            simp at this
            omega
          rw [if_neg hnf] at h3
          simp only [Option.some.injEq, Prod.mk.injEq] at h3
          rw [← h3.2.1]
          exact hb
        · obtain ⟨h4, m, h5, h6, _⟩ := absOf_some.1 h3
          rw [← h6]
          exact hl p y hp i m h4 h5
      obtain ⟨s', id', h1, h2, h3, h4, h5, h6⟩ := ih S s.nodes.length (pre ++ [x]) (by simp [hf]) c1 hreg hl' hb
      have hsn : ∀ p, absOf s p ≠ none → absOf S p = absOf s p := by
        intro p hp
        rw [c2 p, if_neg]
        rintro rfl
        exact hp ((absOf_none ht).2 hg)
      refine ⟨s', id', h1, h2, h3, ?_, ?_, ?_⟩
      · intro p hp
        rw [h4 p (by rw [hsn p hp]; exact hp), hsn p hp]
      · intro p hp
        by_cases e : p = pre ++ [x]
        · subst e
          have hS' : absOf S (pre ++ [x]) ≠ none := by rw [c2, if_pos rfl]; simp
          rw [h4 _ hS']
          refine ⟨fun _ => ⟨hpx, fun hx => ?_⟩, fun _ => hS'⟩
          have := hx.length_le
          simp at this
          omega
        · have hp' : absOf S p = none := by rw [c2, if_neg e]; exact hp
          rw [h5 p hp']
          constructor
          · rintro ⟨a, b⟩; exact ⟨a, fun hx => b (hx.trans ⟨[x], rfl⟩)⟩
          · rintro ⟨a, b⟩
            refine ⟨a, fun hx => ?_⟩
            rcases List.prefix_concat_iff.1 hx with e' | e'
            · exact e e'
            · exact b e'
      · intro p i k l hp hq
        by_cases e : p = pre ++ [x]
        · subst e
          have hS' : absOf S (pre ++ [x]) ≠ none := by rw [c2, if_pos rfl]; simp
          rw [h4 _ hS', c2, if_pos rfl] at hq
          cases hq
          exact ⟨rfl, rfl⟩
        · exact h6 p i k l (by rw [c2, if_neg e]; exact hp) hq

theorem setLevel_spec {s : St} (h : Tree s) {p : Path} {i : Nat} {k : String} {l : Level} (hp : absOf s p = some (i, k, l)) (lv : Option Level) :
    Tree (setLevel s i lv) ∧ ∀ q, absOf (setLevel s i lv) q = if q = p then some (i, k, lv.getD l) else absOf s q := by
  obtain ⟨h1, n, h2, h3, h4⟩ := absOf_some.1 hp
  cases lv with
  | none =>
    refine ⟨h, fun q => ?_⟩
    simp only [setLevel]
    split
    · rename_i e; rw [e, hp]; rfl
    · rfl
  | some lv =>
    have hlt := h.lt h1
    simp only [setLevel, h2]
    have hnodes : ∀ j, (s.nodes.set i { n with level := lv })[j]? = if j = i then some { n with level := lv } else s.nodes[j]? := by
      intro j
      rw [List.getElem?_set]
      by_cases e : i = j
      · subst e; simp [hlt]
      · simp [e, Ne.symm e]
    refine ⟨⟨?_, h.inj, ?_, ?_, ?_⟩, ?_⟩
    · intro q j hq
      obtain ⟨m, hm⟩ := h.node q j hq
      simp only [hnodes]
      split
      · exact ⟨_, rfl⟩
      · exact ⟨m, hm⟩
    · intro q x j m hq hm
      simp only [hnodes] at hm
      split at hm
      · rename_i e; subst e; cases hm; exact h.above q x j n hq h2
      · exact h.above q x j m hq hm
    · intro j m hq hm
      simp only [hnodes] at hm
      split at hm
      · rename_i e; subst e; cases hm; exact h.root j n hq h2
      · exact h.root j m hq hm
    · intro q j m hq hm
      simp only [hnodes] at hm
      split at hm
      · rename_i e; subst e; cases hm; exact h.kids q j n hq h2
      · exact h.kids q j m hq hm
    · intro q
      apply Option.ext
      rintro ⟨j, k', l'⟩
      rw [absOf_some]
      simp only [hnodes]
      by_cases e : q = p
      · subst e
        rw [if_pos rfl, h1]
        constructor
        · rintro ⟨a, m, b, c, d⟩
          cases a
          rw [if_pos rfl] at b
          cases b
          simp [← c, ← d, h3]
        · intro a
          cases a
          exact ⟨rfl, { n with level := lv }, by rw [if_pos rfl], h3, rfl⟩
      · rw [if_neg e, absOf_some]
        have hij : ∀ j, Dict.get? s.reg q = some j → j ≠ i := by
          rintro j hj rfl
          exact e (h.inj q p j hj h1)
        constructor
        · rintro ⟨a, m, b, c, d⟩
          rw [if_neg (hij j a)] at b
          exact ⟨a, m, b, c, d⟩
        · rintro ⟨a, m, b, c, d⟩
          exact ⟨a, m, by rw [if_neg (hij j a)]; exact b, c, d⟩

theorem step_sim (types : Types) (hb : types "base" ≠ some true) (s : St) (c : Call) (hf : Fine types s c) (h : Tree s) :
    Spec (absOf s) c (step types s c).2 (absOf (step types s c).1) ∧ Tree (step types s c).1 := by
  obtain ⟨name, type, level⟩ := c
  obtain ⟨f1, f2, f3⟩ := hf
  simp only at f1 f2 f3
  simp only [step, getMetric]
  -- the first part: whether it exists with another type
  by_cases hex : ∃ id k l, absOf s name = some (id, k, l) ∧ k ≠ type
  · obtain ⟨id, k, l, h1, h2⟩ := hex
    obtain ⟨a, n, b, c, d⟩ := absOf_some.1 h1
    have : (n.kind != type) = true := by simp [c, h2]
    simp only [a, b, this, if_true]
    exact ⟨Or.inl ⟨id, k, l, h1, h2, by simp, by simp⟩, h⟩
  · have hno : ∀ id k l, absOf s name = some (id, k, l) → k = type := by
      intro id k l h1
      by_cases e : k = type
      · exact e
      · exact absurd ⟨id, k, l, h1, e⟩ hex
    have hcond : (match Dict.get? s.reg name with
        | some id => match s.nodes[id]? with | some n => n.kind != type | none => false
        | none => false) = false := by
      cases h1 : Dict.get? s.reg name with
      | none => rfl
      | some id =>
        obtain ⟨n, hn⟩ := h.node _ _ h1
        simp [hn, hno id n.kind n.level (absOf_some.2 ⟨h1, n, hn, rfl, rfl⟩)]
    rw [hcond]
    simp only [Bool.false_eq_true, if_false]
    -- the root
    have hroot : ∃ s1 r, process types s none name type level [] = (s1, .ok r) ∧ Tree s1 ∧ Dict.get? s1.reg [] = some r ∧
        (∀ p, absOf s p ≠ none → absOf s1 p = absOf s p) ∧ (∀ p, absOf s p = none → p ≠ [] → absOf s1 p = none) ∧ (∀ i k l, absOf s1 [] = some (i, k, l) → k = "base" ∧ (absOf s [] = none → l = .runtime)) ∧
        (∀ p x, p ++ [x] <+: name → ∀ i n, Dict.get? s1.reg p = some i → s1.nodes[i]? = some n → types n.kind ≠ some true) := by
      unfold process
      cases h0 : Dict.get? s.reg [] with
      | some r =>
        refine ⟨s, r, rfl, h, h0, fun _ _ => rfl, fun _ hp _ => hp, ?_, f3⟩
        intro i k l hx
        obtain ⟨a, n, b, c, _⟩ := absOf_some.1 hx
        rw [← c]
        refine ⟨(h.root i n a b).2.1, fun hz => ?_⟩
        rw [hx] at hz; cases hz
      | none =>
        obtain ⟨t1, t2⟩ := create_root h h0
        simp only [if_true]
        have hreg : ∀ p, Dict.get? (create s [] { part := "", parent := none, kind := "base", level := .runtime, children := [] }).reg p = if p = [] then some s.nodes.length else none := by
          intro p
          simp only [create, get?_set', t2]
        refine ⟨_, _, rfl, t1, by simp [hreg], ?_, ?_, ?_, ?_⟩
        · intro p hp; exact absurd ((absOf_none h).2 (t2 p)) hp
        · intro p _ hp
          rw [absOf_none t1, hreg, if_neg hp]
        · intro i k l hx
          obtain ⟨a, n, b, c, d⟩ := absOf_some.1 hx
          rw [← c]
          refine ⟨(t1.root i n a b).2.1, fun _ => ?_⟩
          rw [hreg, if_pos rfl] at a
          cases a
          simp [create] at b
          rw [← d, ← b]
        · intro p x _ i n hp hn
          rw [hreg] at hp
          split at hp
          · rename_i e
            subst e
            rw [(t1.root i n (by rw [hreg, if_pos rfl]; exact hp) hn).2.1]
            exact hb
          · cases hp
    obtain ⟨s1, r, e1, t1, g1, k1, k2, k3, k4⟩ := hroot
    rw [e1]
    simp only []
    obtain ⟨s2, id, e2, t2, g2, l1, l2, l3⟩ := loop_spec (full := name) (level := level) f1 name s1 r [] rfl t1 g1 k4 hb
    rw [e2]
    simp only []
    obtain ⟨n, hn⟩ := t2.node _ _ g2
    have ha2 : absOf s2 name = some (id, n.kind, n.level) := absOf_some.2 ⟨g2, n, hn, rfl, rfl⟩
    have hkt : n.kind = type := by
      by_cases he : absOf s name = none
      · by_cases hn0 : name = []
        · rw [(f2 hn0).1]
          have := l1 [] (by rw [Ne, absOf_none t1, g1]; simp)
          rw [← hn0, ha2] at this
          exact (k3 id _ _ (by rw [← hn0]; exact this.symm)).1
        · have := l3 name id n.kind n.level (k2 name he hn0) ha2
          rw [if_pos rfl] at this
          exact this.1
      · have h1 := k1 name he
        have h2 := l1 name (by rw [h1]; exact he)
        rw [ha2, h1] at h2
        exact hno _ _ _ h2.symm
    obtain ⟨t3, q3⟩ := setLevel_spec t2 ha2 level
    refine ⟨Or.inr ⟨hno, id, level.getD n.level, rfl, by rw [q3, if_pos rfl, hkt], ?_, ?_, ?_, ?_, ?_, ?_⟩, t3⟩
    · intro id' k' l' hx
      have h1 := k1 name (by rw [hx]; simp)
      have h2 := l1 name (by rw [h1, hx]; simp)
      rw [ha2, h1, hx] at h2
      cases h2
      exact ⟨rfl, rfl⟩
    · intro he
      by_cases hn0 : name = []
      · have := l1 [] (by rw [Ne, absOf_none t1, g1]; simp)
        rw [← hn0, ha2] at this
        have := (k3 id _ _ (by rw [← hn0]; exact this.symm)).2 (by rw [← hn0]; exact he)
        simp only [this, hn0, if_true]
      · have := (l3 name id n.kind n.level (k2 name he hn0) ha2).2
        rw [this]
        simp only [hn0, if_false]
        cases level <;> rfl
    · intro p hp he
      rw [q3, if_neg hp]
      have h1 := k1 p he
      rw [l1 p (by rw [h1]; exact he), h1]
    · intro p hp he
      rw [q3, if_neg hp]
      by_cases hp0 : p = []
      · subst hp0
        rw [l1 [] (by rw [Ne, absOf_none t1, g1]; simp)]
        simp only [List.nil_prefix, iff_true]
        rw [Ne, absOf_none t1, g1]; simp
      · rw [l2 p (k2 p he hp0)]
        simp [List.prefix_nil, hp0]
    · intro p i k l hp he hx
      rw [q3, if_neg hp] at hx
      by_cases hp0 : p = []
      · subst hp0
        rw [l1 [] (by rw [Ne, absOf_none t1, g1]; simp)] at hx
        exact ⟨(k3 i k l hx).1, by rw [if_pos rfl]; exact (k3 i k l hx).2 he⟩
      · have := l3 p i k l (k2 p he hp0) hx
        rw [if_neg hp] at this
        exact ⟨this.1, by rw [if_neg hp0]; exact this.2⟩
    · intro p q i _ hp hq
      rw [Option.map_eq_some_iff] at hp hq
      obtain ⟨⟨i1, k1, l1⟩, hp, rfl⟩ := hp
      obtain ⟨⟨i2, k2, l2⟩, hq, e⟩ := hq
      simp only at e
      subst e
      exact t3.inj p q _ (absOf_some.1 hp).1 (absOf_some.1 hq).1

/-- no metrics -/
def empty : St := { nodes := [], reg := [] }

theorem tree_empty : Tree empty := by
  constructor <;> simp [empty]

/-- **C106**: whatever metrics are asked for, in whatever order (of types that exist, the root as a base metric, and nothing below a leaf metric), the same name gives the same metric and different names different ones; MetricAlreadyExists is raised exactly if the type differs; only the metrics above that are missing are made as well; and everything registered is a tree, in which every metric is a child of the one above it, once. -/
theorem C106_get_metric (types : Types) (hb : types "base" ≠ some true) (calls : List Call) (hf : AllSteps (Fine types) (step types) empty calls) :
    ∃ b, History Spec (absOf empty) calls (runOps (step types) empty calls).2 b ∧ Tree (runOps (step types) empty calls).1 ∧ b = absOf (runOps (step types) empty calls).1 := by
  obtain ⟨b', h1, h2, h3⟩ := history_of_sim' (step := step types) (spec := Spec) (fun s b => Tree s ∧ b = absOf s) (Fine types)
    (by
      rintro s b o hf ⟨ht, rfl⟩
      obtain ⟨h1, h2⟩ := step_sim types hb s o hf ht
      exact ⟨_, h1, h2, rfl⟩) empty (absOf empty) calls hf ⟨tree_empty, rfl⟩
  exact ⟨b', h1, h2, h3⟩

theorem fqn_spec {s : St} (h : Tree s) (fuel : Nat) : ∀ p i, Dict.get? s.reg p = some i → i < fuel → fqn s fuel i = p := by
  induction fuel with
  | zero => intro p i _ hi; omega
  | succ fuel ih =>
    intro p i hp hi
    obtain ⟨n, hn⟩ := h.node p i hp
    simp only [fqn, hn]
    rcases snoc_cases p with rfl | ⟨q, x, rfl⟩
    · rw [(h.root i n hp hn).1]
    · obtain ⟨h1, j, h2, h3, h4⟩ := h.above q x i n hp hn
      rw [h3]
      simp only []
      rw [ih q j h2 (by omega), h1]

/-- **C106, names**: the fully qualified name of a metric is the name that it is asked for with. -/
theorem C106_name (types : Types) (hb : types "base" ≠ some true) (calls : List Call) (hf : AllSteps (Fine types) (step types) empty calls) (p : Path) (i : Nat)
    (h : Dict.get? (runOps (step types) empty calls).1.reg p = some i) : fqn (runOps (step types) empty calls).1 (runOps (step types) empty calls).1.nodes.length i = p := by
  obtain ⟨_, _, ht, _⟩ := C106_get_metric types hb calls hf
  exact fqn_spec ht _ p i h (ht.lt h)

/-! Examples of types -/
def someTypes : Types := fun t => if t = "base" then some false else if t = "counter" ∨ t = "int" then some true else none

theorem unknown_loop {types : Types} {full : Path} {type : String} {level : Option Level} (hty : types type = none) (rest : List String) :
    ∀ (s : St) (cur : Option Nat) (pre : Path), rest ≠ [] → pre ++ rest = full → Dict.get? s.reg full = none →
      let r := loop types full type level s cur pre rest
      (r.2 = .keyError ∨ r.2 = .typeError) ∧ Dict.get? r.1.reg full = none := by
  have app : ∀ (s : St) (p c : Nat), (appendChild s p c).reg = s.reg := by
    intro s p c; unfold appendChild; split <;> rfl
  induction rest with
  | nil => intro s cur pre h; exact absurd rfl h
  | cons x rest ih =>
    intro s cur pre _ hfull hnone
    have hcons : loop types full type level s cur pre (x :: rest) =
        match process types s cur full type level (pre ++ [x]) with
        | (s', .ok id) => loop types full type level s' (some id) (pre ++ [x]) rest
        | (s', r) => (s', r) := by cases cur <;> rfl
    simp only [hcons]
    have hpre : pre ++ [x] ≠ [] := by simp
    by_cases hl : rest = []
    · have e : pre ++ [x] = full := by rw [← hfull, hl]
      have hp : process types s cur full type level (pre ++ [x]) = (s, .keyError) := by
        unfold process
        rw [e, hnone]
        simp only []
        rw [if_neg (by rw [← e]; exact hpre), if_pos ⟨trivial, hty⟩]
      rw [hp]
      exact ⟨Or.inl rfl, hnone⟩
    · have ne : pre ++ [x] ≠ full := by
        rw [← hfull]
        intro h
        apply hl
        have := congrArg List.length h
        simp at this
        exact this
      have next := fun (s' : St) (h' : Dict.get? s'.reg full = none) (id : Nat) => ih s' (some id) (pre ++ [x]) hl (by rw [← hfull]; simp) h'
      unfold process
      cases hg : Dict.get? s.reg (pre ++ [x]) with
      | some id => simp only []; exact next s hnone id
      | none =>
        simp only []
        rw [if_neg hpre, if_neg (fun h => ne h.1)]
        have hc : ∀ n, Dict.get? (create s (pre ++ [x]) n).reg full = none := by
          intro n
          unfold create
          rw [get?_set', if_neg (fun h => ne h.symm)]
          exact hnone
        cases cur with
        | none => simp only []; exact next _ (hc _) _
        | some p =>
          simp only [if_neg ne]
          generalize hs1 : create s (pre ++ [x]) _ = s1
          have h1 : Dict.get? s1.reg full = none := by rw [← hs1]; exact hc _
          by_cases hleaf : isLeaf types s1 p = true
          · rw [if_pos hleaf]; exact ⟨Or.inr rfl, h1⟩
          · rw [if_neg hleaf]; exact next _ (by rw [app]; exact h1) _

/-- **C107** (partial: metrics above are made all the same). A metric of a type that does not exist is never given nor made: the call raises (KeyError, or TypeError if there is a leaf metric above). -/
theorem C107_unknown_type_partial (types : Types) (s : St) (name : Path) (type : String) (level : Option Level) (hty : types type = none) (hn : name ≠ []) (h : Dict.get? s.reg name = none) :
    ((getMetric types s name type level).2 = .keyError ∨ (getMetric types s name type level).2 = .typeError) ∧ Dict.get? (getMetric types s name type level).1.reg name = none := by
  have hp : ∃ s1 root, process types s none name type level [] = (s1, .ok root) ∧ Dict.get? s1.reg name = none := by
    unfold process
    cases hg : Dict.get? s.reg [] with
    | some id => exact ⟨_, _, rfl, h⟩
    | none => exact ⟨_, _, rfl, by unfold create; rw [get?_set', if_neg hn]; exact h⟩
  obtain ⟨s1, root, hp, h1⟩ := hp
  have hl := unknown_loop (types := types) (type := type) (level := level) hty name s1 (some root) [] hn (List.nil_append name) h1
  unfold getMetric
  rw [h]
  simp only [hp]
  dsimp only at hl
  generalize loop types name type level s1 (some root) [] name = r at hl
  obtain ⟨s2, r⟩ := r
  cases r with
  | ok id => simp at hl
  | keyError => exact hl
  | typeError => exact hl
  | alreadyExists => simp at hl

/-- **C107, violated below a leaf**: asking for a metric below a leaf metric raises TypeError, but registers it; asked again, it is returned, although it is not in the tree, so it is never exported. -/
theorem C107_leaf_violates : let s := (runOps (step someTypes) empty [⟨["a"], "counter", none⟩, ⟨["a", "b"], "counter", none⟩, ⟨["a", "b"], "counter", none⟩])
    s.2 = [.ok 1, .typeError, .ok 2] ∧ ∀ n ∈ s.1.nodes, 2 ∉ n.children := by decide +kernel

/-- **C107, violated at the root**: asked for a counter, getMetric('') gives a base metric, the first time. -/
theorem C107_root_violates : let s := (runOps (step someTypes) empty [⟨[], "counter", none⟩, ⟨[], "counter", none⟩])
    s.2 = [.ok 0, .alreadyExists] ∧ s.1.nodes.map Node.kind = ["base"] := by decide +kernel

/-! Cases that meet the hypotheses -/
example : (step someTypes empty ⟨["a", "b"], "histogram", none⟩).2 = .keyError ∧ (step someTypes empty ⟨["a", "b"], "histogram", none⟩).1.reg.keys = [[], ["a"]] := by decide +kernel
example : (runOps (step someTypes) empty [⟨["a", "b"], "counter", some .debug⟩, ⟨["a"], "base", none⟩, ⟨["a", "b"], "int", none⟩, ⟨["a", "b"], "counter", none⟩]).2 = [.ok 2, .ok 1, .alreadyExists, .ok 2] := by decide +kernel
example : AllSteps (Fine someTypes) (step someTypes) empty [⟨["a", "b"], "counter", some .debug⟩] :=
  ⟨⟨by decide, by simp, by intro p x _ i n h; simp [empty] at h⟩, trivial⟩

/-! ## C107 -/

/-- the metrics reported by the root, with their names: `to_metric_data` (base.py:117-127) without the levels and data, bounded by the number of metrics; /repo/satella/instrumentation/metrics/metric_types/base.py:117-127 -/
def reported (s : St) : Nat → Nat → List Nat
  | 0, _ => []
  | fuel + 1, id =>
    match s.nodes[id]? with
    | some n => id :: n.children.flatMap (reported s fuel)
    | none => []

/-- **C107, violated**: a metric that is reset is removed from the registry, but stays a child of the metric above.  So it is still reported; and if it is asked for again, it is there twice, and the old data is reported together with the new. -/
theorem C107_reset_violates : let s0 := (runOps (step someTypes) empty [⟨["a"], "counter", none⟩]).1
    let s1 := (reset s0 1).1
    let s2 := (step someTypes s1 ⟨["a"], "counter", none⟩).1
    (reset s0 1).2 = true ∧ Dict.get? s1.reg ["a"] = none ∧ reported s1 5 0 = [0, 1] ∧ reported s2 5 0 = [0, 1, 2] ∧ (s2.nodes.map Node.part) = ["", "a", "a"] := by decide +kernel

/-- **C107** (partial: for the root). After resetting the root there are no metrics, and the root has no children. -/
theorem C107_reset_root_partial (s : St) (h : Tree s) (i : Nat) (hi : Dict.get? s.reg [] = some i) (n : Node) (hn : s.nodes[i]? = some n) (hp : n.part = "") :
    (reset s i).2 = true ∧ (∀ p, Dict.get? (reset s i).1.reg p = none) ∧ Tree (reset s i).1 ∧ ∃ m, (reset s i).1.nodes[i]? = some m ∧ m.children = [] := by
  have hlt := h.lt hi
  have e : reset s i = ({ nodes := s.nodes.set i { n with children := [] }, reg := [] }, true) := by
    simp only [reset, hn, hp, if_true]
  rw [e]
  refine ⟨rfl, fun p => rfl, ?_, ?_⟩
  · constructor <;> simp
  · exact ⟨{ n with children := [] }, by simp [hlt], rfl⟩

example : ∃ n, (runOps (step someTypes) empty [⟨["a"], "counter", none⟩]).1.nodes[0]? = some n ∧ n.part = "" := ⟨_, rfl, rfl⟩

end Verif.MetricTree
