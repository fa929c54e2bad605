import Verif.Py.Basic
import Verif.Metrics.Data
/-!
# Model of MetricData.to_json and from_json (satella/instrumentation/metrics/data.py), and C59
-/
namespace Verif.Metrics
open Verif

/-- JSON values that can occur.  (Part of the model of `MetricData`, /repo/satella/instrumentation/metrics/data.py:14-68.) -/
inductive J where
  | null
  | bool (b : Bool)
  | int (i : Int)
  | str (s : Name)
  deriving DecidableEq, Repr

/-- `MetricData` with labels that are a dictionary, /repo/satella/instrumentation/metrics/data.py:14-24 -/
abbrev JMD := MD (Dict Name J) J

/-- `{**d, **e}`: the items of `e` are put into `d`.  (Part of the model of `MetricData`, /repo/satella/instrumentation/metrics/data.py:14-68.) -/
def putAll (d e : Dict Name J) : Dict Name J := e.foldl (fun d p => Dict.set d p.1 p.2) d

/-- the keys of JSON, /repo/satella/instrumentation/metrics/data.py:45-52 -/
def kName : Name := "_name".toList
/-- the key of the value, /repo/satella/instrumentation/metrics/data.py:46 -/
def kValue : Name := "_".toList
/-- the key of the timestamp, /repo/satella/instrumentation/metrics/data.py:50 -/
def kTs : Name := "_timestamp".toList
/-- the key of the internal flag, /repo/satella/instrumentation/metrics/data.py:52 -/
def kInternal : Name := "_internal".toList

/-- `to_json`, /repo/satella/instrumentation/metrics/data.py:43-53 -/
def toJson (pre : Name) (m : JMD) : Dict Name J :=
  let k := putAll (Dict.set (Dict.set [] kName (.str (joinName pre m.name))) kValue m.value) m.labels
  let k := match m.ts with | none => k | some t => Dict.set k kTs (.int t)
  if m.internal then Dict.set k kInternal (.bool true) else k

/-- `_name` is used as a name, whatever it is; the model has no name for what is not a string.  (Part of the model of `MetricData`, /repo/satella/instrumentation/metrics/data.py:14-68.) -/
def asName : J → Option Name
  | .str s => some s
  | _ => none

/-- `_timestamp`; None, or a number.  (Part of the model of `MetricData`, /repo/satella/instrumentation/metrics/data.py:14-68.) -/
def asTs : Option J → Option Int
  | some (.int i) => some i
  | _ => none

/-- `_internal`.  (Part of the model of `MetricData`, /repo/satella/instrumentation/metrics/data.py:14-68.) -/
def asFlag : Option J → Bool
  | some (.bool b) => b
  | _ => false

/-- `from_json`, /repo/satella/instrumentation/metrics/data.py:60-65: pops the keys, the rest are labels.  `other 1`: the name is not a string (the code would go on with it) -/
def fromJson (x : Dict Name J) : Except Exc JMD :=
  match Dict.get? x kName with
  | none => .error .keyError
  | some jn =>
    match Dict.get? (Dict.del x kName) kValue with
    | none => .error .keyError
    | some v =>
      match asName jn with
      | none => .error (.other 1)
      | some n =>
        let x := Dict.del (Dict.del x kName) kValue
        let ts := Dict.get? x kTs
        let x := Dict.del x kTs
        let int := Dict.get? x kInternal
        .ok { name := n, value := v, labels := Dict.del x kInternal, ts := asTs ts, internal := asFlag int }

/-- `MetricDataCollection.to_json`, /repo/satella/instrumentation/metrics/data.py:100-101 -/
def collToJson (l : List JMD) : List (Dict Name J) := l.map (toJson [])

/-- `MetricDataCollection.from_json`, /repo/satella/instrumentation/metrics/data.py:119-121, before the entries are put in a set -/
def collFromJson : List (Dict Name J) → Except Exc (List JMD)
  | [] => .ok []
  | x :: l =>
    match fromJson x with
    | .error e => .error e
    | .ok m =>
      match collFromJson l with
      | .error e => .error e
      | .ok ms => .ok (m :: ms)

/-! ## C59 -/

/-- no label has a name that JSON uses for something else -/
def Plain (m : JMD) : Prop := Dict.WF m.labels ∧ ∀ k ∈ Dict.keys m.labels, k ≠ kName ∧ k ≠ kValue ∧ k ≠ kTs ∧ k ≠ kInternal

/-- the same entry; its labels are the same dictionary -/
def SameMD (a b : JMD) : Prop := a.name = b.name ∧ a.value = b.value ∧ a.ts = b.ts ∧ a.internal = b.internal ∧ ∀ k, Dict.get? a.labels k = Dict.get? b.labels k

theorem get_putAll (e : Dict Name J) : ∀ (d : Dict Name J), Dict.WF e → ∀ k, Dict.get? (putAll d e) k = (Dict.get? e k).or (Dict.get? d k) := by
  induction e with
  | nil => intro d _ k; rfl
  | cons p e ih =>
    intro d hw k
    have hw' := List.nodup_cons.1 hw
    have hp : Dict.get? e p.1 = none := (Dict.get?_eq_none_iff e p.1).2 hw'.1
    show Dict.get? (putAll (Dict.set d p.1 p.2) e) k = _
    rw [ih _ hw'.2, Dict.get?_set, Dict.get?_cons]
    by_cases hk : k = p.1
    · subst hk; simp [hp]
    · have hk' : ¬ p.1 = k := fun h => hk h.symm
      simp [hk, hk']

theorem ne_keys : kValue ≠ kName ∧ kTs ≠ kName ∧ kInternal ≠ kName ∧ kTs ≠ kValue ∧ kInternal ≠ kValue ∧ kInternal ≠ kTs := by
  refine ⟨?_, ?_, ?_, ?_, ?_, ?_⟩ <;> decide

theorem get_toJson (pre : Name) (m : JMD) (h : Plain m) (k : Name) :
    Dict.get? (toJson pre m) k = if k = kInternal then (if m.internal then some (.bool true) else none)
      else if k = kTs then m.ts.map J.int
      else if k = kValue then some m.value
      else if k = kName then some (.str (joinName pre m.name)) else Dict.get? m.labels k := by
  obtain ⟨n1, n2, n3, n4, n5, n6⟩ := ne_keys
  have hno : ∀ k', k' = kName ∨ k' = kValue ∨ k' = kTs ∨ k' = kInternal → Dict.get? m.labels k' = none := by
    intro k' hk'
    rw [Dict.get?_eq_none_iff]
    intro hm
    obtain ⟨h1, h2, h3, h4⟩ := h.2 k' hm
    rcases hk' with h | h | h | h <;> contradiction
  have base : ∀ k, Dict.get? (putAll (Dict.set (Dict.set [] kName (.str (joinName pre m.name))) kValue m.value) m.labels) k =
      if k = kValue then some m.value else if k = kName then some (.str (joinName pre m.name)) else Dict.get? m.labels k := by
    intro k
    rw [get_putAll _ _ h.1, Dict.get?_set, Dict.get?_set]
    by_cases h1 : k = kValue
    · simp [h1, hno kValue (by simp)]
    · by_cases h2 : k = kName
      · simp [h2, hno kName (by simp), n1, n1.symm]
      · have h1' : ¬ kValue = k := fun h => h1 h.symm
        have h2' : ¬ kName = k := fun h => h2 h.symm
        simp [h1, h2, h1', h2']
  unfold toJson
  dsimp only
  by_cases h1 : k = kInternal
  · subst h1
    cases hm : m.internal <;> cases ht : m.ts <;> simp [base, n1, n2, n3, n4, n5, n6, n1.symm, n2.symm, n3.symm, n4.symm, n5.symm, n6.symm, hno kInternal]
  · by_cases h2 : k = kTs
    · subst h2
      cases hm : m.internal <;> cases ht : m.ts <;> simp [base, n1, n2, n3, n4, n5, n6, n1.symm, n2.symm, n3.symm, n4.symm, n5.symm, n6.symm, hno kTs]
    · have h1' : ¬ kInternal = k := fun h => h1 h.symm
      have h2' : ¬ kTs = k := fun h => h2 h.symm
      cases hm : m.internal <;> cases ht : m.ts <;> simp [base, h1, h2, h1', h2']

/-- **C59, JSON** (partial: no label is called `_name`, `_`, `_timestamp` or `_internal`). An entry read back from its JSON is the entry: name, value, timestamp, internal flag and labels. -/
theorem C59_json_partial (m : JMD) (h : Plain m) : ∃ m', fromJson (toJson [] m) = .ok m' ∧ SameMD m' m := by
  obtain ⟨n1, n2, n3, n4, n5, n6⟩ := ne_keys
  have g := get_toJson [] m h
  have hn : Dict.get? (toJson [] m) kName = some (.str m.name) := by rw [g]; simp [n3.symm, n2.symm, n1.symm, joinName]
  have hv : Dict.get? (Dict.del (toJson [] m) kName) kValue = some m.value := by rw [Dict.get?_del, g]; simp [n1, n2, n3, n4, n5, n6, n1.symm, n2.symm, n3.symm, n4.symm, n5.symm, n6.symm]
  unfold fromJson
  rw [hn]
  simp only [hv, asName]
  refine ⟨_, rfl, rfl, rfl, ?_, ?_, fun k => ?_⟩
  · simp only [Dict.get?_del, g]
    cases m.ts <;> simp [asTs, n1, n2, n3, n4, n5, n6, n1.symm, n2.symm, n3.symm, n4.symm, n5.symm, n6.symm]
  · simp only [Dict.get?_del, g]
    cases m.internal <;> simp [asFlag, n1, n2, n3, n4, n5, n6, n1.symm, n2.symm, n3.symm, n4.symm, n5.symm, n6.symm]
  · have hno : ∀ k', k' = kName ∨ k' = kValue ∨ k' = kTs ∨ k' = kInternal → Dict.get? m.labels k' = none := by
      intro k' hk'
      rw [Dict.get?_eq_none_iff]
      intro hm
      obtain ⟨h1, h2, h3, h4⟩ := h.2 k' hm
      rcases hk' with h | h | h | h <;> contradiction
    simp only [Dict.get?_del, g]
    by_cases h1 : k = kInternal
    · simp [h1, hno kInternal]
    · by_cases h2 : k = kTs
      · simp [h2, hno kTs]
      · by_cases h3 : k = kValue
        · simp [h3, hno kValue]
        · by_cases h4 : k = kName
          · simp [h4, hno kName]
          · have h1' : ¬ kInternal = k := fun h => h1 h.symm
            have h2' : ¬ kTs = k := fun h => h2 h.symm
            have h3' : ¬ kValue = k := fun h => h3 h.symm
            have h4' : ¬ kName = k := fun h => h4 h.symm
            simp [h1, h2, h3, h4, h1', h2', h3', h4']

/-- **C59, collections** (partial, likewise): all entries are read back, in order. -/
theorem C59_collection_partial (l : List JMD) (h : ∀ m ∈ l, Plain m) :
    ∃ l', collFromJson (collToJson l) = .ok l' ∧ l'.length = l.length ∧ ∀ (i : Nat) (m m' : JMD), l[i]? = some m → l'[i]? = some m' → SameMD m' m := by
  induction l with
  | nil => exact ⟨[], rfl, rfl, fun i m m' h => by simp at h⟩
  | cons a l ih =>
    obtain ⟨l', h1, h2, h3⟩ := ih (fun m hm => h m (List.mem_cons_of_mem _ hm))
    obtain ⟨a', ha, hs⟩ := C59_json_partial a (h a (List.mem_cons_self ..))
    refine ⟨a' :: l', ?_, by simp [h2], ?_⟩
    · simp only [collToJson, List.map_cons, collFromJson, ha]
      have h1' : collFromJson (l.map (toJson [])) = .ok l' := h1
      rw [h1']
    · intro i m m' hm hm'
      cases i with
      | zero => simp at hm hm'; subst hm hm'; exact hs
      | succ i => exact h3 i m m' (by simpa using hm) (by simpa using hm')

/-- **C59, violated** by a label called `_name`: it takes the place of the name. -/
theorem C59_reserved_violates :
    fromJson (toJson [] { name := "hits".toList, value := .int 3, labels := [(kName, .str "x".toList)], ts := none, internal := false }) =
      .ok { name := "x".toList, value := .int 3, labels := [], ts := none, internal := false } := by rfl

/-! A concrete case. -/

example : Plain { name := "hits".toList, value := .int 3, labels := [("host".toList, .str "a".toList), ("port".toList, .int 80)], ts := some 12, internal := true } := by
  refine ⟨by simp [Dict.WF], ?_⟩
  intro k hk
  simp [Dict.keys] at hk
  rcases hk with rfl | rfl <;> decide
example : fromJson (toJson [] { name := "hits".toList, value := .int 3, labels := [("host".toList, .str "a".toList), ("port".toList, .int 80)], ts := some 12, internal := true }) =
    .ok { name := "hits".toList, value := .int 3, labels := [("host".toList, .str "a".toList), ("port".toList, .int 80)], ts := some 12, internal := true } := by rfl

end Verif.Metrics
