/-!
# Python dictionaries and sets

A `dict` is an association list in insertion order.  `set` keeps the position of an existing key and appends a
new one, as Python does; `del` removes the key (use only when present; Python raises
KeyError otherwise, which the models test explicitly); a Python `set` is a duplicate-free list.
-/
namespace Verif

abbrev Dict (κ ν : Type _) := List (κ × ν)

namespace Dict
variable {κ ν : Type _} [DecidableEq κ]

/-- `d.get(k)` -/
def get? : Dict κ ν → κ → Option ν
  | [], _ => none
  | (k', v) :: d, k => if k' = k then some v else get? d k

/-- `k in d` -/
def has (d : Dict κ ν) (k : κ) : Bool := (get? d k).isSome

/-- `d[k] = v` -/
def set : Dict κ ν → κ → ν → Dict κ ν
  | [], k, v => [(k, v)]
  | (k', v') :: d, k, v => if k' = k then (k', v) :: d else (k', v') :: set d k v

/-- `del d[k]` (no-op when absent) -/
def del (d : Dict κ ν) (k : κ) : Dict κ ν := d.filter (fun p => decide (p.1 ≠ k))

/-- `list(d.keys())` -/
def keys (d : Dict κ ν) : List κ := d.map Prod.fst

/-- dictionaries have at most one entry per key -/
def WF (d : Dict κ ν) : Prop := (d.map Prod.fst).Nodup

@[simp] theorem get?_nil (k : κ) : get? ([] : Dict κ ν) k = none := rfl

theorem get?_cons (p : κ × ν) (d : Dict κ ν) (k : κ) :
    get? (p :: d) k = if p.1 = k then some p.2 else get? d k := rfl

@[simp] theorem get?_set (d : Dict κ ν) (k : κ) (v : ν) (k' : κ) :
    get? (set d k v) k' = if k = k' then some v else get? d k' := by
  induction d with
  | nil => simp [set, get?]
  | cons p d ih =>
    simp only [set]
    split
    · rename_i h; subst h
      simp only [get?]; split <;> simp_all
    · rename_i h
      simp only [get?, ih]
      split <;> split <;> simp_all

@[simp] theorem get?_del (d : Dict κ ν) (k k' : κ) :
    get? (del d k) k' = if k = k' then none else get? d k' := by
  induction d with
  | nil => simp [del, get?]
  | cons p d ih =>
    unfold del at ih ⊢
    simp only [List.filter_cons]
    by_cases hp : p.1 = k
    · simp only [hp]
      simp only [ne_eq, not_true_eq_false, decide_false, Bool.false_eq_true, ↓reduceIte]
      rw [ih, get?_cons, hp]
      split <;> rfl
    · simp only [ne_eq, hp, not_false_eq_true, decide_true, ↓reduceIte]
      rw [get?_cons, get?_cons, ih]
      split <;> split <;> simp_all

theorem get?_isSome_iff (d : Dict κ ν) (k : κ) : (get? d k).isSome ↔ k ∈ keys d := by
  induction d with
  | nil => simp [keys]
  | cons p d ih =>
    simp only [get?_cons, keys, List.map_cons, List.mem_cons]
    split
    · simp_all
    · rename_i h
      rw [ih]; unfold keys
      constructor
      · exact Or.inr
      · rintro (h' | h')
        · exact absurd h'.symm h
        · exact h'

theorem get?_eq_none_iff (d : Dict κ ν) (k : κ) : get? d k = none ↔ k ∉ keys d := by
  rw [← get?_isSome_iff]
  cases get? d k <;> simp

theorem mem_of_get? {d : Dict κ ν} {k : κ} {v : ν} (h : get? d k = some v) : (k, v) ∈ d := by
  induction d with
  | nil => simp at h
  | cons p d ih =>
    rw [get?_cons] at h
    split at h
    · rename_i e; cases h; subst e; simp
    · exact List.mem_cons_of_mem _ (ih h)

theorem get?_of_mem {d : Dict κ ν} (hw : WF d) {k : κ} {v : ν} (h : (k, v) ∈ d) :
    get? d k = some v := by
  induction d with
  | nil => simp at h
  | cons p d ih =>
    unfold WF at hw ih
    rw [List.map_cons, List.nodup_cons] at hw
    rw [get?_cons]
    rcases List.mem_cons.1 h with rfl | h
    · simp
    · split
      · rename_i e
        exact absurd (e ▸ List.mem_map_of_mem (f := Prod.fst) h) hw.1
      · exact ih hw.2 h

theorem mem_iff {d : Dict κ ν} (hw : WF d) {k : κ} {v : ν} :
    (k, v) ∈ d ↔ get? d k = some v := ⟨get?_of_mem hw, mem_of_get?⟩

theorem keys_set (d : Dict κ ν) (k : κ) (v : ν) :
    keys (set d k v) = if k ∈ keys d then keys d else keys d ++ [k] := by
  induction d with
  | nil => simp [set, keys]
  | cons p d ih =>
    simp only [set]
    unfold keys at ih ⊢
    split
    · rename_i h; simp [← h]
    · rename_i h
      simp only [List.map_cons, ih, List.mem_cons]
      have h' : ¬ k = p.1 := fun e => h e.symm
      simp only [h', false_or]
      split <;> simp

theorem keys_del (d : Dict κ ν) (k : κ) : keys (del d k) = (keys d).filter (fun x => decide (x ≠ k)) := by
  unfold keys del
  rw [List.filter_map]
  rfl

omit [DecidableEq κ] in
theorem wf_nil : WF ([] : Dict κ ν) := by simp [WF]

theorem wf_set {d : Dict κ ν} (h : WF d) (k : κ) (v : ν) : WF (set d k v) := by
  show (keys (set d k v)).Nodup
  rw [keys_set]
  split
  · exact h
  · rename_i hk
    rw [List.nodup_append]
    refine ⟨h, by simp, ?_⟩
    intro a ha b hb e
    simp at hb; subst hb; subst e; exact hk ha

theorem wf_del {d : Dict κ ν} (h : WF d) (k : κ) : WF (del d k) := by
  show (keys (del d k)).Nodup
  rw [keys_del]
  exact List.Nodup.sublist List.filter_sublist h

theorem set_of_not_mem {d : Dict κ ν} {k : κ} (h : k ∉ keys d) (v : ν) :
    set d k v = d ++ [(k, v)] := by
  induction d with
  | nil => rfl
  | cons p d ih =>
    simp only [keys, List.map_cons, List.mem_cons, not_or] at h
    simp only [set]
    rw [if_neg (fun e => h.1 e.symm), ih h.2]
    rfl

theorem mem_keys_set {d : Dict κ ν} {k k' : κ} {v : ν} :
    k' ∈ keys (set d k v) ↔ k' = k ∨ k' ∈ keys d := by
  rw [← get?_isSome_iff, ← get?_isSome_iff, get?_set]
  split
  · rename_i h; simp [h]
  · rename_i h
    have : ¬ k' = k := fun e => h e.symm
    simp [this]

theorem mem_keys_del {d : Dict κ ν} {k k' : κ} :
    k' ∈ keys (del d k) ↔ k' ≠ k ∧ k' ∈ keys d := by
  rw [keys_del]; simp [and_comm]

theorem length_set_le (d : Dict κ ν) (k : κ) (v : ν) : (set d k v).length ≤ d.length + 1 := by
  induction d with
  | nil => simp [set]
  | cons p d ih => simp only [set]; split <;> simp <;> omega

theorem length_set_mem {d : Dict κ ν} {k : κ} (h : k ∈ keys d) (v : ν) :
    (set d k v).length = d.length := by
  have := keys_set d k v
  rw [if_pos h] at this
  have := congrArg List.length this
  simpa [keys] using this

theorem length_del_le (d : Dict κ ν) (k : κ) : (del d k).length ≤ d.length :=
  List.length_filter_le _ _

theorem length_del_lt {d : Dict κ ν} {k : κ} (h : k ∈ keys d) : (del d k).length < d.length := by
  unfold del
  rw [List.length_filter_lt_length_iff_exists]
  unfold keys at h
  rw [List.mem_map] at h
  obtain ⟨p, hp, rfl⟩ := h
  exact ⟨p, hp, by simp⟩

end Dict

/-- Python `set`s as duplicate-free lists: `s.add(x)`. -/
def setAdd {α : Type _} [DecidableEq α] (s : List α) (x : α) : List α :=
  if x ∈ s then s else s ++ [x]

/-- `set(iterable)` -/
def setOf {α : Type _} [DecidableEq α] (l : List α) : List α := l.foldl setAdd []

theorem mem_setAdd {α : Type _} [DecidableEq α] {s : List α} {x y : α} :
    y ∈ setAdd s x ↔ y = x ∨ y ∈ s := by
  unfold setAdd; split
  · constructor
    · exact Or.inr
    · rintro (rfl | h) <;> assumption
  · simp [or_comm]

theorem nodup_setAdd {α : Type _} [DecidableEq α] {s : List α} {x : α} (h : s.Nodup) :
    (setAdd s x).Nodup := by
  unfold setAdd; split
  · exact h
  · rename_i hx
    rw [List.nodup_append]
    refine ⟨h, by simp, ?_⟩
    intro a ha b hb e
    simp at hb; subst hb; subst e; exact hx ha

theorem mem_setOf {α : Type _} [DecidableEq α] {l : List α} {y : α} : y ∈ setOf l ↔ y ∈ l := by
  unfold setOf
  suffices h : ∀ s : List α, y ∈ l.foldl setAdd s ↔ y ∈ s ∨ y ∈ l by simpa using h []
  induction l with
  | nil => simp
  | cons a l ih =>
    intro s
    rw [List.foldl_cons, ih, mem_setAdd, List.mem_cons]
    constructor
    · rintro ((h | h) | h) <;> simp [h]
    · rintro (h | h | h) <;> simp [h]

theorem nodup_setOf {α : Type _} [DecidableEq α] (l : List α) : (setOf l).Nodup := by
  unfold setOf
  suffices h : ∀ s : List α, s.Nodup → (l.foldl setAdd s).Nodup from h [] (by simp)
  induction l with
  | nil => intro s h; exact h
  | cons a l ih => intro s h; exact ih _ (nodup_setAdd h)

end Verif
