/-!
# Tainting (satella/debug/tainting/tainteds.py), C135, C136

Expressions evaluated within a tainting session.  Values are numbers (True and False are 1 and 0) and lists; ordering of lists, attributes and calls are not modelled, nor that tainting a list taints its elements in place.
-/
namespace Verif.Tainting

/-! ## Model -/

/-- values; `tainted w` is a TaintedObject whose value is `w`.  /repo/satella/debug/tainting/tainteds.py:33-47 -/
inductive W
  | int (n : Int)
  | list (l : List W)
  | tainted (w : W)

/-- values without taints; /repo/satella/debug/tainting/tainteds.py:175-183 -/
inductive V
  | int (n : Int)
  | list (l : List V)

mutual

/-- `taint`: objects already tainted are left; elements of a list are tainted too.  /repo/satella/debug/tainting/tainteds.py:186-192, :41-50 -/
def taint : W → W
  | .int n => .tainted (.int n)
  | .list l => .tainted (.list (taintAll l))
  | .tainted w => .tainted w

/-- the loop over elements, /repo/satella/debug/tainting/tainteds.py:48-50 -/
def taintAll : List W → List W
  | [] => []
  | w :: l => taint w :: taintAll l

end

/-- `access_tainted`, /repo/satella/debug/tainting/tainteds.py:175-183 -/
def access : W → W
  | .tainted w => w
  | w => w

mutual

/-- what a value is worth, without any taints; used for equality of lists, whose elements are compared with `__eq__` of tainted objects.  /repo/satella/debug/tainting/tainteds.py:108-110, :93-94 -/
def erase : W → V
  | .int n => .int n
  | .list l => .list (eraseAll l)
  | .tainted w => erase w

/-- elements of a list, /repo/satella/debug/tainting/tainteds.py:108-110 -/
def eraseAll : List W → List V
  | [] => []
  | w :: l => erase w :: eraseAll l

end

mutual

/-- equality of values without taints (Python), /repo/satella/debug/tainting/tainteds.py:110 -/
def beq : V → V → Bool
  | .int n, .int m => n = m
  | .list l, .list m => beqAll l m
  | _, _ => false

/-- equality of elements (Python), /repo/satella/debug/tainting/tainteds.py:110 -/
def beqAll : List V → List V → Bool
  | [], [] => true
  | a :: l, b :: m => beq a b && beqAll l m
  | _, _ => false

end

/-- a comparison other than `!=`, /repo/satella/debug/tainting/tainteds.py:108-126 -/
inductive Cmp | eq | lt | le | gt | ge

/-- comparison of numbers (Python), /repo/satella/debug/tainting/tainteds.py:108-126 -/
def Cmp.ints : Cmp → Int → Int → Bool
  | .eq, a, b => a = b
  | .lt, a, b => a < b
  | .le, a, b => a ≤ b
  | .gt, a, b => a > b
  | .ge, a, b => a ≥ b

/-- a comparison as a number; /repo/satella/debug/tainting/tainteds.py:108-126 -/
def ofBool (b : Bool) : W := .int (if b then 1 else 0)

/-- `a + b` of values that are not tainted; `none` is a TypeError.  /repo/satella/debug/tainting/tainteds.py:130, :134 -/
def rawAdd : W → W → Option W
  | .int a, .int b => some (.int (a + b))
  | .list a, .list b => some (.list (a ++ b))
  | _, _ => none

/-- `a - b`, /repo/satella/debug/tainting/tainteds.py:143 -/
def rawSub : W → W → Option W
  | .int a, .int b => some (.int (a - b))
  | _, _ => none

/-- a list repeated, /repo/satella/debug/tainting/tainteds.py:152 -/
def repeated {α : Type} (l : List α) (n : Int) : List α := (List.replicate n.toNat l).flatten

/-- `a * b`, /repo/satella/debug/tainting/tainteds.py:152 -/
def rawMul : W → W → Option W
  | .int a, .int b => some (.int (a * b))
  | .list a, .int b => some (.list (repeated a b))
  | .int a, .list b => some (.list (repeated b a))
  | _, _ => none

/-- `a < b` and so on, /repo/satella/debug/tainting/tainteds.py:108-126 -/
def rawCmp (c : Cmp) : W → W → Option W
  | .int a, .int b => some (ofBool (c.ints a b))
  | a, b => match c with
    | .eq => some (ofBool (beq (erase a) (erase b)))
    | _ => none

/-- a binary operator with a reflected method: `__add__` and `__radd__`, and comparisons, whose reflection is another comparison.  /repo/satella/debug/tainting/tainteds.py:108-134, with might_accept_tainted at :9-30 -/
def both (f : W → W → Option W) (a b : W) : Option W :=
  match a, b with
  | .tainted v, b => (f v (access b)).map taint
  | a, .tainted v => (f a v).map taint
  | a, b => f a b

/-- a binary operator without a reflected method: TypeError if only the right operand is tainted.  /repo/satella/debug/tainting/tainteds.py:141-143, :150-152 -/
def left (f : W → W → Option W) (a b : W) : Option W :=
  match a, b with
  | .tainted v, b => (f v (access b)).map taint
  | _, .tainted _ => none
  | a, b => f a b

/-- `a != b`: there is no `__ne__`, so Python negates the truth of `__eq__`, which is a plain bool.  /repo/satella/debug/tainting/tainteds.py:108-110 -/
def ne (a b : W) : W := ofBool (!beq (erase a) (erase b))

/-- `l[k]` of a list (Python), /repo/satella/debug/tainting/tainteds.py:165-166 -/
def item {α : Type} (l : List α) (k : Int) : Option α :=
  if 0 ≤ k then l[k.toNat]? else if -k ≤ l.length then l[l.length - (-k).toNat]? else none

/-- `a[k]`: a tainted index has no `__index__`, so it raises TypeError.  /repo/satella/debug/tainting/tainteds.py:165-166 -/
def getitem : W → W → Option W
  | .tainted (.list l), .int k => (item l k).map taint
  | .list l, .int k => item l k
  | _, _ => none

/-- expressions of a program; /repo/satella/debug/tainting/tainteds.py:108-166 -/
inductive Expr
  | var (i : Nat)
  | const (n : Int)
  | add (a b : Expr)
  | sub (a b : Expr)
  | mul (a b : Expr)
  | cmp (c : Cmp) (a b : Expr)
  | ne (a b : Expr)
  | index (a b : Expr)

/-- evaluation within a session, `ρ` has the variables; /repo/satella/debug/tainting/tainteds.py:108-166 -/
def eval (ρ : Nat → W) : Expr → Option W
  | .var i => some (ρ i)
  | .const n => some (.int n)
  | .add a b => (eval ρ a).bind fun x => (eval ρ b).bind fun y => both rawAdd x y
  | .sub a b => (eval ρ a).bind fun x => (eval ρ b).bind fun y => left rawSub x y
  | .mul a b => (eval ρ a).bind fun x => (eval ρ b).bind fun y => left rawMul x y
  | .cmp c a b => (eval ρ a).bind fun x => (eval ρ b).bind fun y => both (rawCmp c) x y
  | .ne a b => (eval ρ a).bind fun x => (eval ρ b).bind fun y => some (ne x y)
  | .index a b => (eval ρ a).bind fun x => (eval ρ b).bind fun y => getitem x y

/-- iteration, /repo/satella/debug/tainting/tainteds.py:68-70 -/
def iterate : W → Option (List W)
  | .tainted (.list l) => some (l.map taint)
  | .list l => some l
  | _ => none

/-! ## Specification: the same program without tainting -/

/-- numbers of truth values -/
def bit (b : Bool) : V := .int (if b then 1 else 0)

/-- addition -/
def addV : V → V → Option V
  | .int a, .int b => some (.int (a + b))
  | .list a, .list b => some (.list (a ++ b))
  | _, _ => none

/-- subtraction -/
def subV : V → V → Option V
  | .int a, .int b => some (.int (a - b))
  | _, _ => none

/-- multiplication and repetition -/
def mulV : V → V → Option V
  | .int a, .int b => some (.int (a * b))
  | .list a, .int b => some (.list (repeated a b))
  | .int a, .list b => some (.list (repeated b a))
  | _, _ => none

/-- comparisons -/
def cmpV (c : Cmp) : V → V → Option V
  | .int a, .int b => some (bit (c.ints a b))
  | a, b => match c with
    | .eq => some (bit (beq a b))
    | _ => none

/-- items: numbers below zero count from the end -/
def itemV : V → V → Option V
  | .list l, .int k =>
    let j := if k < 0 then l.length + k else k
    if j < 0 then none else l[j.toNat]?
  | _, _ => none

/-- evaluation without tainting -/
def evalV (ρ : Nat → V) : Expr → Option V
  | .var i => some (ρ i)
  | .const n => some (.int n)
  | .add a b => (evalV ρ a).bind fun x => (evalV ρ b).bind fun y => addV x y
  | .sub a b => (evalV ρ a).bind fun x => (evalV ρ b).bind fun y => subV x y
  | .mul a b => (evalV ρ a).bind fun x => (evalV ρ b).bind fun y => mulV x y
  | .cmp c a b => (evalV ρ a).bind fun x => (evalV ρ b).bind fun y => cmpV c x y
  | .ne a b => (evalV ρ a).bind fun x => (evalV ρ b).bind fun y => some (bit (!beq x y))
  | .index a b => (evalV ρ a).bind fun x => (evalV ρ b).bind fun y => itemV x y

/-- it is a TaintedObject -/
def Tainted : W → Prop
  | .tainted _ => True
  | _ => False

/-- the expression reads the variable, and not only within operands of `!=` -/
def Reads (i : Nat) : Expr → Prop
  | .var j => i = j
  | .const _ => False
  | .add a b | .sub a b | .mul a b | .cmp _ a b | .index a b => Reads i a ∨ Reads i b
  | .ne _ _ => False

/-- neither the value nor anything within is tainted -/
inductive Clean : W → Prop
  | int (n) : Clean (.int n)
  | list (l : List W) : (∀ w ∈ l, Clean w) → Clean (.list l)

/-- values that exist: a TaintedObject never holds a TaintedObject itself -/
inductive WF : W → Prop
  | int (n) : WF (.int n)
  | list (l : List W) : (∀ w ∈ l, WF w) → WF (.list l)
  | tint (n) : WF (.tainted (.int n))
  | tlist (l : List W) : (∀ w ∈ l, WF w) → WF (.tainted (.list l))

/-! ## Proofs -/

theorem taintAll_eq (l : List W) : taintAll l = l.map taint := by
  induction l with
  | nil => rfl
  | cons w l ih => simp [taintAll, ih]

theorem eraseAll_eq (l : List W) : eraseAll l = l.map erase := by
  induction l with
  | nil => rfl
  | cons w l ih => simp [eraseAll, ih]

mutual

theorem erase_taint : ∀ w : W, erase (taint w) = erase w
  | .int n => by simp [taint, erase]
  | .list l => by simp only [taint, erase, erase_taintAll l]
  | .tainted w => by simp [taint, erase]

theorem erase_taintAll : ∀ l : List W, eraseAll (taintAll l) = eraseAll l
  | [] => rfl
  | w :: l => by simp only [taintAll, eraseAll, erase_taint w, erase_taintAll l]

end

theorem erase_access (w : W) : erase (access w) = erase w := by cases w <;> simp [access, erase]

theorem tainted_taint (w : W) : Tainted (taint w) := by cases w <;> simp [taint, Tainted]

theorem wf_taint {w : W} (h : WF w) : WF (taint w) := by
  induction h with
  | int n => exact .tint _
  | list l _ ih =>
    simp only [taint, taintAll_eq]
    refine .tlist _ (fun w hw => ?_)
    obtain ⟨x, hx, rfl⟩ := List.mem_map.1 hw
    exact ih x hx
  | tint n => exact .tint _
  | tlist l h _ => exact .tlist _ h

/-- a value that is not tainted -/
inductive Raw : W → Prop
  | int (n) : Raw (.int n)
  | list (l : List W) : (∀ w ∈ l, WF w) → Raw (.list l)

theorem raw_wf {w : W} (h : Raw w) : WF w := by
  cases h with
  | int n => exact .int _
  | list l h => exact .list _ h

theorem wf_cases {w : W} (h : WF w) : Raw w ∨ ∃ v, w = .tainted v ∧ Raw v := by
  cases h with
  | int n => exact Or.inl (.int _)
  | list l h => exact Or.inl (.list _ h)
  | tint n => exact Or.inr ⟨_, rfl, .int _⟩
  | tlist l h => exact Or.inr ⟨_, rfl, .list _ h⟩

/-- an operation on values that are not tainted does what one on plain values does -/
def Lifts (f : W → W → Option W) (g : V → V → Option V) : Prop :=
  ∀ a b, Raw a → Raw b → (f a b).map erase = g (erase a) (erase b) ∧ ∀ w, f a b = some w → WF w

theorem repeated_map {α β : Type} (f : α → β) (l : List α) (n : Int) : (repeated l n).map f = repeated (l.map f) n := by
  simp only [repeated]
  induction n.toNat with
  | zero => rfl
  | succ n ih => simp [List.replicate_succ, ih]

theorem mem_repeated {α : Type} {l : List α} {n : Int} {x : α} (h : x ∈ repeated l n) : x ∈ l := by
  simp only [repeated, List.mem_flatten] at h
  obtain ⟨m, hm, hx⟩ := h
  rw [List.eq_of_mem_replicate hm] at hx
  exact hx

theorem lifts_add : Lifts rawAdd addV := by
  intro a b ha hb
  cases ha <;> cases hb <;> simp [rawAdd, addV, erase, eraseAll_eq]
  · exact .int _
  · rename_i l h m h'
    refine .list _ (fun w hw => ?_)
    rcases List.mem_append.1 hw with hw | hw
    · exact h w hw
    · exact h' w hw

theorem lifts_sub : Lifts rawSub subV := by
  intro a b ha hb
  cases ha <;> cases hb <;> simp [rawSub, subV, erase]
  exact .int _

theorem lifts_mul : Lifts rawMul mulV := by
  intro a b ha hb
  cases ha <;> cases hb <;> simp [rawMul, mulV, erase, eraseAll_eq, repeated_map]
  · exact .int _
  · rename_i n l h
    exact .list _ (fun w hw => h w (mem_repeated hw))
  · rename_i l h n
    exact .list _ (fun w hw => h w (mem_repeated hw))

theorem erase_ofBool (b : Bool) : erase (ofBool b) = bit b := by simp [ofBool, bit, erase]

theorem lifts_cmp (c : Cmp) : Lifts (rawCmp c) (cmpV c) := by
  intro a b ha hb
  cases ha <;> cases hb <;> cases c <;> simp [rawCmp, cmpV, erase, erase_ofBool] <;> exact .int _

theorem both_spec {f : W → W → Option W} {g : V → V → Option V} (h : Lifts f g) {a b : W} (ha0 : WF a) (hb0 : WF b) :
    (both f a b).map erase = g (erase a) (erase b) ∧ (∀ w, both f a b = some w → WF w ∧ (Tainted a ∨ Tainted b → Tainted w)) := by
  rcases wf_cases ha0 with ha | ⟨v, rfl, ha⟩ <;> rcases wf_cases hb0 with hb | ⟨u, rfl, hb⟩
  · have e : both f a b = f a b := by cases ha <;> cases hb <;> rfl
    rw [e]
    refine ⟨(h a b ha hb).1, fun w hw => ⟨(h a b ha hb).2 w hw, ?_⟩⟩
    cases ha <;> cases hb <;> simp [Tainted]
  · have e : both f a (.tainted u) = (f a u).map taint := by cases ha <;> rfl
    rw [e, Option.map_map]
    refine ⟨?_, fun w hw => ?_⟩
    · have : erase ∘ taint = erase := funext erase_taint
      rw [this, (h a u ha hb).1]; rfl
    · obtain ⟨x, hx, rfl⟩ := Option.map_eq_some_iff.1 hw
      exact ⟨wf_taint ((h a u ha hb).2 x hx), fun _ => tainted_taint x⟩
  · have e : both f (.tainted v) b = (f v b).map taint := by cases hb <;> rfl
    rw [e, Option.map_map]
    refine ⟨?_, fun w hw => ?_⟩
    · have : erase ∘ taint = erase := funext erase_taint
      rw [this, (h v b ha hb).1]; rfl
    · obtain ⟨x, hx, rfl⟩ := Option.map_eq_some_iff.1 hw
      exact ⟨wf_taint ((h v b ha hb).2 x hx), fun _ => tainted_taint x⟩
  · have e : both f (.tainted v) (.tainted u) = (f v u).map taint := rfl
    rw [e, Option.map_map]
    refine ⟨?_, fun w hw => ?_⟩
    · have : erase ∘ taint = erase := funext erase_taint
      rw [this, (h v u ha hb).1]; rfl
    · obtain ⟨x, hx, rfl⟩ := Option.map_eq_some_iff.1 hw
      exact ⟨wf_taint ((h v u ha hb).2 x hx), fun _ => tainted_taint x⟩

theorem left_spec {f : W → W → Option W} {g : V → V → Option V} (h : Lifts f g) {a b : W} (ha : WF a) (hb : WF b) :
    ∀ w, left f a b = some w → g (erase a) (erase b) = some (erase w) ∧ WF w ∧ (Tainted a ∨ Tainted b → Tainted w) := by
  intro w hw
  have hb' : both f a b = some w := by
    cases a <;> cases b <;> simp [left] at hw <;> simpa [both] using hw
  obtain ⟨h1, h2⟩ := both_spec h ha hb
  rw [hb'] at h1
  exact ⟨by simpa using h1.symm, h2 w hb'⟩

theorem item_map {α β : Type} (f : α → β) (l : List α) (k : Int) : item (l.map f) k = (item l k).map f := by
  simp only [item, List.length_map, List.getElem?_map]
  split
  · rfl
  · split
    · rfl
    · rfl

theorem mem_item {α : Type} {l : List α} {k : Int} {x : α} (h : item l k = some x) : x ∈ l := by
  simp only [item] at h
  split at h
  · exact List.mem_of_getElem? h
  · split at h
    · exact List.mem_of_getElem? h
    · simp at h

theorem itemV_eq (l : List V) (k : Int) : itemV (.list l) (.int k) = item l k := by
  simp only [itemV, item]
  by_cases h : k < 0
  · have h1 : ¬ (0 ≤ k) := by omega
    rw [if_pos h, if_neg h1]
    by_cases h2 : -k ≤ (l.length : Int)
    · have h3 : ¬ ((l.length : Int) + k < 0) := by omega
      rw [if_neg h3, if_pos h2]
      congr 1; omega
    · have h3 : (l.length : Int) + k < 0 := by omega
      rw [if_pos h3, if_neg h2]
  · have h1 : 0 ≤ k := by omega
    rw [if_neg h, if_neg h, if_pos h1]

theorem getitem_spec {a b : W} (ha : WF a) : ∀ w, getitem a b = some w → itemV (erase a) (erase b) = some (erase w) ∧ WF w ∧ (Tainted a ∨ Tainted b → Tainted w) := by
  intro w hw
  cases ha with
  | int n => simp [getitem] at hw
  | tint n => simp [getitem] at hw
  | list l h =>
    cases b <;> simp [getitem] at hw
    refine ⟨?_, h w (mem_item hw), by simp [Tainted]⟩
    simp only [erase, itemV_eq, eraseAll_eq, item_map, hw, Option.map_some]
  | tlist l h =>
    cases b <;> simp [getitem] at hw
    obtain ⟨x, hx, rfl⟩ := hw
    refine ⟨?_, wf_taint (h x (mem_item hx)), fun _ => tainted_taint x⟩
    simp only [erase, itemV_eq, eraseAll_eq, item_map, hx, Option.map_some, erase_taint]

theorem eval_spec (ρ : Nat → W) (hρ : ∀ i, WF (ρ i)) (e : Expr) : ∀ w, eval ρ e = some w →
    evalV (fun i => erase (ρ i)) e = some (erase w) ∧ WF w ∧ ((∃ i, Reads i e ∧ Tainted (ρ i)) → Tainted w) := by
  induction e with
  | var i =>
    intro w hw
    simp only [eval, Option.some.injEq] at hw
    subst hw
    exact ⟨rfl, hρ i, fun ⟨j, hj, ht⟩ => by rw [Reads] at hj; exact hj ▸ ht⟩
  | const n =>
    intro w hw
    simp only [eval, Option.some.injEq] at hw
    subst hw
    exact ⟨by simp [evalV, erase], .int _, fun ⟨j, hj, _⟩ => by simp [Reads] at hj⟩
  | add a b iha ihb =>
    intro w hw
    simp only [eval, Option.bind_eq_some_iff] at hw
    obtain ⟨x, hx, y, hy, hw⟩ := hw
    obtain ⟨a1, a2, a3⟩ := iha x hx
    obtain ⟨b1, b2, b3⟩ := ihb y hy
    obtain ⟨h1, h2⟩ := both_spec lifts_add a2 b2
    rw [hw] at h1
    refine ⟨by simp only [evalV, a1, b1, Option.bind_some]; simpa using h1.symm, (h2 w hw).1, ?_⟩
    rintro ⟨j, hj, ht⟩
    exact (h2 w hw).2 (hj.imp (fun h => a3 ⟨j, h, ht⟩) (fun h => b3 ⟨j, h, ht⟩))
  | sub a b iha ihb =>
    intro w hw
    simp only [eval, Option.bind_eq_some_iff] at hw
    obtain ⟨x, hx, y, hy, hw⟩ := hw
    obtain ⟨a1, a2, a3⟩ := iha x hx
    obtain ⟨b1, b2, b3⟩ := ihb y hy
    obtain ⟨h1, h2, h3⟩ := left_spec lifts_sub a2 b2 w hw
    refine ⟨by simp only [evalV, a1, b1, Option.bind_some]; exact h1, h2, ?_⟩
    rintro ⟨j, hj, ht⟩
    exact h3 (hj.imp (fun h => a3 ⟨j, h, ht⟩) (fun h => b3 ⟨j, h, ht⟩))
  | mul a b iha ihb =>
    intro w hw
    simp only [eval, Option.bind_eq_some_iff] at hw
    obtain ⟨x, hx, y, hy, hw⟩ := hw
    obtain ⟨a1, a2, a3⟩ := iha x hx
    obtain ⟨b1, b2, b3⟩ := ihb y hy
    obtain ⟨h1, h2, h3⟩ := left_spec lifts_mul a2 b2 w hw
    refine ⟨by simp only [evalV, a1, b1, Option.bind_some]; exact h1, h2, ?_⟩
    rintro ⟨j, hj, ht⟩
    exact h3 (hj.imp (fun h => a3 ⟨j, h, ht⟩) (fun h => b3 ⟨j, h, ht⟩))
  | cmp c a b iha ihb =>
    intro w hw
    simp only [eval, Option.bind_eq_some_iff] at hw
    obtain ⟨x, hx, y, hy, hw⟩ := hw
    obtain ⟨a1, a2, a3⟩ := iha x hx
    obtain ⟨b1, b2, b3⟩ := ihb y hy
    obtain ⟨h1, h2⟩ := both_spec (lifts_cmp c) a2 b2
    rw [hw] at h1
    refine ⟨by simp only [evalV, a1, b1, Option.bind_some]; simpa using h1.symm, (h2 w hw).1, ?_⟩
    rintro ⟨j, hj, ht⟩
    exact (h2 w hw).2 (hj.imp (fun h => a3 ⟨j, h, ht⟩) (fun h => b3 ⟨j, h, ht⟩))
  | ne a b iha ihb =>
    intro w hw
    simp only [eval, Option.bind_eq_some_iff, Option.some.injEq] at hw
    obtain ⟨x, hx, y, hy, rfl⟩ := hw
    obtain ⟨a1, a2, a3⟩ := iha x hx
    obtain ⟨b1, b2, b3⟩ := ihb y hy
    refine ⟨by simp only [evalV, a1, b1, Option.bind_some, ne, erase_ofBool], .int _, fun ⟨j, hj, _⟩ => by simp [Reads] at hj⟩
  | index a b iha ihb =>
    intro w hw
    simp only [eval, Option.bind_eq_some_iff] at hw
    obtain ⟨x, hx, y, hy, hw⟩ := hw
    obtain ⟨a1, a2, a3⟩ := iha x hx
    obtain ⟨b1, b2, b3⟩ := ihb y hy
    obtain ⟨h1, h2, h3⟩ := getitem_spec a2 w hw
    refine ⟨by simp only [evalV, a1, b1, Option.bind_some]; exact h1, h2, ?_⟩
    rintro ⟨j, hj, ht⟩
    exact h3 (hj.imp (fun h => a3 ⟨j, h, ht⟩) (fun h => b3 ⟨j, h, ht⟩))

/-- **C135 (values)**: what an expression evaluates to, taints aside, is what it would evaluate to if nothing was tainted. -/
theorem C135_same_values (ρ : Nat → W) (hρ : ∀ i, WF (ρ i)) (e : Expr) (w : W) (h : eval ρ e = some w) : evalV (fun i => erase (ρ i)) e = some (erase w) := (eval_spec ρ hρ e w h).1

mutual

theorem beq_iff : ∀ a b : V, beq a b = true ↔ a = b
  | .int n, .int m => by simp [beq]
  | .list l, .list m => by simp [beq, beqAll_iff l m]
  | .int _, .list _ => by simp [beq]
  | .list _, .int _ => by simp [beq]

theorem beqAll_iff : ∀ l m : List V, beqAll l m = true ↔ l = m
  | [], [] => by simp [beqAll]
  | a :: l, b :: m => by simp [beqAll, beq_iff a b, beqAll_iff l m]
  | [], _ :: _ => by simp [beqAll]
  | _ :: _, [] => by simp [beqAll]

end

/-- **C135 (equality)**: values compare as equal, whether tainted or not, exactly if they are the same, taints aside. -/
theorem C135_equality (ρ : Nat → W) (hρ : ∀ i, WF (ρ i)) (i j : Nat) (w : W) (h : eval ρ (.cmp .eq (.var i) (.var j)) = some w) :
    (erase (ρ i) = erase (ρ j) → erase w = .int 1) ∧ (erase (ρ i) ≠ erase (ρ j) → erase w = .int 0) := by
  have := C135_same_values ρ hρ _ w h
  have hc : ∀ a b : V, cmpV .eq a b = some (bit (beq a b)) := by
    intro a b
    cases a <;> cases b <;> simp [cmpV, Cmp.ints, beq]
  simp only [evalV, hc, Option.bind_some, Option.some.injEq] at this
  refine ⟨fun e => ?_, fun e => ?_⟩
  · rw [← this, (beq_iff _ _).2 e]; rfl
  · have hb : beq (erase (ρ i)) (erase (ρ j)) = false := by
      cases hb : beq (erase (ρ i)) (erase (ρ j)) with
      | true => exact absurd ((beq_iff _ _).1 hb) e
      | false => rfl
    rw [← this, hb]; rfl

/-- **C135 (order)**: numbers compare as they do, whether tainted or not. -/
theorem C135_order (ρ : Nat → W) (hρ : ∀ i, WF (ρ i)) (i j : Nat) (a b : Int) (hi : erase (ρ i) = .int a) (hj : erase (ρ j) = .int b) (c : Cmp) (w : W)
    (h : eval ρ (.cmp c (.var i) (.var j)) = some w) :
    (c = .eq → erase w = .int (if a = b then 1 else 0)) ∧ (c = .lt → erase w = .int (if a < b then 1 else 0)) ∧ (c = .le → erase w = .int (if a ≤ b then 1 else 0)) ∧
    (c = .gt → erase w = .int (if b < a then 1 else 0)) ∧ (c = .ge → erase w = .int (if b ≤ a then 1 else 0)) := by
  have := C135_same_values ρ hρ _ w h
  simp only [evalV, hi, hj, cmpV, Option.bind_some, Option.some.injEq] at this
  rw [← this]
  cases c <;> simp [Cmp.ints, bit]

/-- **C135 (repetition)**: a list times a number, in either order and whether tainted or not, is the list that many times over. -/
theorem C135_repeats (ρ : Nat → W) (hρ : ∀ i, WF (ρ i)) (i j : Nat) (n : Nat) (l : List V) (hi : erase (ρ i) = .list l) (hj : erase (ρ j) = .int n) (w : W)
    (h : eval ρ (.mul (.var i) (.var j)) = some w ∨ eval ρ (.mul (.var j) (.var i)) = some w) :
    ∃ m, erase w = .list m ∧ m.length = n * l.length ∧ ∀ k x q, k < n → l[q]? = some x → m[k * l.length + q]? = some x := by
  have hw : erase w = .list (repeated l n) := by
    rcases h with h | h
    · have := C135_same_values ρ hρ _ w h
      simp only [evalV, hi, hj, mulV, Option.bind_some, Option.some.injEq] at this
      exact this.symm
    · have := C135_same_values ρ hρ _ w h
      simp only [evalV, hi, hj, mulV, Option.bind_some, Option.some.injEq] at this
      exact this.symm
  refine ⟨_, hw, ?_, ?_⟩
  · simp [repeated]
  · clear hw h hi hj
    simp only [repeated, Int.toNat_natCast]
    induction n with
    | zero => intro k x q hk; omega
    | succ n ih =>
      intro k x q hk hq
      have hlt := (List.getElem?_eq_some_iff.1 hq).1
      rw [List.replicate_succ, List.flatten_cons]
      cases k with
      | zero => simp only [Nat.zero_mul, Nat.zero_add]; rw [List.getElem?_append_left hlt]; exact hq
      | succ k =>
        rw [List.getElem?_append_right (by rw [Nat.succ_mul]; omega)]
        have := ih k x q (by omega) hq
        rwa [show (k + 1) * l.length + q - l.length = k * l.length + q by rw [Nat.succ_mul]; omega]

/-- **C135 (propagation)**: an expression that reads a tainted variable, other than within operands of `!=`, gives a tainted value. -/
theorem C135_propagates (ρ : Nat → W) (hρ : ∀ i, WF (ρ i)) (e : Expr) (w : W) (h : eval ρ e = some w) (i : Nat) (hi : Reads i e) (ht : Tainted (ρ i)) : Tainted w := (eval_spec ρ hρ e w h).2.2 ⟨i, hi, ht⟩

/-- **C135 (no taint from nowhere)**: what an expression gives is not tainted, nor anything within, if nothing in the variables is. -/
theorem C135_no_spurious_taint (ρ : Nat → W) (hρ : ∀ i, Clean (ρ i)) (e : Expr) (w : W) (h : eval ρ e = some w) : Clean w := by
  have hint : ∀ n, Clean (.int n) := fun n => .int n
  have hlist : ∀ l, Clean (.list l) ↔ ∀ w ∈ l, Clean w := fun l => ⟨fun h => by cases h with | list _ h => exact h, .list l⟩
  have ht : ∀ w, ¬ Clean (.tainted w) := fun w h => by cases h
  induction e generalizing w with
  | var i => simp only [eval, Option.some.injEq] at h; subst h; exact hρ i
  | const n => simp only [eval, Option.some.injEq] at h; subst h; exact hint n
  | add a b iha ihb =>
    simp only [eval, Option.bind_eq_some_iff] at h
    obtain ⟨x, hx, y, hy, hw⟩ := h
    have px := iha x hx
    have py := ihb y hy
    cases x <;> cases y <;> simp [both, rawAdd] at hw <;> first | exact absurd px (ht _) | exact absurd py (ht _) | (subst hw)
    · exact hint _
    · rw [hlist] at px py ⊢
      intro w hw
      rcases List.mem_append.1 hw with hw | hw
      · exact px w hw
      · exact py w hw
  | sub a b iha ihb =>
    simp only [eval, Option.bind_eq_some_iff] at h
    obtain ⟨x, hx, y, hy, hw⟩ := h
    have px := iha x hx
    cases x <;> cases y <;> simp [left, rawSub] at hw <;> first | exact absurd px (ht _) | (subst hw)
    exact hint _
  | mul a b iha ihb =>
    simp only [eval, Option.bind_eq_some_iff] at h
    obtain ⟨x, hx, y, hy, hw⟩ := h
    have px := iha x hx
    have py := ihb y hy
    cases x <;> cases y <;> simp [left, rawMul] at hw <;> first | exact absurd px (ht _) | (subst hw)
    · exact hint _
    · rw [hlist] at py ⊢
      exact fun w hw => py w (mem_repeated hw)
    · rw [hlist] at px ⊢
      exact fun w hw => px w (mem_repeated hw)
  | cmp c a b iha ihb =>
    simp only [eval, Option.bind_eq_some_iff] at h
    obtain ⟨x, hx, y, hy, hw⟩ := h
    have px := iha x hx
    have py := ihb y hy
    cases x <;> cases y <;> cases c <;> simp [both, rawCmp] at hw <;> first | exact absurd px (ht _) | exact absurd py (ht _) | (subst hw; exact hint _)
  | ne a b iha ihb =>
    simp only [eval, Option.bind_eq_some_iff, Option.some.injEq] at h
    obtain ⟨x, hx, y, hy, rfl⟩ := h
    exact hint _
  | index a b iha ihb =>
    simp only [eval, Option.bind_eq_some_iff] at h
    obtain ⟨x, hx, y, hy, hw⟩ := h
    have px := iha x hx
    cases x with
    | int n => simp [getitem] at hw
    | tainted v => exact absurd px (ht _)
    | list l =>
      cases y <;> simp [getitem] at hw
      rw [hlist] at px
      exact px w (mem_item hw)

/-- **C135 (iteration)**: iterating over a tainted list gives its elements, all tainted. -/
theorem C135_iteration (w : W) (hw : Tainted w) (l : List W) (h : iterate w = some l) : (∀ x ∈ l, Tainted x) ∧ erase w = .list (l.map erase) := by
  cases w with
  | int n => exact absurd hw (by simp [Tainted])
  | list m => exact absurd hw (by simp [Tainted])
  | tainted v =>
    cases v with
    | int n => simp [iterate] at h
    | tainted v => simp [iterate] at h
    | list m =>
      simp only [iterate, Option.some.injEq] at h
      subst h
      refine ⟨fun x hx => ?_, ?_⟩
      · obtain ⟨y, _, rfl⟩ := List.mem_map.1 hx
        exact tainted_taint y
      · simp only [erase, eraseAll_eq, List.map_map]
        congr 2
        exact (funext erase_taint).symm

/-- variables: 0 is a tainted list, 1 a number, the others a list -/
def someVars : Nat → W := fun i => if i = 0 then taint (.list [.int 4, .list [.int 5]]) else if i = 1 then .int 1 else .list [.int 2]
example : ∀ i, WF (someVars i) := by
  intro i
  unfold someVars
  split
  · refine wf_taint (.list _ (fun w hw => ?_))
    simp only [List.mem_cons, List.not_mem_nil, or_false] at hw
    rcases hw with rfl | rfl
    · exact .int _
    · exact .list _ (fun w hw => by simp at hw; subst hw; exact .int _)
  · split
    · exact .int _
    · exact .list _ (fun w hw => by simp at hw; subst hw; exact .int _)
example : eval someVars (.sub (.index (.add (.var 2) (.var 0)) (.var 1)) (.const 1)) = some (.tainted (.int 3)) := by
  simp [eval, someVars, taint, taintAll, both, left, rawAdd, rawSub, getitem, item, access]
example : Reads 0 (.sub (.index (.add (.var 2) (.var 0)) (.var 1)) (.const 1)) ∧ Tainted (someVars 0) := by simp [Reads, someVars, Tainted, taint]

/-! ## C136 -/

/-- **C136 (violation), `!=`**: the result of `!=` of tainted values is not tainted. -/
theorem C136_ne_violates : ∃ (ρ : Nat → W) (w : W), (∀ i, WF (ρ i)) ∧ (∀ i, Tainted (ρ i)) ∧ eval ρ (.ne (.var 0) (.var 1)) = some w ∧ ¬ Tainted w :=
  ⟨fun i => .tainted (.int i), .int 1, fun _ => .tint _, fun _ => trivial, by simp [eval, ne, ofBool, erase, beq], by simp [Tainted]⟩

/-- **C136 (violation), reflected operators**: a plain number minus, or times, a tainted one raises TypeError, though it would not if it was not tainted. -/
theorem C136_reflected_violates : ∃ ρ : Nat → W, (∀ i, WF (ρ i)) ∧ ∀ e ∈ [Expr.sub (.const 5) (.var 0), Expr.mul (.const 5) (.var 0)], eval ρ e = none ∧ (evalV (fun i => erase (ρ i)) e).isSome := by
  refine ⟨fun i => .tainted (.int i), fun _ => .tint _, fun e he => ?_⟩
  simp only [List.mem_cons, List.not_mem_nil, or_false] at he
  rcases he with rfl | rfl <;> simp [eval, left, evalV, subV, mulV, erase]

/-- **C136 (violation), indices**: a tainted number cannot be the index of a list, even a tainted one. -/
theorem C136_index_violates : ∃ ρ : Nat → W, (∀ i, WF (ρ i)) ∧ eval ρ (.index (.var 0) (.var 1)) = none ∧ (evalV (fun i => erase (ρ i)) (.index (.var 0) (.var 1))).isSome := by
  refine ⟨fun i => if i = 0 then taint (.list [.int 7]) else taint (.int 0), fun i => ?_, ?_, ?_⟩
  · dsimp only
    split
    · exact wf_taint (.list _ (fun w hw => by simp at hw; subst hw; exact .int _))
    · exact wf_taint (.int _)
  · simp [eval, taint, getitem]
  · simp [evalV, taint, taintAll, erase, eraseAll, itemV]

/-- only additions, comparisons other than `!=`, and subtractions and multiplications whose left operand reads a tainted variable -/
def Sums (ρ : Nat → W) : Expr → Prop
  | .var _ | .const _ => True
  | .add a b | .cmp _ a b => Sums ρ a ∧ Sums ρ b
  | .sub a b | .mul a b => Sums ρ a ∧ Sums ρ b ∧ ∃ i, Reads i a ∧ Tainted (ρ i)
  | _ => False

theorem left_both {f : W → W → Option W} {a b : W} (h : Tainted a) : left f a b = both f a b := by
  cases a with
  | tainted v => rfl
  | _ => exact h.elim

/-- **C136 (partial)**: an expression of additions, comparisons other than `!=`, and subtractions and multiplications whose left operand reads a tainted variable evaluates to the same as without tainting, raising only when that would; and the value is tainted if a tainted variable is read. -/
theorem C136_sums_partial (ρ : Nat → W) (hρ : ∀ i, WF (ρ i)) (e : Expr) (he : Sums ρ e) :
    (eval ρ e).map erase = evalV (fun i => erase (ρ i)) e ∧ ∀ i, Reads i e → Tainted (ρ i) → ∀ w, eval ρ e = some w → Tainted w := by
  refine ⟨?_, fun i hi ht w hw => C135_propagates ρ hρ e w hw i hi ht⟩
  induction e with
  | var i => rfl
  | const n => simp [eval, evalV, erase]
  | add a b iha ihb =>
    simp only [eval, evalV, ← iha he.1, ← ihb he.2]
    cases hx : eval ρ a with
    | none => rfl
    | some x =>
      cases hy : eval ρ b with
      | none => rfl
      | some y => exact (both_spec lifts_add (eval_spec ρ hρ a x hx).2.1 (eval_spec ρ hρ b y hy).2.1).1
  | cmp c a b iha ihb =>
    simp only [eval, evalV, ← iha he.1, ← ihb he.2]
    cases hx : eval ρ a with
    | none => rfl
    | some x =>
      cases hy : eval ρ b with
      | none => rfl
      | some y => exact (both_spec (lifts_cmp c) (eval_spec ρ hρ a x hx).2.1 (eval_spec ρ hρ b y hy).2.1).1
  | sub a b iha ihb =>
    obtain ⟨ha, hb, i, hi, ht⟩ := he
    simp only [eval, evalV, ← iha ha, ← ihb hb]
    cases hx : eval ρ a with
    | none => rfl
    | some x =>
      cases hy : eval ρ b with
      | none => rfl
      | some y =>
        simp only [Option.bind_some, Option.map_some, left_both (C135_propagates ρ hρ a x hx i hi ht)]
        exact (both_spec lifts_sub (eval_spec ρ hρ a x hx).2.1 (eval_spec ρ hρ b y hy).2.1).1
  | mul a b iha ihb =>
    obtain ⟨ha, hb, i, hi, ht⟩ := he
    simp only [eval, evalV, ← iha ha, ← ihb hb]
    cases hx : eval ρ a with
    | none => rfl
    | some x =>
      cases hy : eval ρ b with
      | none => rfl
      | some y =>
        simp only [Option.bind_some, Option.map_some, left_both (C135_propagates ρ hρ a x hx i hi ht)]
        exact (both_spec lifts_mul (eval_spec ρ hρ a x hx).2.1 (eval_spec ρ hρ b y hy).2.1).1
  | ne => exact absurd he (by simp [Sums])
  | index => exact absurd he (by simp [Sums])

example : eval (fun i => if i = 0 then taint (.list [.int 4]) else .int 2) (.mul (.var 0) (.var 1)) = some (.tainted (.list [.tainted (.int 4), .tainted (.int 4)])) := by rfl
example : eval (fun i => if i = 0 then taint (.int 4) else .int 2) (.cmp .gt (.var 0) (.var 1)) = some (.tainted (.int 1)) := by rfl
example : Sums (fun i => if i = 0 then taint (.int 4) else .int 2) (.cmp .lt (.sub (.var 0) (.const 1)) (.var 1)) := ⟨⟨trivial, trivial, 0, rfl, trivial⟩, trivial⟩

end Verif.Tainting
