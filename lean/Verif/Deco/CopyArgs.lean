/-!
# Functions that get copies of their arguments

`copy_arguments`, `/repo/satella/coding/decorators/arguments.py:246-277`.

Objects live at addresses and have slots, each with a plain value or a reference.  The decorated
function is any program reading and writing slots of the objects it has got hold of, and creating
new ones.  `copy.copy` and `copy.deepcopy` are those of the standard library: what they promise is
what is assumed of them.
-/
namespace Verif.CopyArgs

/-- A value: immutable, or a reference to an object.  (Part of the model of `copy_arguments`, /repo/satella/coding/decorators/arguments.py:246-277.) -/
inductive Val where
  | plain (n : Int)
  | ref (a : Nat)
  deriving Repr, DecidableEq

/-- The objects by their addresses; `next` is the first address not used.  (Part of the model of `copy_arguments`, /repo/satella/coding/decorators/arguments.py:246-277.) -/
structure Heap where
  slots : Nat → Nat → Val
  next : Nat

/-- What a program does.  Local variables have numbers; the first ones are the arguments.  (Part of the model of the decorated function called at /repo/satella/coding/decorators/arguments.py:273.) -/
inductive Cmd where
  /-- `x = n` -/
  | const (x : Nat) (n : Int)
  /-- `x = y` -/
  | move (x y : Nat)
  /-- `x = y[i]`, nothing if `y` is not an object -/
  | get (x y i : Nat)
  /-- `x[i] = y`, nothing if `x` is not an object -/
  | set (x i y : Nat)
  /-- `x = [0, 0, ...]` -/
  | new (x : Nat)
  deriving Repr, DecidableEq

/-- part of the model of `copy_arguments`, /repo/satella/coding/decorators/arguments.py:246-277 -/
abbrev Locals := Nat → Val

/-- part of the model of `copy_arguments`, /repo/satella/coding/decorators/arguments.py:246-277 -/
def assign (l : Locals) (x : Nat) (v : Val) : Locals := fun y => if y = x then v else l y

/-- One statement of the function called at `/repo/satella/coding/decorators/arguments.py:273`. -/
def exec (h : Heap) (l : Locals) : Cmd → Heap × Locals
  | .const x n => (h, assign l x (.plain n))
  | .move x y => (h, assign l x (l y))
  | .get x y i =>
    match l y with
    | .plain _ => (h, l)
    | .ref a => (h, assign l x (h.slots a i))
  | .set x i y =>
    match l x with
    | .plain _ => (h, l)
    | .ref a => ({ h with slots := fun b j => if b = a ∧ j = i then l y else h.slots b j }, l)
  | .new x => (⟨fun b j => if b = h.next then .plain 0 else h.slots b j, h.next + 1⟩, assign l x (.ref h.next))

/-- The function called at `/repo/satella/coding/decorators/arguments.py:273`.  As a program may be cut anywhere, this has
also functions that raise; branching and loops do not matter, as any sequence of statements is allowed. -/
def execAll (h : Heap) (l : Locals) : List Cmd → Heap × Locals
  | [] => (h, l)
  | c :: rest => let r := exec h l c; execAll r.1 r.2 rest

/-- `tuple(f_copy(arg) for arg in args)`, `/repo/satella/coding/decorators/arguments.py:271-272`: each argument
copied on its own, one after another (keyword arguments after the positional ones). -/
def copyAll (copy : Heap → Val → Heap × Val) (h : Heap) : List Val → Heap × List Val
  | [] => (h, [])
  | v :: rest =>
    let r := copy h v
    let q := copyAll copy r.1 rest
    (q.1, r.2 :: q.2)

/-- part of the model of `copy_arguments`, /repo/satella/coding/decorators/arguments.py:246-277 -/
def localsOf (args : List Val) : Locals := fun x => args.getD x (.plain 0)

/-- `inner(*args, **kwargs)`, `/repo/satella/coding/decorators/arguments.py:270-273`. -/
def call (copy : Heap → Val → Heap × Val) (h : Heap) (args : List Val) (body : List Cmd) : Heap × Locals :=
  let r := copyAll copy h args
  execAll r.1 (localsOf r.2) body

/-! ## Specification -/

/-- The objects there were have not changed. -/
def Untouched (h h' : Heap) : Prop := ∀ a, a < h.next → ∀ i, h'.slots a i = h.slots a i

/-- A value is not a reference to an object that was there before `n`. -/
def Fresh (n : Nat) : Val → Prop
  | .plain _ => True
  | .ref a => n ≤ a

/-- Addresses not used yet have nothing in them. -/
def Clean (h : Heap) : Prop := ∀ a, h.next ≤ a → ∀ i, h.slots a i = .plain 0

/-- What `copy.deepcopy` promises: it makes new objects, which refer to new objects only, and changes
no others. -/
structure DeepCopy (copy : Heap → Val → Heap × Val) : Prop where
  grows : ∀ h v, h.next ≤ (copy h v).1.next
  old : ∀ h v, Untouched h (copy h v).1
  fresh : ∀ h v, Fresh h.next (copy h v).2
  clean : ∀ h v, Clean h → Clean (copy h v).1
  closed : ∀ h v, Clean h → ∀ a, h.next ≤ a → ∀ i, Fresh h.next ((copy h v).1.slots a i)

/-- What `copy.copy` promises: it makes one new object, with the same in its slots, and changes no
others. -/
structure ShallowCopy (copy : Heap → Val → Heap × Val) : Prop where
  grows : ∀ h v, h.next ≤ (copy h v).1.next
  old : ∀ h v, Untouched h (copy h v).1
  fresh : ∀ h v, Fresh h.next (copy h v).2
  same : ∀ h a b, (copy h (.ref a)).2 = .ref b → ∀ i, (copy h (.ref a)).1.slots b i = h.slots a i

/-- The program writes only into variables never assigned, so into its arguments themselves. -/
def OnlyArguments (n : Nat) (body : List Cmd) : Prop :=
  ∀ c ∈ body, (∀ x i y, c = .set x i y → x < n) ∧ (∀ x y i, c = .get x y i → n ≤ x) ∧ (∀ x y, c = .move x y → n ≤ x)

/-! ## Properties -/

theorem exec_confined (n : Nat) (h : Heap) (l : Locals) (c : Cmd) (hn : n ≤ h.next) (hl : ∀ x, Fresh n (l x)) (hs : ∀ a, n ≤ a → ∀ i, Fresh n (h.slots a i)) :
    n ≤ (exec h l c).1.next ∧ (∀ x, Fresh n ((exec h l c).2 x)) ∧ (∀ a, n ≤ a → ∀ i, Fresh n ((exec h l c).1.slots a i)) ∧
    ∀ a, a < n → ∀ i, (exec h l c).1.slots a i = h.slots a i := by
  have hassign : ∀ x v, Fresh n v → ∀ y, Fresh n (assign l x v y) := by
    intro x v hv y; unfold assign; split
    · exact hv
    · exact hl y
  cases c with
  | const x k => exact ⟨hn, hassign x _ trivial, hs, fun _ _ _ => rfl⟩
  | move x y => exact ⟨hn, hassign x _ (hl y), hs, fun _ _ _ => rfl⟩
  | get x y i =>
    simp only [exec]
    split
    · exact ⟨hn, hl, hs, fun _ _ _ => rfl⟩
    · rename_i a ha
      have : Fresh n (l y) := hl y
      rw [ha] at this
      exact ⟨hn, hassign x _ (hs a this i), hs, fun _ _ _ => rfl⟩
  | set x i y =>
    simp only [exec]
    split
    · exact ⟨hn, hl, hs, fun _ _ _ => rfl⟩
    · rename_i a ha
      have hf : Fresh n (l x) := hl x
      rw [ha] at hf
      simp only [Fresh] at hf
      refine ⟨hn, hl, fun b hb j => ?_, fun b hb j => ?_⟩
      · simp only; split
        · exact hl y
        · exact hs b hb j
      · simp only; rw [if_neg (by omega)]
  | new x =>
    refine ⟨by simp only [exec]; omega, hassign x _ hn, fun b hb j => ?_, fun b hb j => ?_⟩
    · simp only [exec]; split
      · trivial
      · exact hs b hb j
    · simp only [exec]; rw [if_neg (by omega)]

theorem execAll_confined (n : Nat) (body : List Cmd) : ∀ (h : Heap) (l : Locals), n ≤ h.next → (∀ x, Fresh n (l x)) → (∀ a, n ≤ a → ∀ i, Fresh n (h.slots a i)) →
    (∀ x, Fresh n ((execAll h l body).2 x)) ∧ ∀ a, a < n → ∀ i, (execAll h l body).1.slots a i = h.slots a i := by
  induction body with
  | nil => intro h l _ hl _; exact ⟨hl, fun _ _ _ => rfl⟩
  | cons c body ih =>
    intro h l hn hl hs
    obtain ⟨h1, h2, h3, h4⟩ := exec_confined n h l c hn hl hs
    obtain ⟨g1, g2⟩ := ih _ _ h1 h2 h3
    exact ⟨g1, fun a ha i => by simp only [execAll]; rw [g2 a ha i, h4 a ha i]⟩

theorem fresh_mono {n m : Nat} (h : n ≤ m) {v : Val} (hv : Fresh m v) : Fresh n v := by
  cases v with
  | plain => trivial
  | ref a => simp only [Fresh] at *; omega

theorem copyAll_deep {copy : Heap → Val → Heap × Val} (C : DeepCopy copy) (n : Nat) (args : List Val) : ∀ (h : Heap), n ≤ h.next → Clean h → (∀ a, n ≤ a → ∀ i, Fresh n (h.slots a i)) →
    n ≤ (copyAll copy h args).1.next ∧ (∀ v ∈ (copyAll copy h args).2, Fresh n v) ∧ (∀ a, n ≤ a → ∀ i, Fresh n ((copyAll copy h args).1.slots a i)) ∧
    ∀ a, a < n → ∀ i, (copyAll copy h args).1.slots a i = h.slots a i := by
  induction args with
  | nil => intro h hn _ hs; exact ⟨hn, by simp [copyAll], hs, fun _ _ _ => rfl⟩
  | cons v args ih =>
    intro h hn hc hs
    have hs1 : ∀ a, n ≤ a → ∀ i, Fresh n ((copy h v).1.slots a i) := by
      intro a ha i
      by_cases hlt : a < h.next
      · rw [C.old h v a hlt i]; exact hs a ha i
      · exact fresh_mono hn (C.closed h v hc a (by omega) i)
    obtain ⟨h1, h2, h3, h4⟩ := ih (copy h v).1 (Nat.le_trans hn (C.grows h v)) (C.clean h v hc) hs1
    refine ⟨h1, ?_, h3, fun a ha i => by simp only [copyAll]; rw [h4 a ha i, C.old h v a (by omega) i]⟩
    intro w hw
    simp only [copyAll, List.mem_cons] at hw
    rcases hw with rfl | hw
    · exact fresh_mono hn (C.fresh h v)
    · exact h2 w hw

/-- **C196 (deep copies)** With `deep_copy=True`, whatever the function does with its arguments, no
object that there was before the call changes, and nothing it has in hand refers to one. -/
theorem C196_deep {copy : Heap → Val → Heap × Val} (C : DeepCopy copy) (h : Heap) (hclean : Clean h) (args : List Val) (body : List Cmd) :
    Untouched h (call copy h args body).1 ∧ ∀ x, Fresh h.next ((call copy h args body).2 x) := by
  obtain ⟨h1, h2, h3, h4⟩ := copyAll_deep C h.next args h (Nat.le_refl _) hclean (fun a ha i => by rw [hclean a ha i]; trivial)
  have hl : ∀ x, Fresh h.next (localsOf (copyAll copy h args).2 x) := by
    intro x
    unfold localsOf
    rw [List.getD_eq_getElem?_getD]
    cases hx : (copyAll copy h args).2[x]? with
    | none => trivial
    | some v => exact h2 v (List.mem_of_getElem? hx)
  obtain ⟨g1, g2⟩ := execAll_confined h.next body _ _ h1 hl h3
  exact ⟨fun a ha i => by simp only [call]; rw [g2 a ha i, h4 a ha i], g1⟩

theorem copyAll_shallow {copy : Heap → Val → Heap × Val} (C : ShallowCopy copy) (args : List Val) : ∀ (h : Heap),
    h.next ≤ (copyAll copy h args).1.next ∧ (∀ v ∈ (copyAll copy h args).2, Fresh h.next v) ∧ Untouched h (copyAll copy h args).1 ∧
    (copyAll copy h args).2.length = args.length := by
  induction args with
  | nil => intro h; exact ⟨Nat.le_refl _, by simp [copyAll], fun _ _ _ => rfl, rfl⟩
  | cons v args ih =>
    intro h
    obtain ⟨h1, h2, h3, h4⟩ := ih (copy h v).1
    have hg := C.grows h v
    refine ⟨Nat.le_trans hg h1, ?_, fun a ha i => by simp only [copyAll]; rw [h3 a (by omega) i, C.old h v a ha i], by simp [copyAll, h4]⟩
    intro w hw
    simp only [copyAll, List.mem_cons] at hw
    rcases hw with rfl | hw
    · exact C.fresh h v
    · exact fresh_mono hg (h2 w hw)

/-- **C196 (copies)** With plain copies, a function that writes only into its arguments themselves
(not into objects inside these) changes no object there was before the call. -/
theorem C196_shallow {copy : Heap → Val → Heap × Val} (C : ShallowCopy copy) (h : Heap) (args : List Val) (body : List Cmd)
    (hb : OnlyArguments args.length body) : Untouched h (call copy h args body).1 := by
  obtain ⟨h1, h2, h3, h4⟩ := copyAll_shallow C args h
  have key : ∀ body, OnlyArguments args.length body → ∀ (g : Heap) (l : Locals), h.next ≤ g.next → (∀ x, x < args.length → Fresh h.next (l x)) →
      ∀ a, a < h.next → ∀ i, (execAll g l body).1.slots a i = g.slots a i := by
    intro body
    induction body with
    | nil => intro _ g l _ _ a _ i; rfl
    | cons c body ih =>
      intro hb g l hg hl a ha i
      have hc := hb c (List.mem_cons_self ..)
      have hb' : OnlyArguments args.length body := fun c hc => hb c (List.mem_cons_of_mem _ hc)
      have hkeep : ∀ x v, args.length ≤ x → ∀ y, y < args.length → Fresh h.next (assign l x v y) := by
        intro x v hx y hy; unfold assign; rw [if_neg (by omega)]; exact hl y hy
      cases c with
      | const x k =>
        simp only [execAll, exec]
        exact ih hb' g _ hg (fun y hy => by unfold assign; split
                                            · trivial
                                            · exact hl y hy) a ha i
      | move x y => simp only [execAll, exec]; exact ih hb' g _ hg (hkeep x _ (hc.2.2 x y rfl)) a ha i
      | get x y j =>
        simp only [execAll, exec]
        split
        · exact ih hb' g _ hg hl a ha i
        · exact ih hb' g _ hg (hkeep x _ (hc.2.1 x y j rfl)) a ha i
      | set x j y =>
        simp only [execAll, exec]
        split
        · exact ih hb' g _ hg hl a ha i
        · rename_i b hx
          have hf := hl x (hc.1 x j y rfl)
          rw [hx] at hf
          simp only [Fresh] at hf
          rw [ih hb' _ l (by exact hg) hl a ha i]
          simp only
          rw [if_neg (by omega)]
      | new x =>
        simp only [execAll, exec]
        rw [ih hb' _ _ (by simp only; omega) (fun y hy => by
          unfold assign; split
          · exact hg
          · exact hl y hy) a ha i]
        simp only
        rw [if_neg (by omega)]
  intro a ha i
  simp only [call]
  rw [key body hb _ _ h1 ?_ a ha i, h3 a ha i]
  intro x hx
  unfold localsOf
  rw [List.getD_eq_getElem?_getD, List.getElem?_eq_getElem (by omega)]
  exact h2 _ (List.getElem_mem _)

/-- **C196 (each on its own)** Each argument is copied on its own: a function given one object twice
gets two. -/
theorem C196_each {copy : Heap → Val → Heap × Val} (C : DeepCopy copy) (hobj : ∀ h a, ∃ b, (copy h (.ref a)).2 = .ref b ∧ b < (copy h (.ref a)).1.next) (h : Heap) (a : Nat) :
    (copyAll copy h [.ref a, .ref a]).2[0]? ≠ (copyAll copy h [.ref a, .ref a]).2[1]? := by
  obtain ⟨b, hb, hlt⟩ := hobj h a
  have hf := C.fresh (copy h (.ref a)).1 (.ref a)
  simp only [copyAll, List.getElem?_cons_zero, List.getElem?_cons_succ, ne_eq, Option.some.injEq]
  rw [hb]
  intro he
  rw [← he] at hf
  simp only [Fresh] at hf
  omega

/-! ## Examples -/

/-- Copies an object, with its four first slots. -/
def copy1 (h : Heap) : Val → Heap × Val
  | .plain n => (h, .plain n)
  | .ref a => (⟨fun b i => if b = h.next then h.slots a i else h.slots b i, h.next + 1⟩, .ref h.next)

theorem copy1_shallow : ShallowCopy copy1 where
  grows h v := by cases v <;> simp [copy1]
  old h v := by
    cases v with
    | plain n => intro a _ i; rfl
    | ref a => intro b hb i; simp only [copy1]; rw [if_neg (by omega)]
  fresh h v := by cases v <;> simp [copy1, Fresh]
  same h a b hb i := by simp [copy1] at hb ⊢; simp [hb]

/-- A deep copy, for objects with plain values only: references are dropped. -/
def copy0 (h : Heap) : Val → Heap × Val
  | .plain n => (h, .plain n)
  | .ref a => (⟨fun b i => if b = h.next then (match h.slots a i with | .plain n => .plain n | .ref _ => .plain 0) else h.slots b i, h.next + 1⟩, .ref h.next)

theorem copy0_deep : DeepCopy copy0 where
  grows h v := by cases v <;> simp [copy0]
  old h v := by
    cases v with
    | plain n => intro a _ i; rfl
    | ref a => intro b hb i; simp only [copy0]; rw [if_neg (by omega)]
  fresh h v := by cases v <;> simp [copy0, Fresh]
  clean h v hc := by
    cases v with
    | plain n => exact hc
    | ref a => intro b hb i; simp only [copy0] at hb ⊢; rw [if_neg (by omega)]; exact hc b (by omega) i
  closed h v hc a ha i := by
    cases v with
    | plain n => simp only [copy0]; rw [hc a ha i]; trivial
    | ref b =>
      simp only [copy0]
      split
      · split <;> trivial
      · rw [hc a ha i]; trivial

/-- One object, with 5 in its first slot. -/
def heap1 : Heap := ⟨fun a i => if a = 0 ∧ i = 0 then .plain 5 else .plain 0, 1⟩

example : (call copy1 heap1 [.ref 0] [.const 1 9, .set 0 0 1]).1.slots 0 0 = .plain 5 ∧ (call copy1 heap1 [.ref 0] [.const 1 9, .set 0 0 1]).1.slots 1 0 = .plain 9 := by decide
example : Clean heap1 := by intro a ha i; simp only [heap1] at ha ⊢; rw [if_neg (by omega)]
example : ∀ h a, ∃ b, (copy0 h (.ref a)).2 = .ref b ∧ b < (copy0 h (.ref a)).1.next := fun h a => ⟨h.next, rfl, by simp [copy0]⟩
example : OnlyArguments 1 [.const 1 9, .set 0 0 1] := by
  intro c hc
  simp at hc
  rcases hc with rfl | rfl <;> simp
/-- With plain copies, writing into an object inside an argument changes it: this is why only arguments
themselves may be written into. -/
example : (call copy1 ⟨fun a i => if a = 0 ∧ i = 0 then .ref 1 else .plain 0, 2⟩ [.ref 0] [.get 1 0 0, .const 2 7, .set 1 3 2]).1.slots 1 3 = .plain 7 := by decide

end Verif.CopyArgs
