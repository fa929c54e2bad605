import Verif.Seq.Walk
/-!
# Metaclasses that copy documentation, and one that wraps members

`/repo/satella/coding/metaclasses.py:15-84` and `:185-232`.

A documentation string is a `String`, the empty one standing for `None` too: the code only asks
whether it is true.  Functions are objects on their own, as one function may be a member of several
classes: the world says what the documentation of each is.
-/
namespace Verif.Docs
open Verif.Seq (Tree walkLoop)

/-- A member of a class: a function (by its identity), or anything else, of which we know whether it
can be called and its `__doc__`, which can't be set (as of a builtin function, a number, a string).  (Part of the model of `CopyDocsFrom`, /repo/satella/coding/metaclasses.py:22-53.) -/
inductive Obj where
  | fn (id : Nat)
  | fixed (callable : Bool) (doc : String)
  deriving Repr, DecidableEq

/-- The `__doc__` of every function.  (Part of the model of `CopyDocsFrom`, /repo/satella/coding/metaclasses.py:22-53.) -/
abbrev World := Nat → String

/-- `value.__doc__`, as read at `/repo/satella/coding/metaclasses.py:44` and `:78`. -/
def docOf (w : World) : Obj → String
  | .fn i => w i
  | .fixed _ d => d

/-- `callable(value)`, as asked at `/repo/satella/coding/metaclasses.py:44` and `:78`. -/
def isCallable : Obj → Bool
  | .fn _ => true
  | .fixed c _ => c

/-- A class: its `__doc__` and its attributes as `getattr` finds them, so the inherited ones too.  (Part of the model of `DocsFromParent`, /repo/satella/coding/metaclasses.py:56-84.) -/
structure Cls where
  doc : String
  attrs : String → Option Obj

/-- The documentation of an attribute of a class, empty if there is no such attribute:
`hasattr(base, key) and getattr(base, key).__doc__`, `/repo/satella/coding/metaclasses.py:80`. -/
def attrDoc (w : World) (key : String) (c : Cls) : String :=
  match c.attrs key with
  | some o => docOf w o
  | none => ""

/-- `value.__doc__ = d` on a function, `/repo/satella/coding/metaclasses.py:47` and `:81`. -/
def setDoc (w : World) (i : Nat) (d : String) : World := fun j => if j = i then d else w j

/-- The loop over bases until one is documented, `/repo/satella/coding/metaclasses.py:79-83` and `:72-75`. -/
def firstDoc (f : Cls → String) : List (Tree Cls) → Option String
  | [] => none
  | t :: rest => if f t.label = "" then firstDoc f rest else some (f t.label)

/-- The loop over the namespace, `/repo/satella/coding/metaclasses.py:77-83`: the world left and whether
it was completed (it is not if a `__doc__` can't be set).  `order` are the classes `walk` gives. -/
def fillLoop (order : List (Tree Cls)) : World → List (String × Obj) → World × Bool
  | w, [] => (w, true)
  | w, (k, v) :: rest =>
    if docOf w v = "" ∧ isCallable v = true then
      match firstDoc (attrDoc w k) order with
      | none => fillLoop order w rest
      | some d =>
        match v with
        | .fn i => fillLoop order (setDoc w i d) rest
        | .fixed _ _ => (w, false)
    else fillLoop order w rest

/-- `DocsFromParent(name, bases, dictionary)`, `/repo/satella/coding/metaclasses.py:56-84`.  `doc` is
`dictionary['__doc__']` if it is there, `dict` the rest of the dictionary.  The classes of the bases
are trees: a class and its bases but for `object` (`_extract_bases`, `/repo/satella/coding/metaclasses.py:15-19`).
The result is the world, the documentation of the class and whether the class was created; `none` if
the fuel was not enough to walk all the ancestors. -/
def docsFromParent (fuel : Nat) (w : World) (bases : List (Tree Cls)) (doc : Option String) (dict : List (String × Obj)) :
    Option (World × String × Bool) :=
  match walkLoop (fun t => some t.kids) false false fuel bases with
  | none => none
  | some order =>
    let doc' := match doc with
      | some d => d
      | none => (firstDoc Cls.doc order).getD ""
    let r := fillLoop order w dict
    some (r.1, doc', r.2)

/-- The loop of `CopyDocsFrom`, `/repo/satella/coding/metaclasses.py:43-49`. -/
def copyLoop (src : Cls) : World → List (String × Obj) → World × Bool
  | w, [] => (w, true)
  | w, (k, v) :: rest =>
    if docOf w v = "" ∧ isCallable v = true then
      if attrDoc w k src = "" then copyLoop src w rest
      else
        match v with
        | .fn i => (setDoc w i (attrDoc w k src), true)
        | .fixed _ _ => (w, false)
    else copyLoop src w rest

/-- `CopyDocsFrom(target_cls)(name, bases, dictionary)`, `/repo/satella/coding/metaclasses.py:37-51`. -/
def copyDocsFrom (w : World) (src : Cls) (doc : Option String) (dict : List (String × Obj)) : World × String × Bool :=
  let r := copyLoop src w dict
  (r.1, doc.getD src.doc, r.2)

/-- What `wrap_with` sees of the members of a class and what it was given,
`/repo/satella/coding/metaclasses.py:185-188`: each function given may raise (`none`). -/
structure Wrapping (V : Type) where
  dontWrap : V → Bool
  callable : V → Bool
  property : V → Bool
  selectCallable : V → Option Bool
  selectProperty : V → Option Bool
  wrapCallable : V → Option V
  wrapProperty : V → Option V

/-- One turn of the loop at `/repo/satella/coding/metaclasses.py:217-223`: the new value. -/
def wrapOne {V : Type} (c : Wrapping V) (v : V) : Option V :=
  if c.dontWrap v then some v
  else if c.callable v then
    match c.selectCallable v with
    | none => none
    | some true => c.wrapCallable v
    | some false =>
      if c.property v then
        match c.selectProperty v with
        | none => none
        | some true => c.wrapProperty v
        | some false => some v
      else some v
  else if c.property v then
    match c.selectProperty v with
    | none => none
    | some true => c.wrapProperty v
    | some false => some v
  else some v

/-- The namespace given to `ABCMeta`, `/repo/satella/coding/metaclasses.py:215-224`; `none` if something
given raised. -/
def wrapAll {V : Type} (c : Wrapping V) : List (String × V) → Option (List (String × V))
  | [] => some []
  | (k, v) :: rest =>
    match wrapOne c v with
    | none => none
    | some v' =>
      match wrapAll c rest with
      | none => none
      | some rest' => some ((k, v') :: rest')

/-! ## Specification -/

/-- The first of the classes having a documentation has `d`, or `d` is empty as none has any. -/
def First (f : Cls → String) (classes : List (Tree Cls)) (d : String) : Prop :=
  (∃ pre t post, classes = pre ++ t :: post ∧ f t.label = d ∧ d ≠ "" ∧ ∀ s ∈ pre, f s.label = "") ∨
  (d = "" ∧ ∀ s ∈ classes, f s.label = "")

/-- All the ancestors: the bases, then the bases of bases, and so on, down to a depth. -/
def breadthFirst (bases : List (Tree Cls)) (depth : Nat) : List (Tree Cls) :=
  (List.range depth).flatMap (fun i => bases.flatMap (Tree.level i))

/-- The function is a member of the namespace. -/
def InDict (dict : List (String × Obj)) (i : Nat) : Prop := ∃ k, (k, Obj.fn i) ∈ dict

/-- The functions of the namespace were defined in the body of the class: each under one name, none a
member of another class. -/
def Own (others : List (Tree Cls)) (dict : List (String × Obj)) : Prop :=
  (∀ k k' i, (k, Obj.fn i) ∈ dict → (k', Obj.fn i) ∈ dict → k = k') ∧ (dict.map Prod.fst).Nodup ∧
  ∀ t ∈ others, ∀ k i, t.label.attrs k = some (.fn i) → ¬ InDict dict i

/-- Nothing callable in the namespace is undocumented but for functions. -/
def Settable (dict : List (String × Obj)) : Prop := ∀ k c, (k, Obj.fixed c "") ∈ dict → c = false

/-! ## Lemmas -/

theorem firstDoc_spec (f : Cls → String) (l : List (Tree Cls)) : First f l ((firstDoc f l).getD "") := by
  induction l with
  | nil => exact Or.inr ⟨rfl, by simp⟩
  | cons t l ih =>
    simp only [firstDoc]
    split
    · rename_i h
      rcases ih with ⟨pre, s, post, he, h1, h2, h3⟩ | ⟨h1, h2⟩
      · refine Or.inl ⟨t :: pre, s, post, by rw [he]; rfl, h1, h2, fun x hx => ?_⟩
        rcases List.mem_cons.1 hx with rfl | hx
        · exact h
        · exact h3 x hx
      · refine Or.inr ⟨h1, fun x hx => ?_⟩
        rcases List.mem_cons.1 hx with rfl | hx
        · exact h
        · exact h2 x hx
    · rename_i h
      exact Or.inl ⟨[], t, l, rfl, rfl, h, by simp⟩

theorem firstDoc_congr {f g : Cls → String} {l : List (Tree Cls)} (h : ∀ t ∈ l, f t.label = g t.label) : firstDoc f l = firstDoc g l := by
  induction l with
  | nil => rfl
  | cons t l ih =>
    simp only [firstDoc, h t (by simp), ih (fun s hs => h s (List.mem_cons_of_mem _ hs))]

theorem firstDoc_ne {f : Cls → String} {l : List (Tree Cls)} {d : String} (h : firstDoc f l = some d) : d ≠ "" := by
  induction l with
  | nil => simp [firstDoc] at h
  | cons t l ih =>
    simp only [firstDoc] at h
    split at h
    · exact ih h
    · rename_i hne; rw [Option.some.injEq] at h; rwa [← h]

theorem attrDoc_congr {w w' : World} {c : Cls} {k : String} (h : ∀ i, c.attrs k = some (.fn i) → w' i = w i) : attrDoc w' k c = attrDoc w k c := by
  unfold attrDoc
  cases hc : c.attrs k with
  | none => rfl
  | some o => cases o with
    | fn i => exact h i hc
    | fixed _ _ => rfl

theorem Own.tail {others : List (Tree Cls)} {a : String × Obj} {dict : List (String × Obj)} (h : Own others (a :: dict)) : Own others dict := by
  obtain ⟨h1, h2, h3⟩ := h
  refine ⟨fun k k' i a b => h1 k k' i (List.mem_cons_of_mem _ a) (List.mem_cons_of_mem _ b), (List.nodup_cons.1 h2).2, fun t ht k i hi hin => ?_⟩
  obtain ⟨k', hk'⟩ := hin
  exact h3 t ht k i hi ⟨k', List.mem_cons_of_mem _ hk'⟩

theorem Own.fresh {others : List (Tree Cls)} {k : String} {i : Nat} {dict : List (String × Obj)} (h : Own others ((k, .fn i) :: dict)) : ¬ InDict dict i := by
  rintro ⟨k', hk'⟩
  obtain ⟨h1, h2, _⟩ := h
  have := h1 k k' i (by simp) (List.mem_cons_of_mem _ hk')
  subst this
  exact (List.nodup_cons.1 h2).1 (List.mem_map.2 ⟨_, hk', rfl⟩)

/-- The loop, on functions of the class itself. -/
theorem fillLoop_spec (order : List (Tree Cls)) (dict : List (String × Obj)) : ∀ w, Own order dict → Settable dict →
    (fillLoop order w dict).2 = true ∧ (∀ i, ¬ InDict dict i → (fillLoop order w dict).1 i = w i) ∧
    ∀ k i, (k, Obj.fn i) ∈ dict → (fillLoop order w dict).1 i = if w i = "" then (firstDoc (attrDoc w k) order).getD "" else w i := by
  induction dict with
  | nil => intro w _ _; exact ⟨rfl, fun _ _ => rfl, by simp⟩
  | cons a dict ih =>
    intro w hown hset
    obtain ⟨k, v⟩ := a
    have hset' : Settable dict := fun k c h => hset k c (List.mem_cons_of_mem _ h)
    cases v with
    | fixed c d =>
      have hgo : fillLoop order w ((k, .fixed c d) :: dict) = fillLoop order w dict := by
        simp only [fillLoop, docOf, isCallable]
        by_cases h : d = "" ∧ c = true
        · obtain ⟨rfl, rfl⟩ := h
          have := hset k true (by simp)
          simp at this
        · exact if_neg h
      rw [hgo]
      obtain ⟨h1, h2, h3⟩ := ih w hown.tail hset'
      refine ⟨h1, fun i hi => h2 i (fun ⟨k', hk'⟩ => hi ⟨k', List.mem_cons_of_mem _ hk'⟩), fun k' i hki => ?_⟩
      rcases List.mem_cons.1 hki with h | h
      · simp at h
      · exact h3 k' i h
    | fn j =>
      have hfresh := hown.fresh
      by_cases hw : w j = ""
      · cases hfd : firstDoc (attrDoc w k) order with
        | none =>
          have hgo : fillLoop order w ((k, .fn j) :: dict) = fillLoop order w dict := by
            simp [fillLoop, docOf, isCallable, hw, hfd]
          rw [hgo]
          obtain ⟨h1, h2, h3⟩ := ih w hown.tail hset'
          refine ⟨h1, fun i hi => h2 i (fun ⟨k', hk'⟩ => hi ⟨k', List.mem_cons_of_mem _ hk'⟩), fun k' i hki => ?_⟩
          rcases List.mem_cons.1 hki with h | h
          · simp only [Prod.mk.injEq, Obj.fn.injEq] at h
            obtain ⟨rfl, rfl⟩ := h
            rw [h2 _ hfresh, hfd, if_pos hw, hw]; rfl
          · exact h3 k' i h
        | some d =>
          have hgo : fillLoop order w ((k, .fn j) :: dict) = fillLoop order (setDoc w j d) dict := by
            simp [fillLoop, docOf, isCallable, hw, hfd]
          rw [hgo]
          obtain ⟨h1, h2, h3⟩ := ih (setDoc w j d) hown.tail hset'
          refine ⟨h1, fun i hi => ?_, fun k' i hki => ?_⟩
          · rw [h2 i (fun ⟨k', hk'⟩ => hi ⟨k', List.mem_cons_of_mem _ hk'⟩)]
            have : i ≠ j := fun h => hi ⟨k, by simp [h]⟩
            simp [setDoc, this]
          · rcases List.mem_cons.1 hki with h | h
            · simp only [Prod.mk.injEq, Obj.fn.injEq] at h
              obtain ⟨rfl, rfl⟩ := h
              rw [h2 _ hfresh, hfd, if_pos hw]; simp [setDoc]
            · rw [h3 k' i h]
              have hij : i ≠ j := fun he => hfresh ⟨k', he ▸ h⟩
              have e1 : setDoc w j d i = w i := by simp [setDoc, hij]
              have e2 : firstDoc (attrDoc (setDoc w j d) k') order = firstDoc (attrDoc w k') order := by
                apply firstDoc_congr
                intro t ht
                apply attrDoc_congr
                intro m hm
                have : m ≠ j := fun he => hown.2.2 t ht k' m hm ⟨k, by simp [he]⟩
                simp [setDoc, this]
              rw [e1, e2]
      · have hgo : fillLoop order w ((k, .fn j) :: dict) = fillLoop order w dict := by
          simp [fillLoop, docOf, isCallable, hw]
        rw [hgo]
        obtain ⟨h1, h2, h3⟩ := ih w hown.tail hset'
        refine ⟨h1, fun i hi => h2 i (fun ⟨k', hk'⟩ => hi ⟨k', List.mem_cons_of_mem _ hk'⟩), fun k' i hki => ?_⟩
        rcases List.mem_cons.1 hki with h | h
        · simp only [Prod.mk.injEq, Obj.fn.injEq] at h
          obtain ⟨rfl, rfl⟩ := h
          rw [h2 _ hfresh, if_neg hw]
        · exact h3 k' i h

/-! ## Properties -/

/-- **C181 (documentation from ancestors)** Of a class whose methods were defined in its body: it is
created; each method keeps its documentation if it had one, and otherwise gets that of the attribute
of the same name of the first ancestor, breadth first, having a documented one; the class keeps its
documentation if it had one and otherwise gets that of the first documented ancestor; and the
documentation of all other functions is unchanged. -/
theorem C181_documented (w : World) (bases : List (Tree Cls)) (doc : Option String) (dict : List (String × Obj))
    (hown : ∀ depth, Own (breadthFirst bases depth) dict) (hset : Settable dict) :
    ∃ n depth, bases.flatMap (Tree.level depth) = [] ∧ ∀ fuel, n ≤ fuel → ∃ w' doc', docsFromParent fuel w bases doc dict = some (w', doc', true) ∧
      (∀ k i, (k, Obj.fn i) ∈ dict → (w i ≠ "" → w' i = w i) ∧ (w i = "" → First (attrDoc w k) (breadthFirst bases depth) (w' i))) ∧
      (∀ d, doc = some d → doc' = d) ∧ (doc = none → First Cls.doc (breadthFirst bases depth) doc') ∧
      ∀ i, ¬ InDict dict i → w' i = w i := by
  obtain ⟨depth, h1, h2, _⟩ := Seq.loop_broad (g := fun t : Tree Cls => some t.kids) (fun _ => Or.inl rfl) _ bases (Nat.le_refl _)
  refine ⟨Seq.sizeL bases + 1, depth, h1, fun fuel hf => ?_⟩
  have hw := h2 fuel (by omega)
  obtain ⟨f1, f2, f3⟩ := fillLoop_spec (breadthFirst bases depth) dict w (hown depth) hset
  refine ⟨(fillLoop (breadthFirst bases depth) w dict).1, (match doc with | some d => d | none => (firstDoc Cls.doc (breadthFirst bases depth)).getD ""), ?_, ?_, ?_, ?_, f2⟩
  · simp only [docsFromParent, hw]
    rw [← f1]
    rfl
  · intro k i hki
    rw [f3 k i hki]
    refine ⟨fun h => by rw [if_neg h], fun h => ?_⟩
    rw [if_pos h]
    exact firstDoc_spec _ _
  · rintro d rfl; rfl
  · rintro rfl; exact firstDoc_spec _ _

/-- **C182 (all methods are documented), the violation** `CopyDocsFrom` stops after the first method
it documented: of two undocumented methods, both documented in the source, the second is left
without documentation. -/
theorem C182_first_only_violates : ∃ (w : World) (src : Cls) (dict : List (String × Obj)),
    Own [.node src []] dict ∧ Settable dict ∧ ∃ k i, (k, Obj.fn i) ∈ dict ∧ w i = "" ∧ attrDoc w k src ≠ "" ∧
      (copyDocsFrom w src none dict).2.2 = true ∧ (copyDocsFrom w src none dict).1 i = "" := by
  refine ⟨fun i => if i = 0 then "reads" else if i = 1 then "writes" else "",
    ⟨"", fun k => if k = "read" then some (.fn 0) else if k = "write" then some (.fn 1) else none⟩,
    [("read", .fn 2), ("write", .fn 3)], ⟨?_, by decide, ?_⟩, ?_, "write", 3, by simp, by simp, ?_, ?_, ?_⟩
  · intro k k' i h h'
    simp at h h'
    rcases h with ⟨rfl, rfl⟩ | ⟨rfl, rfl⟩ <;> rcases h' with ⟨rfl, h⟩ | ⟨rfl, h⟩ <;> simp_all
  · intro t ht k i hi ⟨k', hk'⟩
    simp only [List.mem_singleton] at ht
    subst ht
    simp only [Tree.label] at hi
    have : i = 0 ∨ i = 1 := by
      split at hi
      · simp at hi; omega
      · split at hi
        · simp at hi; omega
        · simp at hi
    simp at hk'
    omega
  · intro k c h; simp at h
  · simp [attrDoc, docOf]
  · decide
  · decide

/-- **C182 (documentation copied), the part that holds** Of a class whose methods were defined in its
body: it is created; the class gets the documentation of the source if it has none; the first method
without documentation whose namesake in the source is documented gets its documentation; nothing
else changes, so if there is one such method at most, all is documented that can be. -/
theorem C182_copied_partial (w : World) (src : Cls) (doc : Option String) (dict : List (String × Obj))
    (hset : Settable dict) :
    ∃ w', copyDocsFrom w src doc dict = (w', doc.getD src.doc, true) ∧
      ((w' = w ∧ ∀ k i, (k, Obj.fn i) ∈ dict → w i ≠ "" ∨ attrDoc w k src = "") ∨
       ∃ pre k i post, dict = pre ++ (k, Obj.fn i) :: post ∧ w i = "" ∧ attrDoc w k src ≠ "" ∧ w' i = attrDoc w k src ∧ (∀ j, j ≠ i → w' j = w j) ∧
         ∀ k' j, (k', Obj.fn j) ∈ pre → w j ≠ "" ∨ attrDoc w k' src = "") := by
  have key : ∀ dict, Settable dict → (copyLoop src w dict).2 = true ∧
      (((copyLoop src w dict).1 = w ∧ ∀ k i, (k, Obj.fn i) ∈ dict → w i ≠ "" ∨ attrDoc w k src = "") ∨
       ∃ pre k i post, dict = pre ++ (k, Obj.fn i) :: post ∧ w i = "" ∧ attrDoc w k src ≠ "" ∧ (copyLoop src w dict).1 i = attrDoc w k src ∧
         (∀ j, j ≠ i → (copyLoop src w dict).1 j = w j) ∧ ∀ k' j, (k', Obj.fn j) ∈ pre → w j ≠ "" ∨ attrDoc w k' src = "") := by
    clear hset dict
    intro dict
    induction dict with
    | nil => intro _; exact ⟨rfl, Or.inl ⟨rfl, by simp⟩⟩
    | cons a dict ih =>
      intro hset
      obtain ⟨k, v⟩ := a
      have ih := ih (fun k c h => hset k c (List.mem_cons_of_mem _ h))
      have skip : ∀ (hs : copyLoop src w ((k, v) :: dict) = copyLoop src w dict) (hk : ∀ i, v = .fn i → w i ≠ "" ∨ attrDoc w k src = ""), (copyLoop src w ((k, v) :: dict)).2 = true ∧
      (((copyLoop src w ((k, v) :: dict)).1 = w ∧ ∀ k' i, (k', Obj.fn i) ∈ (k, v) :: dict → w i ≠ "" ∨ attrDoc w k' src = "") ∨
       ∃ pre k' i post, (k, v) :: dict = pre ++ (k', Obj.fn i) :: post ∧ w i = "" ∧ attrDoc w k' src ≠ "" ∧ (copyLoop src w ((k, v) :: dict)).1 i = attrDoc w k' src ∧
         (∀ j, j ≠ i → (copyLoop src w ((k, v) :: dict)).1 j = w j) ∧ ∀ k' j, (k', Obj.fn j) ∈ pre → w j ≠ "" ∨ attrDoc w k' src = "") := by
        intro hs hk
        rw [← hs] at ih
        obtain ⟨h1, h2⟩ := ih
        refine ⟨h1, ?_⟩
        rcases h2 with ⟨h2, h3⟩ | ⟨pre, k', i, post, he, h2, h3, h4, h5, h6⟩
        · refine Or.inl ⟨h2, fun k' i hki => ?_⟩
          rcases List.mem_cons.1 hki with h | h
          · simp only [Prod.mk.injEq] at h
            obtain ⟨rfl, h⟩ := h
            exact hk i h.symm
          · exact h3 k' i h
        · refine Or.inr ⟨(k, v) :: pre, k', i, post, by rw [he]; rfl, h2, h3, h4, h5, fun k'' j hj => ?_⟩
          rcases List.mem_cons.1 hj with h | h
          · simp only [Prod.mk.injEq] at h
            obtain ⟨rfl, h⟩ := h
            exact hk j h.symm
          · exact h6 k'' j h
      cases v with
      | fixed c d =>
        apply skip
        · simp only [copyLoop, docOf, isCallable]
          by_cases h : d = "" ∧ c = true
          · obtain ⟨rfl, rfl⟩ := h
            have := hset k true (by simp)
            simp at this
          · exact if_neg h
        · simp
      | fn j =>
        by_cases hw : w j = ""
        · by_cases ha : attrDoc w k src = ""
          · apply skip
            · simp [copyLoop, docOf, isCallable, hw, ha]
            · intro i hi; exact Or.inr ha
          · have hgo : copyLoop src w ((k, .fn j) :: dict) = (setDoc w j (attrDoc w k src), true) := by
              simp [copyLoop, docOf, isCallable, hw, ha]
            rw [hgo]
            refine ⟨rfl, Or.inr ⟨[], k, j, dict, rfl, hw, ha, by simp [setDoc], fun i hi => by simp [setDoc, hi], by simp⟩⟩
        · apply skip
          · simp [copyLoop, docOf, isCallable, hw]
          · intro i hi
            simp only [Obj.fn.injEq] at hi
            subst hi
            exact Or.inl hw
  obtain ⟨h1, h2⟩ := key dict hset
  refine ⟨(copyLoop src w dict).1, ?_, h2⟩
  simp only [copyDocsFrom]
  rw [← h1]

/-- **C182 (partial) members that cannot be documented.** If the first member without documentation whose namesake is documented is one whose documentation cannot be set,
the creation of the class raises, and nothing was documented. -/
theorem C182_refused_partial (w : World) (src : Cls) (doc : Option String) (k : String) (post : List (String × Obj)) (h : attrDoc w k src ≠ "") :
    (copyDocsFrom w src doc ((k, .fixed true "") :: post)).1 = w ∧ (copyDocsFrom w src doc ((k, .fixed true "") :: post)).2.2 = false := by
  simp [copyDocsFrom, copyLoop, docOf, isCallable, h]

example : attrDoc (fun _ => "doc") "run" ⟨"", fun _ => some (.fn 0)⟩ ≠ "" := by decide


/-- **C183 (other classes keep their documentation), the violation** A function of another class given
a second name in the body of the class gets its documentation changed, in the other class too. -/
theorem C183_shared_violates : ∃ (w : World) (bases : List (Tree Cls)) (dict : List (String × Obj)) (other : Cls),
    Settable dict ∧ attrDoc w "run" other = "" ∧ ∀ fuel, 2 ≤ fuel → ∃ w' d, docsFromParent fuel w bases none dict = some (w', d, true) ∧ attrDoc w' "run" other = "starts" := by
  refine ⟨fun i => if i = 0 then "starts" else "", [.node ⟨"", fun k => if k = "start" then some (.fn 0) else none⟩ []],
    [("start", .fn 1)], ⟨"", fun k => if k = "run" then some (.fn 1) else none⟩, ?_, by decide, fun fuel hf => ?_⟩
  · intro k c h; simp at h
  · obtain ⟨f, rfl⟩ : ∃ f, fuel = f + 2 := ⟨fuel - 2, by omega⟩
    exact ⟨_, _, rfl, by decide⟩

/-- **C183 (the nearest ancestor), the violation** The lookup is not breadth first by where a method is
documented: attributes of a base are looked up with all it inherits, so the documentation comes from
an ancestor of the first base although the second base itself, which is nearer, documents the method. -/
theorem C183_nearest_violates : ∃ (w : World) (grand first second : Cls) (own : Cls → String → Option Obj),
    -- `first` has no documented `run` of its own, and inherits that of `grand`; `second` has a documented one
    own first "run" = none ∧ first.attrs "run" = own grand "run" ∧ own second "run" = second.attrs "run" ∧
    attrDoc w "run" grand = "grand" ∧ attrDoc w "run" second = "second" ∧
    ∀ fuel, 4 ≤ fuel → ∃ w' d, docsFromParent fuel w [.node first [.node grand []], .node second []] none [("run", .fn 2)] = some (w', d, true) ∧ w' 2 = "grand" := by
  refine ⟨fun i => if i = 0 then "grand" else if i = 1 then "second" else "",
    ⟨"g", fun k => if k = "run" then some (.fn 0) else none⟩, ⟨"f", fun k => if k = "run" then some (.fn 0) else none⟩,
    ⟨"s", fun k => if k = "run" then some (.fn 1) else none⟩,
    fun c k => if c.doc = "f" then none else c.attrs k, by decide, by decide, by decide, by decide, by decide, fun fuel hf => ?_⟩
  obtain ⟨f, rfl⟩ : ∃ f, fuel = f + 4 := ⟨fuel - 4, by omega⟩
  exact ⟨_, _, rfl, by decide⟩

/-- **C183 (other classes keep their documentation), the part that holds** Whatever the namespace, the
documentation of a function that is not a member of the new class does not change, nor does that of a
function that had one. -/
theorem C183_others_partial (fuel : Nat) (w : World) (bases : List (Tree Cls)) (doc : Option String) (dict : List (String × Obj))
    (w' : World) (d : String) (b : Bool) (h : docsFromParent fuel w bases doc dict = some (w', d, b)) (i : Nat) (hi : ¬ InDict dict i ∨ w i ≠ "") : w' i = w i := by
  have key : ∀ order dict w, (¬ InDict dict i ∨ w i ≠ "") → (fillLoop order w dict).1 i = w i := by
    intro order dict
    induction dict with
    | nil => intro w _; rfl
    | cons a dict ih =>
      intro w hi
      obtain ⟨k, v⟩ := a
      have hi' : ¬ InDict dict i ∨ w i ≠ "" := hi.imp_left (fun h ⟨k', hk'⟩ => h ⟨k', List.mem_cons_of_mem _ hk'⟩)
      simp only [fillLoop]
      split
      · rename_i hc
        cases hfd : firstDoc (attrDoc w k) order with
        | none => exact ih w hi'
        | some d =>
          cases v with
          | fixed _ _ => rfl
          | fn j =>
            simp only [docOf] at hc
            have hij : i ≠ j := by
              rintro rfl
              rcases hi with h | h
              · exact h ⟨k, by simp⟩
              · exact h hc.1
            have e : setDoc w j d i = w i := by simp [setDoc, hij]
            simp only
            rw [ih (setDoc w j d) (by rw [e]; exact hi'), e]
      · exact ih w hi'
  simp only [docsFromParent] at h
  split at h
  · simp at h
  · simp only [Option.some.injEq, Prod.mk.injEq] at h
    rw [← h.1]
    exact key _ dict w hi

/-- What `wrap_with` should make of a member. -/
inductive Wraps {V : Type} (c : Wrapping V) : V → V → Prop
  | saved {v} : c.dontWrap v = true → Wraps c v v
  | callable {v v'} : c.dontWrap v = false → c.callable v = true → c.selectCallable v = some true → c.wrapCallable v = some v' → Wraps c v v'
  | property {v v'} : c.dontWrap v = false → c.callable v = false → c.property v = true → c.selectProperty v = some true → c.wrapProperty v = some v' → Wraps c v v'
  | callableLeft {v} : c.dontWrap v = false → c.callable v = true → c.selectCallable v = some false → Wraps c v v
  | propertyLeft {v} : c.dontWrap v = false → c.callable v = false → c.property v = true → c.selectProperty v = some false → Wraps c v v
  | neither {v} : c.dontWrap v = false → c.callable v = false → c.property v = false → Wraps c v v

theorem wrapOne_iff {V : Type} (c : Wrapping V) (hex : ∀ v, c.callable v = true → c.property v = false) (v v' : V) : wrapOne c v = some v' ↔ Wraps c v v' := by
  constructor
  · intro h
    unfold wrapOne at h
    cases hd : c.dontWrap v with
    | true => simp [hd] at h; subst h; exact .saved hd
    | false =>
      cases hc : c.callable v with
      | true =>
        have hp := hex v hc
        cases hs : c.selectCallable v with
        | none => simp [hd, hc, hs] at h
        | some b =>
          cases b with
          | true => simp [hd, hc, hs] at h; exact .callable hd hc hs h
          | false => simp [hd, hc, hs, hp] at h; subst h; exact .callableLeft hd hc hs
      | false =>
        cases hp : c.property v with
        | false => simp [hd, hc, hp] at h; subst h; exact .neither hd hc hp
        | true =>
          cases hs : c.selectProperty v with
          | none => simp [hd, hc, hp, hs] at h
          | some b =>
            cases b with
            | true => simp [hd, hc, hp, hs] at h; exact .property hd hc hp hs h
            | false => simp [hd, hc, hp, hs] at h; subst h; exact .propertyLeft hd hc hp hs
  · intro h
    cases h with
    | saved h => simp [wrapOne, h]
    | callable h1 h2 h3 h4 => simp [wrapOne, h1, h2, h3, h4]
    | property h1 h2 h3 h4 h5 => simp [wrapOne, h1, h2, h3, h4, h5]
    | callableLeft h1 h2 h3 => simp [wrapOne, h1, h2, h3, hex v h2]
    | propertyLeft h1 h2 h3 h4 => simp [wrapOne, h1, h2, h3, h4]
    | neither h1 h2 h3 => simp [wrapOne, h1, h2, h3]

/-- **C184 (wrapping members)** A class is made exactly if no function given raises on a member it is
asked about, and then its namespace has the same names in the same order, each with the member
wrapped if it is callable and selected, or a property and selected, and was not marked with
`dont_wrap`, and otherwise the member itself. -/
theorem C184_wrapped {V : Type} (c : Wrapping V) (hex : ∀ v, c.callable v = true → c.property v = false) (dict dict' : List (String × V)) :
    wrapAll c dict = some dict' ↔ dict'.map Prod.fst = dict.map Prod.fst ∧ ∀ (i : Nat) k v, dict[i]? = some (k, v) → ∃ v', dict'[i]? = some (k, v') ∧ Wraps c v v' := by
  induction dict generalizing dict' with
  | nil =>
    simp only [wrapAll, Option.some.injEq, List.map_nil, List.map_eq_nil_iff]
    constructor
    · rintro rfl; simp
    · rintro ⟨rfl, _⟩; rfl
  | cons a dict ih =>
    obtain ⟨k, v⟩ := a
    simp only [wrapAll]
    constructor
    · intro h
      cases h1 : wrapOne c v with
      | none => simp [h1] at h
      | some v' =>
        cases h2 : wrapAll c dict with
        | none => simp [h1, h2] at h
        | some rest =>
          simp only [h1, h2, Option.some.injEq] at h
          subst h
          obtain ⟨e, f⟩ := (ih rest).1 h2
          refine ⟨by simp [e], fun i k' u hi => ?_⟩
          cases i with
          | zero =>
            simp only [List.getElem?_cons_zero, Option.some.injEq, Prod.mk.injEq] at hi
            obtain ⟨rfl, rfl⟩ := hi
            exact ⟨v', by simp, (wrapOne_iff c hex _ _).1 h1⟩
          | succ i => simpa using f i k' u (by simpa using hi)
    · rintro ⟨e, f⟩
      cases dict' with
      | nil => simp at e
      | cons b rest =>
        obtain ⟨kb, vb⟩ := b
        simp only [List.map_cons, List.cons.injEq] at e
        obtain ⟨v', h1, h2⟩ := f 0 k v (by simp)
        simp only [List.getElem?_cons_zero, Option.some.injEq, Prod.mk.injEq] at h1
        obtain ⟨rfl, rfl⟩ := h1
        have h3 := (ih rest).2 ⟨e.2, fun i k' u hi => by simpa using f (i + 1) k' u (by simpa using hi)⟩
        simp [(wrapOne_iff c hex _ _).2 h2, h3]

/-! ## Examples -/

/-- A base with two documented methods, one function. -/
def base : Cls := ⟨"Base", fun k => if k = "read" then some (.fn 0) else if k = "write" then some (.fn 1) else none⟩
def world : World := fun i => if i = 0 then "reads" else if i = 1 then "writes" else if i = 4 then "own" else ""

example : (docsFromParent 5 world [.node base []] none [("read", .fn 2), ("write", .fn 3), ("close", .fn 4), ("n", .fixed false "")]).map
    (fun r => ((List.range 5).map r.1, r.2)) = some (["reads", "writes", "reads", "writes", "own"], "Base", true) := by decide

theorem breadthFirst_leaf (c : Cls) (depth : Nat) : ∀ t ∈ breadthFirst [.node c []] depth, t.label = c := by
  intro t ht
  unfold breadthFirst at ht
  obtain ⟨i, _, hi⟩ := List.mem_flatMap.1 ht
  cases i with
  | zero => simp [Tree.level] at hi; subst hi; rfl
  | succ i => simp [Tree.level, Tree.kids] at hi

example : ∀ depth, Own (breadthFirst [.node base []] depth) [("read", .fn 2), ("write", .fn 3)] := by
  intro depth
  refine ⟨?_, by decide, ?_⟩
  · intro k k' i h h'
    simp at h h'
    rcases h with ⟨rfl, rfl⟩ | ⟨rfl, rfl⟩ <;> rcases h' with ⟨rfl, h⟩ | ⟨rfl, h⟩ <;> simp_all
  · intro t ht k i hi ⟨k', hk'⟩
    rw [breadthFirst_leaf base depth t ht] at hi
    have : i = 0 ∨ i = 1 := by
      unfold base at hi
      simp only at hi
      split at hi
      · simp at hi; omega
      · split at hi
        · simp at hi; omega
        · simp at hi
    simp at hk'
    omega
example : Settable [("read", .fn 2), ("n", .fixed false "")] := by intro k c h; simp at h; exact h.2
/-- Even numbers are callables, 10 and 11 are not to be wrapped, 5 is a property. -/
example : wrapAll ⟨fun v => v == 10 || v == 11, fun v => v % 2 == 0, fun v => v == 5, fun v => some (v != 4), fun _ => some true, fun v => some (v + 100), fun v => some (v + 200)⟩
    [("a", 2), ("b", 4), ("c", 5), ("d", 7), ("e", 10)] = some [("a", 102), ("b", 4), ("c", 205), ("d", 7), ("e", 10)] := by decide

end Verif.Docs
