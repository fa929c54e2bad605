/-!
# Copies of MonitorList and MonitorDict (satella/coding/concurrent/monitor.py), C229, C230

Objects are numbered, in the order in which they were made.  Containers of the standard library are lists and dictionaries; the keys of a list are not used.
Keys and other immutable things have no parts.
-/
namespace Verif.MonitorCopy

/-! ## Model -/

/-- An object: an immutable one; a list or a dictionary with its items; a MonitorList or MonitorDict, with its container `data`, and who has its lock.
  (Part of the model of `MonitorList` and `MonitorDict`, /repo/satella/coding/concurrent/monitor.py:179-232.) -/
inductive Node where
  | atom (n : Nat)
  | cont (dict : Bool) (items : List (Nat × Nat))
  | mon (data : Nat) (held : Option Nat)
  deriving DecidableEq, Repr

/-- All objects.  (Part of the model of `MonitorList` and `MonitorDict`, /repo/satella/coding/concurrent/monitor.py:179-232.) -/
abbrev Heap := List Node

/-- The items of a container.  (Part of the model of `MonitorList` and `MonitorDict`, /repo/satella/coding/concurrent/monitor.py:179-232.) -/
def itemsOf (h : Heap) (r : Nat) : Bool × List (Nat × Nat) :=
  match h[r]? with
  | some (.cont b items) => (b, items)
  | _ => (false, [])

/-- `MonitorList(x)` and `MonitorDict(x)` of a list or a dictionary, /repo/satella/coding/concurrent/monitor.py:187-189 and :215-217: the container is a new one with the same items
  (`UserList` and `UserDict` of the standard library), the lock is new. -/
def construct (h : Heap) (x : Nat) : Heap × Nat :=
  let h1 := h ++ [.cont (itemsOf h x).1 (itemsOf h x).2]
  (h1 ++ [.mon h.length none], h1.length)

/-- `__copy__`, /repo/satella/coding/concurrent/monitor.py:191-192 and :228-229: the container is copied, and then once more by the constructor. -/
def copy (h : Heap) (r : Nat) : Option (Heap × Nat) :=
  match h[r]? with
  | some (.mon d _) => some (construct (h ++ [.cont (itemsOf h d).1 (itemsOf h d).2]) h.length)
  | _ => none

/-- The objects, and the dictionary `memo`.  (Part of the model of `__deepcopy__`, /repo/satella/coding/concurrent/monitor.py:194-195 and :231-232.) -/
structure St where
  heap : Heap
  memo : Nat → Option Nat

/-- An item is added at the end of the container `y` (the loops of `copy.deepcopy` of the standard library over lists and dictionaries, called in
  /repo/satella/coding/concurrent/monitor.py:195 and :232). -/
def push (h : Heap) (y : Nat) (e : Nat × Nat) : Heap :=
  h.set y (.cont (itemsOf h y).1 ((itemsOf h y).2 ++ [e]))

/-- The loop over the items of a container that is copied: each item is copied by `f` and added to `y` (`copy.deepcopy` of the standard library,
  called in /repo/satella/coding/concurrent/monitor.py:195 and :232). -/
def loop (f : St → Nat → Option (St × Nat)) (y : Nat) : St → List (Nat × Nat) → Option St
  | s, [] => some s
  | s, (k, x) :: l =>
    match f s x with
    | none => none
    | some (s', x') => loop f y { s' with heap := push s'.heap y (k, x') } l

/-- `copy.deepcopy(x, memo)`.  What is in `memo` is taken from there; a list or a dictionary is put there before its items are copied (the standard library), but a
  MonitorList or MonitorDict only after `__deepcopy__` has returned, /repo/satella/coding/concurrent/monitor.py:194-195 and :231-232.  `none` if the fuel is not enough. -/
def deep : Nat → St → Nat → Option (St × Nat)
  | 0, _, _ => none
  | fuel + 1, s, r =>
    match s.memo r with
    | some y => some (s, y)
    | none =>
      match s.heap[r]? with
      | some (.cont b items) =>
        let y := s.heap.length
        (loop (deep fuel) y ⟨s.heap ++ [.cont b []], fun q => if q = r then some y else s.memo q⟩ items).map (fun s' => (s', y))
      | some (.mon d _) =>
        match deep fuel s d with
        | none => none
        | some (s', x) =>
          let p := construct s'.heap x
          some (⟨p.1, fun q => if q = r then some p.2 else s'.memo q⟩, p.2)
      | _ => some (s, r)

/-- `copy.deepcopy(x)` of a MonitorList or MonitorDict, /repo/satella/coding/concurrent/monitor.py:194-195 and :231-232 -/
def deepcopy (fuel : Nat) (h : Heap) (r : Nat) : Option (Heap × Nat) :=
  (deep fuel ⟨h, fun _ => none⟩ r).map (fun p => (p.1.heap, p.2))

/-- The items of the container are replaced, through `m`: every change of its contents, such as `__setitem__` and `__delitem__`,
  /repo/satella/coding/concurrent/monitor.py:200-204 and :222-226, and the methods of `UserList` and `UserDict`, comes to this. -/
def change (h : Heap) (m : Nat) (items : List (Nat × Nat)) : Heap :=
  match h[m]? with
  | some (.mon d _) => h.set d (.cont (itemsOf h d).1 items)
  | _ => h

/-- Several changes (/repo/satella/coding/concurrent/monitor.py:200-204 and :222-226). -/
def changes (h : Heap) : List (Nat × List (Nat × Nat)) → Heap
  | [] => h
  | c :: cs => changes (change h c.1 c.2) cs

/-! ## Specification -/

/-- `m` is a MonitorList or MonitorDict with these contents -/
def Contents (h : Heap) (m : Nat) (dict : Bool) (items : List (Nat × Nat)) (held : Option Nat) : Prop :=
  ∃ d, h[m]? = some (.mon d held) ∧ h[d]? = some (.cont dict items)

/-- whatever is in `x` is an object, and the `data` of a monitor is a container -/
structure Closed (h : Heap) : Prop where
  items : ∀ (r : Nat) b l k x, h[r]? = some (.cont b l) → (k, x) ∈ l → x < h.length
  data : ∀ (r : Nat) (d : Nat) o, h[r]? = some (.mon d o) → ∃ b l, h[d]? = some (.cont b l)

/-- nothing is inside itself -/
def Acyclic (h : Heap) (rank : Nat → Nat) : Prop :=
  (∀ (r : Nat) b l k x, h[r]? = some (.cont b l) → (k, x) ∈ l → rank x < rank r) ∧ ∀ (r : Nat) (d : Nat) o, h[r]? = some (.mon d o) → rank d < rank r

/-- `y` in `h'` looks the same as `r` in `h`: the same immutable things, at the same places of containers of the same kinds -/
inductive Same (h h' : Heap) : Nat → Nat → Prop
  | atom (r y n : Nat) : h[r]? = some (.atom n) → h'[y]? = some (.atom n) → Same h h' r y
  | cont (r y : Nat) (b : Bool) (l l' : List (Nat × Nat)) (f : Nat → Nat) : h[r]? = some (.cont b l) → h'[y]? = some (.cont b l') → l'.length = l.length →
      (∀ (i k x : Nat), l[i]? = some (k, x) → l'[i]? = some (k, f i)) → (∀ (i k x : Nat), l[i]? = some (k, x) → Same h h' x (f i)) → Same h h' r y
  | mon (r y d d' : Nat) (o o' : Option Nat) : h[r]? = some (.mon d o) → h'[y]? = some (.mon d' o') → Same h h' d d' → Same h h' r y

/-! ## Shallow copies -/

theorem get_append_lt (h : Heap) (t : List Node) (i : Nat) (hi : i < h.length) : (h ++ t)[i]? = h[i]? := List.getElem?_append_left hi

theorem lt_of_get {h : Heap} {r : Nat} {n : Node} (e : h[r]? = some n) : r < h.length := (List.getElem?_eq_some_iff.1 e).1

theorem construct_spec (h : Heap) (x : Nat) : (construct h x).2 = h.length + 1 ∧ (construct h x).1.length = h.length + 2 ∧
    (∀ (i : Nat), i < h.length → (construct h x).1[i]? = h[i]?) ∧ (construct h x).1[h.length]? = some (.cont (itemsOf h x).1 (itemsOf h x).2) ∧
    (construct h x).1[h.length + 1]? = some (.mon h.length none) := by
  refine ⟨by simp [construct], by simp [construct], ?_, ?_, ?_⟩
  · intro i hi
    simp only [construct]
    rw [get_append_lt _ _ _ (by simp; omega), get_append_lt _ _ _ hi]
  · simp [construct]
  · simp [construct]

theorem copy_spec (h : Heap) (r d : Nat) (o : Option Nat) (hr : h[r]? = some (.mon d o)) : ∃ h', copy h r = some (h', h.length + 2) ∧
    (∀ (i : Nat), i < h.length → h'[i]? = h[i]?) ∧ h'[h.length + 1]? = some (.cont (itemsOf h d).1 (itemsOf h d).2) ∧ h'[h.length + 2]? = some (.mon (h.length + 1) none) ∧ h'.length = h.length + 3 := by
  refine ⟨(construct (h ++ [.cont (itemsOf h d).1 (itemsOf h d).2]) h.length).1, ?_, ?_⟩
  · simp only [copy, hr]
    obtain ⟨h1, _⟩ := construct_spec (h ++ [.cont (itemsOf h d).1 (itemsOf h d).2]) h.length
    rw [show (construct (h ++ [.cont (itemsOf h d).1 (itemsOf h d).2]) h.length) = ((construct (h ++ [.cont (itemsOf h d).1 (itemsOf h d).2]) h.length).1, (construct (h ++ [.cont (itemsOf h d).1 (itemsOf h d).2]) h.length).2) from rfl, h1]
    simp
  · obtain ⟨_, h2, h3, h4, h5⟩ := construct_spec (h ++ [.cont (itemsOf h d).1 (itemsOf h d).2]) h.length
    simp only [List.length_append, List.length_cons, List.length_nil, Nat.zero_add] at h2 h3 h4 h5
    refine ⟨fun i hi => ?_, ?_, h5, h2⟩
    · rw [h3 i (by omega), get_append_lt _ _ _ hi]
    · rw [h4]; simp [itemsOf]

/-- all data of monitors other than `y` are elsewhere than at `c` -/
def Apart (h : Heap) (y c : Nat) : Prop := ∀ (m : Nat) d o, h[m]? = some (.mon d o) → m ≠ y → d ≠ c

theorem change_nodes (h : Heap) (m : Nat) (l : List (Nat × Nat)) (hc : ∀ (r : Nat) (d : Nat) o, h[r]? = some (.mon d o) → ∃ b l, h[d]? = some (.cont b l)) :
    (∀ (r : Nat) (d : Nat) o, h[r]? = some (.mon d o) ↔ (change h m l)[r]? = some (.mon d o)) ∧
    (∀ (r : Nat) (d : Nat) o, (change h m l)[r]? = some (.mon d o) → ∃ b l', (change h m l)[d]? = some (.cont b l')) ∧
    (∀ (c : Nat), (∀ (d : Nat) o, h[m]? = some (.mon d o) → d ≠ c) → (change h m l)[c]? = h[c]?) := by
  unfold change
  split
  · rename_i d o hm
    obtain ⟨b, l0, hd⟩ := hc m d o hm
    have iff1 : ∀ (r : Nat) d' o', h[r]? = some (.mon d' o') ↔ (h.set d (.cont (itemsOf h d).1 l))[r]? = some (.mon d' o') := by
      intro r d' o'
      by_cases hrd : r = d
      · subst hrd
        rw [hd, List.getElem?_set_self (lt_of_get hd)]
        simp
      · rw [List.getElem?_set_ne (fun e => hrd e.symm)]
    refine ⟨iff1, ?_, ?_⟩
    · intro r d' o' hr
      obtain ⟨b', l', h'⟩ := hc r d' o' ((iff1 r d' o').2 hr)
      by_cases hdd : d' = d
      · subst hdd
        exact ⟨_, _, List.getElem?_set_self (lt_of_get hd)⟩
      · exact ⟨b', l', by rw [List.getElem?_set_ne (fun e => hdd e.symm)]; exact h'⟩
    · intro c hne
      rw [List.getElem?_set_ne (hne d o hm)]
  · exact ⟨fun _ _ _ => Iff.rfl, hc, fun _ _ => rfl⟩

theorem changes_keep (cs : List (Nat × List (Nat × Nat))) : ∀ (h : Heap) (y c : Nat), (∀ (r : Nat) (d : Nat) o, h[r]? = some (.mon d o) → ∃ b l, h[d]? = some (.cont b l)) →
    Apart h y c → (∀ e ∈ cs, e.1 ≠ y) → (∀ (r : Nat) (d : Nat) o, h[r]? = some (.mon d o) → (changes h cs)[r]? = some (.mon d o)) ∧ (changes h cs)[c]? = h[c]? := by
  induction cs with
  | nil => exact fun _ _ _ _ _ _ => ⟨fun _ _ _ h => h, rfl⟩
  | cons e cs ih =>
    intro h y c hc ha hne
    obtain ⟨h1, h2, h3⟩ := change_nodes h e.1 e.2 hc
    have hey : e.1 ≠ y := hne e (by simp)
    obtain ⟨i1, i2⟩ := ih (change h e.1 e.2) y c h2 (fun m d o hm hmy => ha m d o ((h1 m d o).2 hm) hmy) (fun e' he' => hne e' (by simp [he']))
    refine ⟨fun r d o hr => i1 r d o ((h1 r d o).1 hr), ?_⟩
    show (changes (change h e.1 e.2) cs)[c]? = h[c]?
    rw [i2, h3 c (fun d o hm => ha e.1 d o hm hey)]

/-- **C229.** A copy of a MonitorList or MonitorDict has the same items, the very same objects, and a lock of its own that nobody has; nothing that was there before is changed.
Whatever is changed later through other MonitorLists and MonitorDicts, the copy keeps its items; and whatever is changed through the copy, the others keep theirs. -/
theorem C229_copy (h : Heap) (hc : Closed h) (r : Nat) (b : Bool) (l : List (Nat × Nat)) (o : Option Nat) (hr : Contents h r b l o) :
    ∃ h' y, copy h r = some (h', y) ∧ h.length ≤ y ∧ (∀ (i : Nat), i < h.length → h'[i]? = h[i]?) ∧
      (∀ cs, (∀ e ∈ cs, e.1 < h.length) → Contents (changes h' cs) y b l none) ∧
      (∀ cs, (∀ e ∈ cs, e.1 = y) → ∀ m b' l' o', Contents h m b' l' o' → Contents (changes h' cs) m b' l' o') := by
  obtain ⟨d, h1, h2⟩ := hr
  obtain ⟨h', e, old, e1, e2, len⟩ := copy_spec h r d o h1
  rw [show itemsOf h d = (b, l) by simp [itemsOf, h2]] at e1
  have closed' : ∀ (r : Nat) (d : Nat) o, h'[r]? = some (.mon d o) → (d < h.length ∨ r = h.length + 2) ∧ ∃ b l, h'[d]? = some (.cont b l) := by
    intro r' d' o' hr'
    by_cases hlt : r' < h.length
    · rw [old r' hlt] at hr'
      obtain ⟨b', l', hd'⟩ := hc.data r' d' o' hr'
      exact ⟨Or.inl (lt_of_get hd'), b', l', by rw [old d' (lt_of_get hd')]; exact hd'⟩
    · have hl := lt_of_get hr'
      rcases (by omega : r' = h.length ∨ r' = h.length + 1 ∨ r' = h.length + 2) with q | q | q
      · exfalso
        subst q
        have : h'[h.length]? = some (.cont b l) := by
          have := copy_spec h r d o h1
          obtain ⟨h'', e'', _⟩ := this
          simp only [copy, h1, Option.some.injEq] at e
          have e3 : h' = (construct (h ++ [.cont (itemsOf h d).1 (itemsOf h d).2]) h.length).1 := by rw [e]
          rw [e3, (construct_spec _ _).2.2.1 h.length (by simp)]
          simp [itemsOf, h2]
        rw [this] at hr'
        cases hr'
      · subst q; rw [e1] at hr'; cases hr'
      · subst q
        rw [e2] at hr'
        cases hr'
        exact ⟨Or.inr rfl, _, _, e1⟩
  refine ⟨h', h.length + 2, e, by omega, old, ?_, ?_⟩
  · intro cs hcs
    have ha : Apart h' (h.length + 2) (h.length + 1) := by
      intro m d' o' hm hne
      rcases (closed' m d' o' hm).1 with q | q
      · omega
      · exact absurd q hne
    obtain ⟨k1, k2⟩ := changes_keep cs h' _ _ (fun r d o hr => (closed' r d o hr).2) ha (fun e he => by have := hcs e he; omega)
    exact ⟨h.length + 1, k1 _ _ _ e2, by rw [k2]; exact e1⟩
  · intro cs hcs m b' l' o' ⟨dm, g1, g2⟩
    have key : ∀ (cs : List (Nat × List (Nat × Nat))) (g : Heap), (∀ e ∈ cs, e.1 = h.length + 2) → g[h.length + 2]? = some (.mon (h.length + 1) none) →
        (∀ (i : Nat), i < h.length → (changes g cs)[i]? = g[i]?) := by
      intro cs
      induction cs with
      | nil => exact fun _ _ _ _ _ => rfl
      | cons e cs ih =>
        intro g hg1 hg2 i hi
        have he : change g e.1 e.2 = g.set (h.length + 1) (.cont (itemsOf g (h.length + 1)).1 e.2) := by
          simp only [change, hg1 e (by simp), hg2]
        show (changes (change g e.1 e.2) cs)[i]? = g[i]?
        rw [ih (change g e.1 e.2) (fun e' he' => hg1 e' (by simp [he'])) (by rw [he, List.getElem?_set_ne (by omega)]; exact hg2) i hi, he, List.getElem?_set_ne (by omega)]
    refine ⟨dm, ?_, ?_⟩
    · rw [key cs h' hcs e2 m (lt_of_get g1), old m (lt_of_get g1)]; exact g1
    · rw [key cs h' hcs e2 dm (lt_of_get g2), old dm (lt_of_get g2)]; exact g2

/-! ## Deep copies -/

/-- as `Same`, from `h0` to objects made later and `ok` -/
inductive SameN (h0 : Heap) (ok : Nat → Prop) (h : Heap) : Nat → Nat → Prop
  | atom (r n : Nat) : h0[r]? = some (.atom n) → SameN h0 ok h r r
  | cont (r y : Nat) (b : Bool) (l l' : List (Nat × Nat)) (f : Nat → Nat) : h0[r]? = some (.cont b l) → ok y → h0.length ≤ y → h[y]? = some (.cont b l') → l'.length = l.length →
      (∀ (i k x : Nat), l[i]? = some (k, x) → l'[i]? = some (k, f i)) → (∀ (i k x : Nat), l[i]? = some (k, x) → SameN h0 ok h x (f i)) → SameN h0 ok h r y
  | mon (r y d d' : Nat) (o : Option Nat) : h0[r]? = some (.mon d o) → ok y → h0.length ≤ y → h[y]? = some (.mon d' none) → SameN h0 ok h d d' → SameN h0 ok h r y

theorem sameN_mono {h0 h h' : Heap} {ok ok' : Nat → Prop} (hok : ∀ i, ok i → i < h.length → ok' i ∧ h'[i]? = h[i]?) {r y : Nat} (hs : SameN h0 ok h r y) : SameN h0 ok' h' r y := by
  induction hs with
  | atom r n e => exact .atom r n e
  | cont r y b l l' f e1 e2 e3 e4 e5 e6 _ ih =>
    obtain ⟨g1, g2⟩ := hok y e2 (lt_of_get e4)
    exact .cont r y b l l' f e1 g1 e3 (by rw [g2]; exact e4) e5 e6 ih
  | mon r y d d' o e1 e2 e3 e4 _ ih =>
    obtain ⟨g1, g2⟩ := hok y e2 (lt_of_get e4)
    exact .mon r y d d' o e1 g1 e3 (by rw [g2]; exact e4) ih

/-- what holds while copying: old objects are as they were, and what was copied, if of a rank that matters, is done -/
structure Inv (h0 : Heap) (rank : Nat → Nat) (B : Nat → Prop) (k : Nat) (s : St) : Prop where
  len : h0.length ≤ s.heap.length
  old : ∀ (i : Nat), i < h0.length → s.heap[i]? = h0[i]?
  below : ∀ i, B i → i < s.heap.length
  done : ∀ x y, s.memo x = some y → rank x ≤ k → SameN h0 (fun i => ¬ B i) s.heap x y

/-- what a call that copies `r` does -/
def Does (h0 : Heap) (rank : Nat → Nat) (B : Nat → Prop) (s : St) (r : Nat) (s' : St) (y : Nat) : Prop :=
  Inv h0 rank B (rank r) s' ∧ s.heap.length ≤ s'.heap.length ∧ (∀ (i : Nat), i < s.heap.length → s'.heap[i]? = s.heap[i]?) ∧ (∀ x, rank r < rank x → s'.memo x = s.memo x) ∧
    SameN h0 (fun i => ¬ B i) s'.heap r y

theorem inv_weaken {h0 : Heap} {rank : Nat → Nat} {B : Nat → Prop} {k k' : Nat} {s : St} (h : Inv h0 rank B k s) (hk : k' ≤ k) : Inv h0 rank B k' s :=
  ⟨h.len, h.old, h.below, fun x y e hx => h.done x y e (Nat.le_trans hx hk)⟩

theorem loop_spec (h0 : Heap) (rank : Nat → Nat) (B : Nat → Prop) (r y : Nat) (f : St → Nat → Option (St × Nat)) (b : Bool)
    (hf : ∀ s x, rank x < rank r → x < h0.length → Inv h0 rank (fun i => B i ∨ i = y) (rank x) s → ∃ s' x', f s x = some (s', x') ∧ Does h0 rank (fun i => B i ∨ i = y) s x s' x')
    (hy0 : h0.length ≤ y) (n : Nat) (hB : ∀ i, B i → i < n) (hyn : y = n) :
    ∀ (l : List (Nat × Nat)) (s : St) (acc : List (Nat × Nat)), (∀ k x, (k, x) ∈ l → rank x < rank r ∧ x < h0.length) →
      s.heap[y]? = some (.cont b acc) → h0.length ≤ s.heap.length → (∀ (i : Nat), i < h0.length → s.heap[i]? = h0[i]?) →
      (∀ x z, x ≠ r → s.memo x = some z → rank x ≤ rank r → SameN h0 (fun i => ¬ (B i ∨ i = y)) s.heap x z) →
      ∃ s' l', loop f y s l = some s' ∧ s'.heap[y]? = some (.cont b (acc ++ l')) ∧ s.heap.length ≤ s'.heap.length ∧
        (∀ (i : Nat), i < s.heap.length → i ≠ y → s'.heap[i]? = s.heap[i]?) ∧
        (∀ x, rank r ≤ rank x → s'.memo x = s.memo x) ∧
        (∀ x z, x ≠ r → s'.memo x = some z → rank x ≤ rank r → SameN h0 (fun i => ¬ (B i ∨ i = y)) s'.heap x z) ∧
        l'.length = l.length ∧ ∀ (i k x : Nat), l[i]? = some (k, x) → ∃ x', l'[i]? = some (k, x') ∧ SameN h0 (fun i => ¬ (B i ∨ i = y)) s'.heap x x' := by
  intro l
  induction l with
  | nil =>
    intro s acc _ hy _ _ hm
    exact ⟨s, [], rfl, by simpa using hy, Nat.le_refl _, fun _ _ _ => rfl, fun _ _ => rfl, hm, rfl, by simp⟩
  | cons e l ih =>
    obtain ⟨k, x⟩ := e
    intro s acc hl hy hlen hold hm
    obtain ⟨hx1, hx2⟩ := hl k x (by simp)
    have hylt := lt_of_get hy
    obtain ⟨s1, x', e1, i1, i2, i3, i4, i5⟩ := hf s x hx1 hx2 ⟨hlen, hold, by
        intro i hi
        rcases hi with hi | hi
        · have := hB i hi; omega
        · omega, by
        intro q z hq hr
        exact hm q z (fun c => by subst c; omega) hq (by omega)⟩
    have hy1 : s1.heap[y]? = some (.cont b acc) := by rw [i3 y hylt]; exact hy
    have hpush : push s1.heap y (k, x') = s1.heap.set y (.cont b (acc ++ [(k, x')])) := by simp [push, itemsOf, hy1]
    have hylt1 := lt_of_get hy1
    have frame : ∀ {q z}, SameN h0 (fun i => ¬ (B i ∨ i = y)) s1.heap q z → SameN h0 (fun i => ¬ (B i ∨ i = y)) (push s1.heap y (k, x')) q z := by
      intro q z hs
      refine sameN_mono ?_ hs
      intro i hi _
      refine ⟨hi, ?_⟩
      rw [hpush, List.getElem?_set_ne (fun c => hi (Or.inr c.symm))]
    obtain ⟨s2, l', f1, f2, f3, f4, f5, f6, f7, f8⟩ := ih { s1 with heap := push s1.heap y (k, x') } (acc ++ [(k, x')]) (fun k' q hq => hl k' q (by simp [hq]))
      (by simp only [hpush]; exact List.getElem?_set_self hylt1) (by simp only [hpush, List.length_set]; omega)
      (by
        intro i hi
        simp only [hpush]
        rw [List.getElem?_set_ne (by omega), i3 i (by omega), hold i hi])
      (by
        intro q z hq hz hr
        simp only at hz
        apply frame
        by_cases hrq : rank q ≤ rank x
        · exact i1.done q z hz hrq
        · rw [i4 q (by omega)] at hz
          refine sameN_mono ?_ (hm q z hq hz hr)
          intro i hi hilt
          exact ⟨hi, i3 i hilt⟩)
    simp only [hpush, List.length_set] at f3 f4 f5
    refine ⟨s2, (k, x') :: l', ?_, ?_, by omega, ?_, ?_, f6, by simp [f7], ?_⟩
    · simp only [loop, e1]; exact f1
    · rw [f2]; simp
    · intro i hi hne
      rw [f4 i (by omega) hne, List.getElem?_set_ne (fun c => hne c.symm), i3 i hi]
    · intro q hq
      rw [f5 q hq, i4 q (by omega)]
    · intro i k' q hq
      cases i with
      | zero =>
        simp only [List.getElem?_cons_zero, Option.some.injEq, Prod.mk.injEq] at hq
        obtain ⟨rfl, rfl⟩ := hq
        refine ⟨x', rfl, sameN_mono ?_ (frame i5)⟩
        intro i hi hilt
        refine ⟨hi, ?_⟩
        simp only [hpush, List.length_set] at hilt
        rw [f4 i hilt (fun c => hi (Or.inr c)), hpush]
      | succ i => exact f8 i k' q (by simpa using hq)

theorem deep_spec (h0 : Heap) (hc : Closed h0) (rank : Nat → Nat) (ha : Acyclic h0 rank) : ∀ (fuel : Nat) (B : Nat → Prop) (s : St) (r : Nat), rank r < fuel → r < h0.length →
    Inv h0 rank B (rank r) s → ∃ s' y, deep fuel s r = some (s', y) ∧ Does h0 rank B s r s' y := by
  intro fuel
  induction fuel with
  | zero => intro _ _ _ h; omega
  | succ fuel ih =>
    intro B s r hfuel hr hinv
    cases hm : s.memo r with
    | some y =>
      exact ⟨s, y, by simp [deep, hm], hinv, Nat.le_refl _, fun _ _ => rfl, fun _ _ => rfl, hinv.done r y hm (Nat.le_refl _)⟩
    | none =>
      have hget : s.heap[r]? = h0[r]? := hinv.old r hr
      cases hn : h0[r]? with
      | none => exact absurd hn (by simp; omega)
      | some node =>
        cases node with
        | atom n =>
          refine ⟨s, r, by simp [deep, hm, hget, hn], hinv, Nat.le_refl _, fun _ _ => rfl, fun _ _ => rfl, .atom r n hn⟩
        | cont b l =>
          have hnb : ∀ i, B i → i ≠ s.heap.length := fun i hi => by have := hinv.below i hi; omega
          have grow : ∀ {x z}, SameN h0 (fun i => ¬ B i) s.heap x z → SameN h0 (fun i => ¬ (B i ∨ i = s.heap.length)) (s.heap ++ [.cont b []]) x z := by
            intro x z hs
            refine sameN_mono ?_ hs
            intro i hi hlt
            exact ⟨fun c => c.elim hi (fun c => by omega), get_append_lt _ _ _ hlt⟩
          obtain ⟨s', l', g1, g2, g3, g4, g5, g6, g7, g8⟩ := loop_spec h0 rank B r s.heap.length (deep fuel) b
            (fun s1 x hx1 hx2 hi => ih (fun i => B i ∨ i = s.heap.length) s1 x (by omega) hx2 hi) hinv.len s.heap.length hinv.below rfl l
            ⟨s.heap ++ [.cont b []], fun q => if q = r then some s.heap.length else s.memo q⟩ []
            (fun k x hx => ⟨ha.1 r b l k x hn hx, hc.items r b l k x hn hx⟩)
            (by simp) (by simp only [List.length_append]; have := hinv.len; omega)
            (by
              intro i hi
              simp only
              rw [get_append_lt _ _ _ (by have := hinv.len; omega), hinv.old i hi])
            (by
              intro x z hx hz hr'
              simp only [hx, if_false] at hz
              exact grow (hinv.done x z hz hr'))
          simp only [List.length_append, List.length_cons, List.length_nil, Nat.zero_add, List.nil_append] at g2 g3 g4
          have done_r : SameN h0 (fun i => ¬ B i) s'.heap r s.heap.length := by
            let f : Nat → Nat := fun i => match l'[i]? with | some p => p.2 | none => 0
            refine .cont r _ b l l' f hn (fun c => hnb _ c rfl) hinv.len g2 g7 ?_ ?_
            · intro i k x hx
              obtain ⟨x', e1, _⟩ := g8 i k x hx
              simp only [f, e1]
            · intro i k x hx
              obtain ⟨x', e1, e2⟩ := g8 i k x hx
              simp only [f, e1]
              exact sameN_mono (fun j hj _ => ⟨fun c => hj (Or.inl c), rfl⟩) e2
          refine ⟨s', s.heap.length, ?_, ⟨?_, ?_, ?_, ?_⟩, by omega, ?_, ?_, done_r⟩
          · simp only [deep, hm, hget, hn, g1, Option.map_some]
          · have := hinv.len; omega
          · intro i hi
            have := hinv.len
            rw [g4 i (by omega) (by omega), get_append_lt _ _ _ (by omega), hinv.old i hi]
          · intro i hi; have := hinv.below i hi; omega
          · intro x z hz hr'
            by_cases hxr : x = r
            · subst hxr
              rw [g5 x (Nat.le_refl _)] at hz
              simp only [if_true, Option.some.injEq] at hz
              subst hz
              exact done_r
            · exact sameN_mono (fun j hj _ => ⟨fun c => hj (Or.inl c), rfl⟩) (g6 x z hxr hz hr')
          · intro i hi
            rw [g4 i (by omega) (by omega), get_append_lt _ _ _ hi]
          · intro x hx
            rw [g5 x (by omega)]
            have : x ≠ r := fun c => by subst c; omega
            simp [this]
        | mon d o =>
          obtain ⟨b, l, hd⟩ := hc.data r d o hn
          have hrank := ha.2 r d o hn
          obtain ⟨s', x, e1, i1, i2, i3, i4, i5⟩ := ih B s d (by omega) (lt_of_get hd) (inv_weaken hinv (by omega))
          obtain ⟨c1, c2, c3, c4, c5⟩ := construct_spec s'.heap x
          have grow : ∀ {q z}, SameN h0 (fun i => ¬ B i) s'.heap q z → SameN h0 (fun i => ¬ B i) (construct s'.heap x).1 q z := by
            intro q z hs
            exact sameN_mono (fun i hi hlt => ⟨hi, c3 i hlt⟩) hs
          have hnb : ∀ i, B i → i < s'.heap.length := i1.below
          have done_r : SameN h0 (fun i => ¬ B i) (construct s'.heap x).1 r (s'.heap.length + 1) := by
            refine .mon r _ d s'.heap.length o hn (fun c => by have := hnb _ c; omega) (by have := i1.len; omega) c5 ?_
            cases i5 with
            | atom r n e => rw [hd] at e; cases e
            | mon r y d d' o e => rw [hd] at e; cases e
            | cont r y b' l0 l' f k1 k2 k3 k4 k5 k6 k7 =>
              refine .cont d _ b' l0 l' f k1 (fun c => by have := hnb _ c; omega) i1.len ?_ k5 k6 (fun i k q hq => grow (k7 i k q hq))
              rw [c4]; simp [itemsOf, k4]
          refine ⟨⟨(construct s'.heap x).1, fun q => if q = r then some (construct s'.heap x).2 else s'.memo q⟩, (construct s'.heap x).2, ?_, ⟨?_, ?_, ?_, ?_⟩, ?_, ?_, ?_, ?_⟩
          · simp only [deep, hm, hget, hn, e1]
          · simp only [c2]; have := i1.len; omega
          · intro i hi
            have := i1.len
            simp only
            rw [c3 i (by omega), i1.old i hi]
          · intro i hi; simp only [c2]; have := hnb i hi; omega
          · intro q z hz hr'
            simp only at hz ⊢
            by_cases hq : q = r
            · subst hq
              simp only [if_true, Option.some.injEq] at hz
              subst hz
              rw [c1]; exact done_r
            · simp only [hq, if_false] at hz
              apply grow
              by_cases hrq : rank q ≤ rank d
              · exact i1.done q z hz hrq
              · rw [i4 q (by omega)] at hz
                exact sameN_mono (fun i hi hlt => ⟨hi, i3 i hlt⟩) (hinv.done q z hz hr')
          · simp only [c2]; omega
          · intro i hi
            simp only
            rw [c3 i (by omega), i3 i hi]
          · intro q hq
            have : q ≠ r := fun c => by subst c; omega
            simp only [this, if_false]
            exact i4 q (by omega)
          · simp only [c1]; exact done_r

theorem same_of_sameN {h0 h h2 : Heap} {ok : Nat → Prop} (hnew : ∀ (i : Nat), h0.length ≤ i → i < h.length → h2[i]? = h[i]?) (hatom : ∀ (i : Nat) n, h0[i]? = some (.atom n) → h2[i]? = some (.atom n))
    {r y : Nat} (hs : SameN h0 ok h r y) : Same h0 h2 r y := by
  induction hs with
  | atom r n e => exact .atom r r n e (hatom r n e)
  | cont r y b l l' f e1 e2 e3 e4 e5 e6 _ ih => exact .cont r y b l l' f e1 (by rw [hnew y e3 (lt_of_get e4)]; exact e4) e5 e6 ih
  | mon r y d d' o e1 e2 e3 e4 _ ih => exact .mon r y d d' o none e1 (by rw [hnew y e3 (lt_of_get e4)]; exact e4) ih

/-- **C230** (partial: nothing is inside itself). `copy.deepcopy` of a MonitorList or MonitorDict ends, with a new one whose lock nobody has; nothing that was there before is changed.
Whatever happens later to what was there before, other than to immutable objects, the copy looks as the original did: the same immutable things, at the same places of lists, dictionaries, MonitorLists and MonitorDicts. -/
theorem C230_deepcopy_partial (h : Heap) (hc : Closed h) (rank : Nat → Nat) (ha : Acyclic h rank) (r : Nat) (b : Bool) (l : List (Nat × Nat)) (o : Option Nat) (hr : Contents h r b l o)
    (fuel : Nat) (hfuel : rank r < fuel) :
    ∃ h' y, deepcopy fuel h r = some (h', y) ∧ h.length ≤ y ∧ (∀ (i : Nat), i < h.length → h'[i]? = h[i]?) ∧ (∃ d, h'[y]? = some (.mon d none)) ∧
      ∀ h2 : Heap, (∀ (i : Nat), h.length ≤ i → i < h'.length → h2[i]? = h'[i]?) → (∀ (i : Nat) n, h[i]? = some (.atom n) → h2[i]? = some (.atom n)) → Same h h2 r y := by
  obtain ⟨d, h1, h2⟩ := hr
  obtain ⟨s', y, e, i1, _, _, _, i5⟩ := deep_spec h hc rank ha fuel (fun _ => False) ⟨h, fun _ => none⟩ r hfuel (lt_of_get h1)
    ⟨Nat.le_refl _, fun _ _ => rfl, fun _ c => c.elim, by simp⟩
  refine ⟨s'.heap, y, by simp [deepcopy, e], ?_, i1.old, ?_, fun h2 g1 g2 => same_of_sameN g1 g2 i5⟩
  · cases i5 with
    | atom _ _ q => rw [h1] at q; cases q
    | cont _ _ _ _ _ _ q => rw [h1] at q; cases q
    | mon _ _ _ _ _ _ _ q => exact q
  · cases i5 with
    | atom _ _ q => rw [h1] at q; cases q
    | cont _ _ _ _ _ _ q => rw [h1] at q; cases q
    | mon _ _ _ d' _ _ _ _ q => exact ⟨d', q⟩

/-- a MonitorList that holds a number and itself -/
def loopHeap : Heap := [.atom 5, .cont false [(0, 0), (0, 2)], .mon 1 none]

/-- **C230, violated by a MonitorList that holds itself**: it has two items, the second of which is itself; the deep copy's second item is a MonitorList with one item. -/
theorem C230_itself_violates : Contents loopHeap 2 false [(0, 0), (0, 2)] none ∧
    ∃ h' y z, deepcopy 9 loopHeap 2 = some (h', y) ∧ Contents h' y false [(0, 0), (0, z)] none ∧ Contents h' z false [(0, 0)] none ∧ ¬ Same loopHeap h' 2 y := by
  refine ⟨⟨1, rfl, rfl⟩, (deepcopy 9 loopHeap 2).get!.1, 7, 5, by decide, ⟨6, by decide, by decide⟩, ⟨4, by decide, by decide⟩, ?_⟩
  have e2 : loopHeap[2]? = some (.mon 1 none) := rfl
  have e1 : loopHeap[1]? = some (.cont false [(0, 0), (0, 2)]) := rfl
  have f7 : (deepcopy 9 loopHeap 2).get!.1[7]? = some (.mon 6 none) := by decide
  have f6 : (deepcopy 9 loopHeap 2).get!.1[6]? = some (.cont false [(0, 0), (0, 5)]) := by decide
  have f5 : (deepcopy 9 loopHeap 2).get!.1[5]? = some (.mon 4 none) := by decide
  have f4 : (deepcopy 9 loopHeap 2).get!.1[4]? = some (.cont false [(0, 0)]) := by decide
  intro hs
  cases hs with
  | atom _ _ n q => rw [e2] at q; cases q
  | cont _ _ b l l' f q => rw [e2] at q; cases q
  | mon _ _ d d' o o' q1 q2 hs =>
    rw [e2] at q1; cases q1
    rw [f7] at q2; cases q2
    cases hs with
    | atom _ _ n q => rw [e1] at q; cases q
    | mon _ _ d d' o o' q => rw [e1] at q; cases q
    | cont _ _ b l l' f q1 q2 q3 q4 q5 =>
      rw [e1] at q1; cases q1
      rw [f6] at q2; cases q2
      have g1 := q4 1 0 2 rfl
      have hs := q5 1 0 2 rfl
      have : f 1 = 5 := by simpa using g1.symm
      rw [this] at hs
      cases hs with
      | atom _ _ n q => rw [e2] at q; cases q
      | cont _ _ b l l' f q => rw [e2] at q; cases q
      | mon _ _ d d' o o' q1 q2 hs =>
        rw [e2] at q1; cases q1
        rw [f5] at q2; cases q2
        cases hs with
        | atom _ _ n q => rw [e1] at q; cases q
        | mon _ _ d d' o o' q => rw [e1] at q; cases q
        | cont _ _ b l l' f q1 q2 q3 q4 q5 =>
          rw [e1] at q1; cases q1
          rw [f4] at q2; cases q2
          simp at q3

/-! ## Examples -/

/-- a MonitorDict, locked, with a MonitorList twice and a number -/
def example1 : Heap := [.atom 5, .cont false [(0, 0)], .mon 1 none, .cont true [(1, 2), (2, 2), (3, 0)], .mon 3 (some 8)]

example : Contents example1 4 true [(1, 2), (2, 2), (3, 0)] (some 8) := ⟨3, rfl, rfl⟩
example : Acyclic example1 (fun r => r) := by
  constructor
  · intro r b l k x h hx
    rcases r with _ | _ | _ | _ | _ | r <;> simp [example1] at h
    · obtain ⟨_, rfl⟩ := h; simp at hx; dsimp only; omega
    · obtain ⟨_, rfl⟩ := h; simp at hx; dsimp only; omega
  · intro r d o h
    rcases r with _ | _ | _ | _ | _ | r <;> simp [example1] at h <;> dsimp only <;> omega
example : Closed example1 := by
  constructor
  · intro r b l k x h hx
    rcases r with _ | _ | _ | _ | _ | r <;> simp [example1] at h
    · obtain ⟨_, rfl⟩ := h; simp at hx; simp [example1]; omega
    · obtain ⟨_, rfl⟩ := h; simp at hx; simp [example1]; omega
  · intro r d o h
    rcases r with _ | _ | _ | _ | _ | r <;> simp [example1] at h
    · obtain ⟨rfl, _⟩ := h; exact ⟨_, _, rfl⟩
    · obtain ⟨rfl, _⟩ := h; exact ⟨_, _, rfl⟩
example : (deepcopy 6 example1 4).map (·.2) = some 10 ∧ (deepcopy 6 example1 4).map (fun p => itemsOf p.1 9) = some (true, [(1, 8), (2, 8), (3, 0)]) := by decide
example : (copy example1 4).map (fun p => itemsOf p.1 6) = some (true, [(1, 2), (2, 2), (3, 0)]) := by decide

end Verif.MonitorCopy
