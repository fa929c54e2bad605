import Verif.Py.Basic

/-!
# Proxy (satella/coding/structures/proxy.py), C115, C116

A value is a bare object, or a Proxy of a value.  Bare objects return NotImplemented for a Proxy, so that Python calls
the reflected method of the Proxy.
-/
namespace Verif.Proxy

set_option linter.unusedSimpArgs false

/-! ## Model -/

/-- the binary operators, /repo/satella/coding/structures/proxy.py:106-337 -/
inductive Op where
  | add | sub | mul | truediv | floordiv | mod | divmod | pow | lshift | rshift | and | or | xor | matmul
deriving DecidableEq

/-- the comparisons, /repo/satella/coding/structures/proxy.py:180-203 -/
inductive Cmp where
  | eq | ne | lt | le | gt | ge
deriving DecidableEq

/-- the unary operators, /repo/satella/coding/structures/proxy.py:219-221, :315-325 -/
inductive Un where
  | neg | pos | invert | abs
deriving DecidableEq

/-- a value, /repo/satella/coding/structures/proxy.py:60-62; `wrap` is `wrap_operations` -/
inductive Val (α : Type) where
  | bare (v : α)
  | proxy (obj : Val α) (wrap : Bool)
deriving DecidableEq

/-- which operators a Proxy defines, and whether the result is wrapped (`@wrap_operation`): the method and the reflected method, /repo/satella/coding/structures/proxy.py:106-337 -/
def defined : Op → Bool
  | .mod => false
  | _ => true

/-- whether `@wrap_operation` is on the method, /repo/satella/coding/structures/proxy.py:106-337 -/
def wrapped : Op → Bool
  | .divmod => false
  | .and => false
  | .or => false
  | _ => true

/-- whether `@wrap_operation` is on the reflected method, /repo/satella/coding/structures/proxy.py:133-134, :236-278, :335-337 -/
def wrappedR : Op → Bool
  | .divmod => false
  | _ => true

/-- `wrap_operation`, /repo/satella/coding/structures/proxy.py:15-23: the class is called with the result only, so that `wrap_operations` of the result is False -/
def wrapIf {α : Type} (w : Bool) (v : Val α) : Val α := if w then .proxy v false else v

variable {α ε : Type}

/-- what bare objects do: operators, comparisons and unary operators, which may raise; used in /repo/satella/coding/structures/proxy.py:106-337 -/
structure Sem (α ε : Type) where
  op : Op → α → α → Except ε α
  cmp : Cmp → α → α → Except ε Bool
  un : Un → α → Except ε α
  typeError : ε

/-- `a op b`, /repo/satella/coding/structures/proxy.py:106-337, with Python's choice of the method: that of `a`, or the reflected one of `b` if `a` is bare -/
def binop (S : Sem α ε) (o : Op) : Val α → Val α → Except ε (Val α)
  | .proxy x w, b => if defined o then (binop S o x b).map (wrapIf (w && wrapped o)) else .error S.typeError
  | .bare v, b => binopR v b
where
  /-- `v op b` for a bare `v`: the reflected method if `b` is a Proxy, /repo/satella/coding/structures/proxy.py:133-134, :236-278, :335-337 -/
  binopR (v : α) : Val α → Except ε (Val α)
    | .proxy y w => if defined o then (binopR v y).map (wrapIf (w && wrappedR o)) else .error S.typeError
    | .bare u => (S.op o v u).map .bare

/-- the comparison that Python calls on the second operand.  (Part of the model of `Proxy`, /repo/satella/coding/structures/proxy.py:26-390.) -/
def Cmp.swap : Cmp → Cmp
  | .eq => .eq
  | .ne => .ne
  | .lt => .gt
  | .le => .ge
  | .gt => .lt
  | .ge => .le

/-- `a < b` and so on, /repo/satella/coding/structures/proxy.py:180-203; between a bare object and a Proxy the swapped method of the Proxy is called, with the bare object as argument -/
def compare (S : Sem α ε) (c : Cmp) : Val α → Val α → Except ε Bool
  | .proxy x _, b => compare S c x b
  | .bare v, .proxy y _ => compareR S c.swap y v
  | .bare v, .bare u => S.cmp c v u
where
  /-- `y c v`, for a bare `v` -/
  compareR (S : Sem α ε) (c : Cmp) : Val α → α → Except ε Bool
    | .proxy y _, v => compareR S c y v
    | .bare u, v => S.cmp c u v

/-- `-a` and so on, /repo/satella/coding/structures/proxy.py:219-221, :315-325 -/
def unop (S : Sem α ε) (o : Un) : Val α → Except ε (Val α)
  | .proxy x w => (unop S o x).map (wrapIf w)
  | .bare v => (S.un o v).map .bare

/-- `a op= b` for a Proxy `a` of `x`, /repo/satella/coding/structures/proxy.py:110-333: `self.__obj op= b`, so an inner Proxy stays as well, with the new object.  There is no `__imod__`, and no `__idivmod__` in Python.
  Objects are values here: that `+=` may change a bare object, such as a list, itself is not modelled. -/
def inplace (S : Sem α ε) (o : Op) (x : Val α) (w : Bool) (b : Val α) : Except ε (Val α) :=
  if defined o then
    match x with
    | .bare v => (binop S o (.bare v) b).map (fun r => .proxy r w)
    | .proxy y w' => (inplace S o y w' b).map (fun r => .proxy r w)
  else binop S o (.proxy x w) b

/-! ## Specification -/

/-- the object that is meant in the end -/
def Val.target : Val α → α
  | .bare v => v
  | .proxy x _ => x.target

/-- `x > y` of bare objects is `y < x`, and so on -/
def Sem.Ok (S : Sem α ε) : Prop := ∀ x y, S.cmp .gt x y = S.cmp .lt y x ∧ S.cmp .ge x y = S.cmp .le y x ∧ S.cmp .eq x y = S.cmp .eq y x ∧ S.cmp .ne x y = S.cmp .ne y x

/-! ## Proofs -/

theorem target_wrapIf (w : Bool) (v : Val α) : (wrapIf w v).target = v.target := by
  cases w <;> rfl

theorem map_target (w : Bool) (r : Except ε (Val α)) : (r.map (wrapIf w)).map Val.target = r.map Val.target := by
  cases r with
  | error => rfl
  | ok v => simp [Except.map, target_wrapIf]

theorem binop_target (S : Sem α ε) (o : Op) (h : o ≠ .mod) : ∀ a b : Val α, (binop S o a b).map Val.target = S.op o a.target b.target := by
  have hd : defined o = true := by cases o <;> simp_all [defined]
  have hbare : ∀ (v : α) (b : Val α), (binop.binopR S o v b).map Val.target = S.op o v b.target := by
    intro v b
    induction b with
    | bare u => simp only [binop.binopR, Val.target]; cases S.op o v u <;> rfl
    | proxy y w ih => simp only [binop.binopR, hd, if_true, map_target, ih, Val.target]
  intro a
  induction a with
  | bare v => exact hbare v
  | proxy x w ih =>
    intro b
    simp only [binop, hd, if_true, map_target, ih, Val.target]

/-- **C115, operators**: an operator other than `%`, on Proxies and bare objects in any combination, nested at will, gives what the operator gives for the objects, possibly in a Proxy, and raises what it raises. -/
theorem C115_operators (S : Sem α ε) (o : Op) (h : o ≠ .mod) (a b : Val α) : (binop S o a b).map Val.target = S.op o a.target b.target :=
  binop_target S o h a b

/-- **C115, comparisons**: comparing Proxies and bare objects in any combination gives what comparing the objects gives. -/
theorem C115_comparisons (S : Sem α ε) (hs : S.Ok) (c : Cmp) (a b : Val α) : compare S c a b = S.cmp c a.target b.target := by
  have hr : ∀ (c : Cmp) (y : Val α) (v : α), compare.compareR S c y v = S.cmp c y.target v := by
    intro c y v
    induction y with
    | bare u => rfl
    | proxy y w ih => simp only [compare.compareR, ih, Val.target]
  have hswap : ∀ (c : Cmp) (x y : α), S.cmp c.swap x y = S.cmp c y x := by
    intro c x y
    have h1 := hs x y
    have h2 := hs y x
    cases c <;> simp only [Cmp.swap]
    · exact h1.2.2.1
    · exact h1.2.2.2
    · exact h1.1
    · exact h1.2.1
    · exact h2.1.symm
    · exact h2.2.1.symm
  induction a with
  | bare v =>
    cases b with
    | bare u => rfl
    | proxy y w => simp only [compare, hr, hswap, Val.target]
  | proxy x w ih => simp only [compare, ih, Val.target]

/-- **C115, unary operators** give what they give for the object. -/
theorem C115_unary (S : Sem α ε) (o : Un) (a : Val α) : (unop S o a).map Val.target = S.un o a.target := by
  induction a with
  | bare v => simp only [unop, Val.target]; cases S.un o v <;> rfl
  | proxy x w ih => simp only [unop, map_target, ih, Val.target]

/-- **C115, in place**: `a op= b` leaves `a` a Proxy, with the same setting, of what the operator gives for the objects; if the operator raises, so does it. -/
theorem C115_in_place (S : Sem α ε) (o : Op) (h : o ≠ .mod) (x : Val α) (w : Bool) (b : Val α) :
    (∀ e, S.op o x.target b.target = .error e → inplace S o x w b = .error e) ∧
    (∀ v, S.op o x.target b.target = .ok v → ∃ y, inplace S o x w b = .ok (.proxy y w) ∧ y.target = v) := by
  have hd : defined o = true := by cases o <;> simp_all [defined]
  induction x generalizing w with
  | bare u =>
    have ht := binop_target S o h (.bare u) b
    simp only [inplace, hd, if_true]
    cases hb : binop S o (.bare u) b with
    | error e =>
      rw [hb] at ht
      simp only [Except.map] at ht
      rw [← ht]
      exact ⟨fun e' h => by cases h; rfl, fun v h => by cases h⟩
    | ok r =>
      rw [hb] at ht
      simp only [Except.map] at ht
      rw [← ht]
      exact ⟨fun e' h => (by cases h), fun v h => ⟨r, rfl, by cases h; rfl⟩⟩
  | proxy y w' ih =>
    obtain ⟨i1, i2⟩ := ih w'
    unfold inplace
    simp only [hd, if_true, Val.target]
    refine ⟨fun e he => by rw [i1 e he]; rfl, fun v hv => ?_⟩
    obtain ⟨z, hz, hzt⟩ := i2 v hv
    exact ⟨.proxy z w', by rw [hz]; rfl, by simpa only [Val.target] using hzt⟩

/-- **C115, in place, of a Proxy of a Proxy**: the Proxies within stay as they are, with their settings; only the object in the innermost of them is another one, which is what the operator gives for it. -/
theorem C115_in_place_nested (S : Sem α ε) (o : Op) (h : o ≠ .mod) (u v : α) (ws : List Bool) (w : Bool) (b : α) (hv : S.op o u b = .ok v) :
    inplace S o (ws.foldr (fun w x => .proxy x w) (.bare u)) w (.bare b) = .ok (.proxy (ws.foldr (fun w x => .proxy x w) (.bare v)) w) := by
  have hd : defined o = true := by cases o <;> simp_all [defined]
  induction ws generalizing w with
  | nil => simp [inplace, hd, binop, binop.binopR, hv, Except.map]
  | cons a ws ih =>
    unfold inplace
    simp only [hd, if_true, List.foldr_cons]
    rw [ih a]
    rfl

/-- whether a value is a Proxy -/
def Val.isProxy : Val α → Bool
  | .proxy .. => true
  | .bare _ => false

/-- **C115, results are shed**: without `wrap_operations` on any Proxy, results are bare objects. -/
theorem C115_shed (S : Sem α ε) (o : Op) (a b : Val α) (r : Val α) (ha : ∀ x w, a = .proxy x w → ∃ v, x = .bare v ∧ w = false) (hb : ∀ x w, b = .proxy x w → ∃ v, x = .bare v ∧ w = false)
    (h : binop S o a b = .ok r) : r.isProxy = false := by
  have hbare : ∀ (v u : α) (r : Val α), binop S o (.bare v) (.bare u) = .ok r → r.isProxy = false := by
    intro v u r h
    simp only [binop, binop.binopR] at h
    cases hs : S.op o v u with
    | error e => rw [hs] at h; cases h
    | ok x => rw [hs] at h; cases h; rfl
  have hmap : ∀ (q : Except ε (Val α)) (w : Bool) (r : Val α), w = false → q.map (wrapIf w) = .ok r → q = .ok r := by
    rintro q w r rfl h
    cases q with
    | error => cases h
    | ok v => simpa [Except.map, wrapIf] using h
  have hmid : ∀ (v : α) (r : Val α), binop S o (.bare v) b = .ok r → r.isProxy = false := by
    intro v r h
    cases b with
    | bare u => exact hbare v u r h
    | proxy y w =>
      obtain ⟨u, rfl, rfl⟩ := hb y w rfl
      simp only [binop, binop.binopR] at h
      split at h
      · exact hbare v u r (by simp only [binop, binop.binopR]; exact hmap _ _ r (by simp) h)
      · cases h
  cases a with
  | bare v => exact hmid v r h
  | proxy x w =>
    obtain ⟨v, rfl, rfl⟩ := ha x w rfl
    simp only [binop, binop.binopR] at h
    split at h
    · exact hmid v r (hmap _ _ r (by simp) h)
    · cases h

/-- **C116, violated for %**: a Proxy has no `%`, so it raises TypeError whatever the objects do. -/
theorem C116_mod_violates (S : Sem α ε) (x : Val α) (w : Bool) (b : Val α) : binop S .mod (.proxy x w) b = .error S.typeError ∧ (∀ v, binop S .mod (.bare v) (.proxy x w) = .error S.typeError) ∧ inplace S .mod x w b = .error S.typeError := by
  refine ⟨by simp [binop, binop.binopR, defined], fun v => by simp [binop, binop.binopR, defined], by unfold inplace; simp [binop, defined]⟩

/-- **C116, violated for wrap_operations**: the results of `&` and `|` are not wrapped. -/
theorem C116_and_or_violates (S : Sem α ε) (u v r : α) (o : Op) (ho : o = .and ∨ o = .or) (h : S.op o u v = .ok r) : binop S o (.proxy (.bare u) true) (.bare v) = .ok (.bare r) := by
  rcases ho with rfl | rfl <;> simp [binop, binop.binopR, defined, wrapped, h, Except.map, wrapIf]

/-- **C116, violated for results of wrapped operations**: the wrapped result does not wrap in turn, so the result of the second operation is bare. -/
theorem C116_second_violates (S : Sem α ε) (u v r q : α) (h : S.op .add u v = .ok r) (h2 : S.op .add r v = .ok q) :
    ∃ p, binop S .add (.proxy (.bare u) true) (.bare v) = .ok p ∧ p.isProxy = true ∧ binop S .add p (.bare v) = .ok (.bare q) := by
  refine ⟨.proxy (.bare r) false, ?_, rfl, ?_⟩
  · simp [binop, binop.binopR, defined, wrapped, h, Except.map, wrapIf]
  · simp [binop, binop.binopR, defined, h2, Except.map, wrapIf]

/-- **C116, reflected operators** (partial: for other operators than `%`, and `divmod`, which is documented not to wrap): with `wrap_operations` the result of an operation of a bare object on a Proxy is a Proxy. -/
theorem C116_reflected_partial (S : Sem α ε) (o : Op) (h : o ≠ .mod ∧ o ≠ .divmod) (v : α) (y r : Val α) (hr : binop S o (.bare v) (.proxy y true) = .ok r) : r.isProxy = true := by
  have hd : defined o = true ∧ wrappedR o = true := by cases o <;> simp_all [defined, wrappedR]
  simp only [binop, binop.binopR, hd.1, hd.2, if_true] at hr
  cases hb : binop.binopR S o v y with
  | error => rw [hb] at hr; cases hr
  | ok v =>
    rw [hb] at hr
    simp only [Except.map, wrapIf, Bool.and_self, if_true] at hr
    cases hr
    rfl

/-- **C116, divmod** (partial, as above): it is never wrapped, on either side, but gives what it gives for the objects. -/
theorem C116_divmod_partial (S : Sem α ε) (x b : Val α) (w : Bool) (v : α) :
    binop S .divmod (.proxy x w) b = binop S .divmod x b ∧ binop S .divmod (.bare v) (.proxy x w) = binop S .divmod (.bare v) x := by
  have hm : ∀ r : Except ε (Val α), r.map (wrapIf false) = r := by intro r; cases r <;> rfl
  constructor
  · simp only [binop, defined, wrapped, Bool.and_false, if_true, hm]
  · simp only [binop, binop.binopR, defined, wrappedR, Bool.and_false, if_true, hm]

/-- **C116** (partial: for other operators than `%`, `&` and `|`, and `divmod`, which is documented not to wrap): with `wrap_operations` the result of an operation on a Proxy is a Proxy. -/
theorem C116_wraps_partial (S : Sem α ε) (o : Op) (h : o ≠ .mod ∧ o ≠ .and ∧ o ≠ .or ∧ o ≠ .divmod) (x b : Val α) (r : Val α) (hr : binop S o (.proxy x true) b = .ok r) : r.isProxy = true := by
  have hd : defined o = true ∧ wrapped o = true := by cases o <;> simp_all [defined, wrapped]
  simp only [binop, hd.1, hd.2, if_true] at hr
  cases hb : binop S o x b with
  | error => rw [hb] at hr; cases hr
  | ok v =>
    rw [hb] at hr
    simp only [Except.map, wrapIf, Bool.and_self, if_true] at hr
    cases hr
    rfl

/-! Cases that meet the hypotheses -/

/-- integers -/
def ints : Sem Int String where
  op o x y := match o with | .add => .ok (x + y) | .sub => .ok (x - y) | .mul => .ok (x * y) | .floordiv => if y = 0 then .error "ZeroDivisionError" else .ok (x / y) | _ => .error "TypeError"
  cmp c x y := match c with | .eq => .ok (x == y) | .ne => .ok (x != y) | .lt => .ok (decide (x < y)) | .le => .ok (decide (x ≤ y)) | .gt => .ok (decide (y < x)) | .ge => .ok (decide (y ≤ x))
  un o x := match o with | .neg => .ok (-x) | _ => .ok x
  typeError := "TypeError"

example : ints.Ok := by
  intro x y
  refine ⟨rfl, rfl, ?_, ?_⟩
  · simp only [ints]; congr 1; rw [Bool.eq_iff_iff, beq_iff_eq, beq_iff_eq]; exact eq_comm
  · simp only [ints]; congr 1; rw [Bool.eq_iff_iff, bne_iff_ne, bne_iff_ne]; exact ne_comm
example : binop ints .sub (.bare 7) (.proxy (.bare 2) true) = .ok (.proxy (.bare 5) false) ∧ binop ints .sub (.proxy (.bare 7) false) (.proxy (.bare 2) false) = .ok (.bare 5) := by decide
example : compare ints .lt (.bare 1) (.proxy (.bare 2) false) = .ok true := by decide
example : inplace ints .floordiv (.bare 7) true (.bare 0) = .error "ZeroDivisionError" := by decide

end Verif.Proxy
