import Verif.Schema.Model
/-!
# C88: configuration schemas
-/
namespace Verif.Schema

variable (E : Env)

/-- the elements conform, one by one -/
def AllFit (d : D) (l l' : List V) : Prop := l'.length = l.length ∧ ∀ (i : Nat) x y, l[i]? = some x → l'[i]? = some y → Fits d x y

/-- the call does what the specification says -/
def Right (d : D) (v : V) (s : Lost) : Prop :=
  (∃ o, call E d v s = (.ok o, s) ∧ ∀ o', Fits d v o' ↔ o' = o) ∨
  ((call E d v s).1 = .invalid ∧ (∀ o, ¬ Fits d v o) ∧ (NoList d → (call E d v s).2 = s))

/-- the loop over the keys does what the specification says -/
def KeysRight (ks : Keys) (f out : Nat → Option V) (s : Lost) : Prop :=
  (∃ g, callKeys E ks f out s = (.ok g, s) ∧ (∀ n, n ∉ ks.names → g n = out n) ∧ ∀ g', KeysFit ks f g' ↔ ∀ n ∈ ks.names, g' n = g n) ∨
  ((callKeys E ks f out s).1 = .invalid ∧ (∀ g', ¬ KeysFit ks f g') ∧ (KeysNoList ks → (callKeys E ks f out s).2 = s))

/-- the loop over the alternatives does what the specification says -/
def AltsRight (as : Alts) (v : V) (s : Lost) : Prop :=
  (∃ o, callAlts E as v s = (.ok o, s) ∧ ∀ o', FirstFits as v o' ↔ o' = o) ∨
  ((callAlts E as v s).1 = .invalid ∧ (∀ o, ¬ FirstFits as v o) ∧ (callAlts E as v s).2 = s)

theorem allFit_cons (d : D) (x : V) (l l' : List V) : AllFit d (x :: l) l' ↔ ∃ y r, l' = y :: r ∧ Fits d x y ∧ AllFit d l r := by
  constructor
  · rintro ⟨h1, h2⟩
    cases l' with
    | nil => cases h1
    | cons y r =>
      refine ⟨y, r, rfl, h2 0 x y rfl rfl, by simpa using h1, ?_⟩
      intro i a b ha hb
      exact h2 (i + 1) a b (by simpa using ha) (by simpa using hb)
  · rintro ⟨y, r, rfl, hf, h1, h2⟩
    refine ⟨by simp [h1], ?_⟩
    intro i a b ha hb
    cases i with
    | zero =>
      simp at ha hb
      subst ha hb
      exact hf
    | succ i => exact h2 i a b (by simpa using ha) (by simpa using hb)

theorem callAll_right (d : D) (s : Lost) (h : ∀ v, Right E d v s) : ∀ l : List V,
    (∃ r, callAll (call E d) l s = (.ok r, s) ∧ ∀ r', AllFit d l r' ↔ r' = r) ∨ ((callAll (call E d) l s).1 = .invalid ∧ ∀ r', ¬ AllFit d l r') := by
  intro l
  induction l with
  | nil =>
    refine Or.inl ⟨[], rfl, ?_⟩
    intro r'
    constructor
    · rintro ⟨h1, _⟩; exact List.eq_nil_of_length_eq_zero h1
    · rintro rfl; exact ⟨rfl, by intro i x y hx; simp at hx⟩
  | cons x l ih =>
    rcases h x with ⟨o, hc, ho⟩ | ⟨hc, hn, _⟩
    · rcases ih with ⟨r, hr, hu⟩ | ⟨hi, hu⟩
      · refine Or.inl ⟨o :: r, ?_, ?_⟩
        · simp [callAll, hc, hr, Res.map]
        · intro r'
          rw [allFit_cons]
          constructor
          · rintro ⟨y, t, rfl, hy, ht⟩
            rw [(ho y).1 hy, (hu t).1 ht]
          · rintro rfl
            exact ⟨o, r, rfl, (ho o).2 rfl, (hu r).2 rfl⟩
      · refine Or.inr ⟨?_, ?_⟩
        · simp [callAll, hc, hi, Res.map]
        · intro r' hr
          rw [allFit_cons] at hr
          obtain ⟨y, t, rfl, _, ht⟩ := hr
          exact hu t ht
    · refine Or.inr ⟨?_, ?_⟩
      · obtain ⟨s', hs'⟩ : ∃ s', call E d x s = (.invalid, s') := ⟨_, Prod.ext hc rfl⟩
        simp [callAll, hs']
      · intro r' hr
        rw [allFit_cons] at hr
        obtain ⟨y, t, rfl, hy, _⟩ := hr
        exact hn y hy

mutual
theorem call_right : ∀ (d : D) (s : Lost), Armed s d → Good d → ∀ v, Right E d v s
  | .basic m, s, _, hg, v => by
    simp only [Good] at hg
    have hg := hg v
    unfold Right
    simp only [call, Fits]
    cases hm : m v with
    | ok x => exact Or.inl ⟨x, rfl, fun o' => by constructor <;> intro h <;> simp_all⟩
    | valueError => exact Or.inr ⟨rfl, by simp, fun _ => rfl⟩
    | typeError => exact Or.inr ⟨rfl, by simp, fun _ => rfl⟩
    | other e => exact absurd hm (hg e)
  | .caster f, s, _, hg, v => by
    simp only [Good] at hg
    have hg := hg v
    unfold Right
    simp only [call, Fits]
    cases hm : f v with
    | ok x => exact Or.inl ⟨x, rfl, fun o' => by constructor <;> intro h <;> simp_all⟩
    | valueError => exact Or.inr ⟨rfl, by simp, fun _ => rfl⟩
    | typeError => exact absurd hm hg.1
    | other e => exact absurd hm (hg.2 e)
  | .list id d, s, ha, hg, v => by
    simp only [Armed] at ha
    simp only [Good] at hg
    have ih := call_right d s ha.2 hg
    cases v with
    | list l =>
      rcases callAll_right E d s ih l with ⟨r, hr, hu⟩ | ⟨hi, hu⟩
      · refine Or.inl ⟨.list r, ?_, ?_⟩
        · simp [call, ha.1, V.isList, Env.listOf, hr, Res.map]
        · intro o'
          simp only [Fits]
          constructor
          · rintro ⟨l1, l2, h1, rfl, h3, h4⟩
            injection h1 with h1
            subst h1
            rw [(hu l2).1 ⟨h3, h4⟩]
          · rintro rfl
            obtain ⟨h3, h4⟩ := (hu r).2 rfl
            exact ⟨l, r, rfl, rfl, h3, h4⟩
      · refine Or.inr ⟨?_, ?_, ?_⟩
        · simp [call, ha.1, V.isList, Env.listOf, hi, Res.map]
        · intro o
          simp only [Fits]
          rintro ⟨l1, l2, h1, rfl, h3, h4⟩
          injection h1 with h1
          subst h1
          exact hu l2 ⟨h3, h4⟩
        · intro h; simp only [NoList] at h
    | _ =>
      refine Or.inr ⟨?_, ?_, ?_⟩
      · simp [call, ha.1, V.isList]
      · intro o
        simp only [Fits]
        rintro ⟨l1, l2, h1, _⟩
        cases h1
      · intro h; simp only [NoList] at h
  | .dict ks u, s, ha, hg, v => by
    simp only [Armed] at ha
    simp only [Good] at hg
    cases v with
    | dict f =>
      rcases keys_right ks s ha hg.2 hg.1 f (fun n => (f n).map (u n)) with ⟨g, hr, ho, hu⟩ | ⟨hi, hu, hs⟩
      · refine Or.inl ⟨.dict g, ?_, ?_⟩
        · simp [call, hr, Res.map]
        · intro o'
          simp only [Fits]
          constructor
          · rintro ⟨f1, g1, h1, rfl, h3, h4⟩
            injection h1 with h1
            subst h1
            have : g1 = g := by
              funext n
              by_cases hn : n ∈ ks.names
              · exact (hu g1).1 h3 n hn
              · rw [h4 n hn, ho n hn]
            rw [this]
          · rintro rfl
            exact ⟨f, g, rfl, rfl, (hu g).2 (fun n _ => rfl), ho⟩
      · refine Or.inr ⟨?_, ?_, ?_⟩
        · simp [call, hi, Res.map]
        · intro o
          simp only [Fits]
          rintro ⟨f1, g1, h1, rfl, h3, h4⟩
          injection h1 with h1
          subst h1
          exact hu g1 h3
        · intro h
          simp only [NoList] at h
          simp [call, hs h]
    | _ =>
      refine Or.inr ⟨?_, ?_, ?_⟩
      · simp [call]
      · intro o
        simp only [Fits]
        rintro ⟨f1, g1, h1, _⟩
        cases h1
      · intro _; simp [call]
  | .union as, s, ha, hg, v => by
    simp only [Armed] at ha
    simp only [Good] at hg
    rcases alts_right as s ha hg.1 hg.2 v with ⟨o, hr, hu⟩ | ⟨hi, hu, hs⟩
    · refine Or.inl ⟨o, by simp [call, hr], ?_⟩
      intro o'
      simp only [Fits]
      exact hu o'
    · refine Or.inr ⟨by simp [call, hi], ?_, fun _ => by simp [call, hs]⟩
      intro o
      simp only [Fits]
      exact hu o
theorem keys_right : ∀ (ks : Keys) (s : Lost), KeysArmed s ks → KeysGood ks → ks.names.Nodup → ∀ f out, KeysRight E ks f out s
  | .nil, s, _, _, _, f, out => Or.inl ⟨out, by simp [callKeys], fun _ _ => rfl, by intro g'; simp [KeysFit, Keys.names]⟩
  | .cons name opt d rest, s, ha, hg, hn, f, out => by
    simp only [KeysArmed] at ha
    simp only [KeysGood] at hg
    simp only [Keys.names, List.nodup_cons] at hn
    -- what is left once the value for this key is known
    have tail : ∀ y, callKeys E (.cons name opt d rest) f out s = callKeys E rest f (put out name y) s →
        (∀ g', KeysFit (.cons name opt d rest) f g' ↔ g' name = some y ∧ KeysFit rest f g') → KeysRight E (.cons name opt d rest) f out s := by
      intro y hc hf
      rcases keys_right rest s ha.2 hg.2 hn.2 f (put out name y) with ⟨g, hr, ho, hu⟩ | ⟨hi, hu, hs⟩
      · refine Or.inl ⟨g, by rw [hc, hr], ?_, ?_⟩
        · intro n hno
          simp only [Keys.names, List.mem_cons, not_or] at hno
          rw [ho n hno.2]
          simp [put, hno.1]
        · intro g'
          rw [hf g', hu g']
          have e : g name = some y := by rw [ho name hn.1]; simp [put]
          simp only [Keys.names, List.mem_cons]
          constructor
          · rintro ⟨h1, h2⟩ n (rfl | h)
            · rw [h1, e]
            · exact h2 n h
          · intro h
            exact ⟨by rw [h name (Or.inl rfl), e], fun n hn => h n (Or.inr hn)⟩
      · refine Or.inr ⟨by rw [hc, hi], ?_, ?_⟩
        · intro g' h
          exact hu g' ((hf g').1 h).2
        · intro h
          simp only [KeysNoList] at h
          rw [hc]; exact hs h.2
    cases hv : f name with
    | none =>
      cases ho : opt with
      | none =>
        refine Or.inr ⟨by simp [callKeys, hv], ?_, fun _ => by simp [callKeys, hv]⟩
        intro g'
        simp only [KeysFit, hv]
        rintro ⟨(⟨x, y, h, _⟩ | ⟨_, y, h, _⟩), _⟩ <;> cases h
      | some x =>
        rw [← ho]
        refine tail x (by simp [callKeys, hv, ho]) ?_
        intro g'
        simp only [KeysFit, hv, ho]
        constructor
        · rintro ⟨(⟨x, y, h, _⟩ | ⟨_, y, h, h'⟩), h2⟩
          · cases h
          · injection h with h; subst h; exact ⟨h', h2⟩
        · rintro ⟨h1, h2⟩
          exact ⟨Or.inr ⟨trivial, x, rfl, h1⟩, h2⟩
    | some x =>
      rcases call_right d s ha.1 hg.1 x with ⟨o, hr, hu⟩ | ⟨hi, hu, hs⟩
      · refine tail o (by simp [callKeys, hv, hr]) ?_
        intro g'
        simp only [KeysFit, hv]
        constructor
        · rintro ⟨(⟨x', y, h, hf, h'⟩ | ⟨h, _⟩), h2⟩
          · injection h with h; subst h
            rw [(hu y).1 hf] at h'
            exact ⟨h', h2⟩
          · cases h
        · rintro ⟨h1, h2⟩
          exact ⟨Or.inl ⟨x, o, rfl, (hu o).2 rfl, h1⟩, h2⟩
      · obtain ⟨s', hs'⟩ : ∃ s', call E d x s = (.invalid, s') := ⟨_, Prod.ext hi rfl⟩
        refine Or.inr ⟨by simp [callKeys, hv, hs'], ?_, ?_⟩
        · intro g'
          simp only [KeysFit, hv]
          rintro ⟨(⟨x', y, h, hf, h'⟩ | ⟨h, _⟩), h2⟩
          · injection h with h; subst h
            exact hu y hf
          · cases h
        · intro h
          simp only [KeysNoList] at h
          have := hs h.1
          rw [hs'] at this
          simp only [callKeys, hv, hs']
          exact this
theorem alts_right : ∀ (as : Alts) (s : Lost), AltsArmed s as → AltsGood as → AltsNoList as → ∀ v, AltsRight E as v s
  | .nil, s, _, _, _, v => Or.inr ⟨by simp [callAlts], by simp [FirstFits], by simp [callAlts]⟩
  | .cons d rest, s, ha, hg, hl, v => by
    simp only [AltsArmed] at ha
    simp only [AltsGood] at hg
    simp only [AltsNoList] at hl
    rcases call_right d s ha.1 hg.1 v with ⟨o, hr, hu⟩ | ⟨hi, hu, hs⟩
    · refine Or.inl ⟨o, by simp [callAlts, hr], ?_⟩
      intro o'
      simp only [FirstFits]
      constructor
      · rintro (h | ⟨h, _⟩)
        · exact (hu o').1 h
        · exact absurd ((hu o).2 rfl) (h o)
      · rintro rfl
        exact Or.inl ((hu o').2 rfl)
    · have hs' : call E d v s = (.invalid, s) := Prod.ext hi (hs hl.1)
      have e : callAlts E (.cons d rest) v s = callAlts E rest v s := by simp [callAlts, hs']
      have ef : ∀ o, FirstFits (.cons d rest) v o ↔ FirstFits rest v o := by
        intro o
        simp only [FirstFits]
        constructor
        · rintro (h | ⟨_, h⟩)
          · exact absurd h (hu o)
          · exact h
        · intro h; exact Or.inr ⟨hu, h⟩
      rcases alts_right rest s ha.2 hg.2 hl.2 v with ⟨o, hr, hu'⟩ | ⟨hi', hu', hss⟩
      · exact Or.inl ⟨o, by rw [e, hr], fun o' => by rw [ef, hu']⟩
      · exact Or.inr ⟨by rw [e, hi'], fun o => by rw [ef]; exact hu' o, by rw [e, hss]⟩
end

/-- **C88** (partial: no value was refused before by a List of the schema; no List is below a Union; makers and casting functions raise only what is turned into ConfigurationValidationError). If the value conforms to the schema then the
  call gives what the schema makes of it, and otherwise raises ConfigurationValidationError, and nothing else. -/
theorem C88_schema_partial (d : D) (s : Lost) (ha : Armed s d) (hg : Good d) (v : V) :
    (∀ o, (call E d v s).1 = .ok o ↔ Fits d v o) ∧ ((call E d v s).1 = .invalid ↔ ∀ o, ¬ Fits d v o) := by
  rcases call_right E d s ha hg v with ⟨o, hr, hu⟩ | ⟨hi, hu, _⟩
  · rw [hr]
    refine ⟨?_, ?_⟩
    · intro o'
      rw [hu]
      constructor
      · intro h; injection h with h; exact h.symm
      · rintro rfl; rfl
    · constructor
      · intro h; cases h
      · intro h; exact absurd ((hu o).2 rfl) (h o)
  · rw [hi]
    refine ⟨?_, by simpa using hu⟩
    intro o
    constructor
    · intro h; cases h
    · intro h; exact absurd h (hu o)

/-- **C88, a value conforms in one way only**: what a schema makes of a value is determined by both. -/
theorem C88_deterministic (d : D) (hg : Good d) (v o o' : V) (h : Fits d v o) (h' : Fits d v o') : o = o' := by
  have ha : Armed (fun _ => false) d := by
    have key : (∀ d, Armed (fun _ => false) d) ∧ (∀ ks, KeysArmed (fun _ => false) ks) ∧ (∀ as, AltsArmed (fun _ => false) as) := by
      refine ⟨fun d => ?_, fun ks => ?_, fun as => ?_⟩
      · exact D.rec (motive_1 := fun d => Armed (fun _ => false) d) (motive_2 := fun ks => KeysArmed (fun _ => false) ks) (motive_3 := fun as => AltsArmed (fun _ => false) as)
          (fun _ => by simp [Armed]) (fun _ => by simp [Armed]) (fun _ _ h => by simp [Armed, h]) (fun _ _ h => by simp [Armed, h]) (fun _ h => by simp [Armed, h])
          (by simp [KeysArmed]) (fun _ _ _ _ h1 h2 => by simp [KeysArmed, h1, h2]) (by simp [AltsArmed]) (fun _ _ h1 h2 => by simp [AltsArmed, h1, h2]) d
      · exact Keys.rec (motive_1 := fun d => Armed (fun _ => false) d) (motive_2 := fun ks => KeysArmed (fun _ => false) ks) (motive_3 := fun as => AltsArmed (fun _ => false) as)
          (fun _ => by simp [Armed]) (fun _ => by simp [Armed]) (fun _ _ h => by simp [Armed, h]) (fun _ _ h => by simp [Armed, h]) (fun _ h => by simp [Armed, h])
          (by simp [KeysArmed]) (fun _ _ _ _ h1 h2 => by simp [KeysArmed, h1, h2]) (by simp [AltsArmed]) (fun _ _ h1 h2 => by simp [AltsArmed, h1, h2]) ks
      · exact Alts.rec (motive_1 := fun d => Armed (fun _ => false) d) (motive_2 := fun ks => KeysArmed (fun _ => false) ks) (motive_3 := fun as => AltsArmed (fun _ => false) as)
          (fun _ => by simp [Armed]) (fun _ => by simp [Armed]) (fun _ _ h => by simp [Armed, h]) (fun _ _ h => by simp [Armed, h]) (fun _ h => by simp [Armed, h])
          (by simp [KeysArmed]) (fun _ _ _ _ h1 h2 => by simp [KeysArmed, h1, h2]) (by simp [AltsArmed]) (fun _ _ h1 h2 => by simp [AltsArmed, h1, h2]) as
    exact key.1 d
  have E : Env := ⟨fun _ => [], fun _ => []⟩
  have h1 := ((C88_schema_partial E d _ ha hg v).1 o).2 h
  have h2 := ((C88_schema_partial E d _ ha hg v).1 o').2 h'
  rw [h1] at h2
  injection h2

/-- **C88, many values** (partial, as above). As long as the values conform, the same schema can be used for any number of values, and gives for each what it should. -/
theorem C88_many_partial (d : D) (s : Lost) (ha : Armed s d) (hg : Good d) (vs os : List V) (hl : os.length = vs.length)
    (h : ∀ (i : Nat) v o, vs[i]? = some v → os[i]? = some o → Fits d v o) : callMany E d vs s = (os.map .ok, s) := by
  induction vs generalizing os with
  | nil =>
    cases os with
    | nil => rfl
    | cons o os => cases hl
  | cons v vs ih =>
    cases os with
    | nil => cases hl
    | cons o os =>
      have hf := h 0 v o rfl rfl
      have hc : call E d v s = (.ok o, s) := by
        rcases call_right E d s ha hg v with ⟨o', hr, hu⟩ | ⟨_, hu, _⟩
        · rw [hr, (hu o).1 hf]
        · exact absurd hf (hu o)
      have := ih os (by simpa using hl) (fun i a b hi hb => h (i + 1) a b (by simpa using hi) (by simpa using hb))
      simp [callMany, hc, this]

/-- **C88, no Lists** (partial: the schema has no List). Then it can be used for any values, also after some were refused: it always does what it should. -/
theorem C88_no_list_partial (d : D) (hn : NoList d) (s : Lost) (ha : Armed s d) (hg : Good d) (vs : List V) :
    (callMany E d vs s).2 = s ∧ ∀ (i : Nat) v, vs[i]? = some v → (callMany E d vs s).1[i]? = some (call E d v s).1 := by
  induction vs with
  | nil => exact ⟨rfl, by intro i v h; simp at h⟩
  | cons v vs ih =>
    have hs : (call E d v s).2 = s := by
      rcases call_right E d s ha hg v with ⟨o', hr, hu⟩ | ⟨_, _, h⟩
      · rw [hr]
      · exact h hn
    simp only [callMany, hs]
    refine ⟨ih.1, ?_⟩
    intro i w hw
    cases i with
    | zero => simp at hw; subst hw; rfl
    | succ i => simpa using ih.2 i w (by simpa using hw)

/-- Descriptor(), which takes any value -/
def anything : D := .basic .ok

/-- **C88, violated after a refusal**: a List, once it was given something that is not a list, takes strings: `List()` refuses a string the first time, and gives the list of its characters the second time. -/
theorem C88_second_time_violates (x : Nat) :
    (callMany E (.list 1 anything) [.str x, .str x] (fun _ => false)).1 = [.invalid, .ok (.list (E.chars x))] := by
  have h : ∀ (l : List V) s, callAll (call E anything) l s = (.ok l, s) := by
    intro l
    induction l with
    | nil => intro s; rfl
    | cons y l ih => intro s; simp [callAll, anything, call, Res.map] at ih ⊢; simp [ih]
  simp [callMany, call, V.isList, Env.listOf, h, Res.map]

/-- **C88, violated for the documented Union**: `Union(List(), Dict([]))` gives a dictionary for a dictionary the first time, and the list of its keys the second time. -/
theorem C88_union_violates (f : Nat → Option V) :
    (callMany E (.union (.cons (.list 1 anything) (.cons (.dict .nil (fun _ v => v)) .nil))) [.dict f, .dict f] (fun _ => false)).1 = [.ok (.dict f), .ok (.list (E.keys f))] := by
  have h : ∀ (l : List V) s, callAll (call E anything) l s = (.ok l, s) := by
    intro l
    induction l with
    | nil => intro s; rfl
    | cons y l ih => intro s; simp [callAll, anything, call, Res.map] at ih ⊢; simp [ih]
  simp [callMany, call, callAlts, callKeys, V.isList, Env.listOf, h, Res.map]

/-- **C88, violated in a single call**: `List(Union(List(), String()))` leaves the first string of a list as it is, and makes a list of characters of the second. -/
theorem C88_single_call_violates (x y : Nat) :
    (call E (.list 2 (.union (.cons (.list 1 anything) (.cons anything .nil)))) (.list [.str x, .str y]) (fun _ => false)).1 = .ok (.list [.str x, .list (E.chars y)]) := by
  have h : ∀ (l : List V) s, callAll (call E anything) l s = (.ok l, s) := by
    intro l
    induction l with
    | nil => intro s; rfl
    | cons y l ih => intro s; simp [callAll, anything, call, Res.map] at ih ⊢; simp [ih]
  have e : call E anything (.str x) = fun s => (.ok (.str x), s) := by funext s; simp [anything, call]
  simp [call, callAlts, callAll, V.isList, Env.listOf, h, e, Res.map]

/-- **C88, violated by other exceptions**: a Caster whose function raises TypeError does not raise ConfigurationValidationError, and in a Union the alternatives after it are not tried. -/
theorem C88_caster_violates (f : V → Made) (v : V) (h : f v = .typeError) (s : Lost) :
    (call E (.union (.cons (.caster f) (.cons anything .nil))) v s).1 = .exc 0 := by
  simp [call, callAlts, h]

/-- **C88, other exceptions** (partial: of the first key, element or alternative): an exception that a descriptor lets through is let through by the Dict, List or Union around it, not taken for invalid configuration. -/
theorem C88_exceptions_partial (d : D) (x : V) (s s' : Lost) (e : Nat) (h : call E d x s = (.exc e, s')) :
    (∀ name opt rest u f, f name = some x → (call E (.dict (.cons name opt d rest) u) (.dict f) s).1 = .exc e) ∧
    (∀ id l, (call E (.list id d) (.list (x :: l)) s).1 = .exc e) ∧
    (∀ rest, (call E (.union (.cons d rest)) x s).1 = .exc e) ∧
    (∀ v m, m v = .other e → (call E (.basic m) v s).1 = .exc e ∧ (call E (.caster m) v s).1 = .exc e) := by
  refine ⟨?_, ?_, ?_, ?_⟩
  · intro name opt rest u f hf
    simp [call, callKeys, hf, h, Res.map]
  · intro id l
    simp [call, V.isList, Env.listOf, callAll, h, Res.map]
  · intro rest
    simp [call, callAlts, h]
  · intro v m hm
    simp [call, hm]

/-! Cases that meet the hypotheses -/
example : (call E (.dict (.cons 1 none (.basic (fun _ => .other 7)) .nil) (fun _ v => v)) (.dict (fun _ => some .null)) (fun _ => false)).1 = .exc 7 :=
  (C88_exceptions_partial E (.basic (fun _ => .other 7)) .null (fun _ => false) (fun _ => false) 7 (by simp [call])).1 1 none .nil _ _ rfl

/-- `Integer()` on a value that is an integer or something else -/
def integer : D := .basic (fun v => match v with | .int i => .ok (.int i) | .bool b => .ok (.int (if b then 1 else 0)) | .null => .typeError | _ => .valueError)

/-- `Dict([create_key(List(Integer()), 1), create_key(Union(Integer(), Descriptor()), 2, optional=True, default=5)])` -/
def exampleSchema : D := .dict (.cons 1 none (.list 1 integer) (.cons 2 (some (.int 5)) (.union (.cons integer (.cons anything .nil))) .nil)) (fun _ v => v)

example : Armed (fun _ => false) exampleSchema := by simp [exampleSchema, Armed, KeysArmed, AltsArmed, integer, anything]
example : Good exampleSchema := by
  have hi : ∀ (v : V) (e : Nat), (match v with | .int i => Made.ok (.int i) | .bool b => .ok (.int (if b then 1 else 0)) | .null => .typeError | _ => .valueError) ≠ .other e := by
    intro v e; cases v <;> simp
  simp only [exampleSchema, Good, KeysGood, AltsGood, AltsNoList, NoList, Keys.names, integer, anything]
  refine ⟨by simp, hi, ⟨⟨hi, by simp, trivial⟩, trivial, trivial, trivial⟩, trivial⟩
example : Fits exampleSchema (.dict (put (fun _ => none) 1 (.list [.bool true, .int 7]))) (.dict (put (put (fun _ => none) 1 (.list [.int 1, .int 7])) 2 (.int 5))) := by
  refine (C88_schema_partial ⟨fun _ => [], fun _ => []⟩ exampleSchema (fun _ => false) ?_ ?_ _).1 _ |>.1 ?_
  · simp [exampleSchema, Armed, KeysArmed, AltsArmed, integer, anything]
  · have hi : ∀ (v : V) (e : Nat), (match v with | .int i => Made.ok (.int i) | .bool b => .ok (.int (if b then 1 else 0)) | .null => .typeError | _ => .valueError) ≠ .other e := by
      intro v e; cases v <;> simp
    simp only [exampleSchema, Good, KeysGood, AltsGood, AltsNoList, NoList, Keys.names, integer, anything]
    exact ⟨by simp, hi, ⟨⟨hi, by simp, trivial⟩, trivial, trivial, trivial⟩, trivial⟩
  · simp [exampleSchema, call, callKeys, put, integer, callAll, V.isList, Env.listOf, Res.map]
    funext n
    simp only [put]
    by_cases h2 : n = 2
    · simp [h2]
    · by_cases h1 : n = 1 <;> simp [h1, h2]

end Verif.Schema
