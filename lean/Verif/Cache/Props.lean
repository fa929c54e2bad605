import Verif.Cache.Spec
/-! # C10, C11: CacheDict -/
namespace Verif.Cache
open Verif

section
variable {K V : Type _} [DecidableEq K] (E : Env V)

/-- how the attributes represent the abstract memory -/
def RepK (s : St K V) (k : K) : Option (Entry V) → Prop
  | none => Dict.get? s.data k = none ∧ k ∉ s.missed
  | some (.value v t) => Dict.get? s.data k = some v ∧ Dict.get? s.ts k = some t ∧ k ∉ s.missed
  | some (.failed t) => Dict.get? s.data k = none ∧ Dict.get? s.ts k = some t ∧ k ∈ s.missed

def Rep (s : St K V) (m : Mem K V) : Prop :=
  (∀ k, RepK s k (m k)) ∧ (E.failures = none → s.missed = [])

/-- The calls for which the code keeps the specification: `feed` and `invalidate` do not forget a remembered failure, and a
timestamp of 0 given to `feed` is ignored (see the `violates` theorems). -/
def Regular (s : St K V) : Op K V → Prop
  | .feed k _ stamp _ => k ∉ s.missed ∧ stamp ≠ some 0
  | .invalidate k => k ∉ s.missed
  | _ => True

theorem Rep.set {s : St K V} {m : Mem K V} (h : Rep E s m) (k : K) (v : V) (t : Int) :
    Rep E (St.set s k v t) (m.upd k (some (.value v t))) := by
  refine ⟨fun x => ?_, fun hf => by simp [St.set, h.2 hf]⟩
  have hx := h.1 x
  by_cases hk : x = k
  · subst hk; simp [RepK, St.set, Mem.upd]
  · have hk' : ¬ k = x := fun hc => hk hc.symm
    simp only [Mem.upd, if_neg hk]
    cases hm : m x with
    | none => simp_all [RepK, St.set]
    | some e => cases e <;> simp_all [RepK, St.set]

theorem Rep.data_iff {s : St K V} {m : Mem K V} (h : Rep E s m) (k : K) :
    Dict.has s.data k = true ↔ ∃ v t, m k = some (.value v t) := by
  have hk := h.1 k
  cases hm : m k with
  | none => simp_all [RepK, Dict.has]
  | some e => cases e <;> simp_all [RepK, Dict.has]

theorem Rep.del {s : St K V} {m : Mem K V} (h : Rep E s m) (k : K) :
    ((∃ v t, m k = some (.value v t)) ∧ (St.del s k).2 = none ∧ Rep E (St.del s k).1 (m.upd k none)) ∨
    ((¬ ∃ v t, m k = some (.value v t)) ∧ St.del s k = (s, some .keyError)) := by
  by_cases hd : Dict.has s.data k = true
  · left
    obtain ⟨v, t, hm⟩ := (h.data_iff E k).1 hd
    have hk := h.1 k
    rw [hm] at hk
    have hts : Dict.has s.ts k = true := by simp [Dict.has, hk.2.1]
    refine ⟨⟨v, t, hm⟩, by simp [St.del, hd, hts], ?_, ?_⟩
    · intro x
      have hx := h.1 x
      simp only [St.del, hd, hts, ↓reduceIte]
      by_cases hxk : x = k
      · subst hxk; simp [RepK, Mem.upd]
      · have hk' : ¬ k = x := fun hc => hxk hc.symm
        simp only [Mem.upd, if_neg hxk]
        cases hmx : m x with
        | none => simp_all [RepK]
        | some e => cases e <;> simp_all [RepK]
    · intro hf
      simp [St.del, hd, hts, h.2 hf]
  · right
    refine ⟨fun hc => hd ((h.data_iff E k).2 hc), ?_⟩
    simp [St.del, hd]

theorem Rep.onFailure {s : St K V} {m : Mem K V} (h : Rep E s m) (k : K) (t : Int) :
    Rep E (St.onFailure E s k t) (m.learn E k .keyError t) := by
  have key : ∀ s1 : St K V, (∀ x, x ≠ k → RepK s1 x (m x)) → Dict.get? s1.data k = none →
      (E.failures = none → s1.missed = []) →
      Rep E (if E.failures.isSome then
        { s1 with missed := setAdd s1.missed k, ts := Dict.set s1.ts k t } else s1)
        (m.learn E k .keyError t) := by
    intro s1 h1 h2 h3
    cases hf : E.failures with
    | none =>
      have h3' := h3 hf
      refine ⟨fun x => ?_, fun _ => by simpa using h3'⟩
      simp only [Mem.learn, hf, Mem.upd]
      by_cases hx : x = k
      · subst hx; simp [RepK, h2, h3']
      · simpa [hx] using h1 x hx
    | some i =>
      refine ⟨fun x => ?_, fun hc => by simp [hf] at hc⟩
      simp only [Mem.learn, hf, Mem.upd, Option.isSome_some, ↓reduceIte]
      by_cases hx : x = k
      · subst hx; simp [RepK, h2, mem_setAdd]
      · have := h1 x hx
        have hk' : ¬ k = x := fun hc => hx hc.symm
        simp only [if_neg hx]
        cases hmx : m x with
        | none => simp_all [RepK, mem_setAdd]
        | some e => cases e <;> simp_all [RepK, mem_setAdd]
  rcases h.del E k with ⟨_, hn, hr⟩ | ⟨hn, hs⟩
  · refine key _ ?_ ?_ hr.2
    · intro x hx
      have := hr.1 x
      simpa [Mem.upd, hx, St.invalidate] using this
    · have := hr.1 k
      simp [Mem.upd, RepK] at this
      exact this.1
  · have : St.invalidate s k = s := by simp [St.invalidate, hs]
    unfold St.onFailure
    simp only [this]
    refine key s (fun x _ => h.1 x) ?_ h.2
    have hk := h.1 k
    cases hm : m k with
    | none => rw [hm] at hk; exact hk.1
    | some e =>
      cases e with
      | value v t => exact absurd ⟨v, t, hm⟩ hn
      | failed t => rw [hm] at hk; exact hk.1

theorem Rep.lookup {s : St K V} {m : Mem K V} (h : Rep E s m) (k : K) (now : Int) :
    Decision E now (m k) (St.lookup E s k now) := by
  have hk := h.1 k
  cases hm : m k with
  | none =>
    rw [hm] at hk
    simp only [RepK] at hk
    simp [St.lookup, Dict.has, hk]
    exact .unknown
  | some e =>
    cases e with
    | value v t =>
      rw [hm] at hk
      simp only [RepK] at hk
      simp only [St.lookup, Dict.has, hk, Option.isSome_some, Bool.not_true, Bool.false_and,
        Bool.false_eq_true, ↓reduceIte]
      by_cases h1 : now - t > E.expiration
      · simp only [h1, ↓reduceIte]; exact .expired (by omega)
      · by_cases h2 : now - t > E.stale
        · simp only [h1, h2, ↓reduceIte]; exact .stale (by omega) (by omega)
        · simp only [h1, h2, ↓reduceIte]; exact .fresh (by omega)
    | failed t =>
      rw [hm] at hk
      simp only [RepK] at hk
      simp only [St.lookup, Dict.has, hk, Option.isSome_none, Bool.not_false, Bool.true_and,
        not_true_eq_false, decide_false, Bool.false_eq_true, ↓reduceIte]
      cases hf : E.failures with
      | none => simp [h.2 hf] at hk
      | some i =>
        dsimp only
        by_cases h1 : now - t > i
        · simp only [h1, ↓reduceIte]; exact .missExpired hf (by omega)
        · simp only [h1, ↓reduceIte, missOut]
          cases hd : E.default with
          | none => exact .missRaise hf (by omega) hd
          | some d => exact .missDefault hf (by omega) hd

theorem Rep.complete {s : St K V} {m : Mem K V} (h : Rep E s m) (k : K) (g : Got V) (t : Int) :
    (St.complete E s k g t).2 = Answer E g ∧ Rep E (St.complete E s k g t).1 (m.learn E k g t) := by
  cases g with
  | ok v => exact ⟨rfl, h.set E k v t⟩
  | keyError => exact ⟨rfl, h.onFailure E k t⟩
  | other n => exact ⟨rfl, h⟩

theorem decision_block {m : Option (Entry V)} {now : Int} {r : Res V} (h : Decision E now m r) :
    (r.out = .block ↔ r.asked = true) ∧ (r.asked = true → r.scheduled = false) := by
  cases h <;> simp

theorem step_sim {s : St K V} {m : Mem K V} {o : Op K V} (hP : Regular s o)
    (h : Rep E s m) : ∃ m', Spec E m o (step E s o).2 m' ∧ Rep E (step E s o).1 m' := by
  cases o with
  | get k now g t =>
    have hl := h.lookup E k now
    have hb := decision_block E hl
    cases hr : St.lookup E s k now with
    | mk out asked scheduled =>
    rw [hr] at hl hb
    by_cases ho : out = .block
    · subst ho
      have ha : asked = true := hb.1.1 rfl
      have hs : scheduled = false := hb.2 ha
      subst ha; subst hs
      have hc := h.complete E k g t
      refine ⟨m.learn E k g t, ?_, ?_⟩
      · simp only [step, hr]
        rw [hc.1]
        exact .getAsk hl rfl
      · simp only [step, hr]; exact hc.2
    · have ha : asked = false := by
        cases asked with
        | false => rfl
        | true => exact absurd (hb.1.2 rfl) ho
      subst ha
      refine ⟨m, ?_, ?_⟩
      · cases out <;> first | exact absurd rfl ho | (simp only [step, hr]; exact .getHit hl rfl)
      · cases out <;> first | exact absurd rfl ho | (simp only [step, hr]; exact h)
  | lookup k now => exact ⟨m, .lookup (h.lookup E k now), h⟩
  | complete k g t =>
    have hc := h.complete E k g t
    refine ⟨m.learn E k g t, ?_, hc.2⟩
    simp only [step, hc.1]
    exact .complete
  | refresh k g t =>
    refine ⟨m.learn E k g t, .refresh, ?_⟩
    have hc := (h.complete E k g t).2
    cases g <;> exact hc
  | set k v t => exact ⟨_, .set, h.set E k v t⟩
  | feed k v stamp t =>
    obtain ⟨hf, hs⟩ := hP
    refine ⟨_, .feed, ?_⟩
    generalize hst : stamp.getD t = stamp'
    have : St.feed s k v stamp t = St.set s k v stamp' := by
      have hfil : s.missed.filter (fun x => decide (x ≠ k)) = s.missed := by
        rw [List.filter_eq_self]
        intro a ha
        have : a ≠ k := fun hc => hf (by rw [← hc]; exact ha)
        simpa using this
      simp only [St.feed, St.set, hfil]
      congr 2
      subst hst
      cases stamp with
      | none => rfl
      | some x =>
        have : x ≠ 0 := fun hc => hs (by rw [hc])
        simp [feedStamp, this]
    simp only [step, this]
    exact h.set E k v _
  | del k =>
    rcases h.del E k with ⟨⟨v, t, hm⟩, hn, hr⟩ | ⟨hn, hs⟩
    · refine ⟨m.upd k none, ?_, ?_⟩
      rotate_left
      · simp only [step]
        generalize St.del s k = p at *
        obtain ⟨s', e⟩ := p
        simp only at hn hr
        subst hn
        exact hr
      · simp only [step]
        generalize St.del s k = p at *
        obtain ⟨s', e⟩ := p
        simp only at hn hr
        subst hn
        exact .del hm
    · refine ⟨m, ?_, ?_⟩
      · simp only [step, hs]; exact .delMissing (fun v s' hc => hn ⟨v, s', hc⟩)
      · simp only [step, hs]; exact h
  | invalidate k =>
    have hf : k ∉ s.missed := hP
    refine ⟨_, .invalidate, ?_⟩
    rcases h.del E k with ⟨_, _, hr⟩ | ⟨hn, hs⟩
    · exact hr
    · have : m.upd k none = m := by
        funext x
        simp only [Mem.upd]
        split
        · next hx =>
          subst hx
          have hk := h.1 x
          cases hm : m x with
          | none => rfl
          | some e =>
            cases e with
            | value v t => exact absurd ⟨v, t, hm⟩ hn
            | failed t => rw [hm] at hk; exact absurd hk.2.2 hf
        · rfl
      simp only [step, St.invalidate, hs, this]
      exact h
  | hasInfo k t =>
    refine ⟨m, ?_, h⟩
    simp only [step]
    apply Spec.info
    have hk := h.1 k
    cases hm : m k with
    | none => rw [hm] at hk; simp [RepK] at hk; simp [St.hasInfo, Dict.has, hk]
    | some e =>
      cases e with
      | value v x =>
        rw [hm] at hk; simp [RepK] at hk; simp [St.hasInfo, Dict.has, hk]
        exact ⟨fun h => ⟨v, x, ⟨rfl, rfl⟩, h⟩, fun ⟨_, _, ⟨_, h1⟩, h2⟩ => by omega⟩
      | failed x =>
        rw [hm] at hk; simp [RepK] at hk
        have hf : E.failures.isSome = true := by
          cases hf : E.failures with
          | none => simp [h.2 hf] at hk
          | some i => rfl
        simp [St.hasInfo, Dict.has, hk, hf]

theorem rep_empty : Rep E (St.empty : St K V) (fun _ => none) :=
  ⟨fun k => by simp [RepK, St.empty], fun _ => rfl⟩

/-- C10 and C11: every history of calls and background refreshes on a new cache behaves like the
abstract memory: fresh values are returned without asking, stale ones are returned and exactly one refresh
scheduled, expired ones are fetched anew and never returned; a remembered failure answers until its interval
has passed, and a fetched or assigned value replaces it.  Partial: for histories in which `feed` and `invalidate` are
not called for a key with a remembered failure and without `feed(timestamp=0)`; the
theorems named `violates` below show that the code breaks the specification there. -/
theorem C10_cache_dict_refines_memory_partial (ops : List (Op K V))
    (hP : AllSteps Regular (step E) St.empty ops) :
    ∃ m', History (Spec E) (fun _ => none) ops (runOps (step E) St.empty ops).2 m' := by
  obtain ⟨m', h, _⟩ := history_of_sim' (step := step E) (spec := Spec E) (Rep E) Regular
    (fun s b o hp hr => step_sim E hp hr) St.empty (fun _ => none) ops hP (rep_empty E)
  exact ⟨m', h⟩

/-! ### The freshness guarantee as a statement about histories -/

/-- call `o` with result `r` stored the value `v` for `k` at time `s` -/
def Stores (k : K) (v : V) (s : Int) (o : Op K V) (r : Res V) : Prop :=
  match o with
  | .get k' _ g t => k' = k ∧ r.asked = true ∧ t = s ∧ g = .ok v
  | .complete k' g t => k' = k ∧ t = s ∧ g = .ok v
  | .refresh k' g t => k' = k ∧ t = s ∧ g = .ok v
  | .set k' v' t => k' = k ∧ v' = v ∧ t = s
  | .feed k' v' stamp t => k' = k ∧ v' = v ∧ stamp.getD t = s
  | _ => False

theorem learn_value {m : Mem K V} {k k' : K} {g : Got V} {t s : Int} {v : V}
    (h : (m.learn E k g t) k' = some (.value v s)) :
    (k = k' ∧ t = s ∧ g = .ok v) ∨ m k' = some (.value v s) := by
  cases g with
  | ok x =>
    simp only [Mem.learn, Mem.upd] at h
    split at h
    · next hk => cases h; exact Or.inl ⟨hk.symm, rfl, rfl⟩
    · exact Or.inr h
  | keyError =>
    simp only [Mem.learn, Mem.upd] at h
    split at h
    · split at h <;> simp at h
    · exact Or.inr h
  | other n => exact Or.inr h

theorem spec_value {m m' : Mem K V} {o : Op K V} {r : Res V} (h : Spec E m o r m') {k : K} {v : V}
    {s : Int} (hm : m' k = some (.value v s)) : Stores k v s o r ∨ m k = some (.value v s) := by
  cases h with
  | getHit => exact Or.inr hm
  | getAsk hd ha =>
    rcases learn_value E hm with ⟨h1, h2, h3⟩ | h'
    · exact Or.inl ⟨h1, rfl, h2, h3⟩
    · exact Or.inr h'
  | lookup => exact Or.inr hm
  | complete =>
    rcases learn_value E hm with ⟨h1, h2, h3⟩ | h'
    · exact Or.inl ⟨h1, h2, h3⟩
    · exact Or.inr h'
  | refresh =>
    rcases learn_value E hm with ⟨h1, h2, h3⟩ | h'
    · exact Or.inl ⟨h1, h2, h3⟩
    · exact Or.inr h'
  | set =>
    simp only [Mem.upd] at hm
    split at hm
    · next hk => cases hm; exact Or.inl ⟨hk.symm, rfl, rfl⟩
    · exact Or.inr hm
  | feed =>
    simp only [Mem.upd] at hm
    split at hm
    · next hk => cases hm; exact Or.inl ⟨hk.symm, rfl, rfl⟩
    · exact Or.inr hm
  | del =>
    simp only [Mem.upd] at hm
    split at hm
    · simp at hm
    · exact Or.inr hm
  | delMissing => exact Or.inr hm
  | invalidate =>
    simp only [Mem.upd] at hm
    split at hm
    · simp at hm
    · exact Or.inr hm
  | info => exact Or.inr hm

/-- in a history, whatever is remembered at the end was stored by one of its calls -/
theorem history_value {ops : List (Op K V)} {rs : List (Res V)} {m m' : Mem K V}
    (h : History (Spec E) m ops rs m') {k : K} {v : V} {s : Int} (hm : m' k = some (.value v s)) :
    (∃ (i : Nat) (o : Op K V) (r : Res V), ops[i]? = some o ∧ rs[i]? = some r ∧ Stores k v s o r) ∨ m k = some (.value v s) := by
  induction ops generalizing m rs with
  | nil =>
    cases rs with
    | nil => right; have : m = m' := h; rw [this]; exact hm
    | cons r rs => exact absurd h (by simp [History])
  | cons o os ih =>
    cases rs with
    | nil => exact absurd h (by simp [History])
    | cons r rs =>
      obtain ⟨m1, h1, h2⟩ := h
      rcases ih h2 with ⟨i, o', r', hi, hr, hst⟩ | hm1
      · exact Or.inl ⟨i + 1, o', r', by simpa using hi, by simpa using hr, hst⟩
      · rcases spec_value E h1 hm1 with hs | hs
        · exact Or.inl ⟨0, o, r, by simp, by simp, hs⟩
        · exact Or.inr hs

/-- C10, the guarantee in terms of the calls made: if after any history a lookup at time `now` returns a
value without asking the getter and without a remembered failure being involved (no failure caching), then
an earlier call stored that very value under that key at a time `s` with
`now - s ≤ expiration_interval`. Partial for the same reason as above (`feed` with timestamp 0). -/
theorem C10_never_returns_expired_partial (hE : E.Ok) (hF : E.failures = none) (ops : List (Op K V))
    (hP : AllSteps Regular (step E) St.empty ops) (k : K) (now : Int) (v : V)
    (hr : (step E (runOps (step E) St.empty ops).1 (.lookup k now)).2.out = .val v) :
    ∃ (i : Nat) (o : Op K V) (r : Res V) (s : Int), ops[i]? = some o ∧ (runOps (step E) St.empty ops).2[i]? = some r ∧
      Stores k v s o r ∧ now - s ≤ E.expiration := by
  obtain ⟨m', h, hrep⟩ := history_of_sim' (step := step E) (spec := Spec E) (Rep E) Regular
    (fun s b o hp hr => step_sim E hp hr) St.empty (fun _ => none) ops hP (rep_empty E)
  have hd := hrep.lookup E k now
  simp only [step] at hr
  have hEx : ∃ s, m' k = some (.value v s) ∧ now - s ≤ E.expiration := by
    unfold Env.Ok at hE
    generalize St.lookup E (runOps (step E) St.empty ops).1 k now = R at hd hr
    generalize m' k = e at hd
    cases hd with
    | unknown => simp at hr
    | fresh h1 => simp at hr; subst hr; exact ⟨_, rfl, by omega⟩
    | stale h1 h2 => simp at hr; subst hr; exact ⟨_, rfl, h2⟩
    | expired => simp at hr
    | missDefault h1 => simp [hF] at h1
    | missRaise h1 => simp [hF] at h1
    | missExpired => simp at hr
  obtain ⟨s, hs, hle⟩ := hEx
  rcases history_value E h hs with ⟨i, o, r, h1, h2, h3⟩ | hc
  · exact ⟨i, o, r, s, h1, h2, h3, hle⟩
  · simp at hc

/-! ### Remembered failures as a statement about histories -/

/-- the call does not learn anything about `k` and does not look `k` up later than `i` after `t` -/
def Quiet (k : K) (t i : Int) : Op K V → Prop
  | .get k' now _ _ => k' = k → now - t ≤ i
  | .complete k' _ _ => k' ≠ k
  | .refresh k' _ _ => k' ≠ k
  | .set k' _ _ => k' ≠ k
  | .feed k' _ _ _ => k' ≠ k
  | .invalidate k' => k' ≠ k
  | _ => True

theorem learn_other {m : Mem K V} {k k' : K} (g : Got V) (t : Int) (h : k' ≠ k) :
    (m.learn E k' g t) k = m k := by
  have h' : ¬ k = k' := fun hc => h hc.symm
  cases g <;> simp [Mem.learn, Mem.upd, h']

theorem spec_quiet {m m' : Mem K V} {o : Op K V} {r : Res V} {k : K} {t i : Int}
    (hi : E.failures = some i) (h : Spec E m o r m') (hq : Quiet k t i o)
    (hm : m k = some (.failed t)) : m' k = some (.failed t) := by
  cases h with
  | getAsk hd ha =>
    rename_i k' now g t' r
    by_cases hk : k' = k
    · subst hk
      rw [hm] at hd
      have hle := hq rfl
      cases hd with
      | missDefault => simp at ha
      | missRaise => simp at ha
      | missExpired h1 h2 => rw [hi] at h1; cases h1; omega
    · rw [learn_other E _ _ hk]; exact hm
  | complete => rw [learn_other E _ _ hq]; exact hm
  | refresh => rw [learn_other E _ _ hq]; exact hm
  | set => simp only [Mem.upd]; rw [if_neg (fun hc => hq hc.symm)]; exact hm
  | feed => simp only [Mem.upd]; rw [if_neg (fun hc => hq hc.symm)]; exact hm
  | invalidate => simp only [Mem.upd]; rw [if_neg (fun hc => hq hc.symm)]; exact hm
  | del hv =>
    simp only [Mem.upd]
    split
    · next hk => subst hk; rw [hm] at hv; simp at hv
    · exact hm
  | _ => exact hm

theorem history_quiet {ops : List (Op K V)} {rs : List (Res V)} {m m' : Mem K V} {k : K} {t i : Int}
    (hi : E.failures = some i) (h : History (Spec E) m ops rs m') (hq : ∀ o ∈ ops, Quiet k t i o)
    (hm : m k = some (.failed t)) : m' k = some (.failed t) := by
  induction ops generalizing m rs with
  | nil =>
    cases rs with
    | nil => have : m = m' := h; rw [← this]; exact hm
    | cons r rs => exact absurd h (by simp [History])
  | cons o os ih =>
    cases rs with
    | nil => exact absurd h (by simp [History])
    | cons r rs =>
      obtain ⟨m1, h1, h2⟩ := h
      exact ih h2 (fun o ho => hq o (by simp [ho])) (spec_quiet E hi h1 (hq o (by simp)) hm)

/-- what a lookup answers from a remembered failure -/
theorem decision_failed {now t i : Int} {r : Res V} (hi : E.failures = some i)
    (h : Decision E now (some (.failed t)) r) :
    (now - t ≤ i → r = { out := (match E.default with | some d => .val d | none => .exc .keyError) }) ∧
    (i < now - t → r = { out := .block, asked := true }) := by
  cases h with
  | missDefault h1 h2 h3 =>
    rw [hi] at h1; cases h1
    exact ⟨fun _ => by simp [h3], fun _ => by omega⟩
  | missRaise h1 h2 h3 =>
    rw [hi] at h1; cases h1
    exact ⟨fun _ => by simp [h3], fun _ => by omega⟩
  | missExpired h1 h2 =>
    rw [hi] at h1; cases h1
    exact ⟨fun _ => by omega, fun _ => rfl⟩

/-- C11: take any history (`before`), in which then a call for `k` got KeyError from the getter at time
`t`, and any further calls (`after`) none of which learns something new about `k`.  A lookup of `k`
at time `now` is then answered by the default (or KeyError) without asking the getter and without scheduling a refresh as long as `now - t` does
not exceed `cache_failures_interval`, and asks the getter after that.
Partial only in that `feed`/`invalidate` for keys with remembered failures are excluded by `Regular`. -/
theorem C11_failure_remembered_partial (before after : List (Op K V)) (k : K) (t i : Int)
    (hi : E.failures = some i)
    (hP : AllSteps Regular (step E) St.empty (before ++ .complete k .keyError t :: after))
    (hq : ∀ o ∈ after, Quiet k t i o) (now : Int) :
    let s := (runOps (step E) St.empty (before ++ .complete k .keyError t :: after)).1
    (now - t ≤ i → (step E s (.lookup k now)).2 =
      { out := (match E.default with | some d => .val d | none => .exc .keyError) }) ∧
    (i < now - t → (step E s (.lookup k now)).2 = { out := .block, asked := true }) := by
  rw [AllSteps.append] at hP
  obtain ⟨m1, h1, hr1⟩ := history_of_sim' (step := step E) (spec := Spec E) (Rep E) Regular
    (fun s b o hp hr => step_sim E hp hr) St.empty (fun _ => none) before hP.1 (rep_empty E)
  have hc := (hr1.complete E k .keyError t).2
  obtain ⟨m2, h2, hr2⟩ := history_of_sim' (step := step E) (spec := Spec E) (Rep E) Regular
    (fun s b o hp hr => step_sim E hp hr) _ _ after hP.2.2 hc
  have hm : (m1.learn E k .keyError t) k = some (.failed t) := by
    simp [Mem.learn, Mem.upd, hi]
  have hm2 := history_quiet E hi h2 hq hm
  have hd := hr2.lookup E k now
  rw [hm2] at hd
  have := decision_failed E hi hd
  dsimp only
  rw [runOps_append]
  exact this

/-- C11, second half: a value that an assignment or a fetch stores replaces the remembered
failure; the next lookup within the stale interval returns it without asking.  (`feed`: see
`C11_feed_is_masked_violates`.) -/
theorem C11_value_replaces_failure_partial (hE : E.Ok) (ops : List (Op K V))
    (hP : AllSteps Regular (step E) St.empty ops) (k : K) (v : V) (t now : Int)
    (hn : now - t ≤ E.stale) (o : Op K V)
    (ho : o = .set k v t ∨ o = .complete k (.ok v) t ∨ o = .refresh k (.ok v) t) :
    (step E (step E (runOps (step E) St.empty ops).1 o).1 (.lookup k now)).2 = { out := .val v } := by
  obtain ⟨m1, h1, hr1⟩ := history_of_sim' (step := step E) (spec := Spec E) (Rep E) Regular
    (fun s b o hp hr => step_sim E hp hr) St.empty (fun _ => none) ops hP (rep_empty E)
  have hr := hr1.set E k v t
  have hs : (step E (runOps (step E) St.empty ops).1 o).1 =
      St.set (runOps (step E) St.empty ops).1 k v t := by
    rcases ho with rfl | rfl | rfl <;> rfl
  rw [hs]
  have hd := hr.lookup E k now
  simp only [Mem.upd, ↓reduceIte] at hd
  simp only [step]
  unfold Env.Ok at hE
  generalize St.lookup E _ k now = R at hd
  cases hd with
  | fresh => rfl
  | stale h1 => omega
  | expired h1 => omega

/-- The code breaks C11: a value fed for a key with a remembered failure is not returned: whatever the cache's
intervals, the lookup right after `feed` still raises KeyError (or gives the default), and does not ask. -/
theorem C11_feed_is_masked_violates (k : K) (v : V) (t i : Int) (hi : E.failures = some i) (h0 : 0 ≤ i)
    (hd : E.default = none) (ops : List (Op K V)) :
    (step E (runOps (step E) St.empty (ops ++ [.complete k .keyError t, .feed k v none t])).1
      (.lookup k t)).2 = { out := .exc .keyError } := by
  rw [runOps_append]
  generalize (runOps (step E) St.empty ops).1 = s
  have h1 : k ∈ (St.onFailure E s k t).missed := by
    simp [St.onFailure, hi, mem_setAdd]
  have h2 : ¬ (i < 0) := by omega
  simp [runOps, step, St.complete, St.feed, St.lookup, Dict.has, h1, hi, feedStamp, missOut, hd, h2]

/-- The code breaks the documented effect of `invalidate` ("remove all information about given key"): after a remembered
failure, `invalidate` changes nothing and the lookup still raises KeyError without asking the getter. -/
theorem C11_invalidate_keeps_failure_violates (k : K) (t i : Int) (hi : E.failures = some i) (h0 : 0 ≤ i)
    (hd : E.default = none) :
    (step E (runOps (step E) St.empty [.complete k .keyError t, .invalidate k]).1
      (.lookup k t)).2 = { out := .exc .keyError } := by
  have h3 : ¬ (i < 0) := by omega
  simp [runOps, step, St.complete, St.onFailure, St.invalidate, St.del, St.empty, St.lookup, Dict.has, hi,
    missOut, hd, setAdd, Dict.set, Dict.get?, h3]

/-- The code breaks C10 for `feed(key, value, timestamp=0)`: the timestamp is replaced by the current
time, so a value declared to be of time 0 is served at any time up to the expiration counted from the feed. -/
theorem C10_feed_timestamp_zero_violates (k : K) (v : V) (now : Int) (hn : now > E.expiration)
    (h0 : 0 ≤ E.stale) (hE : E.Ok) :
    now - 0 > E.expiration ∧
    (step E (runOps (step E) St.empty [.feed k v (some 0) now]).1 (.lookup k now)).2 = { out := .val v } := by
  unfold Env.Ok at hE
  refine ⟨by omega, ?_⟩
  have h1 : ¬ (E.expiration < 0) := by omega
  have h2 : ¬ (E.stale < 0) := by omega
  simp [runOps, step, St.feed, St.empty, St.lookup, Dict.has, feedStamp, Dict.set, Dict.get?, h1, h2]

/-- The code breaks C10 when a `time_getter` other than `time.monotonic` is given: lookups read
`time.monotonic()`.  A value stored when the user's clock showed `t` is served when it shows any later
`t'`, however far beyond the expiration, whenever the monotonic clock happens to show `t`. -/
theorem C10_custom_time_getter_violates (k : K) (v : V) (t t' mono : Int) (h : t' - t > E.expiration)
    (hm : mono - t ≤ E.stale) (hE : E.Ok) :
    t' - t > E.expiration ∧ (step E (runOps (step E) St.empty [.set k v t]).1
      (.get k mono (.ok v) t')).2 = { out := .val v, asked := false } := by
  unfold Env.Ok at hE
  refine ⟨h, ?_⟩
  have h1 : ¬ (mono - t > E.expiration) := by omega
  have h2 : ¬ (mono - t > E.stale) := by omega
  simp [runOps, step, St.set, St.empty, St.lookup, Dict.has, Dict.set, Dict.get?, h1, h2]
end

/-! ### Non-vacuity -/

/-- a cache with intervals 10/60 that remembers failures for 5 -/
def exEnv : Env Nat := { stale := 10, expiration := 60, failures := some 5, default := none }

example : exEnv.Ok := by simp [exEnv, Env.Ok]

/-- a history with a fetch, a stale hit that schedules a refresh, a failure and a remembered failure -/
def exOps : List (Op Nat Nat) :=
  [.get 1 0 (.ok 7) 0, .get 1 20 (.ok 8) 20, .refresh 1 (.ok 9) 21, .get 2 22 .keyError 22,
   .get 2 26 (.ok 3) 26, .feed 3 5 none 30, .get 2 28 (.ok 3) 28]

example : AllSteps Regular (step exEnv) St.empty exOps := by
  simp [exOps, AllSteps, Regular, step, exEnv, St.lookup, St.empty, St.complete, St.set, St.refresh,
    Dict.has, Dict.get?, Dict.set, St.onFailure, St.invalidate, St.del, setAdd, missOut]

example : (runOps (step exEnv) St.empty exOps).2 =
    [{ out := .val 7, asked := true }, { out := .val 7, scheduled := true }, { out := .unit },
     { out := .exc .keyError, asked := true }, { out := .exc .keyError }, { out := .unit },
     { out := .val 3, asked := true }] := by decide

example : ∀ o ∈ ([.get 2 26 (.ok 3) 26, .set 1 4 27, .lookup 2 100] : List (Op Nat Nat)),
    Quiet 2 22 5 o := by simp [Quiet]

example := C11_feed_is_masked_violates exEnv 1 7 100 5 rfl (by decide) rfl exOps
example := C10_feed_timestamp_zero_violates exEnv 1 7 100 (by decide) (by decide) (by unfold Env.Ok; decide)
example := C10_custom_time_getter_violates exEnv 1 7 1000 1100 50 (by decide) (by decide) (by unfold Env.Ok; decide)

end Verif.Cache
