import Verif.Writeback.Spec
/-! # C14: ExclusiveWritebackCache -/
namespace Verif.Writeback
open Verif

section
variable {K V : Type _} [DecidableEq K] (E : Env)

/-- the storage after all given jobs -/
def final (st : K → Option V) (js : List (Job K V)) : K → Option V := js.foldl Job.apply st

theorem final_append (st : K → Option V) (a b : List (Job K V)) : final st (a ++ b) = final (final st a) b := by
  simp [final, List.foldl_append]

theorem apply_other (st : K → Option V) (j : Job K V) {k : K} (h : j.key ≠ k) : j.apply st k = st k := by
  have h' : ¬ k = j.key := fun hc => h hc.symm
  cases j <;> simp_all [Job.apply, Job.key]

theorem apply_congr {st st' : K → Option V} (j : Job K V) {k : K} (h : st k = st' k) :
    j.apply st k = j.apply st' k := by
  cases j <;> simp_all [Job.apply]

theorem final_other (js : List (Job K V)) : ∀ (st : K → Option V) (k : K), (∀ j ∈ js, j.key ≠ k) →
    final st js k = st k := by
  induction js with
  | nil => intro st k _; rfl
  | cons j js ih =>
    intro st k h
    have : final st (j :: js) = final (j.apply st) js := rfl
    rw [this, ih _ k (fun j hj => h j (by simp [hj]))]
    exact apply_other st j (h j (by simp))

theorem final_congr (js : List (Job K V)) : ∀ {st st' : K → Option V} {k : K}, st k = st' k →
    final st js k = final st' js k := by
  induction js with
  | nil => intro st st' k h; exact h
  | cons j js ih => intro st st' k h; exact ih (apply_congr j h)

/-- taking a job out of turn does no harm if no earlier job is about the same key -/
theorem final_out_of_turn (pre suf : List (Job K V)) (j : Job K V) (st : K → Option V)
    (h : ∀ x ∈ pre, x.key ≠ j.key) : final (j.apply st) (pre ++ suf) = final st (pre ++ j :: suf) := by
  funext k
  rw [final_append, final_append]
  have hs : final (final st pre) (j :: suf) = final (j.apply (final st pre)) suf := rfl
  rw [hs]
  apply final_congr
  by_cases hk : j.key = k
  · subst hk
    rw [final_other pre _ _ h]
    exact apply_congr j (final_other pre st _ h).symm
  · rw [apply_other _ j hk]
    exact final_congr pre (apply_other st j hk)

/-- all jobs not carried out yet, oldest first -/
def St.pending (s : St K V) : List (Job K V) := s.running ++ s.queue

/-- at most one pending job per key -/
def OnePerKey (js : List (Job K V)) : Prop := js.Pairwise (fun a b => a.key ≠ b.key)

/-- the cache represents the plain dictionary -/
structure Rep (s : St K V) (p : Plain K V) : Prop where
  /-- once everything pending is carried out the storage is the dictionary -/
  final : final s.storage s.pending = p.dict
  cache : ∀ k v, Dict.get? s.cache k = some v → p.dict k = some v
  inCache : ∀ k ∈ s.inCache, Dict.get? s.cache k = p.dict k
  waiting : s.waiting = p.waiting
  /-- a pending read is the client's, is the only one, and nothing was submitted after it -/
  read : ∀ k, Job.read k ∈ s.pending → p.waiting = some k ∧ ∃ js, s.pending = js ++ [Job.read k] ∧ ∀ k', Job.read k' ∉ js
  order : E.workers = 1 ∧ s.running.length ≤ 1 ∨ OnePerKey s.pending

/-- With more than one worker: a call that submits a job is made only when no job about that key is pending.  A lookup answered by
the cache submits none. -/
def Guard (s : St K V) : Op K V → Prop
  | .get k => E.workers = 1 ∨ k ∈ s.operate.inCache ∨ ∀ j ∈ s.pending, j.key ≠ k
  | .set k _ => E.workers = 1 ∨ ∀ j ∈ s.pending, j.key ≠ k
  | .del k => E.workers = 1 ∨ ∀ j ∈ s.pending, j.key ≠ k
  | _ => True

omit [DecidableEq K] in
theorem pending_submit (s : St K V) (j : Job K V) : (s.submit j).pending = s.pending ++ [j] := by
  simp [St.pending, St.submit]

omit [DecidableEq K] in
theorem operate_fields (s : St K V) : s.operate.pending = s.pending ∧ s.operate.storage = s.storage ∧
    s.operate.cache = s.cache ∧ s.operate.waiting = s.waiting ∧ s.operate.running = s.running ∧
    s.operate.queue = s.queue := by
  unfold St.operate
  split <;> exact ⟨rfl, rfl, rfl, rfl, rfl, rfl⟩

theorem Rep.operate {s : St K V} {p : Plain K V} (h : Rep E s p) : Rep E s.operate p := by
  obtain ⟨h1, h2, h3, h4, h5, _⟩ := operate_fields s
  refine ⟨by rw [h1, h2]; exact h.final, by rw [h3]; exact h.cache, ?_, by rw [h4]; exact h.waiting,
    by rw [h1]; exact h.read, by rw [h1, h5]; exact h.order⟩
  intro k hk
  rw [h3]
  unfold St.operate at hk
  split at hk
  · have := (Dict.get?_isSome_iff s.cache k).2 hk
    obtain ⟨v, hv⟩ := Option.isSome_iff_exists.1 this
    rw [hv, h.cache k v hv]
  · exact h.inCache k hk

omit [DecidableEq K] in
theorem order_submit {s : St K V} (j : Job K V) (h : E.workers = 1 ∧ s.running.length ≤ 1 ∨ OnePerKey s.pending)
    (hg : E.workers = 1 ∨ ∀ x ∈ s.pending, x.key ≠ j.key) (hr : E.workers = 1 → s.running.length ≤ 1) :
    E.workers = 1 ∧ (s.submit j).running.length ≤ 1 ∨ OnePerKey (s.submit j).pending := by
  rcases hg with hg | hg
  · exact Or.inl ⟨hg, hr hg⟩
  · rcases h with h | h
    · exact Or.inl h
    · right
      rw [pending_submit]
      unfold OnePerKey
      rw [List.pairwise_append]
      exact ⟨h, by simp, fun a ha b hb => by simp at hb; subst hb; exact hg a ha⟩

/-- never more jobs running than workers -/
def Cap (s : St K V) : Prop := s.running.length ≤ E.workers

theorem cap_step {s : St K V} (o : Op K V) (h : Cap E s) : Cap E (step E s o).1 := by
  have hcl : ∀ o, (St.client E s o).1.running = s.running := by
    intro o
    have ho := fun s : St K V => (operate_fields s).2.2.2.2.1
    cases o with
    | get k =>
      simp only [St.client]
      split
      · simp [St.submit, ho]
      · split <;> simp [ho]
    | set k v => simp [St.client, ho, St.submit]
    | del k =>
      simp only [St.client]
      split
      · rfl
      · simp [ho, St.submit]
    | sync => simp only [St.client]; split <;> rfl
    | start => rfl
    | finish i => rfl
  cases o with
  | start =>
    simp only [step]
    split
    · exact h
    · split
      · unfold Cap; simp; omega
      · exact h
  | finish i =>
    simp only [step]
    split
    · exact h
    · next j hj =>
      have hlen : (s.running.eraseIdx i).length ≤ E.workers :=
        Nat.le_trans (List.length_eraseIdx_le ..) h
      cases j with
      | read k =>
        simp only [St.readDone]
        split <;> exact hlen
      | write k v => exact hlen
      | delete k => exact hlen
  | get k => simp only [step]; split; exact h; unfold Cap; rw [hcl]; exact h
  | set k v => simp only [step]; split; exact h; unfold Cap; rw [hcl]; exact h
  | del k => simp only [step]; split; exact h; unfold Cap; rw [hcl]; exact h
  | sync => simp only [step]; split; exact h; unfold Cap; rw [hcl]; exact h

theorem no_read_of_idle {s : St K V} {p : Plain K V} (h : Rep E s p) (hw : p.waiting = none) (k : K) :
    Job.read k ∉ s.pending := by
  intro hc
  have := (h.read k hc).1
  rw [hw] at this; simp at this

theorem submit_rep {s : St K V} {p : Plain K V} (h : Rep E s p) (hc : Cap E s) (j : Job K V) (hw : p.waiting = none)
    (hj : ∀ k, j ≠ .read k) (hg : E.workers = 1 ∨ ∀ x ∈ s.pending, x.key ≠ j.key)
    (s1 : St K V) (h1 : s1.pending = s.pending) (h2 : s1.storage = s.storage) (h3 : s1.waiting = s.waiting)
    (h4 : s1.running = s.running)
    (hcache : ∀ k v, Dict.get? s1.cache k = some v → j.apply p.dict k = some v)
    (hin : ∀ k ∈ s1.inCache, Dict.get? s1.cache k = j.apply p.dict k) :
    Rep E (s1.submit j) { p with dict := j.apply p.dict } := by
  refine ⟨?_, hcache, hin, ?_, ?_, ?_⟩
  · rw [pending_submit, h1, final_append]
    have : (s1.submit j).storage = s.storage := h2
    rw [this, h.final]; rfl
  · show s1.waiting = p.waiting
    rw [h3]; exact h.waiting
  · intro k hk
    rw [pending_submit, h1] at hk
    rcases List.mem_append.1 hk with hk | hk
    · exact absurd hk (no_read_of_idle E h hw k)
    · simp at hk; exact absurd hk.symm (hj k)
  · apply order_submit
    · rw [h1, h4]; exact h.order
    · rw [h1]; exact hg
    · intro hw1; rw [h4]; unfold Cap at hc; omega

theorem step_sim {s : St K V} {p : Plain K V} (o : Op K V) (hg : Guard E s o) (hc : Cap E s) (h : Rep E s p) :
    ∃ p', Spec E.canDelete p o (step E s o).2 p' ∧ Rep E (step E s o).1 p' := by
  have hblocked : ∀ o : Op K V, (∀ i, o ≠ .finish i) → o ≠ .start → s.waiting.isSome = true →
      Spec E.canDelete p o .idle p := by
    intro o h1 h2 h3
    obtain ⟨k, hk⟩ := Option.isSome_iff_exists.1 h3
    exact .blocked (h.waiting ▸ hk) h1 h2
  have hfree : s.waiting.isSome = false → p.waiting = none := by
    intro hw; rw [← h.waiting]; simpa using hw
  cases o with
  | get k =>
    simp only [step]
    split
    · next hw => exact ⟨p, hblocked _ (by simp) (by simp) hw, h⟩
    · next hw =>
      have hpw := hfree (by simpa using hw)
      have ho := h.operate E
      obtain ⟨e1, e2, e3, e4, e5, e6⟩ := operate_fields s
      simp only [St.client]
      split
      · next hnin =>
        refine ⟨{ p with waiting := some k }, .getLater hpw, ?_⟩
        have hp : (s.operate.submit (Job.read k)).pending = s.pending ++ [Job.read k] := by
          rw [pending_submit, e1]
        refine ⟨?_, ho.cache, ho.inCache, rfl, ?_, ?_⟩
        · show final s.operate.storage (s.operate.submit (Job.read k)).pending = p.dict
          rw [hp, final_append, e2, h.final]; rfl
        · intro k' hk'
          have hk' : Job.read k' ∈ (s.operate.submit (Job.read k)).pending := hk'
          rw [hp] at hk'
          rcases List.mem_append.1 hk' with hk' | hk'
          · exact absurd hk' (no_read_of_idle E h hpw k')
          · simp at hk'; subst hk'
            exact ⟨rfl, s.pending, hp, fun k' => no_read_of_idle E h hpw k'⟩
        · apply order_submit E (s := s.operate) (.read k) ho.order
          · rw [e1]
            rcases hg with hg | hg | hg
            · exact Or.inl hg
            · exact absurd hg hnin
            · exact Or.inr hg
          · intro hw1; rw [e5]; unfold Cap at hc; omega
      · next hin =>
        have hin : k ∈ s.operate.inCache := by simpa using hin
        have hv := ho.inCache k hin
        refine ⟨p, ?_, ?_⟩
        · have : Spec E.canDelete p (.get k) (p.answer k) p := .get hpw
          unfold Plain.answer at this
          rw [← hv] at this
          split
          · next hv' => rw [hv'] at this; exact this
          · next hv' => rw [hv'] at this; exact this
        · split <;> exact ho
  | set k v =>
    simp only [step]
    split
    · next hw => exact ⟨p, hblocked _ (by simp) (by simp) hw, h⟩
    · next hw =>
      have hpw := hfree (by simpa using hw)
      refine ⟨_, .set hpw, ?_⟩
      simp only [St.client]
      apply Rep.operate
      refine submit_rep E h hc (.write k v) hpw (by simp) hg _ rfl rfl rfl rfl ?_ ?_
      · intro x w hx
        simp only [Dict.get?_set] at hx
        simp only [Job.apply]
        by_cases hxk : x = k
        · subst hxk; simpa using hx
        · have : ¬ k = x := fun hc => hxk hc.symm
          simp only [this, ↓reduceIte] at hx
          simp only [hxk, ↓reduceIte]
          exact h.cache x w hx
      · intro x hx
        simp only [Dict.get?_set, Job.apply]
        by_cases hxk : x = k
        · subst hxk; simp
        · have : ¬ k = x := fun hc => hxk hc.symm
          simp only [this, hxk, ↓reduceIte]
          rcases mem_setAdd.1 hx with h1 | h1
          · first | exact h.inCache x h1 | exact absurd h1 hxk
          · first | exact absurd h1 hxk | exact h.inCache x h1
  | del k =>
    simp only [step]
    split
    · next hw => exact ⟨p, hblocked _ (by simp) (by simp) hw, h⟩
    · next hw =>
      have hpw := hfree (by simpa using hw)
      simp only [St.client]
      split
      · next hd => exact ⟨p, .delUnsupported hpw (by simpa using hd), h⟩
      · next hd =>
        refine ⟨_, .del hpw (by simpa using hd), ?_⟩
        apply Rep.operate
        refine submit_rep E h hc (.delete k) hpw (by simp) hg _ rfl rfl rfl rfl ?_ ?_
        · intro x w hx
          simp only [Dict.get?_del] at hx
          simp only [Job.apply]
          split at hx
          · simp at hx
          · next hne =>
            have : ¬ x = k := fun hc => hne hc.symm
            simp only [this, ↓reduceIte]
            exact h.cache x w hx
        · intro x hx
          simp only [Dict.get?_del, Job.apply]
          by_cases hxk : x = k
          · subst hxk; simp
          · have : ¬ k = x := fun hc => hxk hc.symm
            simp only [this, hxk, ↓reduceIte]
            apply h.inCache
            simp only at hx
            split at hx
            · rcases mem_setAdd.1 hx with h1 | h1
              · first | exact h1 | exact absurd h1 hxk
              · first | exact h1 | exact absurd h1 hxk
            · exact hx
  | sync =>
    simp only [step]
    split
    · next hw => exact ⟨p, hblocked _ (by simp) (by simp) hw, h⟩
    · next hw =>
      have hpw := hfree (by simpa using hw)
      simp only [St.client]
      split
      · exact ⟨p, .sync hpw (Or.inl rfl), h⟩
      · exact ⟨p, .sync hpw (Or.inr rfl), h⟩
  | start =>
    refine ⟨p, ?_, ?_⟩
    · simp only [step]
      split
      · exact .start
      · split <;> exact .start
    · simp only [step]
      split
      · exact h
      · next j q hq =>
        split
        · next hlt =>
          have hp : ({ s with queue := q, running := s.running ++ [j] } : St K V).pending = s.pending := by
            simp [St.pending, hq]
          refine ⟨by rw [hp]; exact h.final, h.cache, h.inCache, h.waiting, by rw [hp]; exact h.read, ?_⟩
          rw [hp]
          rcases h.order with ho | ho
          · left
            refine ⟨ho.1, ?_⟩
            show (s.running ++ [j]).length ≤ 1
            rw [List.length_append, List.length_singleton]; omega
          · exact Or.inr ho
        · exact h
  | finish i =>
    simp only [step]
    cases hj : s.running[i]? with
    | none => exact ⟨p, .finishIdle, h⟩
    | some j =>
      dsimp only
      obtain ⟨hi, hji⟩ := List.getElem?_eq_some_iff.1 hj
      have hsplit : s.running = s.running.take i ++ j :: s.running.drop (i + 1) := by
        rw [← hji]; simp
      have herase : s.running.eraseIdx i = s.running.take i ++ s.running.drop (i + 1) :=
        List.eraseIdx_eq_take_drop_succ ..
      let s1 : St K V := { s with running := s.running.eraseIdx i, storage := j.apply s.storage }
      have hp1 : s1.pending = s.running.take i ++ (s.running.drop (i + 1) ++ s.queue) := by
        simp [s1, St.pending, herase]
      have hp0 : s.pending = s.running.take i ++ j :: (s.running.drop (i + 1) ++ s.queue) := by
        unfold St.pending
        conv => lhs; rw [hsplit]
        simp
      have hpre : ∀ x ∈ s.running.take i, x.key ≠ j.key := by
        rcases h.order with ho | ho
        · have : i = 0 := by omega
          subst this; simp
        · intro x hx
          rw [hp0] at ho
          unfold OnePerKey at ho
          rw [List.pairwise_append] at ho
          exact ho.2.2 x hx j (by simp)
      have hfin : final s1.storage s1.pending = p.dict := by
        rw [hp1]
        show final (j.apply s.storage) _ = _
        rw [final_out_of_turn _ _ _ _ hpre, ← hp0]; exact h.final
      have hord : E.workers = 1 ∧ s1.running.length ≤ 1 ∨ OnePerKey s1.pending := by
        rcases h.order with ho | ho
        · left
          refine ⟨ho.1, ?_⟩
          show (s.running.eraseIdx i).length ≤ 1
          exact Nat.le_trans (List.length_eraseIdx_le ..) ho.2
        · right
          rw [hp1]
          rw [hp0] at ho
          unfold OnePerKey at ho ⊢
          exact ho.sublist (by simp)
      have hsub : ∀ k, Job.read k ∈ s1.pending → Job.read k ∈ s.pending := by
        intro k hk
        rw [hp1] at hk; rw [hp0]
        rcases List.mem_append.1 hk with hk | hk
        · exact List.mem_append_left _ hk
        · exact List.mem_append_right _ (List.mem_cons_of_mem _ hk)
      have hnr : (∀ k, j ≠ .read k) → Rep E s1 p := by
        intro hnr
        refine ⟨hfin, h.cache, h.inCache, h.waiting, ?_, hord⟩
        intro k hk
        obtain ⟨h1, js, h2, h3⟩ := h.read k (hsub k hk)
        refine ⟨h1, ?_⟩
        -- removing a job that is not the last keeps the read last
        rw [hp0] at h2
        have hne : s.running.drop (i + 1) ++ s.queue ≠ [] := by
          intro hnil
          rw [hnil] at h2
          have := congrArg List.getLast? h2
          simp at this
          exact hnr k this
        obtain ⟨rest, l, hrl⟩ : ∃ rest l, s.running.drop (i + 1) ++ s.queue = rest ++ [l] := by
          rcases List.eq_nil_or_concat (s.running.drop (i + 1) ++ s.queue) with hc | ⟨r, l, hc⟩
          · exact absurd hc hne
          · exact ⟨r, l, by rw [hc, List.concat_eq_append]⟩
        rw [hrl] at h2
        have h2' : (s.running.take i ++ j :: rest) ++ [l] = js ++ [Job.read k] := by simpa using h2
        obtain ⟨h4, h5⟩ := List.append_inj' h2' rfl
        simp at h5
        refine ⟨s.running.take i ++ rest, ?_, ?_⟩
        · rw [hp1, hrl, h5]; simp
        · intro k' hk'
          apply h3 k'
          rw [← h4]
          rcases List.mem_append.1 hk' with hk' | hk'
          · exact List.mem_append_left _ hk'
          · exact List.mem_append_right _ (List.mem_cons_of_mem _ hk')
      cases hjj : j with
      | write k v => exact ⟨p, .finishIdle, by have := hnr (by simp [hjj]); simpa [s1, hjj] using this⟩
      | delete k => exact ⟨p, .finishIdle, by have := hnr (by simp [hjj]); simpa [s1, hjj] using this⟩
      | read k =>
        have hmem : Job.read k ∈ s.pending := by rw [hp0, hjj]; simp
        obtain ⟨hw, js, hjs, hnojs⟩ := h.read k hmem
        -- the read is the last pending job and no other is about its key, or it is the first
        have hsuf : s.running.drop (i + 1) ++ s.queue = [] := by
          rcases List.eq_nil_or_concat (s.running.drop (i + 1) ++ s.queue) with hc | ⟨r, l, hc⟩
          · exact hc
          · exfalso
            rw [List.concat_eq_append] at hc
            rw [hp0, hc, hjj] at hjs
            have h2' : (s.running.take i ++ Job.read k :: r) ++ [l] = js ++ [Job.read k] := by simpa using hjs
            obtain ⟨h4, h5⟩ := List.append_inj' h2' rfl
            apply hnojs k
            rw [← h4]; simp
        have hstk : s1.storage k = p.dict k := by
          have hlast := congrFun hfin k
          rw [hp1, hsuf, List.append_nil] at hlast
          have hpre' : ∀ x ∈ s.running.take i, x.key ≠ k := by
            intro x hx
            have := hpre x hx
            rwa [hjj] at this
          rw [final_other _ _ _ hpre'] at hlast
          exact hlast
        have hnoread : ∀ k', Job.read k' ∉ s1.pending := by
          intro k' hk'
          have : js = s.running.take i := by
            rw [hp0, hsuf, hjj] at hjs
            exact (List.append_inj' hjs rfl).1.symm
          rw [hp1, hsuf, List.append_nil, ← this] at hk'
          exact hnojs k' hk'
        refine ⟨{ p with waiting := none }, ?_, ?_⟩
        · have : Spec E.canDelete p (.finish i) (p.answer k) { p with waiting := none } := .finishRead hw
          unfold Plain.answer at this
          rw [← hstk] at this
          simp only [s1, hjj] at this
          simp only [St.readDone]
          split
          · next hv => rw [hv] at this; exact this
          · next hv => rw [hv] at this; exact this
        · have hs1 : s1 = { s with running := s.running.eraseIdx i, storage := (Job.read k).apply s.storage } := by
            simp [s1, hjj]
          show Rep E (St.readDone E { s with running := s.running.eraseIdx i,
                                             storage := (Job.read k).apply s.storage } k).1 _
          rw [← hs1]
          simp only [St.readDone]
          split
          · next v hv =>
            refine ⟨hfin, ?_, ?_, rfl, fun k' hk' => absurd hk' (hnoread k'), hord⟩
            · intro x w hx
              simp only [Dict.get?_set] at hx
              split at hx
              · next hxk => subst hxk; rw [← hstk, hv]; exact hx
              · exact h.cache x w hx
            · intro x hx
              simp only [Dict.get?_set]
              by_cases hxk : k = x
              · subst hxk; simp [← hstk, hv]
              · have : ¬ x = k := fun hc => hxk hc.symm
                simp only [hxk, ↓reduceIte]
                rcases mem_setAdd.1 hx with h1 | h1
                · first | exact h.inCache x h1 | exact absurd h1 this
                · first | exact absurd h1 this | exact h.inCache x h1
          · next hv =>
            refine ⟨hfin, h.cache, ?_, rfl, fun k' hk' => absurd hk' (hnoread k'), hord⟩
            intro x hx
            have hcx : ∀ x ∈ s.inCache, Dict.get? s.cache x = p.dict x := h.inCache
            by_cases hxk : x = k
            · subst hxk
              cases hd : Dict.get? s.cache x with
              | none => rw [← hstk]; exact hv.symm
              | some w =>
                have := h.cache x w hd
                rw [← hstk, hv] at this; simp at this
            · apply hcx
              simp only at hx
              split at hx
              · rcases mem_setAdd.1 hx with h1 | h1
                · first | exact h1 | exact absurd h1 hxk
                · first | exact h1 | exact absurd h1 hxk
              · exact hx

/-- a new cache represents the storage -/
theorem rep_init (m : K → Option V) : Rep E (St.init m) { dict := m, waiting := none } :=
  ⟨rfl, by intro k v h; simp [St.init] at h, by intro k h; simp [St.init] at h, rfl,
    by intro k h; simp [St.init, St.pending] at h, Or.inr List.Pairwise.nil⟩

theorem history (m : K → Option V) (ops : List (Op K V)) (hg : AllSteps (Guard E) (step E) (St.init m) ops) :
    ∃ p, History (Spec E.canDelete) { dict := m, waiting := none } ops (runOps (step E) (St.init m) ops).2 p ∧
      Rep E (runOps (step E) (St.init m) ops).1 p ∧ Cap E (runOps (step E) (St.init m) ops).1 := by
  obtain ⟨p, h1, h2⟩ := history_of_sim' (spec := Spec E.canDelete) (fun s p => Rep E s p ∧ Cap E s) (Guard E)
    (fun s b o hg h => by
      obtain ⟨p', h3, h4⟩ := step_sim E o hg h.2 h.1
      exact ⟨p', h3, h4, cap_step E o h.2⟩)
    (St.init m) { dict := m, waiting := none } ops hg ⟨rep_init E m, by simp [Cap, St.init]⟩
  exact ⟨p, h1, h2⟩

theorem guard_one_worker (hw : E.workers = 1) (s : St K V) (ops : List (Op K V)) :
    AllSteps (Guard E) (step E) s ops := by
  induction ops generalizing s with
  | nil => trivial
  | cons o os ih =>
    refine ⟨?_, ih _⟩
    cases o <;> simp [Guard, hw]

/-- **C14**, executor with one worker.  For every storage `m` and every interleaving of client calls with
worker events, the results are those the plain dictionary that received the same writes gives; and whenever nothing is left to do
(which is when `sync()` returns) the storage is that dictionary.
Missing for the full statement: more workers (see `C14_more_workers_partial` and `C14_storage_stale_violates`). -/
theorem C14_plain_dictionary_partial (hw : E.workers = 1) (m : K → Option V) (ops : List (Op K V)) :
    ∃ p, History (Spec E.canDelete) { dict := m, waiting := none } ops (runOps (step E) (St.init m) ops).2 p ∧
      ((step E (runOps (step E) (St.init m) ops).1 .sync).2 = .unit →
        (runOps (step E) (St.init m) ops).1.storage = p.dict) := by
  obtain ⟨p, h1, h2, _⟩ := history E m ops (guard_one_worker E hw _ ops)
  refine ⟨p, h1, fun hs => ?_⟩
  have hf := h2.final
  simp only [step] at hs
  split at hs
  · simp at hs
  · simp only [St.client] at hs
    split at hs
    · next he =>
      simp only [Bool.and_eq_true, List.isEmpty_iff] at he
      rw [St.pending, he.1, he.2] at hf
      exact hf
    · simp at hs

/-- **C14**, any number of workers, under the guard that a call is made only when no job about its key is still
pending. -/
theorem C14_more_workers_partial (m : K → Option V) (ops : List (Op K V))
    (hg : AllSteps (Guard E) (step E) (St.init m) ops) :
    ∃ p, History (Spec E.canDelete) { dict := m, waiting := none } ops (runOps (step E) (St.init m) ops).2 p ∧
      ((step E (runOps (step E) (St.init m) ops).1 .sync).2 = .unit →
        (runOps (step E) (St.init m) ops).1.storage = p.dict) := by
  obtain ⟨p, h1, h2, _⟩ := history E m ops hg
  refine ⟨p, h1, fun hs => ?_⟩
  have hf := h2.final
  simp only [step] at hs
  split at hs
  · simp at hs
  · simp only [St.client] at hs
    split at hs
    · next he =>
      simp only [Bool.and_eq_true, List.isEmpty_iff] at he
      rw [St.pending, he.1, he.2] at hf
      exact hf
    · simp at hs

/-- while a lookup waits nobody else gets an answer: the number of pending jobs goes down with every finished one, so a
`start`/`finish` pair always makes progress. -/
theorem finish_progress (s : St K V) (h : s.running ≠ []) :
    (step E s (.finish 0)).1.pending.length + 1 = s.pending.length := by
  cases hr : s.running with
  | nil => exact absurd hr h
  | cons j js =>
    simp only [step, hr, List.getElem?_cons_zero]
    cases j with
    | read k =>
      simp only [St.readDone]
      split <;> simp [St.pending, hr] <;> omega
    | write k v => simp [St.pending, hr]
    | delete k => simp [St.pending, hr]

theorem start_moves (s : St K V) (hq : s.queue ≠ []) (hw : 0 < E.workers) (hr : s.running = []) :
    (step E s .start).1.running ≠ [] ∧ (step E s .start).1.pending.length = s.pending.length := by
  cases hqq : s.queue with
  | nil => exact absurd hqq hq
  | cons j q => simp [step, hqq, hr, hw, St.pending]

/-- **C14**: `sync()` can always be reached: from every state some worker moves empty the executor. -/
theorem C14_workers_can_drain (hw : 0 < E.workers) (s : St K V) :
    ∃ evs : List (Op K V), (∀ o ∈ evs, o = .start ∨ o = .finish 0) ∧
      (runOps (step E) s evs).1.pending = [] := by
  generalize hn : s.pending.length = n
  induction n generalizing s with
  | zero => exact ⟨[], by simp, List.length_eq_zero_iff.1 hn⟩
  | succ n ih =>
    by_cases hr : s.running = []
    · have hq : s.queue ≠ [] := by
        intro hc; simp [St.pending, hr, hc] at hn
      obtain ⟨h1, h2⟩ := start_moves E s hq hw hr
      have h3 := finish_progress E _ h1
      obtain ⟨evs, h4, h5⟩ := ih (step E (step E s .start).1 (.finish 0)).1 (by omega)
      refine ⟨.start :: .finish 0 :: evs, ?_, h5⟩
      intro o ho
      simp at ho
      rcases ho with ho | ho | ho
      · exact Or.inl ho
      · exact Or.inr ho
      · exact h4 o ho
    · have h3 := finish_progress E s hr
      obtain ⟨evs, h4, h5⟩ := ih (step E s (.finish 0)).1 (by omega)
      refine ⟨.finish 0 :: evs, ?_, h5⟩
      intro o ho
      simp at ho
      rcases ho with ho | ho
      · exact Or.inr ho
      · exact h4 o ho

end

/-- the executor the class makes by default, /repo/satella/coding/structures/dictionaries/writeback_cache.py:40 -/
def defaultEnv : Env := { workers := 4, canDelete := true, storeKeyErrors := true }

/-- **C14 is false with two or more workers**: assign a key twice; two workers take the two writes and the second finishes first.
`sync()` returns and the storage holds the older value, while the cache answers with the newer. -/
theorem C14_storage_stale_violates {K V : Type} [DecidableEq K] (E : Env) (hw : 2 ≤ E.workers) (m : K → Option V)
    (k : K) (a b : V) (hab : a ≠ b) :
    let s := (runOps (step E) (St.init m)
      [.set k a, .set k b, .start, .start, .finish 1, .finish 0]).1
    (step E s .sync).2 = .unit ∧ s.storage k = some a ∧ (step E s (.get k)).2 = .val b ∧ a ≠ b := by
  have h1 : 0 < E.workers := by omega
  have h2 : 1 < E.workers := by omega
  simp [runOps, step, St.client, St.submit, St.operate, St.init, h1, h2, Job.apply, hab, setAdd, Dict.set, Dict.get?]

/-- and the default executor has four workers -/
example : 2 ≤ defaultEnv.workers := by decide

/-- **A deleted key comes back**, default executor: assign 7, delete it, and let the deletion overtake the write.  The cache
answers KeyError until its periodic clean-up (at the 101st operation) forgets the key; then the lookup reads the storage and finds the
deleted value again. -/
theorem C14_deleted_key_returns_violates :
    let h : List (Op Nat Nat) := [.set 7 1, .del 7, .start, .start, .finish 1, .finish 0] ++
      List.replicate 99 (.get 7) ++ [.start, .finish 0]
    (runOps (step defaultEnv) (St.init (fun _ => none)) h).2.take 7 =
        [.unit, .unit, .idle, .idle, .idle, .idle, .exc .keyError] ∧
      (runOps (step defaultEnv) (St.init (fun _ => none)) h).2.getLast? = some (.val 1) := by
  decide +kernel

/-- the hypotheses are met: one worker, a read that waits behind a write, a deletion and a sync -/
example := C14_plain_dictionary_partial (K := Nat) (V := Nat)
  { workers := 1, canDelete := true, storeKeyErrors := true } rfl (fun _ => none)
  [.set 1 10, .get 2, .start, .finish 0, .start, .finish 0, .del 1, .get 1, .start, .finish 0, .sync]

/-- and that history gives these results -/
example : (runOps (step { workers := 1, canDelete := true, storeKeyErrors := true })
    (St.init (K := Nat) (V := Nat) (fun x => if x = 2 then some 20 else none))
    [.set 1 10, .get 2, .start, .finish 0, .start, .finish 0, .del 1, .get 1, .start, .finish 0, .sync]).2 =
    [.unit, .pending, .idle, .idle, .idle, .val 20, .unit, .exc .keyError, .idle, .idle, .unit] := by
  decide

/-- four workers, different keys -/
example : AllSteps (Guard defaultEnv) (step defaultEnv) (St.init (K := Nat) (V := Nat) (fun _ => none))
    [.set 1 10, .set 2 20, .start, .start, .finish 1, .set 2 21, .get 1, .finish 0, .get 5] := by
  simp [AllSteps, Guard, St.pending, step, St.client, St.submit, St.operate, St.init, Job.key, defaultEnv, setAdd]

end Verif.Writeback
