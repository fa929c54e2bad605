import Verif.Group.Spec
/-! # C19 CallableGroup, C48 CallNoOftenThan -/
namespace Verif.Group
open Verif

section
variable {F A R : Type _}

/-- the callbacks registered and not cancelled -/
def St.liveReg (s : St F A) : List (Nat × Bool) := s.reg.filter (fun x => x.1 ∉ s.cancelled)

structure Rep (s : St F A) (b : Abs F A) : Prop where
  objs : b.objs = s.objs
  trace : b.trace = s.trace
  cancelled : ∀ c, b.cancelled c ↔ c ∈ s.cancelled
  live : b.live.map (fun x => (x.1, x.2.2)) = s.liveReg
  fns : ∀ x ∈ b.live, s.objs[x.1]? = some x.2.1
  nodup : (s.reg.map (·.1)).Nodup
  regObjs : ∀ x ∈ s.reg, x.1 < s.objs.length
  canObjs : ∀ c ∈ s.cancelled, c < s.objs.length

theorem Rep.live_ids {s : St F A} {b : Abs F A} (h : Rep s b) : b.live.map (·.1) = s.liveReg.map (·.1) := by
  rw [← h.live, List.map_map]; rfl

theorem Rep.mem_live {s : St F A} {b : Abs F A} (h : Rep s b) (c : Nat) :
    c ∈ b.live.map (·.1) ↔ c ∈ s.reg.map (·.1) ∧ c ∉ s.cancelled := by
  rw [h.live_ids, St.liveReg]
  simp only [List.mem_map, List.mem_filter, decide_eq_true_eq]
  constructor
  · rintro ⟨x, ⟨h1, h2⟩, rfl⟩; exact ⟨⟨x, h1, rfl⟩, h2⟩
  · rintro ⟨⟨x, h1, rfl⟩, h2⟩; exact ⟨x, ⟨h1, h2⟩, rfl⟩

/-- functions that only return or raise -/
def Env.Pure (E : Env F A R) : Prop := ∀ t f a, (E t f a).acts = []

/-- exceptions are swallowed, or there are none -/
def NoEscape (E : Env F A R) (swallow : Bool) : Prop :=
  swallow = true ∨ ∀ t f a, ∃ r, (E t f a).ret = .ok r

/-- what the loop does when nothing escapes it -/
theorem loop_eq (E : Env F A R) (hE : E.Pure) (sw : Bool) (hs : NoEscape E sw) (a : A) :
    ∀ (cs : List (Nat × Bool)) (s : St F A) (L : List (Nat × F × Bool)),
      (cs.map (·.1)).Nodup → (∀ x ∈ cs, x.1 ∉ s.reg.map (·.1)) →
      (∀ x ∈ cs, x.1 < s.objs.length) →
      L.map (fun x => (x.1, x.2.2)) = cs.filter (fun x => x.1 ∉ s.cancelled) →
      (∀ x ∈ L, s.objs[x.1]? = some x.2.1) →
      (loop E sw a s cs).1 = { s with reg := s.reg ++ cs.filter (fun x => !x.2)
                                      trace := s.trace ++ L.map (fun x => (x.2.1, a)) } ∧
      (loop E sw a s cs).2.1 = L.map (·.1) ∧
      (loop E sw a s cs).2.2.2 = none ∧
      ((∀ x ∈ cs, x.1 ∉ s.cancelled) → (loop E sw a s cs).2.2.1 = outcomes E a s.trace (L.map (·.2.1))) := by
  intro cs
  induction cs with
  | nil =>
    intro s L _ _ _ hL _
    have : L = [] := by simpa using hL
    subst this
    simp [loop, outcomes]
  | cons x cs ih =>
    obtain ⟨c, o⟩ := x
    intro s L hnd hdis hob hL hfn
    rw [List.map_cons, List.nodup_cons] at hnd
    have hnot : c ∉ s.reg.map (·.1) := hdis (c, o) (by simp)
    -- registering again after the call
    have hadd : ∀ t : List (F × A), (if o then ({ s with trace := t } : St F A) else St.addObj { s with trace := t } c o)
        = { s with trace := t, reg := s.reg ++ ([(c, o)].filter (fun x => !x.2)) } := by
      intro t
      cases o with
      | true => simp
      | false => simp [St.addObj, hnot]
    have hdis' : ∀ x ∈ cs, x.1 ∉ (s.reg ++ ([(c, o)].filter (fun x => !x.2))).map (·.1) := by
      intro x hx hm
      rw [List.map_append, List.mem_append] at hm
      rcases hm with hm | hm
      · exact hdis x (by simp [hx]) hm
      · have : x.1 = c := by
          cases o <;> simp at hm
          exact hm
        exact hnd.1 (List.mem_map.2 ⟨x, hx, this⟩)
    by_cases hc : c ∈ s.cancelled
    · rw [List.filter_cons_of_neg (by simpa using hc)] at hL
      have hi : s.invoke E c a = (s, [], .ok .none) := by simp [St.invoke, hc]
      have hih := ih { s with reg := s.reg ++ ([(c, o)].filter (fun x => !x.2)) } L hnd.2 hdis'
        (fun x hx => hob x (by simp [hx])) hL hfn
      have ha : (if o then s else s.addObj c o) = { s with reg := s.reg ++ ([(c, o)].filter (fun x => !x.2)) } := hadd s.trace
      rw [loop, hi]
      dsimp only
      rw [ha]
      refine ⟨?_, ?_, hih.2.2.1, ?_⟩
      · rw [hih.1]
        simp only [St.mk.injEq, and_true]
        rw [List.append_assoc, ← List.filter_append]; rfl
      · rw [hih.2.1]; rfl
      · intro hall; exact absurd hc (hall (c, o) (by simp))
    · rw [List.filter_cons_of_pos (by simpa using hc)] at hL
      cases L with
      | nil => simp at hL
      | cons y L =>
        obtain ⟨y1, f, y2⟩ := y
        rw [List.map_cons, List.cons.injEq, Prod.mk.injEq] at hL
        obtain ⟨⟨h1, h2⟩, hL⟩ := hL
        dsimp only at h1 h2
        subst h1 h2
        have hob1 : s.objs[y1]? = some f := hfn (y1, f, y2) List.mem_cons_self
        have hi : s.invoke E y1 a = ({ s with trace := s.trace ++ [(f, a)] }, [y1],
            match (E s.trace f a).ret with | .ok r => .ok (.val r) | .error e => .error e) := by
          simp only [St.invoke, if_neg hc, hob1, hE s.trace f a, List.foldl_nil]
          rfl
        have hih := ih { s with trace := s.trace ++ [(f, a)], reg := s.reg ++ ([(y1, y2)].filter (fun x => !x.2)) } L
          hnd.2 hdis' (fun x hx => hob x (by simp [hx])) hL (fun x hx => hfn x (by simp [hx]))
        have ha := hadd (s.trace ++ [(f, a)])
        have key : ∀ q : Val R, (match (E s.trace f a).ret with | .ok r => Val.val r | .error e => Val.exc e) = q →
            loop E sw a s ((y1, y2) :: cs) =
            (let r := loop E sw a { s with trace := s.trace ++ [(f, a)], reg := s.reg ++ ([(y1, y2)].filter (fun x => !x.2)) } cs
             (r.1, [y1] ++ r.2.1, q :: r.2.2.1, r.2.2.2)) := by
          intro q hq
          rw [loop, hi]
          cases hr : (E s.trace f a).ret with
          | ok r =>
            rw [hr] at hq
            dsimp only at hq ⊢
            rw [ha, hq]
          | error e =>
            rw [hr] at hq
            dsimp only at hq ⊢
            rcases hs with hs | hs
            · rw [if_pos hs, ha, hq]
            · obtain ⟨r, h⟩ := hs s.trace f a
              rw [h] at hr; cases hr
        rw [key _ rfl]
        dsimp only
        refine ⟨?_, ?_, hih.2.2.1, ?_⟩
        · rw [hih.1]
          simp only [St.mk.injEq, true_and]
          constructor
          · rw [List.append_assoc, ← List.filter_append]; rfl
          · rw [List.append_assoc]; rfl
        · rw [hih.2.1]; rfl
        · intro hall
          rw [hih.2.2.2 (fun x hx => hall x (by simp [hx]))]
          rfl

/-- the restriction: callback objects exist; where the results are gathered, not all of the registered callbacks are cancelled -/
def Guard (C : Cfg) (s : St F A) : Op F A → Prop
  | .add _ _ => True
  | .addAgain c _ => c < s.objs.length
  | .cancel c => c < s.objs.length
  | .call _ => C.gather = true → s.reg = [] ∨ ∃ x ∈ s.reg, x.1 ∉ s.cancelled

theorem step_sim (E : Env F A R) (hE : E.Pure) (C : Cfg) (hs : NoEscape E C.swallow) (s : St F A) (b : Abs F A)
    (o : Op F A) (hg : Guard C s o) (h : Rep s b) :
    ∃ b', Spec E C b o (step E C s o).2 b' ∧ Rep (step E C s o).1 b' := by
  cases o with
  | add f o =>
    have hnew : s.objs.length ∉ s.reg.map (·.1) := by
      intro hm
      obtain ⟨x, hx, h2⟩ := List.mem_map.1 hm
      have := h.regObjs x hx
      omega
    have hncan : s.objs.length ∉ s.cancelled := fun hm => Nat.lt_irrefl _ (h.canObjs _ hm)
    refine ⟨{ b with live := b.live ++ [(b.objs.length, f, o)], objs := b.objs ++ [f] }, ?_, ?_⟩
    · simp only [step]; rw [← h.objs]; exact .add
    · simp only [step, St.add, St.addObj, if_neg hnew]
      refine ⟨by simp [h.objs], h.trace, h.cancelled, ?_, ?_, ?_, ?_, ?_⟩
      · dsimp only
        rw [List.map_append, h.live, St.liveReg, St.liveReg, List.filter_append, h.objs]
        simp [hncan]
      · intro x hx
        rcases List.mem_append.1 hx with hx | hx
        · have := h.fns x hx
          dsimp only
          rw [List.getElem?_append_left]
          · exact this
          · exact (List.getElem?_eq_some_iff.1 this).1
        · rw [List.mem_singleton] at hx
          subst hx
          dsimp only
          rw [h.objs]; simp
      · dsimp only
        rw [List.map_append, List.nodup_append]
        refine ⟨h.nodup, by simp, ?_⟩
        intro x hx y hy
        simp at hy
        subst hy
        rintro rfl
        exact hnew hx
      · intro x hx
        dsimp only
        rw [List.length_append]
        rcases List.mem_append.1 hx with hx | hx
        · have := h.regObjs x hx; simp; omega
        · rw [List.mem_singleton] at hx; subst hx; simp
      · intro c hc
        have := h.canObjs c hc
        simp; omega
  | addAgain c o =>
    by_cases hm : c ∈ s.reg.map (·.1)
    · refine ⟨b, ?_, ?_⟩
      · simp only [step]
        refine .addAgainNothing ?_
        by_cases hc : c ∈ s.cancelled
        · exact Or.inl ((h.cancelled c).2 hc)
        · exact Or.inr ((h.mem_live c).2 ⟨hm, hc⟩)
      · simp only [step, St.addObj, if_pos hm]; exact h
    · have hnd : ((s.reg ++ [(c, o)]).map (·.1)).Nodup := by
        rw [List.map_append, List.nodup_append]
        refine ⟨h.nodup, by simp, ?_⟩
        intro x hx y hy
        simp at hy
        subst hy
        rintro rfl
        exact hm hx
      have hro : ∀ x ∈ s.reg ++ [(c, o)], x.1 < s.objs.length := by
        intro x hx
        rcases List.mem_append.1 hx with hx | hx
        · exact h.regObjs x hx
        · rw [List.mem_singleton] at hx; subst hx; exact hg
      by_cases hc : c ∈ s.cancelled
      · refine ⟨b, ?_, ?_⟩
        · exact .addAgainNothing (Or.inl ((h.cancelled c).2 hc))
        · simp only [step, St.addObj, if_neg hm]
          refine ⟨h.objs, h.trace, h.cancelled, ?_, h.fns, hnd, hro, h.canObjs⟩
          rw [h.live, St.liveReg, St.liveReg, List.filter_append]
          simp [hc]
      · obtain ⟨f, hf⟩ : ∃ f, s.objs[c]? = some f := ⟨_, List.getElem?_eq_getElem hg⟩
        refine ⟨{ b with live := b.live ++ [(c, f, o)] }, ?_, ?_⟩
        · refine .addAgain (fun hh => hc ((h.cancelled c).1 hh)) (fun hh => hm ((h.mem_live c).1 hh).1) ?_
          rw [h.objs]; exact hf
        · simp only [step, St.addObj, if_neg hm]
          refine ⟨h.objs, h.trace, h.cancelled, ?_, ?_, hnd, hro, h.canObjs⟩
          · dsimp only
            rw [List.map_append, h.live, St.liveReg, St.liveReg, List.filter_append]
            simp [hc]
          · intro x hx
            rcases List.mem_append.1 hx with hx | hx
            · exact h.fns x hx
            · rw [List.mem_singleton] at hx; subst hx; exact hf
  | cancel c =>
    refine ⟨_, .cancel, ?_⟩
    simp only [step, St.cancel]
    refine ⟨h.objs, h.trace, ?_, ?_, ?_, h.nodup, h.regObjs, ?_⟩
    · intro d; dsimp only; rw [mem_setAdd, h.cancelled]
    · dsimp only [St.liveReg]
      have : (b.live.filter (fun x => x.1 ≠ c)).map (fun x => (x.1, x.2.2)) =
          (b.live.map (fun x => (x.1, x.2.2))).filter (fun x => x.1 ≠ c) := by
        rw [List.filter_map]; rfl
      rw [this, h.live, St.liveReg, List.filter_filter]
      apply List.filter_congr
      intro x _
      rw [← Bool.decide_and, decide_eq_decide, mem_setAdd]
      constructor
      · rintro ⟨h1, h2⟩ (h3 | h3)
        · exact h1 h3
        · exact h2 h3
      · intro h1; exact ⟨fun h2 => h1 (Or.inl h2), fun h2 => h1 (Or.inr h2)⟩
    · intro x hx
      exact h.fns x (List.mem_filter.1 hx).1
    · intro d hd
      rcases mem_setAdd.1 hd with rfl | hd
      · exact hg
      · exact h.canObjs d hd
  | call a =>
    refine ⟨{ b with live := b.live.filter (fun x => !x.2.2)
                     trace := b.trace ++ b.live.map (fun x => (x.2.1, a)) }, ?_⟩
    have hreg : s.clean.reg = s.liveReg ∨ (s.clean.reg = s.reg ∧ s.liveReg = []) := by
      unfold St.clean
      by_cases hh : s.hasCancelled = true
      · rw [if_pos hh]; exact Or.inl rfl
      · rw [if_neg hh]
        refine Or.inr ⟨rfl, ?_⟩
        rw [St.liveReg, List.filter_eq_nil_iff]
        intro x hx hx2
        apply hh
        rw [St.hasCancelled, List.any_eq_true]
        exact ⟨x, hx, hx2⟩
    have hother : s.clean.objs = s.objs ∧ s.clean.cancelled = s.cancelled ∧ s.clean.trace = s.trace := by
      unfold St.clean; split <;> exact ⟨rfl, rfl, rfl⟩
    have hsub : s.clean.reg.Sublist s.reg := by
      rcases hreg with hreg | hreg
      · rw [hreg]; exact List.filter_sublist
      · rw [hreg.1]; exact List.Sublist.refl _
    have hfil : s.clean.reg.filter (fun x => x.1 ∉ s.cancelled) = s.liveReg := by
      rcases hreg with hreg | hreg
      · rw [hreg, St.liveReg, List.filter_filter]; simp
      · rw [hreg.1]; rfl
    have hnd : (s.clean.reg.map (·.1)).Nodup := h.nodup.sublist (hsub.map _)
    have key := loop_eq E hE C.swallow hs a s.clean.reg { s.clean with reg := [] } b.live hnd (by simp)
      (by intro x hx; dsimp only; rw [hother.1]; exact h.regObjs x (hsub.subset hx))
      (by dsimp only; rw [hother.2.1, hfil]; exact h.live)
      (by dsimp only; rw [hother.1]; exact h.fns)
    obtain ⟨k1, k2, k3, k4⟩ := key
    constructor
    · simp only [step, St.call]
      rw [k2, k3]
      dsimp only
      by_cases hga : C.gather = true
      · rw [if_pos hga, k4, hother.2.2, ← h.trace]
        · have := Spec.call (E := E) (C := C) (b := b) (a := a)
          rwa [if_pos hga] at this
        · intro x hx
          dsimp only
          rw [hother.2.1]
          have : s.clean.reg = s.liveReg := by
            rcases hreg with hreg | hreg
            · exact hreg
            · rcases hg hga with hg | ⟨y, hy, hy2⟩
              · rw [hreg.1, hreg.2, hg]
              · have : y ∈ s.liveReg := List.mem_filter.2 ⟨hy, by simpa using hy2⟩
                rw [hreg.2] at this
                cases this
          rw [this] at hx
          simpa using (List.mem_filter.1 hx).2
      · rw [if_neg hga]
        have := Spec.call (E := E) (C := C) (b := b) (a := a)
        rwa [if_neg hga] at this
    · simp only [step, St.call]
      rw [k1]
      dsimp only
      refine ⟨by dsimp only; rw [hother.1]; exact h.objs, by dsimp only; rw [hother.2.2, h.trace],
        by dsimp only; rw [hother.2.1]; exact h.cancelled, ?_, ?_, ?_, ?_, ?_⟩
      · dsimp only [St.liveReg]
        rw [hother.2.1, List.nil_append, List.filter_filter]
        have : (b.live.filter (fun x => !x.2.2)).map (fun x => (x.1, x.2.2)) =
            (b.live.map (fun x => (x.1, x.2.2))).filter (fun x => !x.2) := by
          rw [List.filter_map]; rfl
        rw [this, h.live, ← hfil, List.filter_filter]
        apply List.filter_congr
        intro x _
        exact Bool.and_comm _ _
      · intro x hx
        dsimp only
        rw [hother.1]
        exact h.fns x (List.mem_filter.1 hx).1
      · exact hnd.sublist (List.Sublist.map _ (by rw [List.nil_append]; exact List.filter_sublist))
      · intro x hx
        dsimp only at hx ⊢
        rw [List.nil_append] at hx
        rw [hother.1]
        exact h.regObjs x (hsub.subset (List.mem_filter.1 hx).1)
      · dsimp only
        rw [hother.1, hother.2.1]
        exact h.canObjs

theorem rep_init : Rep (St.init : St F A) { live := [], cancelled := fun _ => False, objs := [], trace := [] } := by
  refine ⟨rfl, rfl, ?_, rfl, ?_, List.nodup_nil, ?_, ?_⟩ <;> simp [St.init]

/-- **C19.** For every history of adding and cancelling callbacks and calling the group, where the functions do not touch the group and
exceptions are swallowed (or there are none): calling the group calls the function of each registered, uncancelled callback
once, in registration order, with the arguments, the results are in that order, one-shot callbacks are forgotten and the others
stay in order.  Missing: calls with gathered results while all registered callbacks are cancelled, and exceptions that escape (both
below), functions that change the group (next theorem). -/
theorem C19_group_partial (E : Env F A R) (hE : E.Pure) (C : Cfg) (hs : NoEscape E C.swallow) (ops : List (Op F A))
    (hg : AllSteps (Guard C) (step E C) St.init ops) :
    ∃ b', History (Spec E C) { live := [], cancelled := fun _ => False, objs := [], trace := [] } ops
      (runOps (step E C) St.init ops).2 b' := by
  obtain ⟨b', h, _⟩ := history_of_sim' Rep (Guard C) (fun s b o hg h => step_sim E hE C hs s b o hg h) St.init _ ops hg rep_init
  exact ⟨b', h⟩

theorem filter_mono {α : Type _} {p q : α → Bool} (h : ∀ x, p x = true → q x = true) (l : List α) :
    (l.filter p).Sublist (l.filter q) := by
  have : l.filter p = (l.filter q).filter p := by
    rw [List.filter_filter]
    apply List.filter_congr
    intro x _
    cases hp : p x with
    | true => simp [h x hp]
    | false => simp
  rw [this]
  exact List.filter_sublist

/-! ### functions that change the group -/

/-- what the actions of the functions can do: cancel more, register more, make more callbacks -/
structure Grow (s s' : St F A) : Prop where
  cancelled : ∀ c ∈ s.cancelled, c ∈ s'.cancelled
  reg : ∀ c ∈ s.reg.map (·.1), c ∈ s'.reg.map (·.1)
  objs : ∃ l, s'.objs = s.objs ++ l

theorem Grow.refl (s : St F A) : Grow s s := ⟨fun _ h => h, fun _ h => h, [], by simp⟩

theorem Grow.trans {s t u : St F A} (h : Grow s t) (h' : Grow t u) : Grow s u := by
  refine ⟨fun c hc => h'.cancelled c (h.cancelled c hc), fun c hc => h'.reg c (h.reg c hc), ?_⟩
  obtain ⟨l, hl⟩ := h.objs
  obtain ⟨m, hm⟩ := h'.objs
  exact ⟨l ++ m, by rw [hm, hl, List.append_assoc]⟩

theorem Grow.getElem {s s' : St F A} (h : Grow s s') {c : Nat} {f : F} (hf : s.objs[c]? = some f) :
    s'.objs[c]? = some f := by
  obtain ⟨l, hl⟩ := h.objs
  rw [hl, List.getElem?_append_left (List.getElem?_eq_some_iff.1 hf).1]
  exact hf

theorem addObj_grow (s : St F A) (c : Nat) (o : Bool) : Grow s (s.addObj c o) ∧ (s.addObj c o).trace = s.trace ∧
    c ∈ (s.addObj c o).reg.map (·.1) := by
  unfold St.addObj
  split
  · rename_i h; exact ⟨.refl s, rfl, h⟩
  · exact ⟨⟨fun _ h => h, fun c hc => by dsimp only; rw [List.map_append]; exact List.mem_append_left _ hc, [], by simp⟩, rfl,
      by simp⟩

theorem act_grow (s : St F A) (x : Act F) : Grow s (s.act x) ∧ (s.act x).trace = s.trace := by
  cases x with
  | add f o =>
    obtain ⟨h1, h2, _⟩ := addObj_grow { s with objs := s.objs ++ [f] } s.objs.length o
    exact ⟨Grow.trans (t := { s with objs := s.objs ++ [f] }) ⟨fun _ h => h, fun _ h => h, [f], rfl⟩ h1, h2⟩
  | addAgain c o => exact ⟨(addObj_grow s c o).1, (addObj_grow s c o).2.1⟩
  | cancel c => exact ⟨⟨fun d hd => mem_setAdd.2 (Or.inr hd), fun _ h => h, [], by simp [St.act, St.cancel]⟩, rfl⟩

theorem acts_grow (l : List (Act F)) : ∀ s : St F A, Grow s (l.foldl St.act s) ∧ (l.foldl St.act s).trace = s.trace := by
  induction l with
  | nil => intro s; exact ⟨.refl s, rfl⟩
  | cons x l ih =>
    intro s
    obtain ⟨h1, h2⟩ := act_grow s x
    obtain ⟨h3, h4⟩ := ih (s.act x)
    exact ⟨h1.trans h3, h4.trans h2⟩

/-- what calling one callback object does -/
theorem invoke_cases (E : Env F A R) (s : St F A) (c : Nat) (a : A) :
    Grow s (s.invoke E c a).1 ∧
    (((s.invoke E c a).2.1 = [] ∧ (s.invoke E c a).1 = s ∧ (c ∈ s.cancelled ∨ s.objs[c]? = none)) ∨
     ∃ f, (s.invoke E c a).2.1 = [c] ∧ c ∉ s.cancelled ∧ s.objs[c]? = some f ∧
      (s.invoke E c a).1.trace = s.trace ++ [(f, a)]) := by
  unfold St.invoke
  by_cases hc : c ∈ s.cancelled
  · rw [if_pos hc]; exact ⟨.refl s, Or.inl ⟨rfl, rfl, Or.inl hc⟩⟩
  · rw [if_neg hc]
    cases hf : s.objs[c]? with
    | none => exact ⟨.refl s, Or.inl ⟨rfl, rfl, Or.inr rfl⟩⟩
    | some f =>
      dsimp only
      obtain ⟨h1, h2⟩ := acts_grow (E s.trace f a).acts { s with trace := s.trace ++ [(f, a)] }
      refine ⟨Grow.trans (t := { s with trace := s.trace ++ [(f, a)] }) ⟨fun _ h => h, fun _ h => h, [], by simp⟩ h1,
        Or.inr ⟨f, rfl, hc, rfl, h2⟩⟩

theorem loop_re (E : Env F A R) (sw : Bool) (a : A) : ∀ (cs : List (Nat × Bool)) (s : St F A),
    (loop E sw a s cs).2.2.2 = none →
    Grow s (loop E sw a s cs).1 ∧
    (loop E sw a s cs).2.1.Sublist ((cs.filter (fun x => x.1 ∉ s.cancelled)).map (·.1)) ∧
    (∀ x ∈ cs, x.1 ∉ (loop E sw a s cs).1.cancelled → x.1 < s.objs.length → x.1 ∈ (loop E sw a s cs).2.1) ∧
    (∀ x ∈ cs, x.2 = false → x.1 ∈ (loop E sw a s cs).1.reg.map (·.1)) ∧
    (∃ fs : List F, (loop E sw a s cs).2.1.map (fun c => (loop E sw a s cs).1.objs[c]?) = fs.map some ∧
      (loop E sw a s cs).1.trace = s.trace ++ fs.map (fun f => (f, a))) ∧
    (loop E sw a s cs).2.2.1.length = cs.length := by
  intro cs
  induction cs with
  | nil => intro s _; exact ⟨.refl s, by simp [loop], by simp, by simp, ⟨[], by simp [loop], by simp [loop]⟩, rfl⟩
  | cons x cs ih =>
    obtain ⟨c, o⟩ := x
    intro s hn
    obtain ⟨hg1, hcase⟩ := invoke_cases E s c a
    -- whatever is returned, the loop goes on
    have hgo : ∃ q, loop E sw a s ((c, o) :: cs) =
        (let s2 := if o then (s.invoke E c a).1 else (s.invoke E c a).1.addObj c o
         let r := loop E sw a s2 cs
         (r.1, (s.invoke E c a).2.1 ++ r.2.1, q :: r.2.2.1, r.2.2.2)) := by
      revert hn
      rw [loop]
      generalize s.invoke E c a = i
      obtain ⟨s1, called, q⟩ := i
      cases q with
      | ok q => intro _; exact ⟨q, rfl⟩
      | error e =>
        dsimp only
        by_cases hsw : sw = true
        · rw [if_pos hsw]; intro _; exact ⟨_, rfl⟩
        · rw [if_neg hsw]; intro h; cases h
    obtain ⟨q, hgo⟩ := hgo
    rw [hgo] at hn ⊢
    dsimp only at hn ⊢
    have hg2 : Grow (s.invoke E c a).1 (if o then (s.invoke E c a).1 else (s.invoke E c a).1.addObj c o) := by
      split
      · exact .refl _
      · exact (addObj_grow _ _ _).1
    have ht2 : (if o then (s.invoke E c a).1 else (s.invoke E c a).1.addObj c o).trace = (s.invoke E c a).1.trace := by
      split
      · rfl
      · exact (addObj_grow _ _ _).2.1
    have hr2 : o = false → c ∈ (if o then (s.invoke E c a).1 else (s.invoke E c a).1.addObj c o).reg.map (·.1) := by
      rintro rfl
      exact (addObj_grow _ _ _).2.2
    generalize (if o then (s.invoke E c a).1 else (s.invoke E c a).1.addObj c o) = s2 at *
    have hg := hg1.trans hg2
    obtain ⟨i1, i2, i3, i4, ⟨fs, i5, i6⟩, i7⟩ := ih s2 hn
    have hsub : (loop E sw a s2 cs).2.1.Sublist ((cs.filter (fun x => x.1 ∉ s.cancelled)).map (·.1)) := by
      refine i2.trans (List.Sublist.map _ ?_)
      refine filter_mono (fun x hx => ?_) cs
      simp only [decide_eq_true_eq] at hx ⊢
      exact fun h => hx (hg.cancelled _ h)
    refine ⟨hg.trans i1, ?_, ?_, ?_, ?_, by simp [i7]⟩
    · rcases hcase with ⟨h1, _, _⟩ | ⟨f, h1, h2, _⟩
      · rw [h1, List.nil_append]
        refine hsub.trans (List.Sublist.map _ ?_)
        exact List.Sublist.filter _ (List.sublist_cons_self _ _)
      · rw [h1, List.filter_cons_of_pos (by simpa using h2)]
        exact List.Sublist.cons_cons _ hsub
    · intro x hx hnc hlt
      obtain ⟨l, hl⟩ := hg.objs
      rcases List.mem_cons.1 hx with rfl | hx
      · rcases hcase with ⟨h1, _, h3⟩ | ⟨f, h1, _⟩
        · rcases h3 with h3 | h3
          · exact absurd (i1.cancelled _ (hg.cancelled _ h3)) hnc
          · dsimp only at hlt
            rw [List.getElem?_eq_none_iff] at h3; omega
        · rw [h1]; exact List.mem_append_left _ (by simp)
      · exact List.mem_append_right _ (i3 x hx hnc (by rw [hl, List.length_append]; omega))
    · intro x hx ho
      rcases List.mem_cons.1 hx with rfl | hx
      · exact i1.reg _ (hr2 ho)
      · exact i4 x hx ho
    · rcases hcase with ⟨h1, h2, _⟩ | ⟨f, h1, _, h3, h4⟩
      · exact ⟨fs, by rw [h1]; exact i5, by rw [i6, ht2, h2]⟩
      · refine ⟨f :: fs, ?_, ?_⟩
        · rw [h1, List.cons_append, List.nil_append, List.map_cons, i5, (hg.trans i1).getElem h3]; rfl
        · rw [i6, ht2, h4, List.append_assoc]; rfl

/-- **C19.** Functions that register and cancel callbacks while they run: if nothing escapes the call, the callbacks called are among
those registered and not cancelled when it started, in registration order (so those registered meanwhile are not called, and
none is called twice); each of those that is not cancelled meanwhile is called; the functions are called with the arguments; and every
callback that is not one-shot is registered afterwards. -/
theorem C19_reentrant (E : Env F A R) (C : Cfg) (s : St F A) (a : A)
    (hob : ∀ x ∈ s.reg, x.1 < s.objs.length)
    (hn : ∀ e, (s.call E C a).2.2 ≠ .raised e) :
    ((s.call E C a).2.1.Sublist ((s.reg.filter (fun x => x.1 ∉ s.cancelled)).map (·.1))) ∧
    (∀ x ∈ s.reg, x.1 ∉ (s.call E C a).1.cancelled → x.1 ∈ (s.call E C a).2.1) ∧
    (∀ x ∈ s.reg, x.1 ∉ (s.call E C a).1.cancelled → x.2 = false → x.1 ∈ (s.call E C a).1.reg.map (·.1)) ∧
    (∃ fs : List F, (s.call E C a).2.1.map (fun c => (s.call E C a).1.objs[c]?) = fs.map some ∧
      (s.call E C a).1.trace = s.trace ++ fs.map (fun f => (f, a))) := by
  have hn' : (loop E C.swallow a { s.clean with reg := [] } s.clean.reg).2.2.2 = none := by
    cases hh : (loop E C.swallow a { s.clean with reg := [] } s.clean.reg).2.2.2 with
    | none => rfl
    | some e => exact absurd (by simp only [St.call, hh]) (hn e)
  obtain ⟨h1, h2, h3, h4, h5, _⟩ := loop_re E C.swallow a _ _ hn'
  have hc : (s.clean.objs = s.objs ∧ s.clean.cancelled = s.cancelled ∧ s.clean.trace = s.trace) ∧
      (s.clean.reg.Sublist s.reg) ∧ (∀ x ∈ s.reg, x.1 ∉ s.cancelled → x ∈ s.clean.reg) := by
    unfold St.clean
    split
    · exact ⟨⟨rfl, rfl, rfl⟩, List.filter_sublist, fun x hx hc => List.mem_filter.2 ⟨hx, by simpa using hc⟩⟩
    · exact ⟨⟨rfl, rfl, rfl⟩, List.Sublist.refl _, fun x hx _ => hx⟩
  obtain ⟨⟨c1, c2, c3⟩, c4, c5⟩ := hc
  dsimp only at h2
  have hcan : ∀ c, c ∈ s.cancelled → c ∈ (s.call E C a).1.cancelled := by
    intro c hc
    exact h1.cancelled c (by dsimp only; rw [c2]; exact hc)
  refine ⟨?_, ?_, ?_, ?_⟩
  · have h2 : (s.call E C a).2.1.Sublist ((s.clean.reg.filter (fun x => x.1 ∉ s.clean.cancelled)).map (·.1)) := h2
    rw [c2] at h2
    exact h2.trans (List.Sublist.map _ (c4.filter _))
  · intro x hx hnc
    exact h3 x (c5 x hx (fun h => hnc (hcan _ h))) hnc (by dsimp only; rw [c1]; exact hob x hx)
  · intro x hx hnc ho
    exact h4 x (c5 x hx (fun h => hnc (hcan _ h))) ho
  · obtain ⟨fs, h5, h6⟩ := h5
    exact ⟨fs, h5, by rw [← c3]; exact h6⟩

end

/-- functions that return a number and their argument -/
def exEnv : Env Nat Nat (Nat × Nat) := fun _ f a => { acts := [], ret := if f = 9 then .error .valueError else .ok (f, a) }

/-- three callbacks, one of them one-shot, one failing, one cancelled later -/
def exOps : List (Op Nat Nat) :=
  [.add 1 false, .add 2 true, .add 9 false, .call 5, .cancel 0, .call 6, .addAgain 1 false, .call 7]

example := C19_group_partial exEnv (fun _ _ _ => rfl) ⟨true, true⟩ (Or.inl rfl) exOps
  (by simp [AllSteps, exOps, Guard, step, St.init, St.add, St.addObj, St.call, St.clean, St.hasCancelled, St.removeCancelled,
    loop, St.invoke, exEnv, St.cancel, setAdd])

example : (runOps (step exEnv ⟨true, true⟩) St.init exOps).2 =
    [.callback 0, .callback 1, .callback 2,
     .call [0, 1, 2] (.results [.val (1, 5), .val (2, 5), .exc .valueError]),
     .unit, .call [2] (.results [.exc .valueError]), .callback 1,
     .call [2, 1] (.results [.exc .valueError, .val (2, 7)])] := by decide

/-- a function (1) that cancels callback 1 and registers a new one (7) -/
def exEnv2 : Env Nat Nat Nat := fun _ f _ => { acts := if f = 1 then [.cancel 1, .add 7 false] else [], ret := .ok f }

example := C19_reentrant exEnv2 ⟨true, false⟩
  { reg := [(0, false), (1, false), (2, true)], objs := [1, 2, 3], cancelled := [], trace := [] } 5
  (by decide) (by intro e; simp [St.call, St.clean, St.hasCancelled, St.removeCancelled, loop, St.invoke, exEnv2, St.act, St.addObj,
    St.add, St.cancel, setAdd])

example : (runOps (step exEnv2 ⟨true, false⟩) St.init [.add 1 false, .add 2 false, .add 3 true, .call 5, .call 6]).2 =
    [.callback 0, .callback 1, .callback 2, .call [0, 2] (.results [.val 1, .none, .val 3]),
     .call [3, 0] (.results [.val 7, .val 1])] := by decide

/-! ### where C19 fails -/

/-- **C19 is violated by an exception that escapes**: the callback that raised and all after it are forgotten, for any functions: the group
forgets every callback from the failing one on. -/
theorem C19_failure_forgets_violates {F A R : Type} (E : Env F A R) (hE : E.Pure) (gather : Bool) (f : F) (e : Exc)
    (a : A) (rest : List F) (hf : (E [] f a).ret = .error e) :
    let s : St F A := { reg := (List.range (rest.length + 1)).map (fun i => (i, false)), objs := f :: rest, cancelled := [], trace := [] }
    s.call E ⟨gather, false⟩ a = ({ s with reg := [], trace := [(f, a)] }, [0], .raised e) := by
  intro s
  have hh : s.hasCancelled = true := by
    simp [s, St.hasCancelled, List.range_succ_eq_map]
  have hcl : s.clean = s := by
    unfold St.clean
    rw [if_pos hh]
    unfold St.removeCancelled
    have : s.reg.filter (fun x => x.1 ∉ s.cancelled) = s.reg := by
      rw [List.filter_eq_self]; intro x _; simp [s]
    rw [this]
  have hreg : s.reg = (0, false) :: (List.range rest.length).map (fun i => (i + 1, false)) := by
    simp [s, List.range_succ_eq_map, List.map_map, Function.comp_def]
  simp only [St.call]
  rw [hcl, hreg, loop]
  have hi : St.invoke E { s with reg := [] } 0 a = ({ s with reg := [], trace := [(f, a)] }, [0], .error e) := by
    simp only [St.invoke, s, List.not_mem_nil, if_false, List.getElem?_cons_zero, hE [] f a, List.foldl_nil, hf, List.nil_append]
  rw [hi]
  rfl

/-- **C19 is violated when all callbacks are cancelled**: the group still holds them, and a call returns a None for each. -/
theorem C19_all_cancelled_violates :
    (runOps (step exEnv ⟨true, true⟩) St.init [.add 1 false, .add 2 false, .cancel 0, .cancel 1, .call 5]).2 =
      [.callback 0, .callback 1, .unit, .unit, .call [] (.results [.none, .none])] := by decide

/-- **C19 (documentation: "Same callable can't be added twice. It will silently fail.") is violated for plain functions**: each `add`
makes a new callback, so a function added twice is called twice. -/
theorem C19_added_twice_violates {F A R : Type} (E : Env F A R) (C : Cfg) (f : F) (o : Bool) :
    (runOps (step E C) St.init [.add f o, .add f o]).1.reg = [(0, o), (1, o)] ∧
    (runOps (step E C) St.init [.add f o, .add f o]).1.objs = [f, f] := by
  constructor <;> simp [runOps, step, St.add, St.addObj, St.init]

/-- **C19: `has_cancelled_callbacks` is violated**: it is true of a group of which no callback is cancelled. -/
theorem C19_has_cancelled_violates {F A : Type} (f : F) (o : Bool) :
    ((St.init : St F A).add f o).hasCancelled = true ∧
    (((St.init : St F A).add f o).cancel 0).hasCancelled = false := by
  constructor <;> simp [St.add, St.addObj, St.init, St.hasCancelled, St.cancel, setAdd]

/-! ## C48 CallNoOftenThan -/

/-- the clock: a call ends no sooner than it begins, and the next begins no sooner than that -/
def Clock : List Timed → Prop
  | [] => True
  | c :: cs => c.begins ≤ c.ends ∧ (∀ d ∈ cs, c.ends ≤ d.begins) ∧ Clock cs

theorem run_after (interval : Int) (hi : 0 ≤ interval) : ∀ (cs : List Timed) (last : Int), Clock cs → (∀ c ∈ cs, last ≤ c.begins) →
    ∀ (j : Nat) (d : Timed), cs[j]? = some d → (noOftenThanRun interval last cs)[j]? = some true → last + interval ≤ d.begins := by
  intro cs
  induction cs with
  | nil => intro last _ _ j d hd; simp at hd
  | cons c cs ih =>
    intro last hc hl j d hd hj
    obtain ⟨h1, h2, h3⟩ := hc
    have hlc := hl c (by simp)
    cases j with
    | zero =>
      simp only [List.getElem?_cons_zero, Option.some.injEq] at hd
      subst hd
      simp only [noOftenThanRun, List.getElem?_cons_zero, Option.some.injEq, noOftenThan] at hj
      split at hj
      · omega
      · simp at hj
    | succ j =>
      simp only [List.getElem?_cons_succ] at hd
      simp only [noOftenThanRun, List.getElem?_cons_succ] at hj
      have hle : last ≤ (noOftenThan interval last c).1 := by
        simp only [noOftenThan]; split
        · simp only; split <;> omega
        · exact Int.le_refl _
      have hub : ∀ x ∈ cs, (noOftenThan interval last c).1 ≤ x.begins := by
        intro x hx
        have := h2 x hx
        simp only [noOftenThan]; split
        · simp only; split <;> omega
        · simp only; omega
      have := ih _ h3 hub j d hd hj
      omega

/-- **C48, no oftener** (partial: the earlier call of the function has not raised). Of any two calls that call the function, the later begins no sooner than the interval after the earlier has returned. -/
theorem C48_no_oftener_partial (interval : Int) (hi : 0 ≤ interval) (cs : List Timed) (hc : Clock cs) (h0 : ∀ c ∈ cs, 0 ≤ c.begins) (i j : Nat) (hij : i < j) (c d : Timed)
    (hci : cs[i]? = some c) (hdj : cs[j]? = some d) (h1 : (noOftenThanRun interval 0 cs)[i]? = some true) (h2 : (noOftenThanRun interval 0 cs)[j]? = some true) (hr : c.raises = false) :
    c.ends + interval ≤ d.begins := by
  suffices ∀ (cs : List Timed) (last : Int), Clock cs → (∀ c ∈ cs, last ≤ c.begins) → ∀ (i j : Nat), i < j → cs[i]? = some c → cs[j]? = some d →
      (noOftenThanRun interval last cs)[i]? = some true → (noOftenThanRun interval last cs)[j]? = some true → c.ends + interval ≤ d.begins from
    this cs 0 hc h0 i j hij hci hdj h1 h2
  clear hci hdj h1 h2 hij i j h0 hc cs
  intro cs
  induction cs with
  | nil => intro last _ _ i j _ h; simp at h
  | cons x cs ih =>
    intro last hc hl i j hij hci hdj h1 h2
    obtain ⟨hx1, hx2, hx3⟩ := hc
    obtain ⟨j, rfl⟩ : ∃ k, j = k + 1 := ⟨j - 1, by omega⟩
    simp only [List.getElem?_cons_succ] at hdj
    simp only [noOftenThanRun, List.getElem?_cons_succ] at h2
    have hlx := hl x (by simp)
    cases i with
    | zero =>
      simp only [List.getElem?_cons_zero, Option.some.injEq] at hci
      subst hci
      simp only [noOftenThanRun, List.getElem?_cons_zero, Option.some.injEq] at h1
      have hlast : (noOftenThan interval last x).1 = x.ends := by
        simp only [noOftenThan] at h1 ⊢
        split at h1
        · rw [if_pos (by assumption)]; simp [hr]
        · simp at h1
      rw [hlast] at h2
      exact run_after interval hi cs x.ends hx3 hx2 j d hdj h2
    | succ i =>
      simp only [List.getElem?_cons_succ] at hci
      simp only [noOftenThanRun, List.getElem?_cons_succ] at h1
      refine ih _ hx3 ?_ i j (by omega) hci hdj h1 h2
      intro y hy
      have := hx2 y hy
      simp only [noOftenThan]; split
      · simp only; split <;> omega
      · simp only; omega

/-- **C48, not suppressed** (partial: the interval has passed on the clock). If a call does not call the function, an earlier one did, and returned less than the interval ago, or the clock shows less than the interval. -/
theorem C48_not_suppressed_partial (interval : Int) (cs : List Timed) (j : Nat) (d : Timed) (hd : cs[j]? = some d) (h : (noOftenThanRun interval 0 cs)[j]? = some false) :
    (∃ i c, i < j ∧ cs[i]? = some c ∧ (noOftenThanRun interval 0 cs)[i]? = some true ∧ c.raises = false ∧ d.begins < c.ends + interval) ∨ d.begins < interval := by
  suffices ∀ (cs : List Timed) (last : Int) (j : Nat), cs[j]? = some d → (noOftenThanRun interval last cs)[j]? = some false →
      (∃ i c, i < j ∧ cs[i]? = some c ∧ (noOftenThanRun interval last cs)[i]? = some true ∧ c.raises = false ∧ d.begins < c.ends + interval) ∨ d.begins < last + interval by
    simpa using this cs 0 j hd h
  clear hd h j cs
  intro cs
  induction cs with
  | nil => intro last j h; simp at h
  | cons x cs ih =>
    intro last j hd h
    cases j with
    | zero =>
      simp only [List.getElem?_cons_zero, Option.some.injEq] at hd
      subst hd
      simp only [noOftenThanRun, List.getElem?_cons_zero, Option.some.injEq, noOftenThan] at h
      split at h
      · simp at h
      · right; omega
    | succ j =>
      simp only [List.getElem?_cons_succ] at hd
      simp only [noOftenThanRun, List.getElem?_cons_succ] at h
      rcases ih _ j hd h with ⟨i, c, h1, h2, h3, h4⟩ | h1
      · exact .inl ⟨i + 1, c, by omega, by simpa using h2, by simpa [noOftenThanRun] using h3, h4⟩
      · by_cases hg : x.begins - last ≥ interval
        · cases hr : x.raises with
          | true => simp only [noOftenThan, if_pos hg, hr, if_true] at h1; exact .inr h1
          | false =>
            simp only [noOftenThan, if_pos hg, hr, Bool.false_eq_true, if_false] at h1
            exact .inl ⟨0, x, by omega, rfl, by simp [noOftenThanRun, noOftenThan, if_pos hg], hr, h1⟩
        · simp only [noOftenThan, if_neg hg] at h1; exact .inr h1

example : noOftenThanRun 10 0 [⟨3, 4, false⟩, ⟨12, 15, false⟩, ⟨20, 21, false⟩, ⟨25, 26, true⟩, ⟨27, 28, false⟩] = [false, true, false, true, true] := by decide
example := C48_no_oftener_partial 10 (by decide) [⟨3, 4, false⟩, ⟨12, 15, false⟩, ⟨20, 21, false⟩, ⟨25, 26, true⟩] (by simp [Clock]) (by decide) 1 3 (by decide) ⟨12, 15, false⟩ ⟨25, 26, true⟩ rfl rfl
  (by decide) (by decide) rfl
example := C48_not_suppressed_partial 10 [⟨12, 15, false⟩, ⟨20, 21, false⟩] 1 ⟨20, 21, false⟩ rfl (by decide)

/-- **C48 is violated within the first `interval` of the clock**: the very first call is suppressed although none was made. -/
theorem C48_first_call_violates (interval t : Int) (h : t < interval) : noOftenThanRun interval 0 [⟨t, t, false⟩] = [false] := by
  simp only [noOftenThanRun, noOftenThan]
  rw [if_neg (by omega)]

/-- **C48 is violated by a function that raises**: the next call calls it at once. -/
theorem C48_raised_violates (interval t u : Int) (h : interval ≤ t) (hu : t ≤ u) : noOftenThanRun interval 0 [⟨t, t, true⟩, ⟨u, u, false⟩] = [true, true] := by
  have h1 : interval ≤ u := by omega
  simp [noOftenThanRun, noOftenThan, h, h1]

example := C48_raised_violates 10 12 12 (by decide) (by decide)

end Verif.Group
