import Verif.Pool.Spec
import Verif.Conc.MonitorProps
/-!
# C23, C54
-/
namespace Verif.Pool
open Verif Conc

/-- the connection a thread is carrying -/
def carries : Pc → Option Nat
  | .acqCount c => some c
  | .relTest c => some c
  | .relPut c => some c
  | .killDel c => some c
  | .killTear c => some c
  | .invTear c => some c
  | _ => none

inductive Place where
  | unborn
  | idle
  | carried (t : Nat)
  | held (t : Nat)
  | gone
  deriving DecidableEq

/-- what is known of a carried connection, by where the thread is -/
def CarryData (s : St) (c : Nat) : Pc → Prop
  | .acqCount _ => (s.times c = none ∧ phaseOf c s.log = some .fresh ∧ uses c s.log = 0) ∨
      ∃ n, s.times c = some n ∧ n < s.maxCycle ∧ uses c s.log ≤ n ∧ phaseOf c s.log = some .free
  | .relTest _ => phaseOf c s.log = some .free ∧ ∃ n, s.times c = some n ∧ (uses c s.log ≤ n ∨ s.maxCycle ≤ n)
  | .relPut _ => phaseOf c s.log = some .free ∧ ∃ n, s.times c = some n ∧ n < s.maxCycle ∧ uses c s.log ≤ n
  | .killDel _ => phaseOf c s.log = some .free ∧ ∃ n, s.times c = some n
  | .killTear _ => phaseOf c s.log = some .free ∧ s.times c = none
  | .invTear _ => phaseOf c s.log = some .free ∧ ∃ n, s.times c = some n
  | _ => False

def Data (s : St) (c : Nat) : Place → Prop
  | .unborn => s.times c = none ∧ phaseOf c s.log = some .fresh ∧ uses c s.log = 0
  | .idle => ∃ n, s.times c = some n ∧ n < s.maxCycle ∧ uses c s.log ≤ n ∧ phaseOf c s.log = some .free
  | .carried t => CarryData s c (s.pc t)
  | .held t => phaseOf c s.log = some (.held t) ∧ ∃ n, s.times c = some n ∧ (uses c s.log ≤ n ∨ s.maxCycle ≤ n)
  | .gone => s.times c = none ∧ phaseOf c s.log = some .torn

structure At (s : St) (c : Nat) (p : Place) : Prop where
  inQ : s.q.count c = if p = .idle then 1 else 0
  inHeld : ∀ u, (s.held u).count c = if p = .held u then 1 else 0
  inPc : ∀ u, carries (s.pc u) = some c ↔ p = .carried u
  born : s.next ≤ c ↔ p = .unborn
  bound : uses c s.log ≤ max 1 s.maxCycle
  data : Data s c p

def Inv (s : St) : Prop := ∀ c, ∃ p, At s c p

/-- a step that does not concern connection `c` -/
theorem At.frame {s s' : St} {c : Nat} {p : Place} (h : At s c p)
    (h1 : s'.q.count c = s.q.count c) (h2 : ∀ u, (s'.held u).count c = (s.held u).count c)
    (h3 : ∀ u, s'.pc u = s.pc u ∨ (carries (s.pc u) ≠ some c ∧ carries (s'.pc u) ≠ some c))
    (h4 : s'.next ≤ c ↔ s.next ≤ c) (h5 : s'.times c = s.times c) (h6 : phaseOf c s'.log = phaseOf c s.log)
    (h7 : uses c s'.log = uses c s.log) (h8 : s'.maxCycle = s.maxCycle) : At s' c p where
  inQ := by rw [h1]; exact h.inQ
  inHeld u := by rw [h2]; exact h.inHeld u
  inPc u := by
    rcases h3 u with h9 | ⟨h9, h10⟩
    · rw [h9]; exact h.inPc u
    · constructor
      · intro hc; exact absurd hc h10
      · intro hc; exact absurd ((h.inPc u).2 hc) h9
  born := by rw [h4]; exact h.born
  bound := by rw [h7, h8]; exact h.bound
  data := by
    have hd := h.data
    cases p with
    | unborn => simp only [Data] at hd ⊢; rw [h5, h6, h7]; exact hd
    | idle => simp only [Data] at hd ⊢; rw [h5, h6, h7, h8]; exact hd
    | held t => simp only [Data] at hd ⊢; rw [h5, h6, h7, h8]; exact hd
    | gone => simp only [Data] at hd ⊢; rw [h5, h6]; exact hd
    | carried t =>
      simp only [Data] at hd ⊢
      have hpc : s'.pc t = s.pc t := by
        rcases h3 t with h9 | ⟨h9, _⟩
        · exact h9
        · exact absurd ((h.inPc t).2 rfl) h9
      rw [hpc]
      cases hp : s.pc t <;> rw [hp] at hd <;> simp only [CarryData] at hd ⊢ <;> rw [h5, h6] <;> first | rw [h7, h8]; exact hd | exact hd

theorem phaseOf_append (c : Nat) (log : List Ev) (e : Ev) :
    phaseOf c (log ++ [e]) = (phaseOf c log).bind (fun p => p.next c e) := by
  simp [phaseOf, List.foldl_append]

theorem uses_append (c : Nat) (log : List Ev) (e : Ev) :
    uses c (log ++ [e]) = uses c log + (match e with | .handed _ d => if d = c then 1 else 0 | _ => 0) := by
  unfold uses
  rw [List.filter_append, List.length_append]
  congr 1
  cases e <;> simp [List.filter_cons]
  split <;> simp_all

theorem note_other (c : Nat) (log : List Ev) (e : Ev)
    (h : match e with | .handed _ d => d ≠ c | .released _ d => d ≠ c | .torn d => d ≠ c | .raised _ _ => True) :
    phaseOf c (log ++ [e]) = phaseOf c log ∧ uses c (log ++ [e]) = uses c log := by
  rw [phaseOf_append, uses_append]
  cases e <;> simp_all [Phase.next]

theorem mem_count {l : List Nat} {c : Nat} : c ∈ l ↔ l.count c ≠ 0 := by
  rw [← List.count_pos_iff]; omega

theorem pc_frame {s : St} {t c : Nat} {p : Pc} (h1 : carries (s.pc t) ≠ some c) (h2 : carries p ≠ some c) :
    ∀ u, upd s.pc t p u = s.pc u ∨ (carries (s.pc u) ≠ some c ∧ carries (upd s.pc t p u) ≠ some c) := by
  intro u
  by_cases hu : u = t
  · subst hu; right; rw [upd_same]; exact ⟨h1, h2⟩
  · left; exact upd_other _ _ hu

/-- the thread stops carrying nothing relevant -/
theorem At.place_of_pc {s : St} {c : Nat} {p : Place} (h : At s c p) {t : Nat} (hc : carries (s.pc t) = some c) : p = .carried t :=
  (h.inPc t).1 hc

theorem At.place_of_q {s : St} {c : Nat} {p : Place} (h : At s c p) (hc : c ∈ s.q) : p = .idle := by
  have := h.inQ
  rw [mem_count] at hc
  by_cases hp : p = .idle
  · exact hp
  · rw [if_neg hp] at this; exact absurd this hc

theorem At.place_of_held {s : St} {c : Nat} {p : Place} (h : At s c p) {t : Nat} (hc : c ∈ s.held t) : p = .held t := by
  have := h.inHeld t
  rw [mem_count] at hc
  by_cases hp : p = .held t
  · exact hp
  · rw [if_neg hp] at this; exact absurd this hc

/-- move `c`, which thread `t` carries, elsewhere or to another point of the thread -/
theorem At.move {s s' : St} {c t : Nat} {p p' : Place} (h : At s c p) (hp : p = .carried t ∨ (carries (s.pc t) ≠ some c ∧ ∀ u, p ≠ .carried u))
    (h1 : s'.q.count c = if p' = .idle then 1 else 0)
    (h2 : ∀ u, (s'.held u).count c = if p' = .held u then 1 else 0)
    (h3 : ∀ u, u ≠ t → s'.pc u = s.pc u)
    (h4 : carries (s'.pc t) = some c ↔ p' = .carried t)
    (h4' : ∀ u, u ≠ t → p' ≠ .carried u)
    (h5 : s'.next ≤ c ↔ p' = .unborn) (h6 : uses c s'.log ≤ max 1 s'.maxCycle) (h7 : Data s' c p') : At s' c p' where
  inQ := h1
  inHeld := h2
  inPc u := by
    by_cases hu : u = t
    · subst hu; exact h4
    · rw [h3 u hu, h.inPc u]
      constructor
      · intro hc
        rcases hp with hp | hp
        · rw [hp] at hc; injection hc with hc; exact absurd hc.symm hu
        · exact absurd hc (hp.2 u)
      · intro hc; exact absurd hc (h4' u hu)
  born := h5
  bound := h6
  data := h7

theorem inv_frame {s s' : St} (h : Inv s) {t : Nat} {p : Pc} (hc : carries (s.pc t) = none) (hp : carries p = none)
    (h1 : s'.q = s.q) (h2 : s'.held = s.held) (h3 : s'.pc = upd s.pc t p) (h4 : s'.next = s.next)
    (h5 : s'.times = s.times) (h6 : ∀ c, phaseOf c s'.log = phaseOf c s.log ∧ uses c s'.log = uses c s.log)
    (h8 : s'.maxCycle = s.maxCycle) : Inv s' := by
  intro c
  obtain ⟨pl, hpl⟩ := h c
  refine ⟨pl, hpl.frame (by rw [h1]) (by simp [h2]) ?_ (by rw [h4]) (by rw [h5]) (h6 c).1 (h6 c).2 h8⟩
  rw [h3]
  exact pc_frame (by simp [hc]) (by simp [hp])

theorem inv_take {s : St} (h : Inv s) {t d : Nat} {q : List Nat} (hq : s.q = d :: q) (hc : carries (s.pc t) = none)
    (p : Pc) (hp : p = .acqCount d ∨ p = .invTear d) : Inv ({ s with q := q }.goto t p) := by
  have hcp : carries p = some d := by rcases hp with rfl | rfl <;> rfl
  intro c
  obtain ⟨pl, hpl⟩ := h c
  by_cases hcd : c = d
  · subst hcd
    have hpl' : pl = .idle := hpl.place_of_q (by simp [hq])
    subst hpl'
    have hd := hpl.data
    simp only [Data] at hd
    have hcnt := hpl.inQ
    rw [hq] at hcnt
    simp at hcnt
    refine ⟨.carried t, hpl.move (t := t) (Or.inr ⟨by simp [hc], by simp⟩) ?_ ?_ ?_ ?_ ?_ ?_ hpl.bound ?_⟩
    · simp [St.goto, List.count_eq_zero, hcnt]
    · intro u; have := hpl.inHeld u; simpa [St.goto] using this
    · intro u hu; exact upd_other _ _ hu
    · simp [St.goto, upd_same, hcp]
    · intro u hu; simp [Ne.symm hu]
    · have := hpl.born; simpa [St.goto] using this
    · simp only [Data, St.goto, upd_same]
      rcases hp with rfl | rfl
      · right; exact hd
      · obtain ⟨n, h1, h2, h3, h4⟩ := hd
        exact ⟨h4, n, h1⟩
  · refine ⟨pl, hpl.frame ?_ (fun _ => rfl) (pc_frame (by simp [hc]) (by simp [hcp, Ne.symm hcd])) Iff.rfl rfl rfl rfl rfl⟩
    simp [St.goto, hq, List.count_cons, Ne.symm hcd]

/-- the thread goes on carrying the same connection -/
theorem inv_carry {s s' : St} (h : Inv s) {t d : Nat} {p : Pc} (hc : carries (s.pc t) = some d) (hp : carries p = some d)
    (h1 : s'.q = s.q) (h2 : s'.held = s.held) (h3 : s'.pc = upd s.pc t p) (h4 : s'.next = s.next)
    (h5 : ∀ c, c ≠ d → s'.times c = s.times c) (h6 : s'.log = s.log)
    (h8 : s'.maxCycle = s.maxCycle) (h9 : CarryData s d (s.pc t) → CarryData s' d p) : Inv s' := by
  intro c
  obtain ⟨pl, hpl⟩ := h c
  by_cases hcd : c = d
  · subst hcd
    have hpl' := hpl.place_of_pc hc
    subst hpl'
    have hd := hpl.data
    simp only [Data] at hd
    refine ⟨.carried t, hpl.move (t := t) (Or.inl rfl) ?_ ?_ ?_ ?_ ?_ ?_ ?_ ?_⟩
    · rw [h1]; exact hpl.inQ
    · rw [h2]; exact hpl.inHeld
    · intro u hu; rw [h3]; exact upd_other _ _ hu
    · rw [h3]; simp [upd_same, hp]
    · intro u hu; simp [Ne.symm hu]
    · rw [h4]; exact hpl.born
    · rw [h6, h8]; exact hpl.bound
    · simp only [Data, h3, upd_same]; exact h9 hd
  · refine ⟨pl, hpl.frame (by rw [h1]) (by simp [h2]) ?_ (by rw [h4]) (h5 c hcd) (by rw [h6]) (by rw [h6]) h8⟩
    rw [h3]
    exact pc_frame (by simp [hc, Ne.symm hcd]) (by simp [hp, Ne.symm hcd])

/-- the thread gives up the connection it carries -/
theorem inv_drop {s s' : St} (h : Inv s) {t d : Nat} {p : Pc} {p' : Place} (hc : carries (s.pc t) = some d) (hp : carries p = none)
    (hp' : ∀ u, p' ≠ .carried u) (hu : p' ≠ .unborn)
    (h1 : s'.q.count d = if p' = .idle then 1 else 0) (h1' : ∀ c, c ≠ d → s'.q.count c = s.q.count c)
    (h2 : ∀ u, (s'.held u).count d = if p' = .held u then 1 else 0) (h2' : ∀ c, c ≠ d → ∀ u, (s'.held u).count c = (s.held u).count c)
    (h3 : s'.pc = upd s.pc t p) (h4 : s'.next = s.next)
    (h5 : ∀ c, c ≠ d → s'.times c = s.times c) (h6 : ∀ c, c ≠ d → phaseOf c s'.log = phaseOf c s.log ∧ uses c s'.log = uses c s.log)
    (h8 : s'.maxCycle = s.maxCycle)
    (h9 : CarryData s d (s.pc t) → uses d s.log ≤ max 1 s.maxCycle → uses d s'.log ≤ max 1 s'.maxCycle ∧ Data s' d p') : Inv s' := by
  intro c
  obtain ⟨pl, hpl⟩ := h c
  by_cases hcd : c = d
  · subst hcd
    have hpl' := hpl.place_of_pc hc
    subst hpl'
    obtain ⟨ha, hb⟩ := h9 hpl.data hpl.bound
    refine ⟨p', hpl.move (t := t) (Or.inl rfl) h1 h2 ?_ ?_ (fun u _ => hp' u) ?_ ha hb⟩
    · intro u hu; rw [h3]; exact upd_other _ _ hu
    · rw [h3, upd_same, hp]; simp [hp' t]
    · rw [h4]; have := hpl.born; simp at this; simp [hu]; exact this
  · refine ⟨pl, hpl.frame (h1' c hcd) (h2' c hcd) ?_ (by rw [h4]) (h5 c hcd) (h6 c hcd).1 (h6 c hcd).2 h8⟩
    rw [h3]
    exact pc_frame (by simp [hc, Ne.symm hcd]) (by simp [hp])

theorem carried_counts {s : St} (h : Inv s) {t d : Nat} (hc : carries (s.pc t) = some d) :
    s.q.count d = 0 ∧ (∀ u, (s.held u).count d = 0) ∧ CarryData s d (s.pc t) ∧ d < s.next := by
  obtain ⟨pl, hpl⟩ := h d
  have := hpl.place_of_pc hc
  subst this
  refine ⟨by simpa using hpl.inQ, fun u => by simpa using hpl.inHeld u, hpl.data, ?_⟩
  have := hpl.born; simp at this; omega

/-- a thread in `fail_connection` holds the connection -/
def FailInv (s : St) : Prop := ∀ t d, s.pc t = .failSet d → d ∈ s.held t

theorem failInv_of {s s' : St} (h : FailInv s) {t : Nat} {p : Pc} (h1 : s'.pc = upd s.pc t p)
    (h2 : ∀ u, u ≠ t → s'.held u = s.held u) (h3 : ∀ d, p = .failSet d → d ∈ s'.held t) : FailInv s' := by
  intro u d hu
  rw [h1] at hu
  by_cases hut : u = t
  · subst hut; rw [upd_same] at hu; exact h3 d hu
  · rw [upd_other _ _ hut] at hu; rw [h2 u hut]; exact h u d hu

theorem failInv_run1 (s : St) (t : Nat) (ok : Bool) (h : FailInv s) : FailInv (s.run1 t ok) := by
  unfold St.run1
  split
  · exact h
  · split
    · exact failInv_of h (p := .acqMon) rfl (fun _ _ => rfl) (by simp)
    · rename_i c q _; exact failInv_of h (p := .acqCount c) rfl (fun _ _ => rfl) (by simp)
  · split
    · exact h
    · split
      · split
        · exact h
        · rename_i c q _; exact failInv_of h (t := t) (p := .acqCount c) rfl (fun _ _ => rfl) (by simp)
      · split
        · exact failInv_of h (t := t) (p := .acqCount s.next) rfl (fun _ _ => rfl) (by simp)
        · exact failInv_of h (t := t) (p := .idle) rfl (fun _ _ => rfl) (by simp)
  · split
    · exact h
    · exact failInv_of h (t := t) (p := .idle) rfl (fun u hu => upd_other _ _ hu) (by simp)
  · rename_i c _
    split
    · exact failInv_of h (t := t) (p := .idle) rfl (fun _ _ => rfl) (by simp)
    · split
      · exact failInv_of h (t := t) (p := .killDel c) rfl (fun _ _ => rfl) (by simp)
      · exact failInv_of h (t := t) (p := .relPut c) rfl (fun _ _ => rfl) (by simp)
  · rename_i c _
    split
    · exact failInv_of h (t := t) (p := .killDel c) rfl (fun _ _ => rfl) (by simp)
    · exact failInv_of h (t := t) (p := .idle) rfl (fun _ _ => rfl) (by simp)
  · rename_i c _
    split
    · exact h
    · split
      · exact failInv_of h (t := t) (p := .idle) rfl (fun _ _ => rfl) (by simp)
      · exact failInv_of h (t := t) (p := .killTear c) rfl (fun _ _ => rfl) (by simp)
  · exact failInv_of h (t := t) (p := .idle) rfl (fun _ _ => rfl) (by simp)
  · split
    · exact h
    · exact failInv_of h (t := t) (p := .idle) rfl (fun _ _ => rfl) (by simp)
  · split
    · exact h
    · exact failInv_of h (t := t) (p := .invLoop) rfl (fun _ _ => rfl) (by simp)
  · split
    · exact failInv_of h (t := t) (p := .invGet) rfl (fun _ _ => rfl) (by simp)
    · exact failInv_of h (t := t) (p := .idle) rfl (fun _ _ => rfl) (by simp)
  · split
    · exact h
    · rename_i c q _; exact failInv_of h (t := t) (p := .invTear c) rfl (fun _ _ => rfl) (by simp)
  · split
    · exact failInv_of h (t := t) (p := .idle) rfl (fun _ _ => rfl) (by simp)
    · exact failInv_of h (t := t) (p := .invLoop) rfl (fun _ _ => rfl) (by simp)

theorem inv_run1 (s : St) (t : Nat) (ok : Bool) (h : Inv s) (hf : FailInv s) : Inv (s.run1 t ok) := by
  unfold St.run1
  cases hpc : s.pc t with
  | idle => exact h
  | acqGet =>
    dsimp only
    cases hq : s.q with
    | nil => exact inv_frame h (t := t) (p := .acqMon) (by simp [hpc, carries]) rfl rfl rfl rfl rfl rfl (fun _ => ⟨rfl, rfl⟩) rfl
    | cons d q => exact inv_take h hq (by simp [hpc, carries]) _ (Or.inl rfl)
  | acqMon =>
    dsimp only
    cases hm : s.mon with
    | some _ => exact h
    | none =>
      dsimp only
      split
      · cases hq : s.q with
        | nil => exact h
        | cons d q =>
          have := inv_take h (t := t) hq (by simp [hpc, carries]) (.acqCount d) (Or.inl rfl)
          rw [hm] at this
          exact this
      · split
        · intro c
          obtain ⟨pl, hpl⟩ := h c
          by_cases hcd : c = s.next
          · subst hcd
            have : pl = .unborn := hpl.born.1 (Nat.le_refl _)
            subst this
            refine ⟨.carried t, hpl.move (t := t) (Or.inr ⟨by simp [hpc, carries], by simp⟩) ?_ ?_ ?_ ?_ ?_ ?_ hpl.bound ?_⟩
            · have := hpl.inQ; simpa [St.goto] using this
            · intro u; have := hpl.inHeld u; simpa [St.goto] using this
            · intro u hu; exact upd_other _ _ hu
            · simp [St.goto, upd_same, carries]
            · intro u hu; simp [Ne.symm hu]
            · simp [St.goto]
            · simp only [Data, St.goto, upd_same]
              exact Or.inl hpl.data
          · refine ⟨pl, hpl.frame rfl (fun _ => rfl) (pc_frame (by simp [hpc, carries]) (by simp [carries, Ne.symm hcd])) ?_ rfl rfl rfl rfl⟩
            simp only [St.goto]; omega
        · exact inv_frame h (t := t) (p := .idle) (by simp [hpc, carries]) rfl rfl rfl rfl rfl rfl (fun c => note_other c _ _ trivial) rfl
  | acqCount d =>
    dsimp only
    cases hm : s.mon with
    | some _ => exact h
    | none =>
      have hc : carries (s.pc t) = some d := by simp [hpc, carries]
      obtain ⟨e1, e2, e3, e4⟩ := carried_counts h hc
      refine inv_drop h (t := t) (d := d) (p := .idle) (p' := .held t) hc rfl (by simp) (by simp) ?_ (fun _ _ => rfl) ?_ ?_ rfl rfl ?_ ?_ rfl ?_
      · simpa [St.goto, St.note] using e1
      · intro u
        simp only [St.goto, St.note, upd]
        by_cases hu : u = t
        · subst hu; simp [e2]
        · rw [if_neg hu, e2]; simp [Ne.symm hu]
      · intro c hcd u
        simp only [St.goto, St.note, upd]
        by_cases hu : u = t
        · subst hu; simp [List.count_cons, Ne.symm hcd]
        · rw [if_neg hu]
      · intro c hcd; exact upd_other _ _ hcd
      · intro c hcd; exact note_other c _ _ (by simpa using Ne.symm hcd)
      · intro hd hb
        rw [hpc] at hd
        simp only [CarryData] at hd
        simp only [St.goto, St.note, Data, upd_same, uses_append, phaseOf_append, if_true]
        rcases hd with ⟨a, b, c⟩ | ⟨n, a, b, c, d'⟩
        · rw [a, b, c]
          refine ⟨by omega, by simp [Phase.next], 1, by simp, Or.inl (by omega)⟩
        · rw [a, d']
          refine ⟨by omega, by simp [Phase.next], n + 1, by simp, Or.inl (by omega)⟩
  | relTest d =>
    dsimp only
    have hc : carries (s.pc t) = some d := by simp [hpc, carries]
    obtain ⟨e1, e2, e3, e4⟩ := carried_counts h hc
    rw [hpc] at e3
    obtain ⟨e5, n, e6, e7⟩ := e3
    rw [e6]
    dsimp only
    split
    · exact inv_carry h (p := .killDel d) hc rfl rfl rfl rfl rfl (fun _ _ => rfl) rfl rfl (fun _ => ⟨e5, n, e6⟩)
    · exact inv_carry h (p := .relPut d) hc rfl rfl rfl rfl rfl (fun _ _ => rfl) rfl rfl (fun _ => ⟨e5, n, e6, by show n < s.maxCycle; omega, by show uses d s.log ≤ n; omega⟩)
  | relPut d =>
    dsimp only
    have hc : carries (s.pc t) = some d := by simp [hpc, carries]
    obtain ⟨e1, e2, e3, e4⟩ := carried_counts h hc
    rw [hpc] at e3
    obtain ⟨e5, n, e6, e7, e8⟩ := e3
    split
    · exact inv_carry h (p := .killDel d) hc rfl rfl rfl rfl rfl (fun _ _ => rfl) rfl rfl (fun _ => ⟨e5, n, e6⟩)
    · refine inv_drop h (t := t) (d := d) (p := .idle) (p' := .idle) hc rfl (by simp) (by simp) ?_ ?_ ?_ (fun _ _ _ => rfl) rfl rfl (fun _ _ => rfl) (fun _ _ => ⟨rfl, rfl⟩) rfl ?_
      · simp [St.goto, List.count_append, e1]
      · intro c hcd; simp [St.goto, List.count_append, List.count_cons, Ne.symm hcd]
      · intro u; simpa [St.goto] using e2 u
      · intro _ hb; exact ⟨hb, n, e6, e7, e8, e5⟩
  | killDel d =>
    dsimp only
    have hc : carries (s.pc t) = some d := by simp [hpc, carries]
    obtain ⟨e1, e2, e3, e4⟩ := carried_counts h hc
    rw [hpc] at e3
    obtain ⟨e5, n, e6⟩ := e3
    cases hm : s.mon with
    | some _ => exact h
    | none =>
      dsimp only
      rw [e6]
      exact inv_carry h (p := .killTear d) hc rfl rfl rfl rfl rfl (fun c hcd => upd_other _ _ hcd) rfl rfl (fun _ => ⟨e5, upd_same _ _ _⟩)
  | killTear d =>
    dsimp only
    have hc : carries (s.pc t) = some d := by simp [hpc, carries]
    obtain ⟨e1, e2, e3, e4⟩ := carried_counts h hc
    rw [hpc] at e3
    obtain ⟨e5, e6⟩ := e3
    refine inv_drop h (t := t) (d := d) (p := .idle) (p' := .gone) hc rfl (by simp) (by simp) (by simpa [St.goto, St.note] using e1) (fun _ _ => rfl) (fun u => by simpa [St.goto, St.note] using e2 u) (fun _ _ _ => rfl) rfl rfl (fun _ _ => rfl)
      (fun c hcd => note_other c _ _ (by simpa using Ne.symm hcd)) rfl ?_
    intro _ hb
    simp only [St.goto, St.note, Data, uses_append, phaseOf_append, e5]
    exact ⟨hb, e6, by simp [Phase.next]⟩
  | failSet d =>
    dsimp only
    cases hm : s.mon with
    | some _ => exact h
    | none =>
      intro c
      obtain ⟨pl, hpl⟩ := h c
      by_cases hcd : c = d
      · subst hcd
        have := hpl.place_of_held (hf t c hpc)
        subst this
        refine ⟨.held t, hpl.move (t := t) (Or.inr ⟨by simp [hpc, carries], by simp⟩) hpl.inQ hpl.inHeld (fun u hu => upd_other _ _ hu) ?_ (by simp) hpl.born hpl.bound ?_⟩
        · simp [St.goto, upd_same, carries]
        · obtain ⟨a, _⟩ := hpl.data
          exact ⟨a, s.maxCycle, upd_same _ _ _, Or.inr (Nat.le_refl _)⟩
      · exact ⟨pl, hpl.frame rfl (fun _ => rfl) (pc_frame (by simp [hpc, carries]) (by simp [carries])) Iff.rfl (upd_other _ _ hcd) rfl rfl rfl⟩
  | invEnter =>
    dsimp only
    cases hm : s.mon with
    | some _ => exact h
    | none => exact inv_frame h (t := t) (p := .invLoop) (by simp [hpc, carries]) rfl rfl rfl rfl rfl rfl (fun _ => ⟨rfl, rfl⟩) rfl
  | invLoop =>
    dsimp only
    split
    · exact inv_frame h (t := t) (p := .invGet) (by simp [hpc, carries]) rfl rfl rfl rfl rfl rfl (fun _ => ⟨rfl, rfl⟩) rfl
    · exact inv_frame h (t := t) (p := .idle) (by simp [hpc, carries]) rfl rfl rfl rfl rfl rfl (fun _ => ⟨rfl, rfl⟩) rfl
  | invGet =>
    dsimp only
    cases hq : s.q with
    | nil => exact h
    | cons d q => exact inv_take h hq (by simp [hpc, carries]) _ (Or.inr rfl)
  | invTear d =>
    dsimp only
    have hc : carries (s.pc t) = some d := by simp [hpc, carries]
    obtain ⟨e1, e2, e3, e4⟩ := carried_counts h hc
    rw [hpc] at e3
    obtain ⟨e5, n, e6⟩ := e3
    rw [e6]
    refine inv_drop h (t := t) (d := d) (p := .invLoop) (p' := .gone) hc rfl (by simp) (by simp) (by simpa [St.goto, St.note] using e1) (fun _ _ => rfl) (fun u => by simpa [St.goto, St.note] using e2 u) (fun _ _ _ => rfl) rfl rfl (fun c hcd => upd_other _ _ hcd)
      (fun c hcd => note_other c _ _ (by simpa using Ne.symm hcd)) rfl ?_
    intro _ hb
    simp only [St.goto, St.note, Data, uses_append, phaseOf_append, e5]
    exact ⟨hb, upd_same _ _ _, by simp [Phase.next]⟩

theorem inv_call (s : St) (t : Nat) (k : Call) (hi : s.pc t = .idle) (h : Inv s) : Inv (s.call t k) := by
  have hn : carries (s.pc t) = none := by simp [hi, carries]
  have same : ∀ s' : St, s'.q = s.q → s'.held = s.held → s'.pc = s.pc → s'.next = s.next → s'.times = s.times →
      (∀ c, phaseOf c s'.log = phaseOf c s.log ∧ uses c s'.log = uses c s.log) → s'.maxCycle = s.maxCycle → Inv s' := by
    intro s' h1 h2 h3 h4 h5 h6 h7
    refine inv_frame h (t := t) (p := .idle) hn rfl h1 h2 ?_ h4 h5 h6 h7
    rw [h3]; funext u; unfold upd; split
    · rename_i hu; rw [hu, hi]
    · rfl
  cases k with
  | acquire =>
    simp only [St.call]
    split
    · exact same _ rfl rfl rfl rfl rfl (fun c => note_other c _ _ trivial) rfl
    · exact inv_frame h (t := t) (p := .acqGet) hn rfl rfl rfl rfl rfl rfl (fun _ => ⟨rfl, rfl⟩) rfl
  | release d =>
    simp only [St.call]
    split
    · rename_i hd
      intro c
      obtain ⟨pl, hpl⟩ := h c
      by_cases hcd : c = d
      · subst hcd
        have := hpl.place_of_held hd
        subst this
        refine ⟨.carried t, hpl.move (t := t) (Or.inr ⟨by simp [hn], by simp⟩) ?_ ?_ (fun u hu => upd_other _ _ hu) ?_ ?_ ?_ ?_ ?_⟩
        · have := hpl.inQ; simpa [St.goto, St.note] using this
        · intro u
          have := hpl.inHeld u
          simp only [St.goto, St.note, upd]
          by_cases hu : u = t
          · subst hu; simp at this; simp [List.count_erase_self, this]
          · rw [if_neg hu, this]; simp [Ne.symm hu]
        · simp [St.goto, upd_same, carries]
        · intro u hu; simp [Ne.symm hu]
        · have := hpl.born; simpa [St.goto, St.note] using this
        · simp only [St.goto, St.note, uses_append]; exact hpl.bound
        · obtain ⟨a, n, b, e⟩ := hpl.data
          simp only [Data, St.goto, St.note, upd_same, CarryData, uses_append, phaseOf_append, a]
          exact ⟨by simp [Phase.next], n, b, e⟩
      · have := note_other c s.log (.released t d) (by simpa using Ne.symm hcd)
        refine ⟨pl, hpl.frame rfl ?_ (pc_frame (by show ¬ carries (s.pc t) = some c; rw [hn]; simp) (by simp [carries, Ne.symm hcd])) Iff.rfl rfl this.1 this.2 rfl⟩
        intro u
        simp only [St.goto, St.note, upd]
        by_cases hu : u = t
        · subst hu; simp [List.count_erase_of_ne hcd]
        · rw [if_neg hu]
    · exact h
  | fail d =>
    simp only [St.call]
    split
    · exact inv_frame h (t := t) (p := .failSet d) hn rfl rfl rfl rfl rfl rfl (fun _ => ⟨rfl, rfl⟩) rfl
    · exact h
  | invalidate => exact inv_frame h (t := t) (p := .invEnter) hn rfl rfl rfl rfl rfl rfl (fun _ => ⟨rfl, rfl⟩) rfl
  | close =>
    simp only [St.call]
    split
    · exact h
    · exact inv_frame h (t := t) (p := .invEnter) hn rfl rfl rfl rfl rfl rfl (fun _ => ⟨rfl, rfl⟩) rfl
  | setMax n => exact same _ rfl rfl rfl rfl rfl (fun _ => ⟨rfl, rfl⟩) rfl
  | enter =>
    simp only [St.call]
    split
    · exact same _ rfl rfl rfl rfl rfl (fun _ => ⟨rfl, rfl⟩) rfl
    · exact h
  | exit =>
    simp only [St.call]
    split
    · exact same _ rfl rfl rfl rfl rfl (fun _ => ⟨rfl, rfl⟩) rfl
    · exact h

theorem failInv_call (s : St) (t : Nat) (k : Call) (hi : s.pc t = .idle) (h : FailInv s) : FailInv (s.call t k) := by
  have same : ∀ s' : St, s'.held = s.held → s'.pc = s.pc → FailInv s' := by
    intro s' h1 h2 u d hu; rw [h2] at hu; rw [h1]; exact h u d hu
  cases k with
  | acquire => simp only [St.call]; split; exact same _ rfl rfl; exact failInv_of h (t := t) (p := .acqGet) rfl (fun _ _ => rfl) (by simp)
  | release d =>
    simp only [St.call]; split
    · exact failInv_of h (t := t) (p := .relTest d) rfl (fun u hu => upd_other _ _ hu) (by simp)
    · exact h
  | fail d =>
    simp only [St.call]; split
    · rename_i hd
      refine failInv_of h (t := t) (p := .failSet d) rfl (fun _ _ => rfl) ?_
      intro d' he; injection he with he; subst he; exact hd
    · exact h
  | invalidate => exact failInv_of h (t := t) (p := .invEnter) rfl (fun _ _ => rfl) (by simp)
  | close =>
    simp only [St.call]; split
    · exact h
    · exact failInv_of h (t := t) (p := .invEnter) rfl (fun _ _ => rfl) (by simp)
  | setMax n => exact same _ rfl rfl
  | enter => simp only [St.call]; split; exact same _ rfl rfl; exact h
  | exit => simp only [St.call]; split; exact same _ rfl rfl; exact h

theorem inv_step (s : St) (e : Event) (h : Inv s ∧ FailInv s) : Inv (s.step e) ∧ FailInv (s.step e) := by
  cases e with
  | call t k =>
    simp only [St.step]
    split
    · rename_i hi; exact ⟨inv_call s t k hi h.1, failInv_call s t k hi h.2⟩
    · exact h
  | run t ok => exact ⟨inv_run1 s t ok h.1 h.2, failInv_run1 s t ok h.2⟩

theorem inv_run (s : St) (es : List Event) (h : Inv s ∧ FailInv s) : Inv (s.run es) ∧ FailInv (s.run es) := by
  induction es generalizing s with
  | nil => exact h
  | cons e es ih => exact ih _ (inv_step s e h)

theorem inv_init (m k : Nat) : Inv (St.init m k) ∧ FailInv (St.init m k) := by
  refine ⟨fun c => ⟨.unborn, ?_, ?_, ?_, ?_, ?_, ?_⟩, ?_⟩
  · simp [St.init]
  · intro u; simp [St.init]
  · intro u; simp [St.init, carries]
  · simp [St.init]
  · simp [St.init, uses]
  · simp [Data, St.init, phaseOf, uses]
  · intro t d h; simp [St.init] at h

theorem Inv.cases {s : St} (h : Inv s) (c : Nat) :
    ∃ ph, phaseOf c s.log = some ph ∧ uses c s.log ≤ max 1 s.maxCycle ∧ (∀ t, c ∈ s.held t ↔ ph = .held t) ∧
      (c ∈ s.q → ph = .free) ∧ (ph = .torn → s.times c = none) := by
  obtain ⟨pl, hpl⟩ := h c
  have hd := hpl.data
  have hh : ∀ t, c ∈ s.held t ↔ pl = .held t := by
    intro t
    rw [mem_count, hpl.inHeld t]
    split <;> simp_all
  have hq : c ∈ s.q ↔ pl = .idle := by
    rw [mem_count, hpl.inQ]
    split <;> simp_all
  cases pl with
  | unborn => exact ⟨_, hd.2.1, hpl.bound, fun t => by rw [hh]; simp, fun hc => absurd (hq.1 hc) (by simp), by simp⟩
  | idle =>
    obtain ⟨n, _, _, _, a⟩ := hd
    exact ⟨_, a, hpl.bound, fun t => by rw [hh]; simp, fun _ => rfl, by simp⟩
  | held u => exact ⟨_, hd.1, hpl.bound, fun t => by rw [hh]; simp, fun hc => absurd (hq.1 hc) (by simp), by simp⟩
  | gone => exact ⟨_, hd.2, hpl.bound, fun t => by rw [hh]; simp, fun hc => absurd (hq.1 hc) (by simp), fun _ => hd.1⟩
  | carried u =>
    have key : phaseOf c s.log = some .fresh ∨ phaseOf c s.log = some .free := by
      simp only [Data] at hd
      cases hp : s.pc u <;> rw [hp] at hd <;> simp only [CarryData] at hd
      · rcases hd with hd | ⟨n, _, _, _, hd⟩
        · exact Or.inl hd.2.1
        · exact Or.inr hd
      all_goals exact Or.inr hd.1
    rcases key with key | key
    · exact ⟨_, key, hpl.bound, fun t => by rw [hh]; simp, fun hc => absurd (hq.1 hc) (by simp), by simp⟩
    · exact ⟨_, key, hpl.bound, fun t => by rw [hh]; simp, fun hc => absurd (hq.1 hc) (by simp), by simp⟩

/-! ## The properties -/

/-- **C23, life cycle.** Whatever the threads call, whenever they run: every connection is handed out only when new or after its release, released by its holder, torn
down only after its release, at most once, and never handed out after (that is what `phaseOf` being defined says); it is handed out at most `max_cycle_no` times (once,
if that is 0); what a thread holds is what was handed to it and not released; and nothing is remembered of a connection torn down. -/
theorem C23_life_cycle (maxNumber maxCycle : Nat) (es : List Event) (c : Nat) :
    let s := (St.init maxNumber maxCycle).run es
    ∃ ph, phaseOf c s.log = some ph ∧ uses c s.log ≤ max 1 s.maxCycle ∧ (∀ t, c ∈ s.held t ↔ ph = .held t) ∧
      (c ∈ s.q → ph = .free) ∧ (ph = .torn → s.times c = none) :=
  (inv_run _ es (inv_init maxNumber maxCycle)).1.cases c

theorem constants_step (s : St) (e : Event) : (s.step e).maxCycle = s.maxCycle ∧ (s.step e).cap = s.cap := by
  cases e with
  | call t k =>
    simp only [St.step]; split
    · cases k <;> simp only [St.call] <;> (try split) <;> refine ⟨?_, ?_⟩ <;> first | rfl | trivial
    · exact ⟨rfl, rfl⟩
  | run t ok =>
    simp only [St.step, St.run1]
    repeat' split
    all_goals refine ⟨?_, ?_⟩ <;> first | rfl | trivial

theorem constants_run (s : St) (es : List Event) : (s.run es).maxCycle = s.maxCycle ∧ (s.run es).cap = s.cap := by
  induction es generalizing s with
  | nil => exact ⟨rfl, rfl⟩
  | cons e es ih =>
    have h1 := ih (s.step e)
    have h2 := constants_step s e
    exact ⟨h1.1.trans h2.1, h1.2.trans h2.2⟩

/-- ... where `max_cycle_no` is what the constructor was given. -/
theorem C23_max_cycle (maxNumber maxCycle : Nat) (es : List Event) (c : Nat) :
    uses c ((St.init maxNumber maxCycle).run es).log ≤ max 1 maxCycle := by
  obtain ⟨_, _, h, _⟩ := C23_life_cycle maxNumber maxCycle es c
  rw [(constants_run _ es).1] at h
  exact h

theorem bound_step (s : St) (e : Event) (hc : s.cap > 0) (h : s.q.length ≤ s.cap) : (s.step e).q.length ≤ s.cap := by
  cases e with
  | call t k =>
    simp only [St.step]; split
    · cases k <;> simp only [St.call] <;> (try split) <;> simpa [St.goto, St.note] using h
    · exact h
  | run t ok =>
    simp only [St.step, St.run1]
    repeat' split
    all_goals simp_all [St.goto, St.note]
    all_goals omega

/-- **C23, idle connections (partial).** There are never more idle connections than the positive `max_number` given to the constructor.  Missing: `max_number` not positive or changed
later (see `C23_max_number_violates`). -/
theorem C23_idle_partial (maxNumber maxCycle : Nat) (hm : maxNumber > 0) (es : List Event) :
    ((St.init maxNumber maxCycle).run es).q.length ≤ maxNumber := by
  have : ∀ (es : List Event) (s : St), s.cap > 0 → s.q.length ≤ s.cap → (s.run es).q.length ≤ s.cap := by
    intro es
    induction es with
    | nil => intro s _ h; exact h
    | cons e es ih =>
      intro s hc h
      have h1 := bound_step s e hc h
      have h2 := (constants_step s e).2
      have := ih (s.step e) (by omega) (by omega)
      rw [h2] at this
      exact this
  exact this es (St.init maxNumber maxCycle) hm (by simp [St.init])

/-- two threads use the pool of one connection: the second is torn down at its release -/
def exEvents : List Event :=
  [.call 0 .acquire, .run 0 true, .run 0 true, .run 0 true, .call 1 .acquire, .run 1 true, .run 1 true, .run 1 true,
   .call 0 (.release 0), .run 0 true, .run 0 true, .call 1 (.release 1), .run 1 true, .run 1 true, .run 1 true, .run 1 true]

example : ((St.init 1 5).run exEvents).log = [.handed 0 0, .handed 1 1, .released 0 0, .released 1 1, .torn 1] ∧
    ((St.init 1 5).run exEvents).q = [0] := by decide
/-- idle connections are handed out in the order they were released -/
example : ((St.init 2 5).run (exEvents ++ [.call 1 .acquire, .run 1 true, .run 1 true])).log.getLast? = some (.handed 1 0) := by decide
/-- the specification is not vacuous: a connection handed to two threads, or torn down twice, is rejected -/
example : phaseOf 0 [.handed 0 0, .handed 1 0] = none ∧ phaseOf 0 [.handed 0 0, .released 0 0, .torn 0, .torn 0] = none := by decide

/-- **C23 violated** by changing `max_number`, which "can be changed during runtime": the number of idle connections is not affected. -/
theorem C23_max_number_violates :
    ∃ es, let s := (St.init 1 5).run es; s.maxNumber = 0 ∧ s.q.length = 1 ∧ ∀ t, s.pc t = .idle := by
  refine ⟨exEvents ++ [.call 0 (.setMax 0), .call 0 .acquire, .run 0 true, .run 0 true, .call 0 (.release 0), .run 0 true, .run 0 true], by decide, by decide, ?_⟩
  intro t
  match t with
  | 0 => decide
  | 1 => decide
  | n + 2 => rfl

/-! ## After close -/

theorem closed_step (s : St) (e : Event) (h : s.terminating = true) : (s.step e).terminating = true := by
  cases e with
  | call t k =>
    simp only [St.step]; split
    · cases k <;> simp only [St.call] <;> (try split) <;> simp_all [St.goto, St.note]
    · exact h
  | run t ok =>
    simp only [St.step, St.run1]
    repeat' split
    all_goals simp_all [St.goto, St.note]

theorem closed_inv_step (s : St) (e : Event) (h : s.closed = true → s.terminating = true) : (s.step e).closed = true → (s.step e).terminating = true := by
  cases e with
  | call t k =>
    simp only [St.step]; split
    · cases k <;> simp only [St.call] <;> (try split) <;> simp_all [St.goto, St.note]
    · exact h
  | run t ok =>
    simp only [St.step, St.run1]
    repeat' split
    all_goals simp_all [St.goto, St.note]

/-- **C23, after close (partial).** After any call of `close` (even one still running), every later call of `acquire_connection` raises RuntimeError and hands out nothing.  Missing: an `acquire_connection` that had begun (see
`C23_close_race_violates`) and connections released later (see `C23_release_after_close_violates`). -/
theorem C23_closed_partial (maxNumber maxCycle : Nat) (es es' : List Event) (t u : Nat) :
    let s := (St.init maxNumber maxCycle).run es
    let s' := (s.step (.call t .close)).run es'
    s.pc t = .idle → s'.pc u = .idle → s'.step (.call u .acquire) = s'.note (.raised u .runtimeError) := by
  intro s s' ht hu
  have hcl : s.closed = true → s.terminating = true := by
    have : ∀ (es : List Event) (s : St), (s.closed = true → s.terminating = true) → ((s.run es).closed = true → (s.run es).terminating = true) := by
      intro es
      induction es with
      | nil => intro s h; exact h
      | cons e es ih => intro s h; exact ih _ (closed_inv_step s e h)
    exact this es _ (by simp [St.init])
  have h1 : (s.step (.call t .close)).terminating = true := by
    simp only [St.step, if_pos ht, St.call]
    split
    · rename_i hc; exact hcl hc
    · rfl
  have h2 : ∀ (es : List Event) (s : St), s.terminating = true → (s.run es).terminating = true := by
    intro es
    induction es with
    | nil => intro s h; exact h
    | cons e es ih => intro s h; exact ih _ (closed_step s e h)
  have h3 := h2 es' _ h1
  simp only [St.step, if_pos hu, St.call]
  exact if_pos h3

example : ((St.init 1 5).run (exEvents ++ [.call 0 .close, .run 0 true, .call 1 .acquire])).log.getLast? = some (.raised 1 .runtimeError) := by decide

theorem inv_loop_alone (s : St) (t : Nat) (h : Inv s) (hf : FailInv s) (hp : s.pc t = .invLoop) (q : List Nat) (hq : s.q = q) :
    ∃ n, let s' := s.run (List.replicate n (.run t true)); s'.q = [] ∧ s'.mon = none ∧ s'.pc t = .idle ∧
      (∀ c ∈ q, phaseOf c s'.log = some .torn) ∧ (∀ u, u ≠ t → s'.pc u = s.pc u) ∧ s'.held = s.held := by
  induction q generalizing s with
  | nil =>
    refine ⟨1, ?_⟩
    have : s.run (List.replicate 1 (.run t true)) = { s with mon := none }.goto t .idle := by
      simp [List.replicate, St.run, St.step, St.run1, hp, hq]
    rw [this]
    exact ⟨hq, rfl, upd_same _ _ _, by simp, fun u hu => upd_other _ _ hu, rfl⟩
  | cons d q ih =>
    -- one turn of the loop
    obtain ⟨pl, hpl⟩ := h d
    have := hpl.place_of_q (by simp [hq])
    subst this
    obtain ⟨n, hn, _, _, hph⟩ := hpl.data
    have e1 : s.step (.run t true) = s.goto t .invGet := by simp [St.step, St.run1, hp, hq]
    have e2 : (s.goto t .invGet).step (.run t true) = { s with q := q }.goto t (.invTear d) := by
      have : (s.goto t .invGet).pc t = .invGet := upd_same _ _ _
      simp only [St.step, St.run1, this]
      simp [St.goto, hq, upd_upd]
    have e3 : ({ s with q := q }.goto t (.invTear d)).step (.run t true) =
        ({ s with q := q, times := upd s.times d none }.note (.torn d)).goto t .invLoop := by
      have : ({ s with q := q }.goto t (.invTear d)).pc t = .invTear d := upd_same _ _ _
      simp only [St.step, St.run1, this]
      simp [St.goto, St.note, hn, upd_upd]
    obtain ⟨i1, f1⟩ := inv_step _ (.run t true) (inv_step _ (.run t true) (inv_step s (.run t true) ⟨h, hf⟩))
    rw [e1, e2, e3] at i1 f1
    obtain ⟨m, hm⟩ := ih _ i1 f1 (upd_same _ _ _) rfl
    refine ⟨m + 3, ?_⟩
    have er : s.run (List.replicate (m + 3) (.run t true)) =
        (({ s with q := q, times := upd s.times d none }.note (.torn d)).goto t .invLoop).run (List.replicate m (.run t true)) := by
      rw [show List.replicate (m + 3) (Event.run t true) = .run t true :: .run t true :: .run t true :: List.replicate m (.run t true) from rfl]
      simp only [St.run, e1, e2, e3]
    rw [er]
    obtain ⟨a1, a2, a3, a4, a5, a6⟩ := hm
    refine ⟨a1, a2, a3, ?_, ?_, a6⟩
    · intro c hc
      rcases List.mem_cons.1 hc with rfl | hc
      · -- torn down stays torn down
        have hlog : ∀ (m : Nat) (s : St), Inv s ∧ FailInv s → phaseOf c s.log = some .torn →
            phaseOf c (s.run (List.replicate m (.run t true))).log = some .torn := by
          intro m
          induction m with
          | zero => intro s _ h; exact h
          | succ m ih =>
            intro s hi h
            refine ih (s.step (.run t true)) (inv_step s _ hi) ?_
            have hlog1 : ∃ ev, (s.step (.run t true)).log = s.log ++ ev := by
              simp only [St.step, St.run1]
              repeat' split
              all_goals first | exact ⟨[], (List.append_nil _).symm⟩ | exact ⟨[_], rfl⟩ | exact ⟨_, List.append_assoc _ _ _⟩
            obtain ⟨ev, hev⟩ := hlog1
            obtain ⟨ph, hph, _⟩ := (inv_step s (.run t true) hi).1.cases c
            rw [hph]
            rw [hev] at hph
            have hstuck : ∀ (ev : List Ev) , (ev.foldl (fun p e => p.bind (fun p => p.next c e)) (some Phase.torn)) = some Phase.torn ∨
                (ev.foldl (fun p e => p.bind (fun p => p.next c e)) (some Phase.torn)) = none := by
              intro ev
              have hnone : ∀ ev : List Ev, (ev.foldl (fun p e => p.bind (fun p => p.next c e)) (none : Option Phase)) = none := by
                intro ev; induction ev with
                | nil => rfl
                | cons e ev ih => simpa using ih
              induction ev with
              | nil => exact Or.inl rfl
              | cons e ev ih =>
                rw [List.foldl_cons]
                have : (some Phase.torn).bind (fun p => p.next c e) = some .torn ∨ (some Phase.torn).bind (fun p => p.next c e) = none := by
                  cases e <;> simp [Phase.next] <;> omega
                rcases this with h1 | h1
                · rw [h1]; exact ih
                · rw [h1]; exact Or.inr (hnone ev)
            unfold phaseOf at hph h
            rw [List.foldl_append, h] at hph
            rcases hstuck ev with h1 | h1
            · rw [h1] at hph; exact hph.symm
            · rw [h1] at hph; cases hph
        refine hlog m _ ⟨i1, f1⟩ ?_
        simp only [St.goto, St.note, phaseOf_append, hph]
        simp [Phase.next]
      · exact a4 c hc
    · intro u hu
      rw [a5 u hu]
      exact upd_other _ _ hu

/-- **C23, close tears down.** In every reachable state in which no thread is inside the monitor: a call of the first `close` (or of `invalidate`) that runs with no other thread in between returns, leaves no
idle connections, and every connection that was idle is torn down (once, by `C23_life_cycle`). -/
theorem C23_close_tears_down (maxNumber maxCycle : Nat) (es : List Event) (t : Nat) (k : Call) :
    let s := (St.init maxNumber maxCycle).run es
    s.pc t = .idle → s.mon = none → (k = .invalidate ∨ (k = .close ∧ s.closed = false)) →
    ∃ n, let s' := (s.step (.call t k)).run (List.replicate n (.run t true))
      s'.q = [] ∧ s'.mon = none ∧ s'.pc t = .idle ∧ (∀ c ∈ s.q, phaseOf c s'.log = some .torn) := by
  intro s hp hm hk
  have hI := inv_run _ es (inv_init maxNumber maxCycle)
  have hI1 := inv_step s (.call t k) hI
  have e1 : (s.step (.call t k)).pc t = .invEnter ∧ (s.step (.call t k)).mon = none ∧ (s.step (.call t k)).q = s.q := by
    rcases hk with rfl | ⟨rfl, hc⟩
    · simp only [St.step, if_pos hp, St.call]; exact ⟨upd_same _ _ _, hm, rfl⟩
    · simp only [St.step, if_pos hp, St.call, hc, Bool.false_eq_true, if_false]; exact ⟨upd_same _ _ _, hm, rfl⟩
  generalize hs1 : s.step (.call t k) = s1 at *
  have hI2 := inv_step s1 (.run t true) hI1
  have e2 : s1.step (.run t true) = { s1 with mon := some t }.goto t .invLoop := by
    simp [St.step, St.run1, e1.1, e1.2.1]
  obtain ⟨n, a1, a2, a3, a4, _⟩ := inv_loop_alone (s1.step (.run t true)) t hI2.1 hI2.2 (by rw [e2]; exact upd_same _ _ _) s.q (by rw [e2]; exact e1.2.2)
  exact ⟨n + 1, a1, a2, a3, a4⟩

example : ((((St.init 1 5).run exEvents).step (.call 0 .close)).run (List.replicate 5 (.run 0 true))).log =
    [.handed 0 0, .handed 1 1, .released 0 0, .released 1 1, .torn 1, .torn 0] := by decide

/-- **C23 violated.** A connection is handed out after `close` returned, by a call of `acquire_connection` that had checked before. -/
theorem C23_close_race_violates :
    ∃ es, ((St.init 1 5).run es).pc 1 = .idle ∧ ((St.init 1 5).run es).closed = true ∧ ((St.init 1 5).run es).log = [] ∧
      (((St.init 1 5).run es).run [.run 0 true, .run 0 true, .run 0 true]).log = [.handed 0 0] :=
  ⟨[.call 0 .acquire, .call 1 .close, .run 1 true, .run 1 true], by decide⟩

/-- **C23 violated.** A connection released after `close` becomes idle and is never torn down: closing again does nothing. -/
theorem C23_release_after_close_violates :
    ∃ es, let s := (St.init 1 5).run es
      s.closed = true ∧ s.q = [0] ∧ (∀ t, s.pc t = .idle) ∧ ∀ t, s.step (.call t .close) = s := by
  refine ⟨[.call 0 .acquire, .run 0 true, .run 0 true, .run 0 true, .call 1 .close, .run 1 true, .run 1 true, .call 0 (.release 0), .run 0 true, .run 0 true], by decide, by decide, ?_, ?_⟩
  · intro t
    match t with
    | 0 => decide
    | 1 => decide
    | n + 2 => rfl
  · intro t
    match t with
    | 0 => rfl
    | 1 => rfl
    | n + 2 => rfl

/-! ## C54: calls return -/

/-- the events considered: no `invalidate` or `close`, no `with pool`, `max_number` stays positive -/
def Plain : Event → Prop
  | .call _ .invalidate => False
  | .call _ .close => False
  | .call _ .enter => False
  | .call _ (.setMax n) => n > 0
  | _ => True

def PlainInv (s : St) : Prop :=
  s.mon = none ∧ s.maxNumber > 0 ∧ ∀ t, s.pc t ≠ .invEnter ∧ s.pc t ≠ .invLoop ∧ s.pc t ≠ .invGet ∧ ∀ c, s.pc t ≠ .invTear c

theorem plain_goto {s s' : St} (h : PlainInv s) {t : Nat} {p : Pc} (h1 : s'.mon = none) (h2 : s'.maxNumber > 0) (h3 : s'.pc = upd s.pc t p)
    (h4 : p ≠ .invEnter ∧ p ≠ .invLoop ∧ p ≠ .invGet ∧ ∀ c, p ≠ .invTear c) : PlainInv s' := by
  refine ⟨h1, h2, fun u => ?_⟩
  rw [h3]; unfold upd; split
  · exact h4
  · exact h.2.2 u

theorem plain_step (s : St) (e : Event) (he : Plain e) (h : PlainInv s) : PlainInv (s.step e) := by
  obtain ⟨hm, hn, hp⟩ := id h
  cases e with
  | call t k =>
    simp only [St.step]
    split
    · cases k with
      | acquire => simp only [St.call]; split; exact ⟨hm, hn, hp⟩; exact plain_goto h (t := t) (p := .acqGet) hm hn rfl (by simp)
      | release c => simp only [St.call]; split; exact plain_goto h (t := t) (p := .relTest c) hm hn rfl (by simp); exact h
      | fail c => simp only [St.call]; split; exact plain_goto h (t := t) (p := .failSet c) hm hn rfl (by simp); exact h
      | invalidate => exact absurd he (by simp [Plain])
      | close => exact absurd he (by simp [Plain])
      | setMax n => exact ⟨hm, he, hp⟩
      | enter => exact absurd he (by simp [Plain])
      | exit => simp only [St.call]; split; exact ⟨rfl, hn, hp⟩; exact h
    · exact h
  | run t ok =>
    have ht := hp t
    simp only [St.step, St.run1]
    cases hpc : s.pc t with
    | idle => exact h
    | acqGet => dsimp only; split; exact plain_goto h (t := t) (p := .acqMon) hm hn rfl (by simp); rename_i c q _; exact plain_goto h (t := t) (p := .acqCount c) hm hn rfl (by simp)
    | acqMon =>
      dsimp only; rw [hm]; dsimp only
      split
      · split; exact h; rename_i c q _; exact plain_goto h (t := t) (p := .acqCount c) rfl hn rfl (by simp)
      · split; exact plain_goto h (t := t) (p := .acqCount s.next) rfl hn rfl (by simp); exact plain_goto h (t := t) (p := .idle) hm hn rfl (by simp)
    | acqCount c => dsimp only; rw [hm]; exact plain_goto h (t := t) (p := .idle) rfl hn rfl (by simp)
    | relTest c =>
      dsimp only; split
      · exact plain_goto h (t := t) (p := .idle) hm hn rfl (by simp)
      · split
        · exact plain_goto h (t := t) (p := .killDel c) hm hn rfl (by simp)
        · exact plain_goto h (t := t) (p := .relPut c) hm hn rfl (by simp)
    | relPut c => dsimp only; split; exact plain_goto h (t := t) (p := .killDel c) hm hn rfl (by simp); exact plain_goto h (t := t) (p := .idle) hm hn rfl (by simp)
    | killDel c =>
      dsimp only; rw [hm]; dsimp only; split
      · exact plain_goto h (t := t) (p := .idle) hm hn rfl (by simp)
      · exact plain_goto h (t := t) (p := .killTear c) rfl hn rfl (by simp)
    | killTear c => exact plain_goto h (t := t) (p := .idle) hm hn rfl (by simp)
    | failSet c => dsimp only; rw [hm]; exact plain_goto h (t := t) (p := .idle) rfl hn rfl (by simp)
    | invEnter => exact absurd hpc ht.1
    | invLoop => exact absurd hpc ht.2.1
    | invGet => exact absurd hpc ht.2.2.1
    | invTear c => exact absurd hpc (ht.2.2.2 c)

/-- how many steps a thread needs at most to end its call -/
def need : Pc → Nat
  | .idle => 0
  | .acqGet => 3
  | .acqMon => 2
  | .acqCount _ => 1
  | .relTest _ => 4
  | .relPut _ => 3
  | .killDel _ => 2
  | .killTear _ => 1
  | .failSet _ => 1
  | _ => 0

theorem need_step (s : St) (h : PlainInv s) (t : Nat) (ok : Bool) (hp : s.pc t ≠ .idle) :
    need ((s.step (.run t ok)).pc t) < need (s.pc t) := by
  obtain ⟨hm, hn, hpc⟩ := h
  have ht := hpc t
  simp only [St.step, St.run1]
  cases hc : s.pc t with
  | idle => exact absurd hc hp
  | acqGet => dsimp only; split <;> simp [St.goto, upd_same, need]
  | acqMon =>
    dsimp only; rw [hm]; dsimp only
    split
    · rename_i hlen
      split
      · rename_i hq; rw [hq] at hlen; simp at hlen; omega
      · simp [St.goto, upd_same, need]
    · split <;> simp [St.goto, upd_same, need]
  | acqCount c => dsimp only; rw [hm]; simp [St.goto, upd_same, need]
  | relTest c => dsimp only; split; · simp [St.goto, upd_same, need]
                 · split <;> simp [St.goto, upd_same, need]
  | relPut c => dsimp only; split <;> simp [St.goto, upd_same, need]
  | killDel c => dsimp only; rw [hm]; dsimp only; split <;> simp [St.goto, upd_same, need]
  | killTear c => simp [St.goto, upd_same, need]
  | failSet c => dsimp only; rw [hm]; simp [St.goto, upd_same, need]
  | invEnter => exact absurd hc ht.1
  | invLoop => exact absurd hc ht.2.1
  | invGet => exact absurd hc ht.2.2.1
  | invTear c => exact absurd hc (ht.2.2.2 c)

theorem other_pc (s : St) (e : Event) (t : Nat) (h : match e with | .call u _ => u ≠ t | .run u _ => u ≠ t) :
    (s.step e).pc t = s.pc t := by
  cases e with
  | call u k =>
    have hu : t ≠ u := fun h' => h h'.symm
    simp only [St.step]; split
    · cases k <;> simp only [St.call] <;> (try split) <;> simp [St.goto, St.note, upd, hu]
    · rfl
  | run u ok =>
    have hu : t ≠ u := fun h' => h h'.symm
    simp only [St.step, St.run1]
    repeat' split
    all_goals simp [St.goto, St.note, upd, hu]

/-- the number of turns a thread gets -/
def turns (t : Nat) (es : List Event) : Nat :=
  (es.filter (fun e => match e with | .run u _ => u = t | _ => false)).length

theorem need_run (s : St) (h : PlainInv s) (t : Nat) (es : List Event) (hes : ∀ e ∈ es, Plain e)
    (hno : ∀ e ∈ es, ∀ k, e ≠ .call t k) : need ((s.run es).pc t) ≤ need (s.pc t) - turns t es ∧
      (s.pc t = .idle → (s.run es).pc t = .idle) := by
  induction es generalizing s with
  | nil => exact ⟨by simp [turns, St.run], id⟩
  | cons e es ih =>
    have hp := plain_step s e (hes e (by simp)) h
    obtain ⟨i1, i2⟩ := ih (s.step e) hp (fun e he => hes e (by simp [he])) (fun e he => hno e (by simp [he]))
    have key : need ((s.step e).pc t) ≤ need (s.pc t) - turns t [e] ∧ (s.pc t = .idle → (s.step e).pc t = .idle) := by
      cases e with
      | call u k =>
        have hu : u ≠ t := by rintro rfl; exact hno _ (by simp) k rfl
        rw [other_pc s _ t hu]; exact ⟨by simp [turns], id⟩
      | run u ok =>
        by_cases hu : u = t
        · subst hu
          by_cases hi : s.pc u = .idle
          · have : s.step (.run u ok) = s := by simp [St.step, St.run1, hi]
            rw [this]; exact ⟨by simp [hi, need], id⟩
          · have := need_step s h u ok hi
            exact ⟨by simp [turns]; omega, fun hc => absurd hc hi⟩
        · rw [other_pc s _ t hu]; exact ⟨by simp [turns, hu], id⟩
    have hsplit : turns t (e :: es) = turns t [e] + turns t es := by
      unfold turns; rw [← List.length_append, ← List.filter_append]; rfl
    refine ⟨?_, fun hc => i2 (key.2 hc)⟩
    show need ((s.step e).run es |>.pc t) ≤ _
    rw [hsplit]; omega

/-- **C54 (partial).** As long as nobody calls `invalidate` or `close` or uses the pool in a `with` statement, and `max_number` is positive: from every reachable state, however the other threads run and whatever they call, a
thread in the middle of a call has returned after it has had four turns. -/
theorem C54_returns_partial (maxNumber maxCycle : Nat) (hm : maxNumber > 0) (es es' : List Event) (hes : ∀ e ∈ es, Plain e) (hes' : ∀ e ∈ es', Plain e)
    (t : Nat) (hno : ∀ e ∈ es', ∀ k, e ≠ .call t k) (hturn : turns t es' ≥ 4) :
    (((St.init maxNumber maxCycle).run es).run es').pc t = .idle := by
  have h0 : PlainInv (St.init maxNumber maxCycle) := ⟨rfl, hm, fun t => by simp [St.init]⟩
  have h1 : ∀ (es : List Event) (s : St), (∀ e ∈ es, Plain e) → PlainInv s → PlainInv (s.run es) := by
    intro es
    induction es with
    | nil => intro s _ h; exact h
    | cons e es ih => intro s he h; exact ih _ (fun e h => he e (by simp [h])) (plain_step s e (he e (by simp)) h)
  have h2 := h1 es _ hes h0
  have h3 := h1 es' _ hes' h2
  have h4 := (need_run _ h2 t es' hes' hno).1
  have h5 : ∀ p, need p ≤ 4 := by intro p; cases p <;> simp [need]
  have h6 := h5 (((St.init maxNumber maxCycle).run es).pc t)
  have h7 : need ((((St.init maxNumber maxCycle).run es).run es').pc t) = 0 := by omega
  have h8 := h3.2.2 t
  cases hc : (((St.init maxNumber maxCycle).run es).run es').pc t <;> simp_all [need]

example : (∀ e ∈ exEvents, Plain e) ∧ turns 0 [.run 1 true, .run 0 true, .run 0 true, .run 1 false, .run 0 true, .run 0 true] ≥ 4 := by
  refine ⟨?_, by decide⟩
  intro e he
  simp only [exEvents, List.mem_cons, List.not_mem_nil, or_false] at he
  rcases he with rfl | rfl | rfl | rfl | rfl | rfl | rfl | rfl | rfl | rfl | rfl | rfl | rfl | rfl | rfl | rfl <;> trivial

/-- nothing more happens if two threads are stuck and make no new call -/
theorem stuck (s : St) (es : List Event) (h : ∀ e ∈ es, s.step e = s) : s.run es = s := by
  induction es with
  | nil => rfl
  | cons e es ih =>
    show (s.step e).run es = s
    rw [h e (by simp)]
    exact ih (fun e he => h e (by simp [he]))

/-- **C54 violated.** `invalidate` sees one idle connection, `acquire_connection` takes it, and `invalidate` waits for another one while holding the monitor, which `acquire_connection` then needs: both
threads wait for ever (unless some third thread releases a connection). -/
theorem C54_invalidate_violates :
    ∃ es, let s := (St.init 1 5).run es
      s.pc 0 ≠ .idle ∧ s.pc 1 ≠ .idle ∧ ∀ es', (∀ e ∈ es', ∃ t ok, e = .run t ok) → s.run es' = s := by
  refine ⟨[.call 0 .acquire, .run 0 true, .run 0 true, .run 0 true, .call 0 (.release 0), .run 0 true, .run 0 true,
    .call 1 .invalidate, .run 1 true, .run 1 true, .call 0 .acquire, .run 0 true], by decide, by decide, ?_⟩
  intro es' hes
  apply stuck
  intro e he
  obtain ⟨t, ok, rfl⟩ := hes e he
  match t with
  | 0 => rfl
  | 1 => rfl
  | n + 2 => rfl

/-- **C54 violated.** With `max_number` 0 the first `acquire_connection` never returns: it looks for an idle connection for ever. -/
theorem C54_zero_violates :
    ∃ es, let s := (St.init 0 5).run es
      s.pc 0 ≠ .idle ∧ ∀ es', (∀ e ∈ es', ∃ t ok, e = .run t ok) → s.run es' = s := by
  refine ⟨[.call 0 .acquire, .run 0 true], by decide, ?_⟩
  intro es' hes
  apply stuck
  intro e he
  obtain ⟨t, ok, rfl⟩ := hes e he
  match t with
  | 0 => rfl
  | n + 1 => rfl

/-- **C54 violated.** `with pool:` takes the pool's own lock (and does not close the pool): a call of `acquire_connection` inside never returns. -/
theorem C54_context_manager_violates :
    ∃ es, let s := (St.init 1 5).run es
      s.pc 0 ≠ .idle ∧ ∀ es', (∀ e ∈ es', ∃ t ok, e = .run t ok) → s.run es' = s := by
  refine ⟨[.call 0 .enter, .call 0 .acquire, .run 0 true], by decide, ?_⟩
  intro es' hes
  apply stuck
  intro e he
  obtain ⟨t, ok, rfl⟩ := hes e he
  match t with
  | 0 => rfl
  | n + 1 => rfl

end Verif.Pool
