import Verif.Conc.MonitorProps
import Verif.Py.Run
import Verif.Ids.Threads
/-!
# C20 for every class protected by a monitor

If the body of each method, run without interruption, does what a step of a sequential object does, then under every schedule the calls return what that
object returns for some order of the calls that keeps the order of each thread.
-/
namespace Verif.Conc
open Verif

section
variable {S lam O R : Type _}

/-- the calls of thread `t` with their results, of calls made one after another.  (Specification.) -/
def resultsOf (t : Nat) : List ((Nat × O) × R) → List (O × R)
  | [] => []
  | ((u, o), r) :: rest => if u = t then (o, r) :: resultsOf t rest else resultsOf t rest

theorem serial_linear (step : S → O → S × R) (sec : O → Section S lam) (ret : lam → List (O × R))
    (hsec : ∀ o s l, (runSection (sec o) (s, l)).1 = (step s o).1 ∧ ret (runSection (sec o) (s, l)).2 = ret l ++ [(o, (step s o).2)])
    (calls : List (Nat × O)) : ∀ (v : S) (l : Nat → lam),
    (serial (calls.map (fun c => (c.1, sec c.2))) (v, l)).1 = (runOps step v (calls.map (·.2))).1 ∧
    ∀ t, ret ((serial (calls.map (fun c => (c.1, sec c.2))) (v, l)).2 t) =
      ret (l t) ++ resultsOf t (calls.zip (runOps step v (calls.map (·.2))).2) := by
  induction calls with
  | nil => intro v l; exact ⟨rfl, fun t => by simp [serial, resultsOf]⟩
  | cons c calls ih =>
    obtain ⟨u, o⟩ := c
    intro v l
    obtain ⟨h1, h2⟩ := hsec o v (l u)
    simp only [List.map_cons, serial, runOps]
    obtain ⟨h3, h4⟩ := ih (runSection (sec o) (v, l u)).1 (upd l u (runSection (sec o) (v, l u)).2)
    rw [h1] at h3 h4
    refine ⟨by rw [h1]; exact h3, fun t => ?_⟩
    rw [h1, h4 t, List.zip_cons_cons, resultsOf]
    by_cases ht : u = t
    · subst ht; rw [upd_same, h2, if_pos rfl]; simp
    · rw [upd_other _ _ (Ne.symm ht), if_neg ht]

theorem exists_calls (sec : O → Section S lam) (p : Nat → List O) : ∀ (log : List (Nat × Section S lam)) (q : Nat → List (Section S lam)),
    (∀ t, ofThread t log ++ q t = (p t).map sec) →
    ∃ calls : List (Nat × O), log = calls.map (fun x => (x.1, sec x.2)) ∧
      ∀ t, ∃ rest, (calls.filterMap (fun x => if x.1 = t then some x.2 else none)) ++ rest = p t ∧ q t = rest.map sec := by
  intro log
  induction log generalizing p with
  | nil =>
    intro q h
    refine ⟨[], rfl, fun t => ⟨p t, rfl, ?_⟩⟩
    have := h t
    simpa [ofThread] using this
  | cons x log ih =>
    obtain ⟨t, sc⟩ := x
    intro q h
    have ht := h t
    simp only [ofThread, List.filterMap_cons, if_true, List.cons_append] at ht
    cases hp : p t with
    | nil => rw [hp] at ht; cases ht
    | cons o os =>
      rw [hp, List.map_cons, List.cons.injEq] at ht
      obtain ⟨calls, h1, h2⟩ := ih (upd p t os) q (by
        intro u
        by_cases hu : u = t
        · subst hu; rw [upd_same]; exact ht.2
        · rw [upd_other _ _ hu, ← h u]
          simp [ofThread, Ne.symm hu])
      refine ⟨(t, o) :: calls, by rw [List.map_cons, ← h1, ← ht.1], ?_⟩
      intro u
      obtain ⟨rest, h3, h4⟩ := h2 u
      refine ⟨rest, ?_, h4⟩
      by_cases hu : u = t
      · subst hu
        rw [upd_same] at h3
        rw [hp, ← h3]; simp
      · rw [upd_other _ _ hu] at h3
        rw [← h3]; simp [Ne.symm hu]

/-- **C20, what calls return.** A class whose methods hold the monitor, of which each body, run alone, does one `step` of a sequential object and returns its result
(`ret` are the results returned to a thread so far).  Any number of threads make any calls; whenever nobody is inside, there is an order of the calls
made so far, with each thread's in its own order, such that the object is as after making them one after another, and every thread was returned exactly what
its calls return in that order. -/
theorem C20_linearizable (step : S → O → S × R) (sec : O → Section S lam) (ret : lam → List (O × R))
    (hsec : ∀ o s l, (runSection (sec o) (s, l)).1 = (step s o).1 ∧ ret (runSection (sec o) (s, l)).2 = ret l ++ [(o, (step s o).2)])
    (v : S) (l : Nat → lam) (hl : ∀ t, ret (l t) = []) (p : Nat → List O) (ts : List Nat)
    (hq : ∀ t, ((Sys.init v l (fun t => (p t).map sec)).run ts).inside t = none) :
    ∃ calls : List (Nat × O),
      (∀ t, ∃ rest, (calls.filterMap (fun x => if x.1 = t then some x.2 else none)) ++ rest = p t ∧
        (((Sys.init v l (fun t => (p t).map sec)).run ts).prog t = [] → rest = [])) ∧
      ((Sys.init v l (fun t => (p t).map sec)).run ts).shared = (runOps step v (calls.map (·.2))).1 ∧
      ∀ t, ret (((Sys.init v l (fun t => (p t).map sec)).run ts).locals t) =
        resultsOf t (calls.zip (runOps step v (calls.map (·.2))).2) := by
  obtain ⟨h1, h2⟩ := C20_serializable v l (fun t => (p t).map sec) ts hq
  obtain ⟨calls, h3, h4⟩ := exists_calls sec p _ _ h2
  obtain ⟨h5, h6⟩ := serial_linear step sec ret hsec calls v l
  rw [h3] at h1
  refine ⟨calls, ?_, ?_, ?_⟩
  · intro t
    obtain ⟨rest, h7, h8⟩ := h4 t
    refine ⟨rest, h7, fun h => ?_⟩
    rw [h] at h8
    simpa using h8.symm
  · rw [← h5, ← h1]
  · intro t
    have h7 := h6 t
    rw [hl t, List.nil_append, ← h1] at h7
    exact h7

/-- **C20, what calls return, at every moment.** Likewise while a call is going on: there is an order of the calls begun so far, with each thread's in its own order and
the one going on last, such that every thread that is not in a call was returned exactly what its calls return in that order. -/
theorem C20_linearizable_always (step : S → O → S × R) (sec : O → Section S lam) (ret : lam → List (O × R))
    (hsec : ∀ o s l, (runSection (sec o) (s, l)).1 = (step s o).1 ∧ ret (runSection (sec o) (s, l)).2 = ret l ++ [(o, (step s o).2)])
    (v : S) (l : Nat → lam) (hl : ∀ t, ret (l t) = []) (p : Nat → List O) (ts : List Nat) :
    let s := (Sys.init v l (fun t => (p t).map sec)).run ts
    ∃ calls : List (Nat × O),
      (∀ t, ∃ rest, (calls.filterMap (fun x => if x.1 = t then some x.2 else none)) ++ rest = p t ∧ rest.length = (s.prog t).length) ∧
      (∀ t, s.inside t ≠ none → ∃ done o, calls = done ++ [(t, o)]) ∧
      ∀ t, s.inside t = none → ret (s.locals t) = resultsOf t (calls.zip (runOps step v (calls.map (·.2))).2) := by
  intro s
  have hinv : Inv v l (fun t => (p t).map sec) s := inv_run ts (inv_init v l _)
  obtain ⟨calls, h3, h4⟩ := exists_calls sec p _ _ hinv.order
  obtain ⟨h5, h6⟩ := serial_linear step sec ret hsec calls v l
  refine ⟨calls, ?_, ?_, ?_⟩
  · intro t
    obtain ⟨rest, h7, h8⟩ := h4 t
    exact ⟨rest, h7, by rw [h8, List.length_map]⟩
  · intro t ht
    cases hi : s.inside t with
    | none => exact absurd hi ht
    | some ms =>
      obtain ⟨done, sc, h1, -, -⟩ := hinv.held t ms hi
      rw [h1] at h3
      have hne : calls ≠ [] := by rintro rfl; simp at h3
      refine ⟨calls.dropLast, (calls.getLast hne).2, ?_⟩
      have e := List.dropLast_concat_getLast hne
      rw [← e, List.map_append] at h3
      have h9 := (List.append_inj' h3 rfl).2
      simp only [List.map_cons, List.map_nil, List.cons.injEq, Prod.mk.injEq, and_true] at h9
      conv => lhs; rw [← e]
      congr 2
      exact Prod.ext h9.1.symm rfl
  · intro u hu
    have h7 := h6 u
    rw [hl u, List.nil_append] at h7
    rw [← h7, ← h3]
    cases hk : s.lock with
    | none => rw [← hinv.free hk]
    | some t =>
      have hin := (hinv.excl t).2 hk
      cases hi : s.inside t with
      | none => exact absurd hi hin
      | some ms =>
        obtain ⟨done, sc, h1, -, h2⟩ := hinv.held t ms hi
        have hut : u ≠ t := by rintro rfl; rw [hu] at hi; cases hi
        rw [h1, serial_append]
        simp only [serial]
        rw [upd_other _ _ hut, h2 u hut]

end

/-- the methods of SequentialIssuer, split into single accesses, do what `istep` does, so that C18 for calls made one after another is C18 for threads -/
example (o : Ids.IOp) (s : Int) (l : Ids.Loc) : (runSection o.section (s, l)).1 = (Ids.istep s o).1 ∧
    (runSection o.section (s, l)).2.returned = l.returned ++ [(o, (Ids.istep s o).2)] := by
  cases o with
  | issue => exact ⟨rfl, rfl⟩
  | noLessThan x =>
    by_cases h : s > x <;>
      simp [runSection, Ids.IOp.section, Ids.check, Ids.assign, Ids.load, Ids.read, Ids.store, Ids.give, Ids.istep, h]

example : resultsOf 1 [((0, 'a'), 5), ((1, 'b'), 6), ((0, 'c'), 7), ((1, 'd'), 8)] = [('b', 6), ('d', 8)] := rfl

end Verif.Conc
