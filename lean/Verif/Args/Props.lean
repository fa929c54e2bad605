import Verif.Args.Bind
/-!
# get_arguments and call_with_arguments: C81, C82
-/
namespace Verif.Args

/-- the parameter as `inspect` gives it -/
def toParam (q : (Nat × Option Nat) × Bool) : Param := ⟨q.1.1, if q.2 then .posOrKw else .posOnly, q.1.2⟩

theorem toParam_kind (q : (Nat × Option Nat) × Bool) : (toParam q).kind ≠ .varPos := by
  unfold toParam; cases q.2 <;> simp

theorem positional_map (s : Sig) : s.positional.map toParam = params .posOnly s.posOnly ++ params .posOrKw s.pos := by
  unfold Sig.positional params
  rw [List.map_append, List.map_map, List.map_map]
  rfl

theorem params_eq (s : Sig) :
    s.params = s.positional.map toParam ++ (star .varPos s.varPos ++ (params .kwOnly s.kwOnly ++ star .varKw s.varKw)) := by
  rw [positional_map]; unfold Sig.params; simp

theorem filter_params (f : Param → Bool) (k : Kind) (l : List (Nat × Option Nat)) (b : Bool) (h : ∀ p : Param, p.kind = k → f p = b) :
    (params k l).filter f = if b then params k l else [] := by
  cases b with
  | true =>
    rw [if_pos rfl, List.filter_eq_self]
    intro p hp
    unfold params at hp
    obtain ⟨q, _, rfl⟩ := List.mem_map.1 hp
    exact h _ rfl
  | false =>
    rw [if_neg (by simp), List.filter_eq_nil_iff]
    intro p hp
    unfold params at hp
    obtain ⟨q, _, rfl⟩ := List.mem_map.1 hp
    rw [h _ rfl]; simp

theorem filter_positional (s : Sig) :
    s.params.filter (fun p => p.kind.positional) = s.positional.map toParam ++ star .varPos s.varPos := by
  unfold Sig.params
  rw [List.filter_append, List.filter_append, List.filter_append, List.filter_append,
    filter_params _ .posOnly _ true (by intro p h; rw [h]; rfl), filter_params _ .posOrKw _ true (by intro p h; rw [h]; rfl),
    filter_params _ .kwOnly _ false (by intro p h; rw [h]; rfl), positional_map]
  have h1 : (star .varPos s.varPos).filter (fun p => p.kind.positional) = star .varPos s.varPos := by
    cases s.varPos <;> simp [star, Kind.positional]
  have h2 : (star .varKw s.varKw).filter (fun p => p.kind.positional) = [] := by
    cases s.varKw <;> simp [star, Kind.positional]
  rw [h1, h2]; simp

/-! ### The first loop -/

theorem posLoop_star (v : Option Nat) (args : List Nat) (L : Locals) (left : Nat → Bool) :
    posLoop false (star .varPos v) args L left = (match v with | none => L | some n => put L n (.many args), left) := by
  cases v <;> simp [star, posLoop]

theorem posLoop_cons (q : (Nat × Option Nat) × Bool) (ps : List Param) (args : List Nat) (L : Locals) (left : Nat → Bool) :
    posLoop false (toParam q :: ps) args L left =
      match args with
      | a :: args => posLoop false ps args (put L q.1.1 (.one a)) (fun n => if n = q.1.1 then false else left n)
      | [] =>
        match q.1.2 with
        | none => (L, left)
        | some d => posLoop false ps [] (put L q.1.1 (.one d)) left := by
  rw [posLoop.eq_def]
  dsimp only
  rw [if_neg (by simp [toParam_kind])]
  rfl

theorem posLoop_frame (v : Option Nat) (n : Nat) (qs : List ((Nat × Option Nat) × Bool)) :
    ∀ (args : List Nat) (L : Locals) (left : Nat → Bool), n ∉ qs.map (·.1.1) →
      (posLoop false (qs.map toParam ++ star .varPos v) args L left).2 n = left n ∧
      (v ≠ some n → (posLoop false (qs.map toParam ++ star .varPos v) args L left).1 n = L n) := by
  induction qs with
  | nil =>
    intro args L left _
    rw [List.map_nil, List.nil_append, posLoop_star]
    refine ⟨rfl, fun h => ?_⟩
    cases v with
    | none => rfl
    | some m => exact if_neg (fun e => h (by rw [e]))
  | cons q qs ih =>
    intro args L left hn
    rw [List.map_cons, List.mem_cons, not_or] at hn
    rw [List.map_cons, List.cons_append, posLoop_cons]
    cases args with
    | cons a args =>
      have := ih args (put L q.1.1 (.one a)) (fun n => if n = q.1.1 then false else left n) hn.2
      dsimp only [put] at this ⊢
      rw [if_neg hn.1, if_neg hn.1] at this
      exact this
    | nil =>
      dsimp only
      cases q.1.2 with
      | none => exact ⟨rfl, fun _ => rfl⟩
      | some d =>
        have := ih [] (put L q.1.1 (.one d)) left hn.2
        dsimp only [put] at this ⊢
        rw [if_neg hn.1] at this
        exact this

/-- a parameter for which there is a positional argument -/
theorem posLoop_arg (v : Option Nat) (qs : List ((Nat × Option Nat) × Bool)) (hnd : (qs.map (·.1.1)).Nodup)
    (hv : ∀ n, v = some n → n ∉ qs.map (·.1.1)) :
    ∀ (args : List Nat) (L : Locals) (left : Nat → Bool) (i : Nat) q a, qs[i]? = some q → args[i]? = some a →
      (posLoop false (qs.map toParam ++ star .varPos v) args L left).1 q.1.1 = some (.one a) ∧
      (posLoop false (qs.map toParam ++ star .varPos v) args L left).2 q.1.1 = false := by
  induction qs with
  | nil => intro args L left i q a h; cases h
  | cons q0 qs ih =>
    intro args L left i q a hq ha
    rw [List.map_cons, List.nodup_cons] at hnd
    have hv' : ∀ n, v = some n → n ∉ qs.map (·.1.1) := fun n h h' => hv n h (List.mem_cons_of_mem _ h')
    rw [List.map_cons, List.cons_append, posLoop_cons]
    cases args with
    | nil => simp at ha
    | cons x args =>
      cases i with
      | zero =>
        injection hq with hq
        injection ha with ha
        subst hq ha
        obtain ⟨h1, h2⟩ := posLoop_frame v q0.1.1 qs args (put L q0.1.1 (.one x)) (fun n => if n = q0.1.1 then false else left n) hnd.1
        have hne : v ≠ some q0.1.1 := fun e => hv _ e (List.mem_cons_self ..)
        refine ⟨(h2 hne).trans (if_pos rfl), h1.trans (if_pos rfl)⟩
      | succ i => exact ih hnd.2 hv' args _ _ i q a hq ha

/-- a parameter for which there is no positional argument -/
theorem posLoop_noarg (v : Option Nat) (qs : List ((Nat × Option Nat) × Bool)) (hnd : (qs.map (·.1.1)).Nodup)
    (hv : ∀ n, v = some n → n ∉ qs.map (·.1.1)) :
    ∀ (args : List Nat) (L : Locals) (left : Nat → Bool) (i : Nat) q, qs[i]? = some q → args.length ≤ i →
      (posLoop false (qs.map toParam ++ star .varPos v) args L left).2 q.1.1 = left q.1.1 ∧
      (q.1.2 = none → (posLoop false (qs.map toParam ++ star .varPos v) args L left).1 q.1.1 = L q.1.1) ∧
      ∀ d, q.1.2 = some d → (∀ (j : Nat) q', qs[j]? = some q' → args.length ≤ j → j ≤ i → q'.1.2 ≠ none) →
        (posLoop false (qs.map toParam ++ star .varPos v) args L left).1 q.1.1 = some (.one d) := by
  induction qs with
  | nil => intro args L left i q h; cases h
  | cons q0 qs ih =>
    intro args L left i q hq ha
    rw [List.map_cons, List.nodup_cons] at hnd
    have hv' : ∀ n, v = some n → n ∉ qs.map (·.1.1) := fun n h h' => hv n h (List.mem_cons_of_mem _ h')
    rw [List.map_cons, List.cons_append, posLoop_cons]
    cases args with
    | nil =>
      dsimp only
      cases i with
      | zero =>
        injection hq with hq
        subst hq
        cases hd : q0.1.2 with
        | none => exact ⟨rfl, fun _ => rfl, fun d h => by cases h⟩
        | some d =>
          obtain ⟨h1, h2⟩ := posLoop_frame v q0.1.1 qs [] (put L q0.1.1 (.one d)) left hnd.1
          have hne : v ≠ some q0.1.1 := fun e => hv _ e (List.mem_cons_self ..)
          refine ⟨h1, (fun h => by cases h), fun d' h _ => ?_⟩
          injection h with h
          subst h
          exact (h2 hne).trans (if_pos rfl)
      | succ i =>
        have hne : q.1.1 ≠ q0.1.1 := by
          intro e
          apply hnd.1
          rw [← e]
          exact List.mem_map.2 ⟨q, List.mem_of_getElem? hq, rfl⟩
        cases hd : q0.1.2 with
        | none =>
          refine ⟨rfl, fun _ => rfl, fun d h hall => ?_⟩
          exact absurd hd (hall 0 q0 rfl (Nat.zero_le _) (Nat.zero_le _))
        | some d =>
          obtain ⟨h1, h2, h3⟩ := ih hnd.2 hv' [] (put L q0.1.1 (.one d)) left i q hq (Nat.zero_le _)
          refine ⟨h1, fun h => (h2 h).trans (if_neg hne), fun d' h hall => h3 d' h ?_⟩
          intro j q' hj _ hji
          exact hall (j + 1) q' hj (Nat.zero_le _) (Nat.succ_le_succ hji)
    | cons x args =>
      dsimp only
      cases i with
      | zero => simp at ha
      | succ i =>
        have hne : q.1.1 ≠ q0.1.1 := by
          intro e
          apply hnd.1
          rw [← e]
          exact List.mem_map.2 ⟨q, List.mem_of_getElem? hq, rfl⟩
        obtain ⟨h1, h2, h3⟩ := ih hnd.2 hv' args (put L q0.1.1 (.one x)) (fun n => if n = q0.1.1 then false else left n) i q hq
          (by simp at ha; exact ha)
        refine ⟨h1.trans (if_neg hne), fun h => (h2 h).trans (if_neg hne), fun d' h hall => h3 d' h ?_⟩
        intro j q' hj hj1 hji
        exact hall (j + 1) q' hj (by simp; exact hj1) (Nat.succ_le_succ hji)

/-- a parameter with a default and no positional argument, whether or not the loop gets there -/
theorem posLoop_default (v : Option Nat) (qs : List ((Nat × Option Nat) × Bool)) (hnd : (qs.map (·.1.1)).Nodup)
    (hv : ∀ n, v = some n → n ∉ qs.map (·.1.1)) :
    ∀ (args : List Nat) (L : Locals) (left : Nat → Bool) (i : Nat) q, qs[i]? = some q → args.length ≤ i → ∀ d, q.1.2 = some d →
      (posLoop false (qs.map toParam ++ star .varPos v) args L left).1 q.1.1 = some (.one d) ∨
      (posLoop false (qs.map toParam ++ star .varPos v) args L left).1 q.1.1 = L q.1.1 := by
  induction qs with
  | nil => intro args L left i q h; cases h
  | cons q0 qs ih =>
    intro args L left i q hq ha d hd
    rw [List.map_cons, List.nodup_cons] at hnd
    have hv' : ∀ n, v = some n → n ∉ qs.map (·.1.1) := fun n h h' => hv n h (List.mem_cons_of_mem _ h')
    rw [List.map_cons, List.cons_append, posLoop_cons]
    cases i with
    | zero =>
      cases args with
      | cons x args => simp at ha
      | nil =>
        injection hq with hq
        subst hq
        dsimp only
        rw [hd]
        have hne : v ≠ some q0.1.1 := fun e => hv _ e (List.mem_cons_self ..)
        exact Or.inl (((posLoop_frame v q0.1.1 qs [] (put L q0.1.1 (.one d)) left hnd.1).2 hne).trans (if_pos rfl))
    | succ i =>
      have hne : q.1.1 ≠ q0.1.1 := by
        intro e
        apply hnd.1
        rw [← e]
        exact List.mem_map.2 ⟨q, List.mem_of_getElem? hq, rfl⟩
      have hput : ∀ x, put L q0.1.1 x q.1.1 = L q.1.1 := fun x => if_neg hne
      cases args with
      | nil =>
        dsimp only
        cases q0.1.2 with
        | none => exact Or.inr rfl
        | some d0 =>
          have := ih hnd.2 hv' [] (put L q0.1.1 (.one d0)) left i q hq (Nat.zero_le _) d hd
          rw [hput] at this
          exact this
      | cons x args =>
        have := ih hnd.2 hv' args (put L q0.1.1 (.one x)) (fun n => if n = q0.1.1 then false else left n) i q hq (by simp at ha; exact ha) d hd
        rw [hput] at this
        exact this

/-- the starred parameter -/
theorem posLoop_varPos (n : Nat) (qs : List ((Nat × Option Nat) × Bool)) (hn : n ∉ qs.map (·.1.1)) :
    ∀ (args : List Nat) (L : Locals) (left : Nat → Bool),
      ((∀ (j : Nat) q, qs[j]? = some q → args.length ≤ j → q.1.2 ≠ none) →
        (posLoop false (qs.map toParam ++ star .varPos (some n)) args L left).1 n = some (.many (args.drop qs.length))) ∧
      ((∃ (j : Nat) (q : (Nat × Option Nat) × Bool), qs[j]? = some q ∧ args.length ≤ j ∧ q.1.2 = none) →
        (posLoop false (qs.map toParam ++ star .varPos (some n)) args L left).1 n = L n) := by
  induction qs with
  | nil =>
    intro args L left
    rw [List.map_nil, List.nil_append, posLoop_star]
    refine ⟨fun _ => if_pos rfl, fun h => ?_⟩
    obtain ⟨j, q, h, _⟩ := h
    cases h
  | cons q0 qs ih =>
    intro args L left
    rw [List.map_cons, List.mem_cons, not_or] at hn
    rw [List.map_cons, List.cons_append, posLoop_cons]
    cases args with
    | nil =>
      dsimp only
      cases hd : q0.1.2 with
      | none =>
        refine ⟨fun h => absurd hd (h 0 q0 rfl (Nat.zero_le _)), fun _ => rfl⟩
      | some d =>
        obtain ⟨h1, h2⟩ := ih hn.2 [] (put L q0.1.1 (.one d)) left
        refine ⟨fun h => ?_, fun h => ?_⟩
        · have := h1 (fun j q hj _ => h (j + 1) q hj (Nat.zero_le _))
          simpa using this
        · obtain ⟨j, q, hj, _, hq⟩ := h
          cases j with
          | zero =>
            injection hj with hj
            subst hj
            rw [hd] at hq; cases hq
          | succ j => exact (h2 ⟨j, q, hj, Nat.zero_le _, hq⟩).trans (if_neg hn.1)
    | cons x args =>
      dsimp only
      obtain ⟨h1, h2⟩ := ih hn.2 args (put L q0.1.1 (.one x)) (fun n => if n = q0.1.1 then false else left n)
      refine ⟨fun h => ?_, fun h => ?_⟩
      · have := h1 (fun j q hj hl => h (j + 1) q hj (by simp; exact hl))
        simpa using this
      · obtain ⟨j, q, hj, hl, hq⟩ := h
        cases j with
        | zero => simp at hl
        | succ j => exact (h2 ⟨j, q, hj, by simp at hl; exact hl, hq⟩).trans (if_neg hn.1)

/-! ### The second loop -/

theorem kwLoop_cons (p : Param) (h : p.kind ≠ .varKw) (ps : List Param) (kw : Kw) (L : Locals) :
    kwLoop false (p :: ps) kw L =
      match kw p.name with
      | some v => kwLoop false ps (remove kw p.name) (put L p.name (.one v))
      | none =>
        match p.default with
        | some d => kwLoop false ps kw (put L p.name (.one d))
        | none => kwLoop false ps kw L := by
  rw [kwLoop, if_neg (by simp [h])]
  rfl

theorem kwLoop_frame (v : Option Nat) (n : Nat) (hv : v ≠ some n) (ks : List Param) (hk : ∀ p ∈ ks, p.kind ≠ .varKw) (hn : n ∉ ks.map Param.name) :
    ∀ (kw : Kw) (L : Locals), kwLoop false (ks ++ star .varKw v) kw L n = L n := by
  induction ks with
  | nil =>
    intro kw L
    rw [List.nil_append]
    cases v with
    | none => rfl
    | some m => simp [star, kwLoop, put]; intro h; exact absurd (by rw [h]) hv
  | cons p ps ih =>
    intro kw L
    rw [List.map_cons, List.mem_cons, not_or] at hn
    have ih' := ih (fun q hq => hk q (List.mem_cons_of_mem _ hq)) hn.2
    rw [List.cons_append, kwLoop_cons p (hk p (List.mem_cons_self ..))]
    split
    · rw [ih']; exact if_neg hn.1
    · split
      · rw [ih']; exact if_neg hn.1
      · exact ih' _ _

/-- the value of a parameter in the second loop -/
def kwValue (kw : Kw) (p : Param) (old : Option Bound) : Option Bound :=
  match kw p.name with
  | some v => some (.one v)
  | none =>
    match p.default with
    | some d => some (.one d)
    | none => old

theorem kwLoop_get (v : Option Nat) (ks : List Param) (hk : ∀ p ∈ ks, p.kind ≠ .varKw) (hnd : (ks.map Param.name).Nodup)
    (hv : ∀ n, v = some n → n ∉ ks.map Param.name) :
    ∀ (kw : Kw) (L : Locals) p, p ∈ ks → kwLoop false (ks ++ star .varKw v) kw L p.name = kwValue kw p (L p.name) := by
  induction ks with
  | nil => intro kw L p hp; cases hp
  | cons q ps ih =>
    intro kw L p hp
    rw [List.map_cons, List.nodup_cons] at hnd
    have hv' : ∀ n, v = some n → n ∉ ps.map Param.name := fun n h h' => hv n h (List.mem_cons_of_mem _ h')
    have hk' : ∀ p ∈ ps, p.kind ≠ .varKw := fun q hq => hk q (List.mem_cons_of_mem _ hq)
    have ih' := ih hk' hnd.2 hv'
    have hvq : v ≠ some q.name := fun e => hv _ e (List.mem_cons_self ..)
    rw [List.cons_append, kwLoop_cons q (hk q (List.mem_cons_self ..))]
    rcases List.mem_cons.1 hp with rfl | hp
    · unfold kwValue
      cases h1 : kw p.name with
      | some x => dsimp only; rw [kwLoop_frame v _ hvq ps hk' hnd.1]; exact if_pos rfl
      | none =>
        dsimp only
        cases h2 : p.default with
        | some d => dsimp only; rw [kwLoop_frame v _ hvq ps hk' hnd.1]; exact if_pos rfl
        | none => dsimp only; rw [kwLoop_frame v _ hvq ps hk' hnd.1]
    · have hne : p.name ≠ q.name := fun e => hnd.1 (e ▸ List.mem_map.2 ⟨p, hp, rfl⟩)
      cases h1 : kw q.name with
      | some x =>
        dsimp only
        rw [ih' _ _ p hp]
        unfold kwValue remove put
        rw [if_neg hne, if_neg hne]
      | none =>
        dsimp only
        cases h2 : q.default with
        | some d =>
          dsimp only
          rw [ih' _ _ p hp]
          unfold kwValue put
          rw [if_neg hne]
        | none => exact ih' _ _ p hp

theorem kwLoop_varKw (n : Nat) (ks : List Param) (hk : ∀ p ∈ ks, p.kind ≠ .varKw) :
    ∀ (kw : Kw) (L : Locals), kwLoop false (ks ++ star .varKw (some n)) kw L n =
      some (.kws (fun m => if m ∈ ks.map Param.name then none else kw m)) := by
  induction ks with
  | nil =>
    intro kw L
    simp [star, kwLoop, put]
  | cons q ps ih =>
    intro kw L
    have hk' : ∀ p ∈ ps, p.kind ≠ .varKw := fun q hq => hk q (List.mem_cons_of_mem _ hq)
    rw [List.cons_append, kwLoop_cons q (hk q (List.mem_cons_self ..))]
    have key : ∀ kw' : Kw, (∀ m, m ≠ q.name → kw' m = kw m) → kw' q.name = none →
        (fun m => if m ∈ ps.map Param.name then none else kw' m) = (fun m => if m ∈ (q :: ps).map Param.name then none else kw m) := by
      intro kw' h1 h2
      funext m
      by_cases hm : m = q.name
      · subst hm; rw [h2]; simp
      · rw [h1 m hm]
        have : (m ∈ (q :: ps).map Param.name) ↔ m ∈ ps.map Param.name := by
          rw [List.map_cons, List.mem_cons]; exact ⟨fun h => h.resolve_left hm, Or.inr⟩
        simp only [this]
    split
    · rw [ih hk', key]
      · intro m hm; exact if_neg hm
      · exact if_pos rfl
    · rename_i hq
      split
      · rw [ih hk', key _ (fun _ _ => rfl) hq]
      · rw [ih hk', key _ (fun _ _ => rfl) hq]

/-! ### The last loop -/

theorem lastLoop_some (ps : List Param) (L : Locals) (h : ∀ p ∈ ps, L p.name ≠ none) : lastLoop false ps L = some L := by
  induction ps with
  | nil => rfl
  | cons p ps ih =>
    unfold lastLoop
    cases hp : L p.name with
    | none => exact absurd hp (h p (List.mem_cons_self ..))
    | some x => exact ih (fun q hq => h q (List.mem_cons_of_mem _ hq))

theorem lastLoop_none (ps : List Param) (L : Locals) (p : Param) (hp : p ∈ ps) (h : L p.name = none) : lastLoop false ps L = none := by
  induction ps with
  | nil => cases hp
  | cons q ps ih =>
    unfold lastLoop
    cases hq : L q.name with
    | none => rfl
    | some x =>
      rcases List.mem_cons.1 hp with rfl | hp
      · rw [h] at hq; cases hq
      · exact ih hp

/-! ### All of it -/

/-- the parameters that can be given by keyword, save the doubly starred one -/
def kwParams (s : Sig) : List Param := params .posOrKw s.pos ++ params .kwOnly s.kwOnly

theorem kwParams_kind (s : Sig) (p : Param) (h : p ∈ kwParams s) : p.kind ≠ .varKw := by
  unfold kwParams params at h
  rcases List.mem_append.1 h with h | h <;> obtain ⟨q, _, rfl⟩ := List.mem_map.1 h <;> simp

theorem names_eq (s : Sig) : s.names = s.positional.map (·.1.1) ++ (s.varPos.toList ++ (s.kwOnly.map Prod.fst ++ s.varKw.toList)) := by
  unfold Sig.names
  rw [params_eq]
  have h1 : ∀ (k : Kind) (v : Option Nat), (star k v).map Param.name = v.toList := by
    intro k v; cases v <;> rfl
  rw [List.map_append, List.map_append, List.map_append, h1, h1]
  unfold params
  rw [List.map_map, List.map_map]
  rfl

theorem mem_kwParams_name (s : Sig) (n : Nat) : n ∈ (kwParams s).map Param.name ↔ s.keywordable n := by
  unfold kwParams params Sig.keywordable
  rw [List.map_append, List.map_map, List.map_map, List.mem_append]
  exact Iff.rfl

theorem pos_mem_positional (s : Sig) (p : Nat × Option Nat) (h : p ∈ s.pos) : (p, true) ∈ s.positional := by
  unfold Sig.positional
  exact List.mem_append_right _ (List.mem_map.2 ⟨p, h, rfl⟩)

theorem positional_pos (s : Sig) (q : (Nat × Option Nat) × Bool) (h : q ∈ s.positional) (h2 : q.2 = true) : q.1 ∈ s.pos := by
  unfold Sig.positional at h
  rcases List.mem_append.1 h with h | h <;> obtain ⟨p, hp, rfl⟩ := List.mem_map.1 h
  · cases h2
  · exact hp

/-- what the different names give -/
structure Apart (s : Sig) : Prop where
  pos : (s.positional.map (·.1.1)).Nodup
  kws : ((kwParams s).map Param.name).Nodup
  varPos : ∀ n, s.varPos = some n → n ∉ s.positional.map (·.1.1) ∧ ¬ s.keywordable n ∧ s.varKw ≠ some n
  varKw : ∀ n, s.varKw = some n → n ∉ s.positional.map (·.1.1) ∧ ¬ s.keywordable n
  kwOnly : ∀ p ∈ s.kwOnly, p.1 ∉ s.positional.map (·.1.1) ∧ s.varPos ≠ some p.1
  posOnly : ∀ q ∈ s.positional, q.2 = false → ¬ s.keywordable q.1.1

theorem keywordable_cases (s : Sig) (n : Nat) (h : s.keywordable n) : n ∈ s.positional.map (·.1.1) ∨ n ∈ s.kwOnly.map Prod.fst := by
  rcases h with h | h
  · left
    obtain ⟨p, hp, rfl⟩ := List.mem_map.1 h
    exact List.mem_map.2 ⟨(p, true), pos_mem_positional s p hp, rfl⟩
  · exact Or.inr h

theorem apart (s : Sig) (h : s.Ok) : Apart s := by
  unfold Sig.Ok at h
  rw [names_eq] at h
  obtain ⟨h1, h2, h3⟩ := List.nodup_append.1 h
  obtain ⟨h4, h5, h6⟩ := List.nodup_append.1 h2
  obtain ⟨h7, h8, h9⟩ := List.nodup_append.1 h5
  have hp : s.positional.map (·.1.1) = s.posOnly.map Prod.fst ++ s.pos.map Prod.fst := by
    unfold Sig.positional
    rw [List.map_append, List.map_map, List.map_map]
    rfl
  have h1' := h1
  rw [hp] at h1'
  obtain ⟨h10, h11, h12⟩ := List.nodup_append.1 h1'
  refine ⟨h1, ?_, ?_, ?_, ?_, ?_⟩
  · unfold kwParams params
    rw [List.map_append, List.map_map, List.map_map, List.nodup_append]
    refine ⟨h11, h7, ?_⟩
    intro a ha b hb
    apply h3 a (by rw [hp]; exact List.mem_append_right _ ha) b
    exact List.mem_append_right _ (List.mem_append_left _ hb)
  · intro n hn
    have m1 : n ∈ s.varPos.toList := by rw [hn]; simp
    have m2 : n ∉ s.positional.map (·.1.1) := fun hm => h3 n hm n (List.mem_append_left _ m1) rfl
    have m3 : n ∉ s.kwOnly.map Prod.fst := fun hm => h6 n m1 n (List.mem_append_left _ hm) rfl
    refine ⟨m2, fun hk => (keywordable_cases s n hk).elim m2 m3, fun e => ?_⟩
    exact h6 n m1 n (List.mem_append_right _ (by rw [e]; simp)) rfl
  · intro n hn
    have m1 : n ∈ s.varKw.toList := by rw [hn]; simp
    have m2 : n ∉ s.positional.map (·.1.1) := fun hm => h3 n hm n (List.mem_append_right _ (List.mem_append_right _ m1)) rfl
    have m3 : n ∉ s.kwOnly.map Prod.fst := fun hm => h9 n hm n m1 rfl
    exact ⟨m2, fun hk => (keywordable_cases s n hk).elim m2 m3⟩
  · intro p hp'
    have m1 : p.1 ∈ s.kwOnly.map Prod.fst := List.mem_map.2 ⟨p, hp', rfl⟩
    refine ⟨fun hm => h3 _ hm _ (List.mem_append_right _ (List.mem_append_left _ m1)) rfl, fun e => ?_⟩
    exact h6 p.1 (by rw [e]; simp) p.1 (List.mem_append_left _ m1) rfl
  · intro q hq h2 hk
    have m0 : q.1.1 ∈ s.posOnly.map Prod.fst := by
      unfold Sig.positional at hq
      rcases List.mem_append.1 hq with hq | hq <;> obtain ⟨p, hp', rfl⟩ := List.mem_map.1 hq
      · exact List.mem_map.2 ⟨p, hp', rfl⟩
      · cases h2
    rcases hk with hk | hk
    · exact h12 _ m0 _ hk rfl
    · exact h3 q.1.1 (by rw [hp]; exact List.mem_append_left _ m0) q.1.1 (List.mem_append_right _ (List.mem_append_left _ hk)) rfl

/-- the list of `keywords` -/
theorem filter_keyword (s : Sig) (left : Nat → Bool) (hl : ∀ n, s.varKw = some n → left n = true) :
    s.params.filter (fun p => p.kind.keyword && left p.name) = (kwParams s).filter (fun p => left p.name) ++ star .varKw s.varKw := by
  unfold Sig.params kwParams
  have h1 : ∀ l, (params .posOnly l).filter (fun p => p.kind.keyword && left p.name) = [] := by
    intro l
    rw [filter_params _ .posOnly _ false (by intro p h; rw [h]; rfl), if_neg (by simp)]
  have h2 : ∀ k l, k.keyword = true → (params k l).filter (fun p => p.kind.keyword && left p.name) = (params k l).filter (fun p => left p.name) := by
    intro k l hk
    apply List.filter_congr
    intro p hp
    unfold params at hp
    obtain ⟨q, _, rfl⟩ := List.mem_map.1 hp
    rw [hk]; rfl
  have h3 : (star .varPos s.varPos).filter (fun p => p.kind.keyword && left p.name) = [] := by
    cases s.varPos <;> simp [star, Kind.keyword]
  have h4 : (star .varKw s.varKw).filter (fun p => p.kind.keyword && left p.name) = star .varKw s.varKw := by
    cases h : s.varKw with
    | none => rfl
    | some n => simp [star, Kind.keyword, hl n h]
  simp only [List.filter_append, h1, h2 .posOrKw _ rfl, h2 .kwOnly _ rfl, h3, h4, List.nil_append, List.append_assoc]

/-- the local variables after the second loop -/
def afterKw (s : Sig) (args : List Nat) (kw : Kw) : Locals :=
  kwLoop false ((kwParams s).filter (fun p => (afterPos false s args).2 p.name) ++ star .varKw s.varKw) kw (afterPos false s args).1

theorem afterPos_eq (s : Sig) (args : List Nat) :
    afterPos false s args = posLoop false (s.positional.map toParam ++ star .varPos s.varPos) args (fun _ => none) (fun n => decide (n ∈ s.names)) := by
  unfold afterPos
  rw [filter_positional]
  rfl

theorem left_true (s : Sig) (args : List Nat) (n : Nat) (h1 : n ∉ s.positional.map (·.1.1)) (h2 : n ∈ s.names) : (afterPos false s args).2 n = true := by
  rw [afterPos_eq, (posLoop_frame s.varPos n s.positional args _ _ h1).1]
  simp [h2]

theorem varKw_name (s : Sig) (n : Nat) (h : s.varKw = some n) : n ∈ s.names := by
  rw [names_eq, h]; simp

theorem getArguments_eq (s : Sig) (h : s.Ok) (args : List Nat) (kw : Kw) : getArguments s args kw = lastLoop false s.params (afterKw s args kw) := by
  unfold getArguments getArguments' afterKw
  rw [filter_keyword]
  intro n hn
  exact left_true s args n ((apart s h).varKw n hn).1 (varKw_name s n hn)

/-- the parameter is in the list of keywords -/
def ks (s : Sig) (args : List Nat) : List Param := (kwParams s).filter (fun p => (afterPos false s args).2 p.name)

theorem ks_kind (s : Sig) (args : List Nat) : ∀ p ∈ ks s args, p.kind ≠ .varKw :=
  fun p hp => kwParams_kind s p (List.mem_filter.1 hp).1

theorem ks_nodup (s : Sig) (h : s.Ok) (args : List Nat) : ((ks s args).map Param.name).Nodup := by
  have := (apart s h).kws
  exact List.Sublist.nodup (List.Sublist.map _ List.filter_sublist) this

theorem ks_keywordable (s : Sig) (args : List Nat) (n : Nat) (h : n ∈ (ks s args).map Param.name) :
    s.keywordable n ∧ (afterPos false s args).2 n = true := by
  obtain ⟨p, hp, rfl⟩ := List.mem_map.1 h
  obtain ⟨h1, h2⟩ := List.mem_filter.1 hp
  exact ⟨(mem_kwParams_name s _).1 (List.mem_map.2 ⟨p, h1, rfl⟩), h2⟩

theorem ks_varKw (s : Sig) (h : s.Ok) (args : List Nat) : ∀ n, s.varKw = some n → n ∉ (ks s args).map Param.name :=
  fun n hn hm => ((apart s h).varKw n hn).2 (ks_keywordable s args n hm).1

theorem afterKw_frame (s : Sig) (args : List Nat) (kw : Kw) (n : Nat) (h1 : s.varKw ≠ some n) (h2 : n ∉ (ks s args).map Param.name) :
    afterKw s args kw n = (afterPos false s args).1 n :=
  kwLoop_frame s.varKw n h1 _ (ks_kind s args) h2 kw _

theorem afterKw_get (s : Sig) (h : s.Ok) (args : List Nat) (kw : Kw) (p : Param) (hp : p ∈ kwParams s) (hl : (afterPos false s args).2 p.name = true) :
    afterKw s args kw p.name = kwValue kw p ((afterPos false s args).1 p.name) :=
  kwLoop_get s.varKw _ (ks_kind s args) (ks_nodup s h args) (ks_varKw s h args) kw _ p (List.mem_filter.2 ⟨hp, hl⟩)

theorem positional_name (s : Sig) (q : (Nat × Option Nat) × Bool) (h : q ∈ s.positional) : q.1.1 ∈ s.names := by
  rw [names_eq]
  exact List.mem_append_left _ (List.mem_map.2 ⟨q, h, rfl⟩)

theorem positional_param (s : Sig) (q : (Nat × Option Nat) × Bool) (h : q ∈ s.positional) : toParam q ∈ s.params := by
  rw [params_eq]
  exact List.mem_append_left _ (List.mem_map.2 ⟨q, h, rfl⟩)

theorem positional_kwParam (s : Sig) (q : (Nat × Option Nat) × Bool) (h : q ∈ s.positional) (h2 : q.2 = true) : toParam q ∈ kwParams s := by
  have := positional_pos s q h h2
  unfold kwParams params toParam
  rw [if_pos h2]
  exact List.mem_append_left _ (List.mem_map.2 ⟨q.1, this, rfl⟩)

theorem kwOnly_kwParam (s : Sig) (p : Nat × Option Nat) (h : p ∈ s.kwOnly) : (⟨p.1, .kwOnly, p.2⟩ : Param) ∈ kwParams s := by
  unfold kwParams params
  exact List.mem_append_right _ (List.mem_map.2 ⟨p, h, rfl⟩)

theorem kwOnly_param (s : Sig) (p : Nat × Option Nat) (h : p ∈ s.kwOnly) : (⟨p.1, .kwOnly, p.2⟩ : Param) ∈ s.params := by
  rw [params_eq]
  refine List.mem_append_right _ (List.mem_append_right _ (List.mem_append_left _ ?_))
  unfold params
  exact List.mem_map.2 ⟨p, h, rfl⟩

theorem kwOnly_name (s : Sig) (p : Nat × Option Nat) (h : p ∈ s.kwOnly) : p.1 ∈ s.names :=
  List.mem_map.2 ⟨_, kwOnly_param s p h, rfl⟩

theorem not_varKw_positional (s : Sig) (h : s.Ok) (q : (Nat × Option Nat) × Bool) (hq : q ∈ s.positional) : s.varKw ≠ some q.1.1 :=
  fun e => ((apart s h).varKw _ e).1 (List.mem_map.2 ⟨q, hq, rfl⟩)

theorem not_varPos_positional (s : Sig) (h : s.Ok) (q : (Nat × Option Nat) × Bool) (hq : q ∈ s.positional) : s.varPos ≠ some q.1.1 :=
  fun e => ((apart s h).varPos _ e).1 (List.mem_map.2 ⟨q, hq, rfl⟩)

/-- a positional parameter with a positional argument -/
theorem after_arg (s : Sig) (h : s.Ok) (args : List Nat) (kw : Kw) (i : Nat) (q : (Nat × Option Nat) × Bool) (v : Nat)
    (hq : s.positional[i]? = some q) (hv : args[i]? = some v) : afterKw s args kw q.1.1 = some (.one v) := by
  have hm := List.mem_of_getElem? hq
  obtain ⟨h1, h2⟩ := posLoop_arg s.varPos s.positional (apart s h).pos (fun n e => ((apart s h).varPos n e).1) args (fun _ => none)
    (fun n => decide (n ∈ s.names)) i q v hq hv
  rw [← afterPos_eq] at h1 h2
  rw [afterKw_frame s args kw _ (not_varKw_positional s h q hm), h1]
  intro hk
  rw [(ks_keywordable s args _ hk).2] at h2
  cases h2

/-- a positional parameter without one, that can be given by keyword -/
theorem after_noarg_kw (s : Sig) (h : s.Ok) (args : List Nat) (kw : Kw) (i : Nat) (q : (Nat × Option Nat) × Bool)
    (hq : s.positional[i]? = some q) (hl : args.length ≤ i) (h2 : q.2 = true) :
    afterKw s args kw q.1.1 = kwValue kw (toParam q) ((afterPos false s args).1 q.1.1) ∧ (q.1.2 = none → (afterPos false s args).1 q.1.1 = none) := by
  have hm := List.mem_of_getElem? hq
  obtain ⟨h3, h4, _⟩ := posLoop_noarg s.varPos s.positional (apart s h).pos (fun n e => ((apart s h).varPos n e).1) args (fun _ => none)
    (fun n => decide (n ∈ s.names)) i q hq hl
  rw [← afterPos_eq] at h3 h4
  refine ⟨afterKw_get s h args kw (toParam q) (positional_kwParam s q hm h2) ?_, h4⟩
  show (afterPos false s args).2 q.1.1 = true
  rw [h3]
  simp [positional_name s q hm]

theorem after_posOnly (s : Sig) (h : s.Ok) (args : List Nat) (kw : Kw) (q : (Nat × Option Nat) × Bool)
    (hq : q ∈ s.positional) (h2 : q.2 = false) : afterKw s args kw q.1.1 = (afterPos false s args).1 q.1.1 :=
  afterKw_frame s args kw _ (not_varKw_positional s h q hq) (fun hk => (apart s h).posOnly q hq h2 (ks_keywordable s args _ hk).1)

theorem posOnly_before (s : Sig) (i j : Nat) (p q : (Nat × Option Nat) × Bool) (hp : s.positional[i]? = some p) (hq : s.positional[j]? = some q)
    (hji : j ≤ i) (h2 : p.2 = false) : q.2 = false := by
  unfold Sig.positional at hp hq
  by_cases hi : i < s.posOnly.length
  · rw [List.getElem?_append_left (by simp; omega)] at hq
    rw [List.getElem?_map] at hq
    cases hx : s.posOnly[j]? with
    | none => rw [hx] at hq; cases hq
    | some x => rw [hx] at hq; injection hq with hq; subst hq; rfl
  · rw [List.getElem?_append_right (by simp; omega), List.getElem?_map] at hp
    cases hx : s.pos[i - (s.posOnly.map (fun p => (p, false))).length]? with
    | none => rw [hx] at hp; cases hp
    | some x => rw [hx] at hp; injection hp with hp; subst hp; cases h2

theorem noarg_none {args : List Nat} {i : Nat} (h : args.length ≤ i) : args[i]? = none := List.getElem?_eq_none h

/-- every name is that of a parameter of some kind -/
theorem name_cases (s : Sig) (n : Nat) (h : n ∈ s.names) :
    (∃ (i : Nat) (q : (Nat × Option Nat) × Bool), s.positional[i]? = some q ∧ q.1.1 = n) ∨ s.varPos = some n ∨ (∃ p ∈ s.kwOnly, p.1 = n) ∨ s.varKw = some n := by
  rw [names_eq] at h
  rcases List.mem_append.1 h with h | h
  · obtain ⟨q, hq, rfl⟩ := List.mem_map.1 h
    obtain ⟨i, hi⟩ := List.mem_iff_getElem?.1 hq
    exact Or.inl ⟨i, q, hi, rfl⟩
  · rcases List.mem_append.1 h with h | h
    · exact Or.inr (Or.inl (by simpa using h))
    · rcases List.mem_append.1 h with h | h
      · obtain ⟨p, hp, rfl⟩ := List.mem_map.1 h
        exact Or.inr (Or.inr (Or.inl ⟨p, hp, rfl⟩))
      · exact Or.inr (Or.inr (Or.inr (by simpa using h)))

/-- all parameters but the starred one -/
theorem after_of_binds (s : Sig) (h : s.Ok) (args : List Nat) (kw : Kw) (loc : Locals) (hb : Binds s args kw loc) (n : Nat) (hn : s.varPos ≠ some n) :
    afterKw s args kw n = loc n := by
  by_cases hname : n ∈ s.names
  · rcases name_cases s n hname with ⟨i, q, hq, rfl⟩ | hv | ⟨p, hp, rfl⟩ | hv
    · have hm := List.mem_of_getElem? hq
      obtain ⟨v, hg, hloc⟩ := hb.positional i q hq
      rw [hloc]
      rcases hg with hg | ⟨hl, h2, hg⟩ | ⟨hl, h2, hg⟩
      · exact after_arg s h args kw i q v hq hg
      · rw [(after_noarg_kw s h args kw i q hq hl h2).1]
        unfold kwValue
        rw [show kw (toParam q).name = some v from hg]
      · cases hb2 : q.2 with
        | true =>
          have hk : kw q.1.1 = none := h2.resolve_left (by rw [hb2]; simp)
          rw [(after_noarg_kw s h args kw i q hq hl hb2).1]
          unfold kwValue
          rw [show kw (toParam q).name = none from hk, show (toParam q).default = some v from hg]
        | false =>
          rw [after_posOnly s h args kw q hm hb2, afterPos_eq]
          refine (posLoop_noarg s.varPos s.positional (apart s h).pos (fun n e => ((apart s h).varPos n e).1) args (fun _ => none)
            (fun n => decide (n ∈ s.names)) i q hq hl).2.2 v hg ?_
          intro j q' hj hlj hji
          have h2' := posOnly_before s i j q q' hq hj hji hb2
          obtain ⟨v', hg', _⟩ := hb.positional j q' hj
          rcases hg' with hg' | ⟨_, h3, _⟩ | ⟨_, _, hg'⟩
          · rw [noarg_none hlj] at hg'; cases hg'
          · rw [h2'] at h3; cases h3
          · rw [hg']; simp
    · exact absurd hv hn
    · obtain ⟨v, hg, hloc⟩ := hb.kwOnly p hp
      rw [hloc]
      rw [show p.1 = (⟨p.1, .kwOnly, p.2⟩ : Param).name from rfl,
        afterKw_get s h args kw _ (kwOnly_kwParam s p hp) (left_true s args _ ((apart s h).kwOnly p hp).1 (kwOnly_name s p hp))]
      unfold kwValue
      rcases hg with hg | ⟨hg, hd⟩
      · dsimp only; rw [hg]
      · dsimp only; rw [hg, hd]
    · obtain ⟨d, hloc, hd⟩ := hb.varKw n hv
      rw [hloc]
      unfold afterKw
      rw [hv, kwLoop_varKw n ((kwParams s).filter fun p => (afterPos false s args).2 p.name) (ks_kind s args)]
      congr 2
      funext m
      by_cases hm : m ∈ (ks s args).map Param.name
      · rw [show ((kwParams s).filter fun p => (afterPos false s args).2 p.name) = ks s args from rfl, if_pos hm]
        exact ((hd m).1 (ks_keywordable s args m hm).1).symm
      · rw [show ((kwParams s).filter fun p => (afterPos false s args).2 p.name) = ks s args from rfl, if_neg hm]
        by_cases hk : s.keywordable m
        · rw [(hd m).1 hk]
          have hleft : (afterPos false s args).2 m = false := by
            cases hlm : (afterPos false s args).2 m with
            | false => rfl
            | true =>
              refine absurd ?_ hm
              obtain ⟨p, hp, hpm⟩ := List.mem_map.1 ((mem_kwParams_name s m).2 hk)
              exact List.mem_map.2 ⟨p, List.mem_filter.2 ⟨hp, by rw [hpm]; exact hlm⟩, hpm⟩
          rcases hk with hk | hk
          · obtain ⟨p, hp, rfl⟩ := List.mem_map.1 hk
            obtain ⟨i, hi⟩ := List.mem_iff_getElem?.1 (pos_mem_positional s p hp)
            by_cases hl : args.length ≤ i
            · have := (posLoop_noarg s.varPos s.positional (apart s h).pos (fun n e => ((apart s h).varPos n e).1) args (fun _ => none)
                (fun n => decide (n ∈ s.names)) i _ hi hl).1
              rw [← afterPos_eq, hleft] at this
              simp [positional_name s _ (pos_mem_positional s p hp)] at this
            · exact hb.notTwice i _ hi (by omega) rfl
          · obtain ⟨p, hp, rfl⟩ := List.mem_map.1 hk
            rw [left_true s args _ ((apart s h).kwOnly p hp).1 (kwOnly_name s p hp)] at hleft
            cases hleft
        · exact ((hd m).2 hk).symm
  · rw [hb.only n hname, afterKw_frame, afterPos_eq, (posLoop_frame s.varPos n s.positional args _ _ _).2 hn]
    · intro hm
      exact hname (by rw [names_eq]; exact List.mem_append_left _ hm)
    · intro e; exact hname (varKw_name s n e)
    · intro hk
      refine hname ?_
      rw [names_eq]
      rcases keywordable_cases s n (ks_keywordable s args n hk).1 with h1 | h1
      · exact List.mem_append_left _ h1
      · exact List.mem_append_right _ (List.mem_append_right _ (List.mem_append_left _ h1))

theorem after_varPos (s : Sig) (h : s.Ok) (args : List Nat) (kw : Kw) (n : Nat) (hn : s.varPos = some n) :
    afterKw s args kw n = (posLoop false (s.positional.map toParam ++ star .varPos (some n)) args (fun _ => none) (fun n => decide (n ∈ s.names))).1 n := by
  rw [afterKw_frame, afterPos_eq, hn]
  · exact ((apart s h).varPos n hn).2.2
  · intro hk; exact ((apart s h).varPos n hn).2.1 (ks_keywordable s args n hk).1

theorem locals_some (s : Sig) (args : List Nat) (kw : Kw) (loc : Locals) (hb : Binds s args kw loc) (p : Param) (hp : p ∈ s.params) : loc p.name ≠ none := by
  have : p.name ∈ s.names := List.mem_map.2 ⟨p, hp, rfl⟩
  rcases name_cases s _ this with ⟨i, q, hq, e⟩ | hv | ⟨q, hq, e⟩ | hv
  · obtain ⟨v, _, h⟩ := hb.positional i q hq
    rw [← e, h]; simp
  · rw [hb.varPos _ hv]; simp
  · obtain ⟨v, _, h⟩ := hb.kwOnly q hq
    rw [← e, h]; simp
  · obtain ⟨d, h, _⟩ := hb.varKw _ hv
    rw [h]; simp

/-- **C81** (partial: the function has no `*args`, or no parameter before it that has no default is given by keyword). If the function can be called with the arguments, then `get_arguments` gives exactly the local variables it would have. -/
theorem C81_get_arguments_partial (s : Sig) (h : s.Ok) (args : List Nat) (kw : Kw) (loc : Locals) (hb : Binds s args kw loc) (hg : Guard s args) :
    getArguments s args kw = some loc := by
  have key : afterKw s args kw = loc := by
    funext n
    by_cases hn : s.varPos = some n
    · rw [after_varPos s h args kw n hn, hb.varPos n hn]
      refine (posLoop_varPos n s.positional ((apart s h).varPos n hn).1 args _ _).1 ?_
      rcases hg with hg | hg
      · rw [hg] at hn; cases hn
      · exact hg
    · exact after_of_binds s h args kw loc hb n hn
  rw [getArguments_eq s h, key]
  exact lastLoop_some _ _ (locals_some s args kw loc hb)

/-- **C81, violated outside of the guard**: if a parameter before `*args` that has no default is given by keyword, then `get_arguments` always raises TypeError, although the function can be called. -/
theorem C81_varargs_violates (s : Sig) (h : s.Ok) (args : List Nat) (kw : Kw) (hg : ¬ Guard s args) : getArguments s args kw = none := by
  unfold Guard at hg
  rw [not_or] at hg
  obtain ⟨h1, h2⟩ := hg
  cases hn : s.varPos with
  | none => exact absurd hn h1
  | some n =>
    rw [getArguments_eq s h]
    refine lastLoop_none _ _ ⟨n, .varPos, none⟩ ?_ ?_
    · rw [params_eq, hn]
      exact List.mem_append_right _ (List.mem_append_left _ (List.mem_singleton.2 rfl))
    · show afterKw s args kw n = none
      rw [after_varPos s h args kw n hn]
      refine (posLoop_varPos n s.positional ((apart s h).varPos n hn).1 args _ _).2 ?_
      refine Classical.byContradiction fun hne => h2 ?_
      intro i p hp hl hd
      exact hne ⟨i, p, hp, hl, hd⟩

/-- **C81, missing arguments**: if a parameter gets no value, then `get_arguments` raises TypeError. -/
theorem C81_missing (s : Sig) (h : s.Ok) (args : List Nat) (kw : Kw) :
    (∀ (i : Nat) q, s.positional[i]? = some q → (∀ v, ¬ Given args kw i q v) → getArguments s args kw = none) ∧
    (∀ p ∈ s.kwOnly, kw p.1 = none → p.2 = none → getArguments s args kw = none) := by
  constructor
  · intro i q hq hno
    have hm := List.mem_of_getElem? hq
    have hl : args.length ≤ i := by
      refine Classical.byContradiction fun hc => ?_
      exact hno args[i] (Or.inl (List.getElem?_eq_getElem (by omega)))
    rw [getArguments_eq s h]
    refine lastLoop_none _ _ (toParam q) (positional_param s q hm) ?_
    show afterKw s args kw q.1.1 = none
    cases h2 : q.2 with
    | true =>
      have hk : kw q.1.1 = none := by
        cases hk : kw q.1.1 with
        | none => rfl
        | some v => exact absurd (Or.inr (Or.inl ⟨hl, h2, hk⟩)) (hno v)
      have hd : q.1.2 = none := by
        cases hd : q.1.2 with
        | none => rfl
        | some v => exact absurd (Or.inr (Or.inr ⟨hl, Or.inr hk, hd⟩)) (hno v)
      obtain ⟨h3, h4⟩ := after_noarg_kw s h args kw i q hq hl h2
      rw [h3, h4 hd]
      unfold kwValue
      rw [show kw (toParam q).name = none from hk, show (toParam q).default = none from hd]
    | false =>
      have hd : q.1.2 = none := by
        cases hd : q.1.2 with
        | none => rfl
        | some v => exact absurd (Or.inr (Or.inr ⟨hl, Or.inl h2, hd⟩)) (hno v)
      rw [after_posOnly s h args kw q hm h2, afterPos_eq]
      exact (posLoop_noarg s.varPos s.positional (apart s h).pos (fun n e => ((apart s h).varPos n e).1) args (fun _ => none)
        (fun n => decide (n ∈ s.names)) i q hq hl).2.1 hd
  · intro p hp hk hd
    rw [getArguments_eq s h]
    refine lastLoop_none _ _ ⟨p.1, .kwOnly, p.2⟩ (kwOnly_param s p hp) ?_
    rw [afterKw_get s h args kw _ (kwOnly_kwParam s p hp) (left_true s args _ ((apart s h).kwOnly p hp).1 (kwOnly_name s p hp))]
    unfold kwValue
    dsimp only
    rw [hk, hd, afterPos_eq]
    exact (posLoop_frame s.varPos p.1 s.positional args _ _ ((apart s h).kwOnly p hp).1).2 ((apart s h).kwOnly p hp).2

/-- no keyword arguments -/
def noKw : Kw := fun _ => none

/-- a function of one parameter -/
def sigOne : Sig := ⟨[], [(1, none)], none, [], none⟩

/-- **C81, violated: too many arguments are not refused**. `get_arguments(f, x, y)` for a function of one parameter gives `{a: x}`, although the call `f(x, y)` is a TypeError. -/
theorem C81_too_many_violates (x y : Nat) : getArguments sigOne [x, y] noKw = some (put (fun _ => none) 1 (.one x)) ∧ ∀ loc, ¬ Binds sigOne [x, y] noKw loc := by
  refine ⟨rfl, fun loc hb => ?_⟩
  have := hb.notTooMany rfl
  simp [Sig.positional, sigOne] at this

/-- **C81, violated: unknown keywords are not refused**. `get_arguments(f, x, b=y)` gives `{a: x}` -/
theorem C81_unknown_violates (x y : Nat) : getArguments sigOne [x] (put noKw 2 y) = some (put (fun _ => none) 1 (.one x)) ∧ ∀ loc, ¬ Binds sigOne [x] (put noKw 2 y) loc := by
  refine ⟨rfl, fun loc hb => ?_⟩
  have := hb.expected rfl 2 (by simp [put])
  simp [Sig.keywordable, sigOne] at this

/-- **C81, violated: an argument given twice is not refused**. `get_arguments(f, x, a=y)` gives `{a: x}` -/
theorem C81_twice_violates (x y : Nat) : getArguments sigOne [x] (put noKw 1 y) = some (put (fun _ => none) 1 (.one x)) ∧ ∀ loc, ¬ Binds sigOne [x] (put noKw 1 y) loc := by
  refine ⟨rfl, fun loc hb => ?_⟩
  have := hb.notTwice 0 ((1, none), true) rfl (by simp) rfl
  simp [put] at this

/-! ## call_with_arguments -/

theorem callLoop_append (ps qs : List Param) : ∀ c, callLoop (ps ++ qs) c = (callLoop ps c).bind (callLoop qs) := by
  induction ps with
  | nil => intro c; rfl
  | cons p ps ih =>
    intro c
    rw [List.cons_append]
    unfold callLoop
    repeat' split
    all_goals first
      | exact ih _
      | rfl

/-- the value of a name -/
def valOf (a : Locals) (n : Nat) : Nat :=
  match a n with
  | some (.one v) => v
  | _ => 0

theorem valOf_eq {a : Locals} {n v : Nat} (h : a n = some (.one v)) : valOf a n = v := by
  unfold valOf; rw [h]

/-- all these names are removed -/
def without (f : Locals) (ns : List Nat) : Locals := fun n => if n ∈ ns then none else f n

theorem without_cons (f : Locals) (n : Nat) (ns : List Nat) : without (remove f n) ns = without f (n :: ns) := by
  funext m
  unfold without remove
  by_cases h1 : m = n
  · subst h1; simp
  · by_cases h2 : m ∈ ns <;> simp [h1, h2]

theorem without_nil (f : Locals) : without f [] = f := by
  funext m; simp [without]

theorem callLoop_given (a : Locals) (qs : List ((Nat × Option Nat) × Bool)) (hnd : (qs.map (·.1.1)).Nodup) :
    ∀ c : Call, (∀ q ∈ qs, ∃ v, c.rest q.1.1 = some (.one v) ∧ a q.1.1 = some (.one v)) →
      callLoop (qs.map toParam) c = some ⟨c.args ++ qs.map (fun q => valOf a q.1.1), c.kw, without c.rest (qs.map (·.1.1))⟩ := by
  induction qs with
  | nil => intro c _; simp [callLoop, without_nil]
  | cons q qs ih =>
    intro c h
    rw [List.map_cons, List.nodup_cons] at hnd
    obtain ⟨v, h1, h2⟩ := h q (List.mem_cons_self ..)
    have hstep : callLoop (toParam q :: qs.map toParam) c = callLoop (qs.map toParam) ⟨c.args ++ [v], c.kw, remove c.rest q.1.1⟩ := by
      rw [callLoop, show c.rest (toParam q).name = some (.one v) from h1]
      unfold toParam
      cases q.2 <;> rfl
    rw [List.map_cons, hstep, ih hnd.2]
    · rw [List.map_cons, List.map_cons, valOf_eq h2, without_cons]
      simp
    · intro q' hq'
      obtain ⟨v', h3, h4⟩ := h q' (List.mem_cons_of_mem _ hq')
      refine ⟨v', ?_, h4⟩
      have hne : q'.1.1 ≠ q.1.1 := fun e => hnd.1 (e ▸ List.mem_map.2 ⟨q', hq', rfl⟩)
      show remove c.rest q.1.1 q'.1.1 = _
      rw [remove, if_neg hne, h3]

theorem callLoop_omitted (qs : List ((Nat × Option Nat) × Bool)) :
    ∀ c : Call, (∀ q ∈ qs, c.rest q.1.1 = none ∧ q.1.2 ≠ none) → callLoop (qs.map toParam) c = some c := by
  induction qs with
  | nil => intro c _; rfl
  | cons q qs ih =>
    intro c h
    obtain ⟨h1, h2⟩ := h q (List.mem_cons_self ..)
    rw [List.map_cons, callLoop, show c.rest (toParam q).name = none from h1]
    have : ¬ ((toParam q).kind = .varKw ∨ (toParam q).kind = .varPos) := by
      unfold toParam; cases q.2 <;> simp
    dsimp only
    rw [if_neg this, if_neg (show (toParam q).default ≠ none from h2)]
    exact ih c (fun q' hq' => h q' (List.mem_cons_of_mem _ hq'))

/-- the keyword arguments after the keyword-only parameters -/
def kwFor (a : Locals) (ns : List Nat) (kw : Kw) : Kw :=
  fun n => if n ∈ ns then (match a n with | some (.one v) => some v | _ => kw n) else kw n

theorem callLoop_kwOnly (a : Locals) (ps : List (Nat × Option Nat)) (hnd : (ps.map Prod.fst).Nodup) :
    ∀ c : Call, (∀ p ∈ ps, c.rest p.1 = a p.1 ∧ ((∃ v, a p.1 = some (.one v)) ∨ (a p.1 = none ∧ p.2 ≠ none))) →
      callLoop (params .kwOnly ps) c = some ⟨c.args, kwFor a (ps.map Prod.fst) c.kw, without c.rest (ps.map Prod.fst)⟩ := by
  induction ps with
  | nil =>
    intro c _
    have : kwFor a [] c.kw = c.kw := by funext n; simp [kwFor]
    simp [callLoop, params, without_nil, this]
  | cons p ps ih =>
    intro c h
    rw [List.map_cons, List.nodup_cons] at hnd
    obtain ⟨h1, h2⟩ := h p (List.mem_cons_self ..)
    have hne : ∀ q ∈ ps, q.1 ≠ p.1 := fun q hq e => hnd.1 (e ▸ List.mem_map.2 ⟨q, hq, rfl⟩)
    rcases h2 with ⟨v, h2⟩ | ⟨h2, h3⟩
    · have hstep : callLoop (params .kwOnly (p :: ps)) c = callLoop (params .kwOnly ps) ⟨c.args, put c.kw p.1 v, remove c.rest p.1⟩ := by
        rw [params, List.map_cons, callLoop]
        dsimp only
        rw [h1, h2]
        rfl
      rw [hstep, ih hnd.2]
      · rw [List.map_cons, without_cons]
        congr 2
        funext n
        unfold kwFor put
        by_cases hn : n = p.1
        · subst hn
          have : p.1 ∉ ps.map Prod.fst := hnd.1
          simp only [this, if_false, if_true, List.mem_cons, true_or, h2]
        · by_cases hm : n ∈ ps.map Prod.fst
          · simp [hn, hm]
          · simp [hn, hm]
      · intro q hq
        obtain ⟨h4, h5⟩ := h q (List.mem_cons_of_mem _ hq)
        refine ⟨?_, h5⟩
        show remove c.rest p.1 q.1 = _
        rw [remove, if_neg (hne q hq), h4]
    · have hstep : callLoop (params .kwOnly (p :: ps)) c = callLoop (params .kwOnly ps) c := by
        rw [params, List.map_cons, callLoop]
        dsimp only
        rw [h1, h2]
        dsimp only
        rw [if_neg (by simp), if_neg h3]
        rfl
      rw [hstep, ih hnd.2 c (fun q hq => h q (List.mem_cons_of_mem _ hq))]
      have hnm : p.1 ∉ ps.map Prod.fst := hnd.1
      have e1 : kwFor a ((p :: ps).map Prod.fst) c.kw = kwFor a (ps.map Prod.fst) c.kw := by
        funext n
        unfold kwFor
        rw [List.map_cons]
        by_cases hn : n = p.1
        · subst hn
          rw [if_neg hnm, if_pos (List.mem_cons_self ..), h2]
        · simp only [List.mem_cons, hn, false_or]
      have e2 : without c.rest ((p :: ps).map Prod.fst) = without c.rest (ps.map Prod.fst) := by
        funext n
        unfold without
        rw [List.map_cons]
        by_cases hn : n = p.1
        · subst hn
          rw [if_neg hnm, if_pos (List.mem_cons_self ..), h1, h2]
        · simp only [List.mem_cons, hn, false_or]
      rw [e1, e2]

/-- without gaps the given positional parameters come first -/
theorem split_gap (a : Locals) (qs : List ((Nat × Option Nat) × Bool))
    (hg : ∀ (i j : Nat) p q, i ≤ j → qs[i]? = some p → qs[j]? = some q → a p.1.1 = none → a q.1.1 = none) :
    ∃ q1 q2, qs = q1 ++ q2 ∧ (∀ q ∈ q1, a q.1.1 ≠ none) ∧ ∀ q ∈ q2, a q.1.1 = none := by
  induction qs with
  | nil => exact ⟨[], [], rfl, by simp, by simp⟩
  | cons q qs ih =>
    cases hq : a q.1.1 with
    | none =>
      refine ⟨[], q :: qs, rfl, by simp, ?_⟩
      intro q' hq'
      obtain ⟨j, hj⟩ := List.mem_iff_getElem?.1 hq'
      exact hg 0 j q q' (Nat.zero_le _) rfl hj hq
    | some x =>
      obtain ⟨q1, q2, h1, h2, h3⟩ := ih (fun i j p q hij hp hq hn => hg (i + 1) (j + 1) p q (Nat.succ_le_succ hij) hp hq hn)
      refine ⟨q :: q1, q2, by rw [h1]; rfl, ?_, h3⟩
      intro q' hq'
      rcases List.mem_cons.1 hq' with rfl | hq'
      · rw [hq]; simp
      · exact h2 q' hq'

/-- the tuple given for the starred parameter -/
def tailOf (s : Sig) (a : Locals) : List Nat :=
  match s.varPos with
  | none => []
  | some n =>
    match a n with
    | some (.many l) => l
    | _ => []

/-- the dictionary given for the doubly starred parameter -/
def dictOf (s : Sig) (a : Locals) : Kw :=
  match s.varKw with
  | none => fun _ => none
  | some n =>
    match a n with
    | some (.kws d) => d
    | _ => fun _ => none

theorem update_empty (a : Kw) : update a (fun _ => none) = a := rfl

theorem callLoop_varPos (s : Sig) (a : Locals) (hk : Kinds s a) (c : Call) (hr : ∀ n, s.varPos = some n → c.rest n = a n) :
    callLoop (star .varPos s.varPos) c = some ⟨c.args ++ tailOf s a, c.kw, without c.rest s.varPos.toList⟩ := by
  unfold tailOf
  cases hv : s.varPos with
  | none => simp [star, callLoop, without_nil]
  | some n =>
    rcases hk.varPos n hv with h | ⟨l, h⟩
    · have : without c.rest [n] = c.rest := by
        funext m
        unfold without
        split
        · rename_i hm
          rw [List.mem_singleton.1 hm, hr n hv, h]
        · rfl
      simp [star, callLoop, hr n hv, h, this]
    · have : without c.rest [n] = remove c.rest n := by
        funext m; simp [without, remove]
      simp [star, callLoop, hr n hv, h, this]

theorem callLoop_varKw (s : Sig) (a : Locals) (hk : Kinds s a) (c : Call) (hr : ∀ n, s.varKw = some n → c.rest n = a n) :
    callLoop (star .varKw s.varKw) c = some ⟨c.args, update c.kw (dictOf s a), without c.rest s.varKw.toList⟩ := by
  unfold dictOf
  cases hv : s.varKw with
  | none => simp [star, callLoop, without_nil, update_empty]
  | some n =>
    rcases hk.varKw n hv with h | ⟨d, h, _⟩
    · have : without c.rest [n] = c.rest := by
        funext m
        unfold without
        split
        · rename_i hm
          rw [List.mem_singleton.1 hm, hr n hv, h]
        · rfl
      simp [star, callLoop, hr n hv, h, this, update_empty]
    · have : without c.rest [n] = remove c.rest n := by
        funext m; simp [without, remove]
      simp [star, callLoop, hr n hv, h, this]

theorem dictOf_keywordable (s : Sig) (a : Locals) (hk : Kinds s a) (m : Nat) (hm : s.keywordable m) : dictOf s a m = none := by
  unfold dictOf
  cases hv : s.varKw with
  | none => rfl
  | some n =>
    rcases hk.varKw n hv with h | ⟨d, h, hd⟩
    · simp [h]
    · simp [h, hd m hm]

/-- **C82** (partial: a positional parameter is left out only together with all those after it). The arguments, given by their names in a dictionary, reach the function as they are, and what is left out gets its default:
  `call_with_arguments` makes a call for which Python gives exactly these local variables. -/
theorem C82_call_with_arguments_partial (s : Sig) (h : s.Ok) (a loc : Locals) (hk : Kinds s a) (hc : Completes s a loc) (hg : NoGap s a) :
    ∃ c, callWith s a = some c ∧ (∀ n, c.rest n = none) ∧ Binds s c.args c.kw loc := by
  have hA := apart s h
  obtain ⟨q1, q2, hq, hq1, hq2⟩ := split_gap a s.positional (by
    intro i j p q hij hp hq hn
    exact (hg i p hp hn).1 j q hij hq)
  have hmem1 : ∀ q ∈ q1, q ∈ s.positional := fun q hm => by rw [hq]; exact List.mem_append_left _ hm
  have hmem2 : ∀ q ∈ q2, q ∈ s.positional := fun q hm => by rw [hq]; exact List.mem_append_right _ hm
  have hnd1 : (q1.map (·.1.1)).Nodup := by
    have := hA.pos
    rw [hq, List.map_append] at this
    exact (List.nodup_append.1 this).1
  have hone : ∀ q ∈ q1, ∃ v, a q.1.1 = some (.one v) := by
    intro q hm
    exact (hk.positional q (hmem1 q hm)).resolve_left (hq1 q hm)
  have hdef : ∀ q ∈ q2, ∃ d, q.1.2 = some d ∧ loc q.1.1 = some (.one d) := fun q hm => hc.positional q (hmem2 q hm) (hq2 q hm)
  have hnames1 : ∀ n, n ∈ q1.map (·.1.1) → n ∈ s.positional.map (·.1.1) := by
    intro n hn
    rw [hq, List.map_append]
    exact List.mem_append_left _ hn
  have htail : q2 ≠ [] → tailOf s a = [] := by
    intro hne
    cases hq2' : q2 with
    | nil => exact absurd hq2' hne
    | cons q r =>
      have hi : s.positional[q1.length]? = some q := by
        rw [hq, hq2', List.getElem?_append_right (Nat.le_refl _)]; simp
      have := (hg q1.length q hi (hq2 q (by rw [hq2']; exact List.mem_cons_self ..))).2
      unfold tailOf
      cases hv : s.varPos with
      | none => rfl
      | some n => rcases this n hv with h | h <;> simp [h]
  -- the call
  let c1 : Call := ⟨q1.map (fun q => valOf a q.1.1), fun _ => none, without a (q1.map (·.1.1))⟩
  let c2 : Call := ⟨c1.args ++ tailOf s a, c1.kw, without c1.rest s.varPos.toList⟩
  let c3 : Call := ⟨c2.args, kwFor a (s.kwOnly.map Prod.fst) c2.kw, without c2.rest (s.kwOnly.map Prod.fst)⟩
  let c4 : Call := ⟨c3.args, update c3.kw (dictOf s a), without c3.rest s.varKw.toList⟩
  have e1 : callLoop (q1.map toParam) ⟨[], fun _ => none, a⟩ = some c1 := by
    rw [callLoop_given a q1 hnd1]
    · rfl
    · intro q hm
      obtain ⟨v, hv⟩ := hone q hm
      exact ⟨v, hv, hv⟩
  have e2 : callLoop (q2.map toParam) c1 = some c1 := by
    apply callLoop_omitted
    intro q hm
    obtain ⟨d, hd, _⟩ := hdef q hm
    refine ⟨?_, by rw [hd]; simp⟩
    show without a (q1.map (·.1.1)) q.1.1 = none
    unfold without
    rw [hq2 q hm]; simp
  have e3 : callLoop (star .varPos s.varPos) c1 = some c2 := by
    apply callLoop_varPos s a hk
    intro n hn
    show without a (q1.map (·.1.1)) n = a n
    exact if_neg (fun hm => (hA.varPos n hn).1 (hnames1 n hm))
  have e4 : callLoop (params .kwOnly s.kwOnly) c2 = some c3 := by
    apply callLoop_kwOnly a
    · have := hA.kws
      unfold kwParams params at this
      rw [List.map_append, List.map_map, List.map_map] at this
      exact (List.nodup_append.1 this).2.1
    · intro p hp
      obtain ⟨h1, h2⟩ := hA.kwOnly p hp
      constructor
      · show without (without a (q1.map (·.1.1))) s.varPos.toList p.1 = a p.1
        unfold without
        rw [if_neg (by simpa using h2), if_neg (fun hm => h1 (hnames1 _ hm))]
      · rcases hk.kwOnly p hp with h3 | h3
        · obtain ⟨d, hd, _⟩ := hc.kwOnly p hp h3
          exact Or.inr ⟨h3, by rw [hd]; simp⟩
        · exact Or.inl h3
  have e5 : callLoop (star .varKw s.varKw) c3 = some c4 := by
    apply callLoop_varKw s a hk
    intro n hn
    obtain ⟨h1, h2⟩ := hA.varKw n hn
    show without (without (without a (q1.map (·.1.1))) s.varPos.toList) (s.kwOnly.map Prod.fst) n = a n
    unfold without
    rw [if_neg (fun hm => h2 (Or.inr hm)), if_neg, if_neg (fun hm => h1 (hnames1 _ hm))]
    intro hm
    have hm' : s.varPos = some n := by simpa using hm
    exact (hA.varPos n hm').2.2 hn
  have hcall : callWith s a = some c4 := by
    unfold callWith
    rw [params_eq, hq, List.map_append, callLoop_append, callLoop_append, e1, Option.bind_some, e2, Option.bind_some,
      callLoop_append, e3, Option.bind_some, callLoop_append, e4, Option.bind_some, e5]
  have hargs : c4.args = q1.map (fun q => valOf a q.1.1) ++ tailOf s a := rfl
  have hkw : c4.kw = update (kwFor a (s.kwOnly.map Prod.fst) (fun _ => none)) (dictOf s a) := rfl
  have hkwpos : ∀ q ∈ s.positional, q.2 = true → c4.kw q.1.1 = none := by
    intro q hm h2
    have hkb : s.keywordable q.1.1 := Or.inl (List.mem_map.2 ⟨q.1, positional_pos s q hm h2, rfl⟩)
    rw [hkw]
    unfold update
    rw [dictOf_keywordable s a hk _ hkb]
    show kwFor a (s.kwOnly.map Prod.fst) (fun _ => none) q.1.1 = none
    unfold kwFor
    rw [if_neg]
    intro hm'
    obtain ⟨p, hp, hpe⟩ := List.mem_map.1 hm'
    exact (hA.kwOnly p hp).1 (hpe ▸ List.mem_map.2 ⟨q, hm, rfl⟩)
  refine ⟨c4, hcall, ?_, ?_⟩
  · intro n
    show without (without (without (without a (q1.map (·.1.1))) s.varPos.toList) (s.kwOnly.map Prod.fst)) s.varKw.toList n = none
    unfold without
    by_cases hname : n ∈ s.names
    · rcases name_cases s n hname with ⟨i, q, hqi, rfl⟩ | hv | ⟨p, hp, rfl⟩ | hv
      · have hm := List.mem_of_getElem? hqi
        rw [hq] at hm
        rcases List.mem_append.1 hm with hm | hm
        · rw [if_pos (List.mem_map.2 ⟨q, hm, rfl⟩)]; simp
        · rw [hq2 q hm]; simp
      · rw [hv]; simp
      · rw [if_pos (List.mem_map.2 ⟨p, hp, rfl⟩)]; simp
      · rw [hv]; simp
    · cases han : a n with
      | none => simp
      | some x =>
        have := hc.given n x han
        rw [hc.only n hname] at this
        cases this
  · constructor
    · intro i q hi
      have hm := List.mem_of_getElem? hi
      by_cases hlt : i < q1.length
      · rw [hq, List.getElem?_append_left hlt] at hi
        obtain ⟨v, hv⟩ := hone q (List.mem_of_getElem? hi)
        refine ⟨v, Or.inl ?_, hc.given _ _ hv⟩
        rw [hargs, List.getElem?_append_left (by simpa using hlt), List.getElem?_map, hi, Option.map_some, valOf_eq hv]
      · rw [hq, List.getElem?_append_right (by omega)] at hi
        have hm2 := List.mem_of_getElem? hi
        obtain ⟨d, hd, hloc⟩ := hdef q hm2
        have hne : q2 ≠ [] := by intro e; rw [e] at hm2; cases hm2
        refine ⟨d, Or.inr (Or.inr ⟨?_, ?_, hd⟩), hloc⟩
        · rw [hargs, htail hne]; simp; omega
        · cases h2 : q.2 with
          | false => exact Or.inl rfl
          | true => exact Or.inr (hkwpos q hm h2)
    · intro i q hi _ h2
      exact hkwpos q (List.mem_of_getElem? hi) h2
    · intro hv
      have : tailOf s a = [] := by unfold tailOf; rw [hv]
      rw [hargs, this, hq]; simp
    · intro n hv
      have hl : loc n = some (.many (tailOf s a)) := by
        unfold tailOf
        rw [hv]
        rcases hk.varPos n hv with h1 | ⟨l, h1⟩
        · simp [h1, hc.varPos n hv h1]
        · simp [h1, hc.given n _ h1]
      rw [hl, hargs, hq]
      by_cases hne : q2 = []
      · subst hne
        have : (q1 ++ []).length = (q1.map (fun q => valOf a q.1.1)).length := by simp
        rw [this, List.drop_left]
      · rw [htail hne]
        congr 2
        rw [List.drop_eq_nil_of_le]
        simp
    · intro p hp
      have hkb : s.keywordable p.1 := Or.inr (List.mem_map.2 ⟨p, hp, rfl⟩)
      have hkp : c4.kw p.1 = kwFor a (s.kwOnly.map Prod.fst) (fun _ => none) p.1 := by
        rw [hkw]; unfold update; rw [dictOf_keywordable s a hk _ hkb]; rfl
      rw [hkp]
      unfold kwFor
      rw [if_pos (List.mem_map.2 ⟨p, hp, rfl⟩)]
      rcases hk.kwOnly p hp with h3 | ⟨v, h3⟩
      · obtain ⟨d, hd, hl⟩ := hc.kwOnly p hp h3
        exact ⟨d, Or.inr ⟨by rw [h3], hd⟩, hl⟩
      · exact ⟨v, Or.inl (by rw [h3]), hc.given _ _ h3⟩
    · intro hv n hn
      have hd : dictOf s a = fun _ => none := by unfold dictOf; rw [hv]
      rw [hkw, hd, update_empty] at hn
      refine Or.inr ?_
      refine Classical.byContradiction fun hno => hn ?_
      unfold kwFor
      rw [if_neg hno]
    · intro n hv
      refine ⟨dictOf s a, ?_, fun m => ⟨dictOf_keywordable s a hk m, fun hm => ?_⟩⟩
      · unfold dictOf
        rw [hv]
        rcases hk.varKw n hv with h1 | ⟨d, h1, _⟩
        · simp [h1, hc.varKw n hv h1]
        · simp [h1, hc.given n _ h1]
      · rw [hkw]
        unfold update kwFor
        rw [if_neg (fun hm' => hm (Or.inr hm'))]
        cases dictOf s a m <;> rfl
    · exact hc.only

/-- every parameter has a value of the right kind -/
structure Full (s : Sig) (loc : Locals) : Prop where
  positional : ∀ q ∈ s.positional, ∃ v, loc q.1.1 = some (.one v)
  kwOnly : ∀ p ∈ s.kwOnly, ∃ v, loc p.1 = some (.one v)
  varPos : ∀ n, s.varPos = some n → ∃ l, loc n = some (.many l)
  varKw : ∀ n, s.varKw = some n → ∃ d, loc n = some (.kws d) ∧ ∀ m, s.keywordable m → d m = none
  only : ∀ n, n ∉ s.names → loc n = none

theorem full_of_binds (s : Sig) (args : List Nat) (kw : Kw) (loc : Locals) (hb : Binds s args kw loc) : Full s loc := by
  constructor
  · intro q hq
    obtain ⟨i, hi⟩ := List.mem_iff_getElem?.1 hq
    obtain ⟨v, _, hv⟩ := hb.positional i q hi
    exact ⟨v, hv⟩
  · intro p hp
    obtain ⟨v, _, hv⟩ := hb.kwOnly p hp
    exact ⟨v, hv⟩
  · intro n hn; exact ⟨_, hb.varPos n hn⟩
  · intro n hn
    obtain ⟨d, hd, hm⟩ := hb.varKw n hn
    exact ⟨d, hd, fun m => (hm m).1⟩
  · exact hb.only

theorem call_full (s : Sig) (h : s.Ok) (loc : Locals) (hf : Full s loc) :
    ∃ c, callWith s loc = some c ∧ (∀ n, c.rest n = none) ∧ Binds s c.args c.kw loc := by
  apply C82_call_with_arguments_partial s h
  · exact ⟨fun q hq => Or.inr (hf.positional q hq), fun p hp => Or.inr (hf.kwOnly p hp), fun n hn => Or.inr (hf.varPos n hn), fun n hn => Or.inr (hf.varKw n hn)⟩
  · constructor
    · intro n x hx; exact hx
    · intro q hq hn
      obtain ⟨v, hv⟩ := hf.positional q hq
      rw [hv] at hn; cases hn
    · intro p hp hn
      obtain ⟨v, hv⟩ := hf.kwOnly p hp
      rw [hv] at hn; cases hn
    · intro n hv hn
      obtain ⟨l, hl⟩ := hf.varPos n hv
      rw [hl] at hn; cases hn
    · intro n hv hn
      obtain ⟨d, hd, _⟩ := hf.varKw n hv
      rw [hd] at hn; cases hn
    · exact hf.only
  · intro i p hp hn
    obtain ⟨v, hv⟩ := hf.positional p (List.mem_of_getElem? hp)
    rw [hv] at hn; cases hn

/-- **C82, round trip**: if the function can be called with some arguments and has then some local variables, then `call_with_arguments` with these variables calls it so that it has the same local variables again. -/
theorem C82_round_trip (s : Sig) (h : s.Ok) (args : List Nat) (kw : Kw) (loc : Locals) (hb : Binds s args kw loc) :
    ∃ c, callWith s loc = some c ∧ (∀ n, c.rest n = none) ∧ Binds s c.args c.kw loc :=
  call_full s h loc (full_of_binds s args kw loc hb)

/-- the loop goes on as far as the name, which stays as it is until then -/
theorem callLoop_missing (p : Param) (hd : p.default = none) (h1 : p.kind ≠ .varKw) (h2 : p.kind ≠ .varPos) (ps : List Param) (hp : p ∈ ps) :
    ∀ c : Call, c.rest p.name = none → callLoop ps c = none := by
  induction ps with
  | nil => cases hp
  | cons q ps ih =>
    intro c hc
    rcases List.mem_cons.1 hp with rfl | hp
    · rw [callLoop, hc]
      simp [h1, h2, hd]
    · have step : ∀ (x : Call), (∀ n, c.rest n = none → x.rest n = none) → callLoop ps x = none := fun x hx => ih hp x (hx _ hc)
      have rem : ∀ n, c.rest n = none → remove c.rest q.name n = none := by
        intro n hn; unfold remove; split
        · rfl
        · exact hn
      unfold callLoop
      repeat' split
      all_goals first
        | rfl
        | exact step _ (fun n hn => hn)
        | exact step _ rem

theorem callLoop_extra (n : Nat) (ps : List Param) (hn : n ∉ ps.map Param.name) : ∀ (c c' : Call), callLoop ps c = some c' → c'.rest n = c.rest n := by
  induction ps with
  | nil => intro c c' h; cases h; rfl
  | cons q ps ih =>
    intro c c' h
    rw [List.map_cons, List.mem_cons, not_or] at hn
    have ih' := ih hn.2
    have rem : remove c.rest q.name n = c.rest n := if_neg hn.1
    unfold callLoop at h
    repeat' split at h
    all_goals first
      | exact ih' _ _ h
      | exact (ih' _ _ h).trans rem
      | cases h

/-- **C82, errors**: if a parameter without a default is left out, then `call_with_arguments` raises TypeError; if the dictionary has a name that is not one of a parameter, then this is left over and it raises, and does not call the function. -/
theorem C82_errors (s : Sig) (a : Locals) :
    (∀ q ∈ s.positional, a q.1.1 = none → q.1.2 = none → callWith s a = none) ∧
    (∀ p ∈ s.kwOnly, a p.1 = none → p.2 = none → callWith s a = none) ∧
    (∀ n, n ∉ s.names → a n ≠ none → ∀ c, callWith s a = some c → c.rest n ≠ none) := by
  refine ⟨?_, ?_, ?_⟩
  · intro q hq h1 h2
    refine callLoop_missing (toParam q) h2 ?_ (toParam_kind q) _ (positional_param s q hq) _ h1
    unfold toParam; cases q.2 <;> simp
  · intro p hp h1 h2
    exact callLoop_missing ⟨p.1, .kwOnly, p.2⟩ h2 (by simp) (by simp) _ (kwOnly_param s p hp) _ h1
  · intro n hn ha c hc
    rw [callLoop_extra n s.params hn _ c hc]
    exact ha

/-- a function `f(a=d, b=e)` -/
def sigDefaults (d e : Nat) : Sig := ⟨[], [(1, some d), (2, some e)], none, [], none⟩

/-- **C82, violated outside of the guard**: `call_with_arguments(f, {'b': x})` for `f(a=d, b=e)` calls it with `a = x` and `b = e`. -/
theorem C82_gap_violates (d e x : Nat) :
    ∃ c, callWith (sigDefaults d e) (put (fun _ => none) 2 (.one x)) = some c ∧ (∀ n, c.rest n = none) ∧
      ∀ loc, Binds (sigDefaults d e) c.args c.kw loc → loc 1 = some (.one x) ∧ loc 2 = some (.one e) := by
  refine ⟨⟨[x], fun _ => none, remove (put (fun _ => none) 2 (.one x)) 2⟩, rfl, ?_, ?_⟩
  · intro n
    show remove (put (fun _ => none) 2 (Bound.one x)) 2 n = none
    unfold remove put
    split
    · rfl
    · rfl
  · intro loc hb
    obtain ⟨v, h1, h2⟩ := hb.positional 0 ((1, some d), true) rfl
    obtain ⟨w, h3, h4⟩ := hb.positional 1 ((2, some e), true) rfl
    constructor
    · have : v = x := by simpa [Given, eq_comm] using h1
      rw [h2, this]
    · have : w = e := by simpa [Given, eq_comm] using h3
      rw [h4, this]

/-! Cases that meet the hypotheses: `f(a, /, b, c=7, *args, d, e=8, **kwargs)` called as `f(10, 11, 12, 13, 14, d=15, g=16)` -/

def exampleSig : Sig := ⟨[(1, none)], [(2, none), (3, some 7)], some 4, [(5, none), (6, some 8)], some 9⟩

def exampleLocals : Locals := fun n =>
  if n = 1 then some (.one 10) else if n = 2 then some (.one 11) else if n = 3 then some (.one 12) else if n = 4 then some (.many [13, 14])
  else if n = 5 then some (.one 15) else if n = 6 then some (.one 8) else if n = 9 then some (.kws (put noKw 20 16)) else none

theorem exampleOk : exampleSig.Ok := by unfold Sig.Ok; decide

theorem exampleGuard : Guard exampleSig [10, 11, 12, 13, 14] := by
  refine Or.inr ?_
  intro i p hp hl
  have : exampleSig.positional[i]? = none := List.getElem?_eq_none (by simp [exampleSig, Sig.positional] at hl ⊢; omega)
  rw [this] at hp; cases hp

theorem exampleBinds : Binds exampleSig [10, 11, 12, 13, 14] (put (put noKw 5 15) 20 16) exampleLocals := by
  constructor
  · intro i p hp
    match i, hp with
    | 0, hp => cases hp; exact ⟨10, Or.inl rfl, rfl⟩
    | 1, hp => cases hp; exact ⟨11, Or.inl rfl, rfl⟩
    | 2, hp => cases hp; exact ⟨12, Or.inl rfl, rfl⟩
  · intro i p hp _ _
    match i, hp with
    | 0, hp => cases hp; rfl
    | 1, hp => cases hp; rfl
    | 2, hp => cases hp; rfl
  · intro h; cases h
  · intro n h; cases h; rfl
  · intro p hp
    rcases List.mem_cons.1 hp with rfl | hp
    · exact ⟨15, Or.inl rfl, rfl⟩
    · cases List.mem_singleton.1 hp; exact ⟨8, Or.inr ⟨rfl, rfl⟩, rfl⟩
  · intro h; cases h
  · intro n h
    cases h
    refine ⟨put noKw 20 16, rfl, fun m => ⟨?_, ?_⟩⟩
    · intro hm
      simp [Sig.keywordable, exampleSig] at hm
      rcases hm with (rfl | rfl) | (rfl | rfl) <;> rfl
    · intro hm
      simp [Sig.keywordable, exampleSig] at hm
      simp only [put]
      split
      · rfl
      · rw [if_neg (by omega)]
  · intro n hn
    simp [exampleSig, Sig.names, Sig.params, params, star] at hn
    simp [exampleLocals, hn]

example : getArguments exampleSig [10, 11, 12, 13, 14] (put (put noKw 5 15) 20 16) = some exampleLocals :=
  C81_get_arguments_partial _ exampleOk _ _ _ exampleBinds exampleGuard

/-- the guard is not met by `f(a, *args)` called as `f(a=1)`, which Python allows -/
example : ¬ Guard ⟨[], [(1, none)], some 2, [], none⟩ [] ∧
    Binds ⟨[], [(1, none)], some 2, [], none⟩ [] (put noKw 1 5) (put (put (fun _ => none) 1 (.one 5)) 2 (.many [])) := by
  constructor
  · intro h
    rcases h with h | h
    · cases h
    · exact h 0 ((1, none), true) rfl (Nat.le_refl _) rfl
  · constructor
    · intro i p hp
      match i, hp with
      | 0, hp => cases hp; exact ⟨5, Or.inr (Or.inl ⟨Nat.le_refl _, rfl, rfl⟩), rfl⟩
    · intro i p hp h; cases h
    · intro h; cases h
    · intro n h; cases h; rfl
    · intro p hp; cases hp
    · intro _ n hn
      by_cases h : n = 1
      · subst h; exact Or.inl (List.mem_singleton.2 rfl)
      · exact absurd (if_neg h) hn
    · intro n h; cases h
    · intro n hn
      simp [Sig.names, Sig.params, params, star] at hn
      simp [put, hn]

/-- something is left out without a gap: `f(a, /, b, c=7, *args, d, e=8, **kwargs)` with `{a: 1, b: 2, d: 3}` -/
def exampleArguments : Locals := fun n => if n = 1 then some (.one 1) else if n = 2 then some (.one 2) else if n = 5 then some (.one 3) else none

example : NoGap exampleSig exampleArguments := by
  intro i p hp hn
  match i, hp with
  | 0, hp => cases hp; cases hn
  | 1, hp => cases hp; cases hn
  | 2, hp =>
    cases hp
    refine ⟨?_, ?_⟩
    · intro j q hj hq
      match j, hq, hj with
      | 2, hq, _ => cases hq; rfl
    · intro n h; cases h; exact Or.inl rfl

end Verif.Args
