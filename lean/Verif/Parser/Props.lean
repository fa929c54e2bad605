import Verif.Parser.Spec
/-!
# C29: BinaryParser
-/
namespace Verif.Parser
open Verif

theorem slice_window {p : P} {w : List Byte} {k n o : Nat} (hn : k + n ≤ w.length) (ho : o + w.length ≤ p.stream.length) (hw : w = (p.stream.drop o).take w.length)
    {i j : Int} (hi : i = o + k) (hj : j = o + k + n) :
    pySlice p.stream i j = (w.drop k).take n := by
  unfold pySlice bound
  rw [if_neg (by omega), if_neg (by omega)]
  have e1 : min i.toNat p.stream.length = o + k := by omega
  have e2 : min j.toNat p.stream.length = o + k + n := by omega
  rw [e1, e2]
  have e3 : (w.drop k).take n = ((p.stream.drop o).drop k).take n := by
    conv => lhs; rw [hw]
    rw [List.drop_take, List.take_take]
    congr 1; omega
  rw [e3, List.drop_drop]
  congr 1; omega

theorem oneChar_iff (fmt : List Char) : (OneChar fmt ↔ single fmt = some true) := by
  unfold OneChar single
  constructor
  · rintro (⟨c, hc, rfl⟩ | ⟨o, c, ho, rfl⟩)
    · simp only; rw [if_neg hc]; simp
    · simp only; rw [if_pos ho]; simp
  · intro h
    cases fmt with
    | nil => simp at h
    | cons c l =>
      simp only at h
      split at h
      · rename_i hc
        simp only [Option.some.injEq, decide_eq_true_eq] at h
        match l, h with
        | [d], _ => exact Or.inr ⟨c, d, hc, rfl⟩
      · rename_i hc
        simp only [Option.some.injEq, decide_eq_true_eq] at h
        match l, h with
        | [], _ => exact Or.inl ⟨c, hc, rfl⟩

theorem lacks_iff {p : P} {w : List Byte} {k o : Nat} (h1 : p.initOfs = o) (h2 : p.length = w.length) (h3 : p.pointer = o + k) (n : Nat) {i : Int} (hi : i = n) :
    p.lacks i = true ↔ ¬ k + n ≤ w.length := by
  simp only [P.lacks, decide_eq_true_eq, h1, h2, h3, hi]
  omega

/-- reading, as done by skip, get_bytes, get_struct, get_structs -/
theorem read_sim {p : P} {w : List Byte} {k : Nat} (h : Shows p w k) (n : Nat) {i : Int} (hi : i = n) (mk : List Byte → Res) :
    ∃ b', Read (w, k) n mk (if p.lacks i then (p, .exc .notEnoughBytes) else ({ p with pointer := p.pointer + i }, mk (pySlice p.stream p.pointer (p.pointer + i)))).2 b' ∧
      Shows (if p.lacks i then (p, Res.exc .notEnoughBytes) else ({ p with pointer := p.pointer + i }, mk (pySlice p.stream p.pointer (p.pointer + i)))).1 b'.1 b'.2 := by
  obtain ⟨o, h1, h2, h3, h4, h5, h6⟩ := h
  by_cases hc : k + n ≤ w.length
  · have hl : ¬ p.lacks i = true := fun hl => (lacks_iff h1 h2 h3 n hi).1 hl hc
    rw [if_neg hl]
    refine ⟨(w, k + n), ?_, o, h1, h2, by simp only [h3, hi]; omega, hc, h5, h6⟩
    simp only [Read, if_pos hc, and_true]
    rw [slice_window hc h5 h6 h3 (by rw [h3, hi])]
  · rw [if_pos ((lacks_iff h1 h2 h3 n hi).2 hc)]
    refine ⟨(w, k), ?_, o, h1, h2, h3, h4, h5, h6⟩
    simp only [Read, if_neg hc, and_self]

theorem step_sim (p : P) (b : List Byte × Nat) (o : Op) (ho : o.Sane) (h : Shows p b.1 b.2) :
    ∃ b', Spec b o (p.step o).2 b' ∧ Shows (p.step o).1 b'.1 b'.2 := by
  have h' := h
  obtain ⟨w, k⟩ := b
  obtain ⟨of, h1, h2, h3, h4, h5, h6⟩ := h
  dsimp only at *
  cases o with
  | len => exact ⟨(w, k), ⟨rfl, by simp [P.step, h2]⟩, h'⟩
  | remainingCount =>
    refine ⟨(w, k), ⟨rfl, ?_⟩, h'⟩
    simp only [P.step, h1, h2, h3, Res.int.injEq]; omega
  | toBytes =>
    refine ⟨(w, k), ⟨rfl, ?_⟩, h'⟩
    simp only [P.step]
    rw [slice_window (k := 0) (n := w.length) (by omega) h5 h6 (by simpa using h1) (by rw [h1, h2]; simp)]
    simp
  | skip n =>
    simp only [Op.Sane] at ho
    have := read_sim h' n.toNat (i := n) (by omega) (fun _ => .unit)
    simpa only [P.step, Spec] using this
  | getBytes n =>
    simp only [Op.Sane] at ho
    have := read_sim h' n.toNat (i := n) (by omega) .bytes
    simpa only [P.step, Spec] using this
  | getStructs st =>
    have := read_sim h' st.size (i := st.size) rfl (fun bs => allOf (st.unpack bs))
    have e : (fun bs => allOf (st.unpack bs)) = fun bs => match st.unpack bs with | .ok vs => Res.ints vs | .error e => .exc e := by funext bs; cases st.unpack bs <;> rfl
    obtain ⟨b', h7, h8⟩ := this
    rw [e] at h7
    exact ⟨b', h7, h8⟩
  | getStruct st =>
    by_cases hs : single st.fmt = some true
    · have := read_sim h' st.size (i := st.size) rfl (fun bs => firstOf (st.unpack bs))
      obtain ⟨b', h7, h8⟩ := this
      refine ⟨b', ⟨fun _ => ?_, fun hn => absurd ((oneChar_iff _).2 hs) hn⟩, ?_⟩
      · have e : (fun bs => firstOf (st.unpack bs)) = fun bs => match st.unpack bs with | .ok (v :: _) => Res.int v | .ok [] => .exc .indexError | .error e => .exc e := by
          funext bs
          rcases st.unpack bs with _ | _ | _ <;> rfl
        simp only [P.step, hs]; exact e ▸ h7
      · simp only [P.step, hs]; exact h8
    · have hns : ¬ OneChar st.fmt := fun h => hs ((oneChar_iff _).1 h)
      refine ⟨(w, k), ⟨fun h => absurd h hns, fun _ => ⟨rfl, ?_⟩⟩, ?_⟩
      · cases hx : single st.fmt with
        | none => simp [P.step, hx]
        | some b => cases b with
          | false => simp [P.step, hx]
          | true => exact absurd hx hs
      · cases hx : single st.fmt with
        | none => simpa [P.step, hx] using h'
        | some b => cases b with
          | false => simpa [P.step, hx] using h'
          | true => exact absurd hx hs
  | reset =>
    exact ⟨(w, 0), ⟨rfl, rfl⟩, of, h1, h2, by simp [P.step, h1], by simp, h5, h6⟩
  | getRemaining =>
    refine ⟨(w, k), ⟨rfl, ?_⟩, h'⟩
    simp only [P.step]
    rw [slice_window (k := k) (n := w.length - k) (by omega) h5 h6 h3 (by rw [h3, h2, h1]; omega)]
    rw [← List.length_drop, List.take_length]
  | getParser n =>
    simp only [Op.Sane] at ho
    by_cases hc : k + n.toNat ≤ w.length
    · have hl : ¬ p.lacks n = true := fun hl => (lacks_iff h1 h2 h3 n.toNat (by omega)).1 hl hc
      refine ⟨(w, k + n.toNat), ?_, ?_⟩
      · have hlen : ((w.drop k).take n.toNat).length = n.toNat := by simp; omega
        simp only [Spec, P.step, if_neg hl, if_pos hc, true_and, P.new]
        rw [if_neg (by omega)]
        refine ⟨_, rfl, of + k, by simp [h3], ?_, by simp [h3], by simp, ?_, ?_⟩
        · simp only; rw [if_neg (by omega), hlen]; omega
        · rw [hlen]; show of + k + n.toNat ≤ p.stream.length; omega
        · rw [hlen]
          conv => lhs; rw [h6]
          rw [List.drop_take, List.take_take, List.drop_drop]
          congr 1; omega
      · simp only [P.step, if_neg hl]
        exact ⟨of, h1, h2, by simp only [h3]; omega, hc, h5, h6⟩
    · have hl : p.lacks n = true := (lacks_iff h1 h2 h3 n.toNat (by omega)).2 hc
      refine ⟨(w, k), ?_, ?_⟩
      · simp [Spec, P.step, hl, hc]
      · simpa [P.step, hl] using h'

/-- **C29 (partial), making a parser.** A parser of a stream without offset and length shows the whole stream; one made with an offset and a length (not 0) that fit into the stream shows exactly the bytes of that window.
Missing: an offset without a length, and length 0 (see `C29_offset_violates`, `C29_zero_violates`). -/
theorem C29_new_partial (stream : List Byte) :
    (∃ p, P.new stream 0 none = .ok p ∧ Shows p stream 0) ∧
    (∀ o l : Nat, 0 < l → o + l ≤ stream.length → ∃ p, P.new stream o (some l) = .ok p ∧ Shows p ((stream.drop o).take l) 0) := by
  refine ⟨⟨{ stream := stream, pointer := 0, initOfs := 0, length := stream.length }, by simp only [P.new]; rw [if_neg (by omega)], 0, ?_⟩, ?_⟩
  · simp
  · intro o l hl hle
    refine ⟨{ stream := stream, pointer := o, initOfs := o, length := l }, ?_, o, ?_⟩
    · simp only [P.new]; rw [if_neg (by omega), if_neg (by omega)]
    · have : ((stream.drop o).take l).length = l := by simp; omega
      rw [this]; simp [hle]

example : 0 < 2 ∧ 1 + 2 ≤ [10, 11, 12, 13].length := by decide

/-- **C29 (partial).** For every parser of a window and every sequence of calls, asking for no negative number of bytes and for no sub-parser of 0 bytes: reads return the next bytes of the window, and go past them; a read that would
cross its end raises NotEnoughBytes and changes nothing; a sub-parser shows exactly the bytes asked for (so the same holds for it) and the parser continues after them; get_remaining_bytes returns the rest.
Missing: sub-parsers of 0 bytes (see `C29_zero_violates`). -/
theorem C29_reads_partial (p : P) (w : List Byte) (k : Nat) (h : Shows p w k) (ops : List Op) (hops : ∀ o ∈ ops, o.Sane) :
    ∃ b', History Spec (w, k) ops (runOps P.step p ops).2 b' ∧ Shows (runOps P.step p ops).1 b'.1 b'.2 :=
  history_of_sim (fun p b => Shows p b.1 b.2) Op.Sane step_sim p (w, k) ops hops h

example : Shows ⟨[1, 2, 3, 4, 5], 2, 1, 3⟩ [2, 3, 4] 1 ∧ ∀ o ∈ [Op.getBytes 1, .getParser 1, .skip 4, .getRemaining, .getStructs ⟨['B', 'B'], 2, fun b => .ok (b.map Int.ofNat)⟩], o.Sane := by
  refine ⟨⟨1, by simp⟩, ?_⟩
  intro o ho
  simp only [List.mem_cons, List.not_mem_nil, or_false] at ho
  rcases ho with rfl | rfl | rfl | rfl | rfl <;> simp [Op.Sane]

/-- the bytes in a list of results -/
def allBytes : List Res → List Byte
  | [] => []
  | .bytes b :: rs => b ++ allBytes rs
  | _ :: rs => allBytes rs

/-- **C29, reads one after another.** Reading `ns` bytes from a parser, where they fit into the window, returns consecutive bytes: put together they are the first `sum ns` of those left. -/
theorem C29_consecutive (p : P) (w : List Byte) (k : Nat) (h : Shows p w k) (ns : List Nat) (hns : k + ns.sum ≤ w.length) :
    (runOps P.step p (ns.map (fun n : Nat => Op.getBytes n))).2.map (fun r => match r with | .bytes b => b.length | _ => 0) = ns ∧
    allBytes (runOps P.step p (ns.map (fun n : Nat => Op.getBytes n))).2 = (w.drop k).take ns.sum := by
  induction ns generalizing p k with
  | nil => simp [runOps, allBytes]
  | cons n ns ih =>
    simp only [List.sum_cons] at hns
    obtain ⟨b', h1, h2⟩ := step_sim p (w, k) (.getBytes n) (by simp [Op.Sane]) h
    simp only [Spec, Read, Int.toNat_natCast] at h1
    rw [if_pos (by omega)] at h1
    obtain ⟨h1, rfl⟩ := h1
    obtain ⟨i1, i2⟩ := ih _ (k + n) h2 (by omega)
    simp only [List.map_cons, runOps, h1]
    refine ⟨?_, ?_⟩
    · rw [i1]; simp; omega
    · simp only [allBytes, List.sum_cons]
      rw [i2, List.take_add, List.drop_drop]

/-- **C29 is violated**: a parser made with an offset and no length takes the length of the whole stream, so its window goes past the end: reading more bytes than there are returns fewer bytes instead of raising. -/
theorem C29_offset_violates : ∃ (stream : List Byte) (p : P), P.new stream 2 none = .ok p ∧ (p.step (.getBytes 3)).2 = .bytes [7] ∧ (p.step .remainingCount).2 = .int 3 :=
  ⟨[5, 6, 7], ⟨[5, 6, 7], 2, 2, 3⟩, rfl, rfl, rfl⟩

/-- **C29 is violated**: a sub-parser of 0 bytes can read bytes which its parent reads as well. -/
theorem C29_zero_violates : ∃ (p q : P), P.new [5, 6, 7] 0 none = .ok p ∧ (p.step (.getParser 0)).2 = .parser q ∧ (q.step (.getBytes 3)).2 = .bytes [5, 6, 7] ∧
    ((p.step (.getParser 0)).1.step (.getBytes 3)).2 = .bytes [5, 6, 7] :=
  ⟨⟨[5, 6, 7], 0, 0, 3⟩, ⟨[5, 6, 7], 0, 0, 3⟩, rfl, rfl, rfl, rfl⟩

/-- **C29 is violated**: a window which does not fit into the stream is accepted, and a read inside the claimed length returns fewer bytes than asked for. -/
theorem C29_length_violates : ∃ (p : P), P.new [5, 6, 7] 1 (some 9) = .ok p ∧ (p.step (.getBytes 4)).2 = .bytes [6, 7] :=
  ⟨⟨[5, 6, 7], 1, 1, 9⟩, rfl, rfl⟩

end Verif.Parser
