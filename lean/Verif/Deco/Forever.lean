/-!
# Model of repeat_forever (satella/coding/decorators/flow_control.py), C245
-/
namespace Verif.Deco.Forever

/-- A call of a function decorated with `repeat_forever`, watched for `turns` turns of its loop, /repo/satella/coding/decorators/flow_control.py:15-18: how often the function was called, and
the exception that ended the loop, if it has ended.  `fn k` is the exception of the `k`-th call, if it raises; whatever it returns is dropped. -/
def repeatForever (fn : Nat → Option Nat) : Nat → Nat → Nat × Option Nat
  | 0, k => (k, none)
  | turns + 1, k =>
    match fn k with
    | some e => (k + 1, some e)
    | none => repeatForever fn turns (k + 1)

theorem calm (fn : Nat → Option Nat) (m k turns : Nat) (h : ∀ j, k ≤ j → j < k + m → fn j = none) :
    repeatForever fn (m + turns) k = repeatForever fn turns (k + m) := by
  induction m generalizing k with
  | zero => simp
  | succ m ih =>
    have e : m + 1 + turns = (m + turns) + 1 := by omega
    rw [e]
    simp only [repeatForever, h k (by omega) (by omega)]
    rw [ih (k + 1) (fun j h1 h2 => h j (by omega) (by omega))]
    congr 1; omega

/-- **C245**: as long as the function raises nothing it is called again and again, as often as there is time for, and the call does not end. -/
theorem C245_forever (fn : Nat → Option Nat) (turns : Nat) (h : ∀ j, j < turns → fn j = none) : repeatForever fn turns 0 = (turns, none) := by
  have := calm fn turns 0 0 (fun j _ h2 => h j (by omega))
  simpa [repeatForever] using this

/-- **C245, the end**: the call ends exactly when the function raises for the first time, with that exception, and the function is not called again. -/
theorem C245_ends (fn : Nat → Option Nat) (turns n e : Nat) :
    repeatForever fn turns 0 = (n, some e) ↔ ∃ k, k < turns ∧ fn k = some e ∧ (∀ j, j < k → fn j = none) ∧ n = k + 1 := by
  constructor
  · intro h
    have key : ∀ (turns k : Nat), repeatForever fn turns k = (n, some e) → (∀ j, j < k → fn j = none) →
        ∃ i, i < k + turns ∧ fn i = some e ∧ (∀ j, j < i → fn j = none) ∧ n = i + 1 := by
      intro turns
      induction turns with
      | zero => intro k h _; simp [repeatForever] at h
      | succ turns ih =>
        intro k h hb
        simp only [repeatForever] at h
        split at h
        · rename_i x hx
          simp only [Prod.mk.injEq, Option.some.injEq] at h
          exact ⟨k, by omega, by rw [hx, h.2], hb, h.1.symm⟩
        · rename_i hx
          obtain ⟨i, h1, h2⟩ := ih (k + 1) h (fun j hj => by
            rcases Nat.lt_succ_iff_lt_or_eq.1 hj with hj | rfl
            · exact hb j hj
            · exact hx)
          exact ⟨i, by omega, h2⟩
    simpa using key turns 0 h (by simp)
  · rintro ⟨k, hk, he, hb, rfl⟩
    obtain ⟨m, rfl⟩ : ∃ m, turns = k + (m + 1) := ⟨turns - k - 1, by omega⟩
    rw [calm fn k 0 (m + 1) (fun j _ h2 => hb j (by omega))]
    simp [repeatForever, he]

example : repeatForever (fun k => if k = 2 then some 7 else none) 10 0 = (3, some 7) := rfl
example : repeatForever (fun _ => none) 10 0 = (10, none) := rfl

end Verif.Deco.Forever
