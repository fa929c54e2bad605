import Verif.Config.Props
/-!
# Model of HTTPJSONSource (satella/configuration/sources/file.py), and C272

What `requests.request` returns or raises is a parameter, and so is which exceptions are `requests.RequestException`
(among them, since requests 2.27, that of a body which is not JSON; before that it was a plain ValueError).
-/
namespace Verif.Config
open Verif Merge

/-- what `requests.request` returns: `status_code`, and what `json()` returns or raises, /repo/satella/configuration/sources/file.py:144-149 -/
structure Reply where
  code : Nat
  body : Out Cfg

/-- what is within the decorator, /repo/satella/configuration/sources/file.py:143-149 -/
def httpInner (answer : Out Reply) : Out Cfg :=
  match answer with
  | .raise e => .raise e
  | .ok r => if r.code ≥ 400 then .raise .configurationError else r.body

/-- `HTTPJSONSource.provide`, /repo/satella/configuration/sources/file.py:142-149 -/
def httpProvide (isRequest : Exc → Bool) (answer : Out Reply) : Out Cfg :=
  match httpInner answer with
  | .ok c => .ok c
  | .raise e => if isRequest e then .raise .configurationError else .raise e

/-! ## Specification -/

/-- the server replied with a 200-esque code and a JSON dictionary -/
def Gave (answer : Out Reply) (c : Cfg) : Prop := ∃ code, answer = .ok ⟨code, .ok c⟩ ∧ 200 ≤ code ∧ code < 300 ∧ c.isDict = true

/-- the request failed: it raised, as did taking the JSON off the reply, or the code is that of an error -/
def Failed (isRequest : Exc → Bool) (answer : Out Reply) : Prop :=
  (∃ e, answer = .raise e ∧ isRequest e = true) ∨ (∃ r, answer = .ok r ∧ 400 ≤ r.code) ∨ (∃ r e, answer = .ok r ∧ r.body = .raise e ∧ isRequest e = true)

/-! ## Proofs -/

/-- **C272 configuration from a server (part).** If the server replies with a 200-esque code and a JSON dictionary, that is provided.  If the request fails, if the code is that of an error,
or if the reply is not JSON, ConfigurationError is raised, so that an OptionalSource of it provides an empty dictionary, and an AlternativeSource goes on with the next source.
Missing: replies which are JSON but not dictionaries, and codes between; see `C272_not_a_dictionary_violates` and `C272_code_violates`. -/
theorem C272_provides_partial (isRequest : Exc → Bool) (answer : Out Reply) :
    (∀ c, Gave answer c → httpProvide isRequest answer = .ok c ∧ (Src.leaf (httpProvide isRequest answer)).optional.value = .ok c) ∧
    (Failed isRequest answer → httpProvide isRequest answer = .raise .configurationError ∧
      (Src.leaf (httpProvide isRequest answer)).optional.value = .ok (.dict () .nil) ∧
      ∀ c next, (Src.value next = .ok c) → c.isDict = true → (Src.alt (.cons (.leaf (httpProvide isRequest answer)) (.cons next .nil))).value = .ok c) := by
  constructor
  · rintro c ⟨code, rfl, h1, h2, hd⟩
    have h : httpProvide isRequest (.ok ⟨code, .ok c⟩) = .ok c := by
      have : ¬ code ≥ 400 := by omega
      simp [httpProvide, httpInner, this]
    refine ⟨h, ?_⟩
    rw [h]
    exact (C26_optional_partial (.leaf (.ok c))).1 c rfl hd
  · intro hf
    have h : httpProvide isRequest answer = .raise .configurationError := by
      rcases hf with ⟨e, rfl, he⟩ | ⟨r, rfl, hr⟩ | ⟨r, e, rfl, hb, he⟩
      · simp [httpProvide, httpInner, he]
      · simp [httpProvide, httpInner, hr]
      · simp only [httpProvide, httpInner]
        split
        · rename_i h; split at h
          · cases h
          · rw [hb] at h; cases h
        · rename_i e' h
          split at h
          · cases h; simp
          · rw [hb] at h; cases h; simp [he]
    refine ⟨h, ?_, ?_⟩
    · rw [h]
      exact (C26_optional_partial (.leaf (.raise .configurationError))).2.1 rfl
    · intro c next hn hd
      rw [h]
      exact (C26_alternative [.leaf (.raise .configurationError), next]).1 [.leaf (.raise .configurationError)] next [] c rfl (by simp [Src.value]) hn hd

example : Gave (.ok ⟨200, .ok (.dict () (.cons 0 (.atom 1) .nil))⟩) (.dict () (.cons 0 (.atom 1) .nil)) := ⟨200, rfl, by decide, by decide, rfl⟩

example : Failed (· == .other 7) (.raise (.other 7)) ∧ Failed (· == .other 7) (.ok ⟨404, .ok (.dict () .nil)⟩) ∧ Failed (· == .other 7) (.ok ⟨200, .raise (.other 7)⟩) :=
  ⟨.inl ⟨_, rfl, rfl⟩, .inr (.inl ⟨_, rfl, by decide⟩), .inr (.inr ⟨_, _, rfl, rfl, rfl⟩)⟩

/-- **C272 a reply which is not a dictionary (violation).** A list replied with code 200 is provided as it is, and an OptionalSource of the source raises AssertionError. -/
theorem C272_not_a_dictionary_violates (isRequest : Exc → Bool) (l : List Val) :
    httpProvide isRequest (.ok ⟨200, .ok (.list () l)⟩) = .ok (.list () l) ∧
    (Src.leaf (httpProvide isRequest (.ok ⟨200, .ok (.list () l)⟩))).optional.value = .raise .assertionError := ⟨rfl, rfl⟩

/-- **C272 codes which are not 200-esque (violation).** A body sent with a code below 400, such as 300 (multiple choices), is taken as the configuration. -/
theorem C272_code_violates (isRequest : Exc → Bool) (c : Cfg) (code : Nat) (h : code < 400) : httpProvide isRequest (.ok ⟨code, .ok c⟩) = .ok c := by
  have : ¬ code ≥ 400 := by omega
  simp [httpProvide, httpInner, this]

example : (300 : Nat) < 400 ∧ ¬ (200 ≤ 300 ∧ 300 < 300) := by decide

end Verif.Config
