import Verif.Cache.Model
/-!
# What a cache dictionary should do (C10, C11)

The cache remembers, for some keys, either a value and when it was obtained, or that the getter
raised KeyError and when.  This file mentions nothing of the model but the shapes of calls and results.
-/
namespace Verif.Cache
open Verif

/-- What is remembered about a key. -/
inductive Entry (V : Type _) where
  | value (v : V) (at_ : Int)
  | failed (at_ : Int)

/-- The abstract cache. -/
abbrev Mem (K V : Type _) := K → Option (Entry V)

section
variable {K V : Type _} [DecidableEq K] (E : Env V)

/-- Remember `e` (or nothing) about `k`. -/
def Mem.upd (m : Mem K V) (k : K) (e : Option (Entry V)) : Mem K V :=
  fun x => if x = k then e else m x

/-- What is remembered of a getter's answer given at time `t`: a value replaces everything; a KeyError
replaces everything by a remembered failure if failures are cached, by nothing otherwise; any
other exception changes nothing. -/
def Mem.learn (m : Mem K V) (k : K) (g : Got V) (t : Int) : Mem K V :=
  match g with
  | .ok v => m.upd k (some (.value v t))
  | .keyError => m.upd k (if E.failures.isSome then some (.failed t) else none)
  | .other _ => m

/-- What a lookup that consulted the getter gives. -/
def Answer (g : Got V) : Out V :=
  match g with
  | .ok v => .val v
  | .keyError => (match E.default with | some d => .val d | none => .exc .keyError)
  | .other n => .exc (.other n)

/-- What a lookup may do at time `now` given what is remembered. -/
inductive Decision (now : Int) : Option (Entry V) → Res V → Prop
  /-- nothing known: ask -/
  | unknown : Decision now none { out := .block, asked := true }
  /-- not older than the stale interval: return it, do not ask, schedule nothing -/
  | fresh {v s} : now - s ≤ E.stale → Decision now (some (.value v s)) { out := .val v }
  /-- stale but not expired: return it, schedule one refresh, do not ask -/
  | stale {v s} : E.stale < now - s → now - s ≤ E.expiration →
      Decision now (some (.value v s)) { out := .val v, scheduled := true }
  /-- expired: ask -/
  | expired {v s} : E.expiration < now - s →
      Decision now (some (.value v s)) { out := .block, asked := true }
  /-- failed recently: the default, or KeyError -/
  | missDefault {s i d} : E.failures = some i → now - s ≤ i → E.default = some d →
      Decision now (some (.failed s)) { out := .val d }
  | missRaise {s i} : E.failures = some i → now - s ≤ i → E.default = none →
      Decision now (some (.failed s)) { out := .exc .keyError }
  /-- failed long ago: ask -/
  | missExpired {s i} : E.failures = some i → i < now - s →
      Decision now (some (.failed s)) { out := .block, asked := true }

/-- What each call should do. -/
inductive Spec : Mem K V → Op K V → Res V → Mem K V → Prop
  /-- answered from memory -/
  | getHit {m k now g t r} : Decision E now (m k) r → r.asked = false →
      Spec m (.get k now g t) r m
  /-- the getter is asked, its answer returned and remembered -/
  | getAsk {m k now g t r} : Decision E now (m k) r → r.asked = true →
      Spec m (.get k now g t) { out := Answer E g, asked := true } (m.learn E k g t)
  | lookup {m k now r} : Decision E now (m k) r → Spec m (.lookup k now) r m
  | complete {m k g t} : Spec m (.complete k g t) { out := Answer E g } (m.learn E k g t)
  | refresh {m k g t} : Spec m (.refresh k g t) { out := .unit } (m.learn E k g t)
  | set {m k v t} : Spec m (.set k v t) { out := .unit } (m.upd k (some (.value v t)))
  | feed {m k v stamp t} : Spec m (.feed k v stamp t) { out := .unit }
      (m.upd k (some (.value v (stamp.getD t))))
  | del {m k v s} : m k = some (.value v s) → Spec m (.del k) { out := .unit } (m.upd k none)
  | delMissing {m k} : (∀ v s, m k ≠ some (.value v s)) → Spec m (.del k) { out := .exc .keyError } m
  | invalidate {m k} : Spec m (.invalidate k) { out := .unit } (m.upd k none)
  | info {m k t b} : (b = true ↔ (∃ v s, m k = some (.value v s) ∧ t - s ≤ E.expiration) ∨
        (∃ s, m k = some (.failed s) ∧ t - s ≤ E.expiration)) →
      Spec m (.hasInfo k t) { out := .bool b } m

end
end Verif.Cache
