import Verif.LRU.Model
/-!
# Model of satella/coding/structures/dictionaries/cache_dict.py (CacheDict, LRUCacheDict)

Times are integers.  `now` is a reading of `time.monotonic()` (used by lookups), `t` a reading of `time_getter()` (used by
everything else); by default both are the same clock.  What the value getter does is an input of the call (`Got`).
A blocking fetch is either atomic (`get`), or split: a lookup that must block (`lookup`
returning `block`) and, any number of other calls later, its completion (`complete`); a background refresh completes by `refresh` at any time.
Within one such step the interpreter is assumed not to switch threads.
Not modelled: `_parse_time_string` for intervals (see C30), the executor, `keys()/items()` views of Mapping.
-/
namespace Verif.Cache
open Verif

/-- Constructor arguments, /repo/satella/coding/structures/dictionaries/cache_dict.py:120-140.
`failures` is `cache_failures_interval`; `default` the value made by `default_value_factory`. -/
structure Env (V : Type _) where
  stale : Int
  expiration : Int
  failures : Option Int
  default : Option V

/-- `CacheDict.__init__`'s assertion, /repo/satella/coding/structures/dictionaries/cache_dict.py:128 -/
def Env.Ok {V : Type _} (E : Env V) : Prop := E.stale ≤ E.expiration

/-- The attributes `data`, `timestamp_data`, `cache_missed`,
/repo/satella/coding/structures/dictionaries/cache_dict.py:135-137 -/
structure St (K V : Type _) where
  data : Dict K V
  ts : Dict K Int
  missed : List K

/-- What the value getter did when asked.  (Part of the model of `CacheDict`, /repo/satella/coding/structures/dictionaries/cache_dict.py:48-249.) -/
inductive Got (V : Type _) where
  | ok (v : V)
  | keyError
  | other (n : Nat)

/-- What a call did: returned a value/nothing/a bool, raised, or has to block on the getter.  (Part of the model of `CacheDict`, /repo/satella/coding/structures/dictionaries/cache_dict.py:48-249.) -/
inductive Out (V : Type _) where
  | val (v : V)
  | unit
  | bool (b : Bool)
  | exc (e : Exc)
  | block
  deriving DecidableEq, Repr

/-- result of a call: outcome, whether the getter was asked synchronously, whether a refresh was scheduled.  (Part of the model of `CacheDict`, /repo/satella/coding/structures/dictionaries/cache_dict.py:48-249.) -/
structure Res (V : Type _) where
  out : Out V
  asked : Bool := false
  scheduled : Bool := false
  deriving DecidableEq, Repr

section
variable {K V : Type _} [DecidableEq K] (E : Env V)

/-- `CacheDict.__delitem__`, /repo/satella/coding/structures/dictionaries/cache_dict.py:236-240: the two `del`
in order, either may raise KeyError. -/
def St.del (s : St K V) (k : K) : St K V × Option Exc :=
  if Dict.has s.data k then
    let s1 := { s with data := Dict.del s.data k }
    if Dict.has s.ts k then
      ({ s1 with ts := Dict.del s.ts k, missed := s.missed.filter (fun x => decide (x ≠ k)) }, none)
    else (s1, some .keyError)
  else (s, some .keyError)

/-- `CacheDict.invalidate`, /repo/satella/coding/structures/dictionaries/cache_dict.py:191-203 -/
def St.invalidate (s : St K V) (k : K) : St K V := (St.del s k).1

/-- `CacheDict.__setitem__`, /repo/satella/coding/structures/dictionaries/cache_dict.py:242-249 -/
def St.set (s : St K V) (k : K) (v : V) (t : Int) : St K V :=
  { data := Dict.set s.data k v, ts := Dict.set s.ts k t,
    missed := s.missed.filter (fun x => decide (x ≠ k)) }

/-- `timestamp or self.time_getter()`: zero counts as not given,
/repo/satella/coding/structures/dictionaries/cache_dict.py:95 -/
def feedStamp (stamp : Option Int) (t : Int) : Int :=
  match stamp with
  | some x => if x = 0 then t else x
  | none => t

/-- `CacheDict.feed`, /repo/satella/coding/structures/dictionaries/cache_dict.py:90-95; `cache_missed` is not touched. -/
def St.feed (s : St K V) (k : K) (v : V) (stamp : Option Int) (t : Int) : St K V :=
  { s with data := Dict.set s.data k v, ts := Dict.set s.ts k (feedStamp stamp t) }

/-- `CacheDict._on_failure`, /repo/satella/coding/structures/dictionaries/cache_dict.py:160-169 -/
def St.onFailure (s : St K V) (k : K) (t : Int) : St K V :=
  let s1 := St.invalidate s k
  if E.failures.isSome then
    { s1 with missed := setAdd s1.missed k, ts := Dict.set s1.ts k t }
  else s1

/-- default value or KeyError, /repo/satella/coding/structures/dictionaries/cache_dict.py:153-156,210-213 -/
def missOut : Out V :=
  match E.default with
  | some d => .val d
  | none => .exc .keyError

/-- The end of `CacheDict.get_value_block`, once the getter answered at time `t`,
/repo/satella/coding/structures/dictionaries/cache_dict.py:149-158 -/
def St.complete (s : St K V) (k : K) (g : Got V) (t : Int) : St K V × Out V :=
  match g with
  | .ok v => (St.set s k v t, .val v)
  | .keyError => (St.onFailure E s k t, missOut E)
  | .other n => (s, .exc (.other n))

/-- `on_done_callback` of `schedule_a_fetch`, /repo/satella/coding/structures/dictionaries/cache_dict.py:180-186
(an exception other than KeyError is only logged by the executor) -/
def St.refresh (s : St K V) (k : K) (g : Got V) (t : Int) : St K V :=
  match g with
  | .ok v => St.set s k v t
  | .keyError => St.onFailure E s k t
  | .other _ => s

/-- `CacheDict.__getitem__` with `_on_cache_hit` and `_on_cache_hit_empty` up to the decision to
block, /repo/satella/coding/structures/dictionaries/cache_dict.py:205-234.  `cache_failures_interval` is None
only if nothing was ever put in `cache_missed`; comparing with None would raise TypeError. -/
def St.lookup (s : St K V) (k : K) (now : Int) : Res V :=
  if (!Dict.has s.data k) && decide (k ∉ s.missed) then { out := .block, asked := true }
  else
    match Dict.get? s.ts k with
    | none => { out := .exc .keyError }
    | some timestamp =>
      if k ∈ s.missed then
        match E.failures with
        | none => { out := .exc .typeError }
        | some fi =>
          if now - timestamp > fi then { out := .block, asked := true }
          else { out := missOut E }
      else if now - timestamp > E.expiration then { out := .block, asked := true }
      else
        match Dict.get? s.data k with
        | none => { out := .exc .keyError }
        | some v =>
          if now - timestamp > E.stale then { out := .val v, scheduled := true }
          else { out := .val v }

/-- `CacheDict.has_info_about`, /repo/satella/coding/structures/dictionaries/cache_dict.py:97-118 -/
def St.hasInfo (s : St K V) (k : K) (t : Int) : Bool :=
  if Dict.has s.data k then
    match Dict.get? s.ts k with
    | some x => decide (t - x ≤ E.expiration)
    | none => false
  else if E.failures.isSome && decide (k ∈ s.missed) then
    match Dict.get? s.ts k with
    | some x => decide (t - x ≤ E.expiration)
    | none => false
  else false

/-- Calls and background events. `get` asks and completes at once; `lookup`/`complete` are the two halves.  (Part of the model of `CacheDict`, /repo/satella/coding/structures/dictionaries/cache_dict.py:48-249.) -/
inductive Op (K V : Type _) where
  | get (k : K) (now : Int) (g : Got V) (t : Int)
  | lookup (k : K) (now : Int)
  | complete (k : K) (g : Got V) (t : Int)
  | refresh (k : K) (g : Got V) (t : Int)
  | set (k : K) (v : V) (t : Int)
  | feed (k : K) (v : V) (stamp : Option Int) (t : Int)
  | del (k : K)
  | invalidate (k : K)
  | hasInfo (k : K) (t : Int)

/-- One call on a CacheDict, /repo/satella/coding/structures/dictionaries/cache_dict.py:84-249 -/
def step (s : St K V) : Op K V → St K V × Res V
  | .get k now g t =>
    let r := St.lookup E s k now
    match r.out with
    | .block => let c := St.complete E s k g t; (c.1, { r with out := c.2 })
    | _ => (s, r)
  | .lookup k now => (s, St.lookup E s k now)
  | .complete k g t => let c := St.complete E s k g t; (c.1, { out := c.2 })
  | .refresh k g t => (St.refresh E s k g t, { out := .unit })
  | .set k v t => (St.set s k v t, { out := .unit })
  | .feed k v stamp t => (St.feed s k v stamp t, { out := .unit })
  | .del k =>
    match St.del s k with
    | (s', none) => (s', { out := .unit })
    | (s', some e) => (s', { out := .exc e })
  | .invalidate k => (St.invalidate s k, { out := .unit })
  | .hasInfo k t => (s, { out := .bool (St.hasInfo E s k t) })

/-- a new CacheDict, /repo/satella/coding/structures/dictionaries/cache_dict.py:135-137 -/
def St.empty : St K V := { data := [], ts := [], missed := [] }

/-! ## LRUCacheDict -/

/-- An LRUCacheDict: a CacheDict and its LRU (key order oldest first),
/repo/satella/coding/structures/dictionaries/cache_dict.py:259-263 -/
structure LSt (K V : Type _) where
  base : St K V
  lru : List K

/-- `lru.remove(key)` (KeyError when absent), /repo/satella/coding/structures/lru.py:24-25 -/
def lruRemove (l : List K) (k : K) : Option (List K) := if k ∈ l then some (LRU.erase l k) else none

/-- `LRUCacheDict.__delitem__`, /repo/satella/coding/structures/dictionaries/cache_dict.py:301-303 -/
def LSt.del (s : LSt K V) (k : K) : LSt K V × Option Exc :=
  match St.del s.base k with
  | (b, some e) => ({ s with base := b }, some e)
  | (b, none) =>
    match lruRemove s.lru k with
    | some l => ({ base := b, lru := l }, none)
    | none => ({ s with base := b }, some .keyError)

/-- `LRUCacheDict.invalidate`, /repo/satella/coding/structures/dictionaries/cache_dict.py:277-290:
`del self[key]` with KeyError silenced, then `lru.remove` with KeyError silenced. -/
def LSt.invalidate (s : LSt K V) (k : K) : LSt K V :=
  let s1 := (LSt.del s k).1
  match lruRemove s1.lru k with
  | some l => { s1 with lru := l }
  | none => s1

/-- `LRUCacheDict.evict`, /repo/satella/coding/structures/dictionaries/cache_dict.py:272-275; with nothing in
the LRU it does nothing (KeyError silenced) -/
def LSt.evict (s : LSt K V) : LSt K V :=
  match LRU.evict s.lru with
  | none => s
  | some (k, l) => LSt.invalidate { s with lru := l } k

theorem lruErase_length_le (l : List K) (k : K) : (LRU.erase l k).length ≤ l.length :=
  List.length_filter_le _ _

theorem LSt.invalidate_lru_le (s : LSt K V) (k : K) : (LSt.invalidate s k).lru.length ≤ s.lru.length := by
  have h1 : (LSt.del s k).1.lru.length ≤ s.lru.length := by
    unfold LSt.del
    split
    · exact Nat.le_refl _
    · split
      · rename_i l h
        unfold lruRemove at h
        split at h
        · cases h; exact lruErase_length_le _ _
        · simp at h
      · exact Nat.le_refl _
  unfold LSt.invalidate
  dsimp only
  split
  · rename_i l h
    unfold lruRemove at h
    split at h
    · cases h
      exact Nat.le_trans (lruErase_length_le _ _) h1
    · simp at h
  · exact h1

/-- `LRUCacheDict.make_room`, /repo/satella/coding/structures/dictionaries/cache_dict.py:265-270.  With an empty LRU and too
many entries the loop would run for ever: `none`. -/
def LSt.makeRoom (maxSize : Nat) (s : LSt K V) : Option (LSt K V) :=
  if s.base.data.length > maxSize - 1 then
    match _h : s.lru with
    | [] => none
    | _ :: _ => LSt.makeRoom maxSize (LSt.evict s)
  else some s
termination_by s.lru.length
decreasing_by
  unfold LSt.evict
  rw [_h]
  simp only [LRU.evict]
  refine Nat.lt_of_le_of_lt (LSt.invalidate_lru_le _ _) ?_
  simp

/-- `LRUCacheDict.__setitem__`, /repo/satella/coding/structures/dictionaries/cache_dict.py:314-320 -/
def LSt.set (maxSize : Nat) (s : LSt K V) (k : K) (v : V) (t : Int) : Option (LSt K V) :=
  match LSt.makeRoom maxSize s with
  | none => none
  | some s1 => some { base := St.set s1.base k v t, lru := LRU.markAsUsed s1.lru k }

/-- `LRUCacheDict.feed`, /repo/satella/coding/structures/dictionaries/cache_dict.py:305-312 -/
def LSt.feed (maxSize : Nat) (s : LSt K V) (k : K) (v : V) (stamp : Option Int) (t : Int) :
    Option (LSt K V) :=
  match (if Dict.has s.base.data k then some s else LSt.makeRoom maxSize s) with
  | none => none
  | some s1 => some { base := St.feed s1.base k v stamp t, lru := LRU.add s1.lru k }

/-- `_on_failure` with the overridden `invalidate`,
/repo/satella/coding/structures/dictionaries/cache_dict.py:160-169,277-290 -/
def LSt.onFailure (s : LSt K V) (k : K) (t : Int) : LSt K V :=
  let s1 := LSt.invalidate s k
  if E.failures.isSome then
    { s1 with base := { s1.base with missed := setAdd s1.base.missed k, ts := Dict.set s1.base.ts k t } }
  else s1

/-- `LRUCacheDict.get_value_block` after the getter answered,
/repo/satella/coding/structures/dictionaries/cache_dict.py:149-158,296-299: `lru.add` is reached unless
an exception propagates. -/
def LSt.complete (maxSize : Nat) (s : LSt K V) (k : K) (g : Got V) (t : Int) :
    Option (LSt K V × Out V) :=
  match g with
  | .ok v => (LSt.set maxSize s k v t).map fun s1 => ({ s1 with lru := LRU.add s1.lru k }, .val v)
  | .keyError =>
    let s1 := LSt.onFailure E s k t
    match E.default with
    | some d => some ({ s1 with lru := LRU.add s1.lru k }, .val d)
    | none => some (s1, .exc .keyError)
  | .other n => some (s, .exc (.other n))

/-- `on_done_callback` on an LRUCacheDict, /repo/satella/coding/structures/dictionaries/cache_dict.py:180-186 -/
def LSt.refresh (maxSize : Nat) (s : LSt K V) (k : K) (g : Got V) (t : Int) : Option (LSt K V) :=
  match g with
  | .ok v => LSt.set maxSize s k v t
  | .keyError => some (LSt.onFailure E s k t)
  | .other _ => some s

/-- One call on an LRUCacheDict; `none` means it never returns.
`__getitem__` :292-294 marks the key as used first; the rest as in `step`;
/repo/satella/coding/structures/dictionaries/cache_dict.py:252-320 -/
def lstep (maxSize : Nat) (s : LSt K V) : Op K V → Option (LSt K V × Res V)
  | .get k now g t =>
    let s1 := { s with lru := LRU.markAsUsed s.lru k }
    let r := St.lookup E s1.base k now
    match r.out with
    | .block => (LSt.complete E maxSize s1 k g t).map fun c => (c.1, { r with out := c.2 })
    | _ => some (s1, r)
  | .lookup k now =>
    some ({ s with lru := LRU.markAsUsed s.lru k }, St.lookup E s.base k now)
  | .complete k g t => (LSt.complete E maxSize s k g t).map fun c => (c.1, { out := c.2 })
  | .refresh k g t => (LSt.refresh E maxSize s k g t).map fun s' => (s', { out := .unit })
  | .set k v t => (LSt.set maxSize s k v t).map fun s' => (s', { out := .unit })
  | .feed k v stamp t => (LSt.feed maxSize s k v stamp t).map fun s' => (s', { out := .unit })
  | .del k =>
    match LSt.del s k with
    | (s', none) => some (s', { out := .unit })
    | (s', some e) => some (s', { out := .exc e })
  | .invalidate k => some (LSt.invalidate s k, { out := .unit })
  | .hasInfo k t => some (s, { out := .bool (St.hasInfo E s.base k t) })

/-- a new LRUCacheDict, /repo/satella/coding/structures/dictionaries/cache_dict.py:259-263 -/
def LSt.empty : LSt K V := { base := St.empty, lru := [] }

/-- A history of calls on an LRUCacheDict (the caller; not code of /repo); `none` if one never returns. -/
def lrun (maxSize : Nat) (s : LSt K V) : List (Op K V) → Option (LSt K V)
  | [] => some s
  | o :: os =>
    match lstep E maxSize s o with
    | none => none
    | some (s', _) => lrun maxSize s' os

end
end Verif.Cache
