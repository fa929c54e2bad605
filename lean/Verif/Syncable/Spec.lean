import Verif.Syncable.Model
/-! # What a time series with synchronization should do (C15) -/
namespace Verif.Syncable
open Verif

/-- The series held (oldest first) and the key up to which it was confirmed. -/
structure Series (V : Type _) where
  data : List (Pt V)
  synced : Option Int

section
variable {V : Type _}

/-- the items not confirmed yet -/
def Series.unconfirmed (a : Series V) : List (Pt V) :=
  match a.synced with
  | none => a.data
  | some y => a.data.filter (fun x => y < x.1)

/-- What the calls should do; `spanDb` is the span of keys to be retained. -/
inductive Spec (spanDb : Int) : Series V → Op V → Res V → Series V → Prop
  /-- data newer than everything held is appended -/
  | new {a k v} : (∀ x ∈ a.data, x.1 < k) → Spec spanDb a (.newData k v) .unit { a with data := a.data ++ [(k, v)] }
  /-- anything else is refused -/
  | old {a k v} : (∃ x ∈ a.data, k ≤ x.1) → Spec spanDb a (.newData k v) (.exc .valueError) a
  /-- moving data between memory and database changes nothing -/
  | syncToDb {a} : Spec spanDb a .syncToDb .unit a
  | cleanupMemory {a} : Spec spanDb a .cleanupMemory .unit a
  /-- cleaning up drops at most the data older than the span to retain -/
  | cleanupNothing {a} : Spec spanDb a .cleanupDb .unit a
  | cleanupDb {a l} : a.data.getLast? = some l →
      Spec spanDb a .cleanupDb .unit { a with data := a.data.filter (fun x => l.1 - spanDb ≤ x.1) }
  /-- an archive query returns the data with keys in the closed interval, in order -/
  | archive {a i j} : Spec spanDb a (.archive i j) (.items (a.data.filter (fun x => i ≤ x.1 ∧ x.1 ≤ j))) a
  | latest {a l} : a.data.getLast? = some l → Spec spanDb a .latest (.item l) a
  | latestNone {a} : a.data = [] → Spec spanDb a .latest (.exc .valueError) a
  /-- a sync request reports the unconfirmed data in order, at most as many as asked for -/
  | request {a m} : a.unconfirmed ≠ [] → Spec spanDb a (.syncRequest m) (.items (takeMax m a.unconfirmed)) a
  | requestNone {a m} : a.unconfirmed = [] → Spec spanDb a (.syncRequest m) (.exc .valueError) a
  | confirm {a k} : Spec spanDb a (.syncedUpTo k) .unit { a with synced := some k }

end
end Verif.Syncable
