import Verif.Spec.History
/-!
# Specification of the map an application sees

An application does not have 32-byte keys: it names things by byte strings and hands `KeyHash::with(key)` to the tree.  What
it relies on is a map from byte strings to values.  This file defines that map without mentioning hashes, the same history in
terms of hashed keys, and the condition under which the two mean the same: no two of the byte strings involved have the same
digest.
-/
namespace Jmt

/-- One operation of an application that names keys by byte strings. -/
inductive UserOp where
  /-- commit sets of writes at the next versions (`none` deletes) -/
  | commit (sets : List (List (List UInt8 × Option Value)))
  /-- commit sets of writes at the next versions through the batch API, which cannot delete -/
  | batch (sets : List (List (List UInt8 × Value)))
  /-- prune everything that became stale at or before `r` -/
  | purge (r : Nat)

/-- The call the application makes: every key goes through `KeyHash::with` (src/lib.rs:246-252). -/
def UserOp.hashed (f : List UInt8 → Digest) : UserOp → Op
  | .commit sets => .commit (sets.map (fun ws => ws.map (fun w => (f w.1, w.2))))
  | .batch sets => .batch (sets.map (fun ws => ws.map (fun w => (f w.1, w.2))))
  | .purge r => .purge r

namespace Spec

/-- A map from byte strings to values. -/
abbrev UserMap := List UInt8 → Option Value

/-- One write. -/
def UserMap.write (s : UserMap) (w : List UInt8 × Option Value) : UserMap := fun k => if k = w.1 then w.2 else s k

/-- The sets of writes of a history, in order; set number `i` is version `i`. -/
def userSets : List UserOp → List (List (List UInt8 × Option Value))
  | [] => []
  | .commit sets :: us => sets ++ userSets us
  | .batch sets :: us => sets.map (fun ws => ws.map (fun w => (w.1, some w.2))) ++ userSets us
  | .purge _ :: us => userSets us

/-- The application's map at version `v`: the writes of the sets `0 ..= v`, in order, on the empty map. -/
def userMapAt (us : List UserOp) (v : Nat) : UserMap :=
  (((userSets us).take (v + 1)).flatMap id).foldl UserMap.write (fun _ => none)

/-- The byte strings used as keys by the writes of a history. -/
def userKeys (us : List UserOp) : List (List UInt8) := ((userSets us).flatMap id).map Prod.fst

/-- No two different byte strings among `ss` have the same digest. -/
def Distinct (f : List UInt8 → Digest) (ss : List (List UInt8)) : Prop := ∀ a ∈ ss, ∀ b ∈ ss, f a = f b → a = b

end Spec
end Jmt
