import Verif.Spec.Restore
import Verif.Spec.Reads
import Verif.Spec.Iterate
import Verif.Model.Restore
import Verif.Model.Exclusion
/-!
# Specification vocabulary for restoring: what may happen to a restoration
-/
namespace Jmt
open Spec (Preimage Entry)

/-- The entries (key and value hash) of pairs. -/
def Spec.hashed (H : Hasher) (ps : List (KeyHash × Value)) : List Entry := ps.map (fun e => (e.1, H.hash e.2))

/-- What may happen to a receiver fed by anybody: a call of `add_chunk`, or the process ends (at any time between calls)
and `JellyfishMerkleRestore::new` is called on the same store. -/
inductive RecvEvent where
  | chunk (pairs : List (KeyHash × Value)) (proof : RangeProof)
  | restart

/-- A restoration in progress.  `receiver` is `none` before the first `new` and after a panic.  The last three components are
bookkeeping for the statements only, computed from the calls and their results:
`got` are the pairs handed over since the last restart or before it and still known to the receiver, `accepted` those in chunks
answered `Ok`, `strings` the strings hashed to check these chunks. -/
structure Recv where
  receiver : Option Restore
  store : Store
  result : Except Err Unit
  got : List (KeyHash × Value)
  accepted : List (KeyHash × Value)
  strings : List Preimage

namespace Recv

/-- Before anything has happened: an empty store. -/
def start (allowOverwrite : Bool) : Recv := ⟨none, Store.new allowOverwrite, .ok (), [], [], []⟩

/-- The strings hashed to check a chunk after which the pairs `got` have been handed over. -/
def chunkStrings (H : Hasher) (got : List (KeyHash × Value)) (proof : RangeProof) : List Preimage :=
  match (Spec.hashed H got).getLast? with
  | none => []
  | some e => Spec.checkStrings H (Spec.hashed H got) e proof.rightSiblings

/-- The effect of `add_chunk` according to its outcome: the receiver afterwards, the store and the result.  Pairs of a chunk that is
refused stay in the receiver; a panic ends the process. -/
def outcome (H : Hasher) (y : Recv) (got : List (KeyHash × Value)) (proof : RangeProof) :
    Restore × Store × Except Err Unit → Recv
  | (r, s, .ok ()) => ⟨some r, s, .ok (), got, got, y.strings ++ chunkStrings H got proof⟩
  | (_, s, .error (.panic m)) => ⟨none, s, .error (.panic m), y.got, y.accepted, y.strings⟩
  | (r, s, .error e) => ⟨some r, s, .error e, got, y.accepted, y.strings⟩

/-- One event.  After a restart the receiver knows all accepted pairs except the last one (which has to be sent again). -/
def step (H : Hasher) (checked : Bool) (w : Version) (root : Digest) (y : Recv) : RecvEvent → Recv
  | .restart =>
    match Restore.new H y.store.reader w root with
    | .ok r => { y with receiver := some r, result := .ok (), got := y.accepted.dropLast }
    | .error e => { y with receiver := none, result := .error e }
  | .chunk pairs proof =>
    match y.receiver with
    | none => { y with result := .error (.bail "there is no receiver") }
    | some r => outcome H y (y.got ++ Spec.ascending (y.got.getLast?.map Prod.fst) pairs) proof
        (r.addChunk H checked y.store pairs proof)

/-- A sequence of events. -/
def run (H : Hasher) (checked : Bool) (w : Version) (root : Digest) (y : Recv) (evs : List RecvEvent) : Recv :=
  evs.foldl (step H checked w root) y

end Recv

/-- What an honest sender does with a receiver: send the next `n + 1` pairs, or restart the receiver. -/
inductive SendEvent where
  | feed (n : Nat)
  | restart

/-- A restoration by an honest sender; `pos` is the key up to which everything has been sent. -/
structure Sess where
  receiver : Restore
  store : Store
  pos : Option KeyHash

/-- The pairs still to be sent. -/
def Spec.above (all : List (KeyHash × Value)) (pos : Option KeyHash) : List (KeyHash × Value) :=
  all.filter (fun e => pos.all (fun l => decide (l.val < e.1.val)))

namespace Sess

/-- Start with an empty store. -/
def start (allowOverwrite : Bool) (w : Version) (root : Digest) : Sess :=
  ⟨Restore.newOverwrite w root, Store.new allowOverwrite, none⟩

/-- One step: a chunk goes with the range proof of its last key, made by `get_range_proof` at version `v` of the source `src`; after a
restart the sender continues above the rightmost leaf in the store.  An error of any call is an error of the session. -/
def step (H : Hasher) (checked : Bool) (src : Reader) (v : Version) (all : List (KeyHash × Value)) (w : Version) (root : Digest)
    (y : Sess) : SendEvent → Except Err Sess
  | .restart => do
    let r ← Restore.new H y.store.reader w root
    .ok ⟨r, y.store, y.store.getRightmostLeaf.map (fun l => l.2.keyHash)⟩
  | .feed n =>
    let chunk := (Spec.above all y.pos).take (n + 1)
    match chunk.getLast? with
    | none => .ok y
    | some (k, _) => do
      let P ← getRangeProof H src k v
      match y.receiver.addChunk H checked y.store chunk P with
      | (r, s, .ok ()) => .ok ⟨r, s, some k⟩
      | (_, _, .error e) => .error e

/-- A sequence of steps. -/
def run (H : Hasher) (checked : Bool) (src : Reader) (v : Version) (all : List (KeyHash × Value)) (w : Version) (root : Digest) :
    Sess → List SendEvent → Except Err Sess
  | y, [] => .ok y
  | y, e :: es => do
    let y ← y.step H checked src v all w root e
    run H checked src v all w root y es

end Sess
end Jmt
