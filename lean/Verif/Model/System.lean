import Verif.Model.Mock
import Verif.Model.Batch
/-!
# A client driving the library over one store

The usage pattern of the crate (README, src/lib.rs:1-60, and the tests): call `put_value_sets` or
`batch_put_value_sets` on the store, write the returned batch back, occasionally purge stale nodes.  One operation is one
atomic step: a crash between `put_value_sets` and the write leaves the store as it was.
-/
namespace Jmt

/-- One operation on the store. -/
inductive Op where
  /-- commit value sets at the next versions -/
  | commit (sets : List ValueSet)
  /-- commit value sets at the next versions through the batch API, which cannot delete -/
  | batch (sets : List (List (KeyHash × Value)))
  /-- prune everything that became stale at or before `r` -/
  | purge (r : Version)

/-- The store and the next version to commit. -/
structure Sys where
  store : Store
  next : Nat

/-- `put_value_sets` (src/tree.rs:420-447) followed by `write_tree_update_batch`
(src/mock.rs:182-190). -/
def Store.commit (H : Hasher) (s : Store) (sets : List ValueSet) (first : Version) :
    Except Err (List Digest × Store) := do
  let (hs, b) ← putValueSets H s.reader sets first
  let s' ← s.writeTreeUpdateBatch b
  .ok (hs, s')

/-- `batch_put_value_sets` (src/tree.rs:74-120) followed by `write_tree_update_batch`
(src/mock.rs:182-190).  `nodeHashes` is the optional cache of precomputed node hashes. -/
def Store.commitBatch (H : Hasher) (s : Store) (sets : List (List (KeyHash × Value)))
    (nodeHashes : Option (List (List Nibble → Option Digest))) (first : Version) : Except Err (List Digest × Store) := do
  let (hs, b) ← batchPutValueSets H s.reader sets nodeHashes first
  let s' ← s.writeTreeUpdateBatch b
  .ok (hs, s')

/-- `append_value_set` (src/tree.rs:450-479) followed by `write_tree_update_batch` (src/mock.rs:182-190). -/
def Store.append (H : Hasher) (s : Store) (vs : ValueSet) (latest : Version) : Except Err (Digest × Store) := do
  let (h, b) ← appendValueSet H s.reader vs latest
  let s' ← s.writeTreeUpdateBatch b
  .ok (h, s')

/-- One operation. -/
def Sys.step (H : Hasher) (y : Sys) : Op → Except Err Sys
  | .commit sets => do
    let (_, s') ← y.store.commit H sets y.next
    .ok ⟨s', y.next + sets.length⟩
  | .batch sets => do
    let (_, s') ← y.store.commitBatch H sets none y.next
    .ok ⟨s', y.next + sets.length⟩
  | .purge r => do
    let s' ← y.store.purgeStaleNodes r
    .ok ⟨s', y.next⟩

/-- A history of operations. -/
def Sys.run (H : Hasher) : List Op → Sys → Except Err Sys
  | [], y => .ok y
  | op :: ops, y => do
    let y ← y.step H op
    Sys.run H ops y

/-- Operations of a client that also writes again at the latest version (feature `migration`). -/
inductive AOp where
  /-- commit value sets at the next versions -/
  | commit (sets : List ValueSet)
  /-- commit value sets at the next versions with the batch API, without precomputed hashes -/
  | batch (sets : List (List (KeyHash × Value)))
  /-- `append_value_set` at the latest version -/
  | append (vs : ValueSet)
  /-- `purge_stale_nodes(r)` -/
  | purge (r : Version)

/-- One such operation. -/
def Sys.stepA (H : Hasher) (y : Sys) : AOp → Except Err Sys
  | .commit sets => do
    let (_, s') ← y.store.commit H sets y.next
    .ok ⟨s', y.next + sets.length⟩
  | .batch sets => do
    let (_, s') ← y.store.commitBatch H sets none y.next
    .ok ⟨s', y.next + sets.length⟩
  | .append vs => do
    let (_, s') ← y.store.append H vs (y.next - 1)
    .ok ⟨s', y.next⟩
  | .purge r => do
    let s' ← y.store.purgeStaleNodes r
    .ok ⟨s', y.next⟩

/-- A history of such operations. -/
def Sys.runA (H : Hasher) : List AOp → Sys → Except Err Sys
  | [], y => .ok y
  | op :: ops, y => do
    let y ← y.stepA H op
    Sys.runA H ops y

end Jmt
