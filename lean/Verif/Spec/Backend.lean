import Verif.Spec.Crash
/-!
# Specification of backends other than the mock store

The crate is used over a store supplied by its user: `TreeReader` and `TreeWriter` (src/reader.rs, src/writer.rs) are traits.
A run of such a store is described by what its reader shows, not by how it keeps things.
-/
namespace Jmt
open Spec (PartlyWritten Written)

/-- After a pruning up to version `r` of a backend that has been given the stale-node indices `st`: every value is as
before, and every node is as before except perhaps those recorded as stale since a version `≤ r`.  Of those any may be
gone, fail to be read or even have been replaced, and any may still be there. -/
structure Spec.Pruned (st : List StaleNodeIndex) (r : Version) (R' R : Reader) : Prop where
  node : ∀ k, (∀ x ∈ st, x.nodeKey = k → r < x.staleSince) → R'.getNodeOption k = R.getNodeOption k
  value : ∀ v k, R'.getValueOption v k = R.getValueOption v k

/-- `BackendRun H ops R n st`: a client that started on an empty backend and performed `ops` now sees the reader `R`; `n` is
the next version, and `st` are the stale-node indices handed to the backend so far.

The client calls `put_value_sets` or `batch_put_value_sets` and writes the update back.  The write may be interrupted
(`PartlyWritten`) and repeated; what counts is that in the end the batch is written (`Written`).  A pruning may delete any of
the nodes it is allowed to (`Pruned`). -/
inductive BackendRun (H : Hasher) : List Op → Reader → Version → List StaleNodeIndex → Prop
  | start {R : Reader} (hn : ∀ k, R.getNodeOption k = .ok none) (hv : ∀ v k, R.getValueOption v k = .ok none) :
      BackendRun H [] R 0 []
  | commit {ops R n st} {sets : List ValueSet} {hs b} {R1 R' : Reader} (h : BackendRun H ops R n st)
      (hput : putValueSets H R sets n = .ok (hs, b)) (hpart : PartlyWritten b.nodeBatch R1 R)
      (hwrite : Written b.nodeBatch R' R1) :
      BackendRun H (ops ++ [.commit sets]) R' (n + sets.length) (st ++ b.staleNodeIndexBatch)
  | batch {ops R n st} {sets : List (List (KeyHash × Value))} {hs b} {R1 R' : Reader} (h : BackendRun H ops R n st)
      (hput : batchPutValueSets H R sets none n = .ok (hs, b)) (hpart : PartlyWritten b.nodeBatch R1 R)
      (hwrite : Written b.nodeBatch R' R1) :
      BackendRun H (ops ++ [.batch sets]) R' (n + sets.length) (st ++ b.staleNodeIndexBatch)
  | purge {ops R n st} {r : Version} {R' : Reader} (h : BackendRun H ops R n st) (hp : Spec.Pruned st r R' R) :
      BackendRun H (ops ++ [.purge r]) R' n st

end Jmt
