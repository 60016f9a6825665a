import Verif.Spec.Backend
/-!
# Specification: working on with a backend that already holds something
-/
namespace Jmt
open Spec (PartlyWritten Written)

/-- `BackendFrom H st0 R0 n0 ops R n st`: a client that found the backend showing `R0`, with `n0` as the next version and the stale-node indices `st0`
handed to it before, and performed `ops` now sees `R`; `n` is the next version, and `st` are the stale-node indices handed to the backend by then.  The steps are those of `BackendRun`: a write may be
interrupted and repeated, and a pruning may delete any of the nodes it is allowed to. -/
inductive BackendFrom (H : Hasher) (st0 : List StaleNodeIndex) (R0 : Reader) (n0 : Version) : List Op → Reader → Version → List StaleNodeIndex → Prop
  | start : BackendFrom H st0 R0 n0 [] R0 n0 st0
  | commit {ops R n st} {sets : List ValueSet} {hs b} {R1 R' : Reader} (h : BackendFrom H st0 R0 n0 ops R n st)
      (hput : putValueSets H R sets n = .ok (hs, b)) (hpart : PartlyWritten b.nodeBatch R1 R)
      (hwrite : Written b.nodeBatch R' R1) :
      BackendFrom H st0 R0 n0 (ops ++ [.commit sets]) R' (n + sets.length) (st ++ b.staleNodeIndexBatch)
  | batch {ops R n st} {sets : List (List (KeyHash × Value))} {hs b} {R1 R' : Reader} (h : BackendFrom H st0 R0 n0 ops R n st)
      (hput : batchPutValueSets H R sets none n = .ok (hs, b)) (hpart : PartlyWritten b.nodeBatch R1 R)
      (hwrite : Written b.nodeBatch R' R1) :
      BackendFrom H st0 R0 n0 (ops ++ [.batch sets]) R' (n + sets.length) (st ++ b.staleNodeIndexBatch)
  | purge {ops R n st} {r : Version} {R' : Reader} (h : BackendFrom H st0 R0 n0 ops R n st) (hp : Spec.Pruned st r R' R) :
      BackendFrom H st0 R0 n0 (ops ++ [.purge r]) R' n st

end Jmt
