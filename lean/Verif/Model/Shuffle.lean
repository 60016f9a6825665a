import Verif.Model.System
/-!
# Update calls with hash tables iterated in any order

`TreeCache` keeps its mutable part in a `HashMap` of nodes, a `HashMap` of values and a `HashSet` of stale node keys
(src/tree_cache.rs:124-137).  The iteration order of these tables differs from process to process (std's hasher is seeded at
random).  They are looked up, inserted into and removed from by key everywhere except in `freeze`, which drains them
(src/tree_cache.rs:326-350).  The functions below are those of `Model/Tree.lean` and `Model/Batch.lean`, with the tables put into
an order chosen by `σ` before each `freeze`.
-/
namespace Jmt

/-- src/tree.rs:425-445, 490-515, as `putSets`, with the tables in the order chosen by `σ` when they are drained. -/
def putSetsBy (σ : TreeCache → TreeCache) (H : Hasher) (withProof : Bool) :
    (version : Version) → List ValueSet → TreeCache → Except Err (List (List SMProof) × TreeCache)
  | _, [], tc => .ok ([], tc)
  | version, vs :: rest, tc => do
    let (ps, tc) ← putAll H version withProof vs tc
    let tc ← (σ tc).freeze H
    let (pss, tc) ← putSetsBy σ H withProof (version + 1) rest tc
    .ok (ps :: pss, tc)

/-- src/tree.rs:420-447 `put_value_sets`, as `putValueSets`, in a process with table order `σ`. -/
def putValueSetsBy (σ : TreeCache → TreeCache) (H : Hasher) (R : Reader) (sets : List ValueSet) (first : Version) :
    Except Err (List Digest × TreeUpdateBatch) := do
  let tc ← TreeCache.new R first
  let (_, tc) ← putSetsBy σ H false first sets tc
  .ok tc.finish

/-- src/tree.rs:484-525 `put_value_sets_with_proof`, as `putValueSetsWithProof`, in a process with table order `σ`. -/
def putValueSetsWithProofBy (σ : TreeCache → TreeCache) (H : Hasher) (R : Reader) (sets : List ValueSet) (first : Version) :
    Except Err (List (Digest × List SMProof) × TreeUpdateBatch) := do
  let tc ← TreeCache.new R first
  let (pss, tc) ← putSetsBy σ H true first sets tc
  let (hs, b) := tc.finish
  .ok (hs.zip pss, b)

/-- src/tree.rs:450-479 `append_value_set`, as `appendValueSet`, in a process with table order `σ`. -/
def appendValueSetBy (σ : TreeCache → TreeCache) (H : Hasher) (R : Reader) (vs : ValueSet) (latest : Version) :
    Except Err (Digest × TreeUpdateBatch) := do
  let tc ← TreeCache.newOverwrite R latest
  let (_, tc) ← putAll H latest false vs tc
  let tc ← (σ tc).freeze H
  let (hs, b) := tc.finish
  match hs with
  | [h] => .ok (h, b)
  | _ => .error (.bail "appending a value set failed, we expected a single root hash")

/-- src/tree.rs:88-116, as `batchSet`, in a process with table order `σ`. -/
def batchSetBy (σ : TreeCache → TreeCache) (H : Hasher) (version : Version) (set : List (KeyHash × Value)) (cache : HashCache)
    (tc : TreeCache) : Except Err TreeCache := do
  if set = [] then .error (.panic "Transactions that output empty write set should not be included.")
  else do
    let kvs := dedupSorted set
    let tc := kvs.foldl (fun tc kv => tc.putValue version kv.1 (some kv.2)) tc
    let (nk, _, tc) ← batchInsertAt H cache version 64 tc.rootNodeKey (kvs.map (fun kv => (kv.1, H.hash kv.2))) 0 tc
    (σ (tc.setRootNodeKey nk)).freeze H

/-- src/tree.rs:86-117, as `batchSets`, in a process with table order `σ`. -/
def batchSetsBy (σ : TreeCache → TreeCache) (H : Hasher) :
    Version → List (List (KeyHash × Value)) → List HashCache → TreeCache → Except Err TreeCache
  | _, [], [], tc => .ok tc
  | version, set :: sets, cache :: caches, tc => do
    let tc ← batchSetBy σ H version set cache tc
    batchSetsBy σ H (version + 1) sets caches tc
  | _, _, _, _ => .error (.panic "itertools::zip_eq() reached end of one iterator before the other")

/-- src/tree.rs:74-120 `batch_put_value_sets`, as `batchPutValueSets`, in a process with table order `σ`. -/
def batchPutValueSetsBy (σ : TreeCache → TreeCache) (H : Hasher) (R : Reader) (sets : List (List (KeyHash × Value)))
    (nodeHashes : Option (List (List Nibble → Option Digest))) (first : Version) :
    Except Err (List Digest × TreeUpdateBatch) := do
  let tc ← TreeCache.new R first
  let caches : List HashCache := match nodeHashes with
    | some hs => hs.map some
    | none => sets.map (fun _ => none)
  let tc ← batchSetsBy σ H first sets caches tc
  .ok tc.finish

end Jmt
