import Verif.Model.Restore
/-!
# `add_chunk` and `finish` up to the call of `write_node_batch`

`JellyfishMerkleRestore` writes through `TreeWriter::write_node_batch` and through nothing else.  Here the two calls are split at that
point, so that the store behind it may be any, and may fail.
-/
namespace Jmt.Restore

/-- src/restore.rs:291-314: `add_chunk_impl` up to the call of `write_node_batch`: the receiver and the batch handed over.  If the write
fails (`?` in src/restore.rs:315), the receiver stays as it is here; if it succeeds, `frozen_nodes` is cleared (src/restore.rs:316). -/
def prepare (H : Hasher) (checked : Bool) (r : Restore) (chunk : List (KeyHash × Value)) (proof : RangeProof) :
    Restore × Except Err NodeBatch :=
  if chunk = [] then (r, .error (.bail "Should not add empty chunks."))
  else
    match addKeys H chunk r with
    | (r, .error e) => (r, .error e)
    | (r, .ok ()) =>
      match r.verify H checked proof with
      | .error e => (r, .error e)
      | .ok () => (r, .ok r.frozenNodes)

/-- src/restore.rs:316 `self.frozen_nodes.clear()`. -/
def cleared (r : Restore) : Restore := { r with frozenNodes := ⟨[], []⟩ }

/-- src/restore.rs:651-680: `finish_impl` up to the call of `write_node_batch`: the batch handed over. -/
def lastBatch (H : Hasher) (r : Restore) : Except Err NodeBatch :=
  match r.singleLeaf with
  | some leaf =>
    if r.frozenNodes.nodes = [] ∧ r.frozenNodes.values = [] then
      .ok (r.insertFrozen (NodeKey.root r.version) (.leaf leaf)).frozenNodes
    else .error (.panic "assert!(self.frozen_nodes.is_empty())")
  | none => do
    let r ← r.freeze H 0
    .ok r.frozenNodes

end Jmt.Restore
