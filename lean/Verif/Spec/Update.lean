import Verif.Spec.Reads
/-!
# Specification of an update batch

What a backend is handed by `put_value_sets` (src/tree.rs:420-447) and `batch_put_value_sets` (src/tree.rs:74-120).
-/
namespace Jmt

/-- `b` is a faithful update from the store `s` to the store `s'` that commits `sets` at the versions from `n` on, with the
root hashes `hs`. -/
structure Spec.UpdateOf (H : Hasher) (s s' : Store) (n : Version) (sets : List ValueSet) (hs : List Digest)
    (b : TreeUpdateBatch) : Prop where
  /-- one value entry per version and key written, holding the last write to that key in that set; no other entries -/
  values : ∀ v k x, b.nodeBatch.values.get? (v, k) = some x ↔
    ∃ j ws pre post, v = n + j ∧ sets[j]? = some ws ∧ ws = pre ++ (k, x) :: post ∧ ∀ w ∈ post, w.1 ≠ k
  /-- every node is of one of the versions committed, is not in the store yet, and is used by the tree of its own version -/
  nodes : ∀ k nd, b.nodeBatch.nodes.get? k = some nd →
    n ≤ k.version ∧ k.version < n + sets.length ∧ s.nodes.get? k = none ∧ ReachFrom s' k.version k
  /-- every version has its root in the batch, and that root has the hash returned -/
  roots : ∀ j, j < sets.length → ∃ nd h, b.nodeBatch.nodes.get? (NodeKey.root (n + j)) = some nd ∧ nd.hash H = .ok h ∧
    hs[j]? = some h
  /-- every stale entry is of one of the versions committed and names a node of an earlier version, which is in the store or
  in the batch itself -/
  stale : ∀ x ∈ b.staleNodeIndexBatch, n ≤ x.staleSince ∧ x.staleSince < n + sets.length ∧
    x.nodeKey.version < x.staleSince ∧
    ((∃ nd, s.nodes.get? x.nodeKey = some nd) ∨ ∃ nd, b.nodeBatch.nodes.get? x.nodeKey = some nd)
  /-- no node is retired twice, in this batch or by an entry already in the store -/
  staleOnce : ((s.stale ++ b.staleNodeIndexBatch).map StaleNodeIndex.nodeKey).Nodup
  /-- one set of statistics and one root hash per version -/
  lengths : hs.length = sets.length ∧ b.nodeStats.length = sets.length

end Jmt
