import Verif.Spec.Crash
/-!
# Specification of updates that are prepared first and written later

Computing an update (`put_value_sets` and its variants) only reads the store; the caller writes the returned batch later, and
the store may have changed in between.
-/
namespace Jmt

/-- `b` is an update for version `V` on, computed through the reader `R` by one of the three calls (src/tree.rs:420-447
`put_value_sets`, 484-525 `put_value_sets_with_proof`, 74-120 `batch_put_value_sets`) from at least one value set; `hs` are the
root hashes the call returned with it. -/
def PreparedUpdate (H : Hasher) (R : Reader) (V : Version) (hs : List Digest) (b : TreeUpdateBatch) : Prop :=
  (∃ sets, sets ≠ [] ∧ V + sets.length < 2 ^ 64 ∧ putValueSets H R sets V = .ok (hs, b)) ∨
  (∃ sets hps, sets ≠ [] ∧ V + sets.length < 2 ^ 64 ∧ putValueSetsWithProof H R sets V = .ok (hps, b) ∧ hs = hps.map Prod.fst) ∨
  (∃ sets, sets ≠ [] ∧ (∀ s ∈ sets, s ≠ []) ∧ V + sets.length < 2 ^ 64 ∧ batchPutValueSets H R sets none V = .ok (hs, b))

/-- Two stores hold the same: the same node under every key, the same stale entries, the same value history of every key. -/
structure SameStore (s s' : Store) : Prop where
  nodes : ∀ k, s.nodes.get? k = s'.nodes.get? k
  stale : ∀ x : StaleNodeIndex, x ∈ s.stale ↔ x ∈ s'.stale
  values : ∀ k, (s.values.get? k).getD [] = (s'.values.get? k).getD []

end Jmt
