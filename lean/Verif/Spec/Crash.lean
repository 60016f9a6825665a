import Verif.Spec.Reads
/-!
# Specification of interrupted writes

A crash while an update batch is being written leaves any part of it in the store.
-/
namespace Jmt.Spec

/-- `R'` shows what `R` shows of the versions below `V` (and of the pre-genesis version, `u64::MAX`); about version `V` and
later it may show anything: leftovers of a write that was interrupted, or read errors. -/
structure Leftover (V : Version) (R' R : Reader) : Prop where
  node : ∀ k, k.version < V ∨ k.version = preGenesisVersion → R'.getNodeOption k = R.getNodeOption k
  value : ∀ v k, v < V → R'.getValueOption v k = R.getValueOption v k

/-- No root of version `V` or later is found in `R`. -/
def NoLeftoverRoot (V : Version) (R : Reader) : Prop :=
  ∀ w, V ≤ w → w < preGenesisVersion → R.getNodeOption (NodeKey.root w) = .ok none

/-- Applying the value sets to the map `mp` never deletes a key from an empty map. -/
def NeverDeletesFromEmpty (mp : Map) (sets : List ValueSet) : Prop :=
  ∀ i ws pre k post, sets[i]? = some ws → ws = pre ++ (k, none) :: post →
    ∃ k' x, ((stateAfter mp sets i).writes pre) k' = some x

/-- Any part of the batch `b` has been written to the store shown by `R`: a node is there already or not, and values of
versions before the first of the batch are untouched. -/
structure PartlyWritten (b : NodeBatch) (R' R : Reader) : Prop where
  node : ∀ k, R'.getNodeOption k = R.getNodeOption k ∨ ∃ n, b.nodes.get? k = some n ∧ R'.getNodeOption k = .ok (some n)
  value : ∀ v k, (∀ w x, b.values.get? (w, k) = some x → v < w) → R'.getValueOption v k = R.getValueOption v k

/-- The batch `b` has been written to the store shown by `R`, each entry replacing what was there under its key: what a
backend promises (src/writer.rs:15-20 `write_node_batch`). -/
structure Written (b : NodeBatch) (R' R : Reader) : Prop where
  new : ∀ k n, b.nodes.get? k = some n → R'.getNodeOption k = .ok (some n)
  old : ∀ k, b.nodes.get? k = none → R'.getNodeOption k = R.getNodeOption k
  newValue : ∀ v k w x, b.values.get? (w, k) = some x → w ≤ v →
    (∀ u x', b.values.get? (u, k) = some x' → u ≤ v → u ≤ w) → R'.getValueOption v k = .ok x
  oldValue : ∀ v k, (∀ w x, b.values.get? (w, k) = some x → v < w) → R'.getValueOption v k = R.getValueOption v k

end Jmt.Spec

namespace Jmt

/-- Lookups made through `R'` while the client performs `ops` from the state `y`: each lookup is answered from the state
before, between or after these operations (a half-done operation answers from the state before it or after it), each from
a different one perhaps, in no particular order. -/
structure SeenDuring (H : Hasher) (y : Sys) (ops : List Op) (R' : Reader) : Prop where
  node : ∀ k, ∃ i z, Sys.run H (ops.take i) y = .ok z ∧ R'.getNodeOption k = z.store.reader.getNodeOption k
  value : ∀ v k, ∃ i z, Sys.run H (ops.take i) y = .ok z ∧ R'.getValueOption v k = z.store.reader.getValueOption v k

end Jmt
