import Verif.Model.Shuffle
import Verif.Spec.History
import Verif.Spec.Queries
/-!
# Specification of independence of hash-table order
-/
namespace Jmt

/-- Two calls end alike: with the same error, or both successfully with related results. -/
def Alike {α β : Type} (Q : α → β → Prop) : Except Err α → Except Err β → Prop
  | .ok x, .ok y => Q x y
  | .error e, .error e' => e = e'
  | _, _ => False

end Jmt

namespace Jmt.Spec

/-- `σ` only changes the order in which the tables of a cache are listed. -/
structure Reorders (σ : TreeCache → TreeCache) : Prop where
  nodes : ∀ t, (σ t).nodeCache.Perm t.nodeCache
  values : ∀ t, (σ t).valueCache.Perm t.valueCache
  stale : ∀ t, (σ t).stale.Perm t.stale
  rest : ∀ t, σ t = { t with nodeCache := (σ t).nodeCache, valueCache := (σ t).valueCache, stale := (σ t).stale }

/-- Two batches are the same: the same nodes, values and stale-node indices (each is a `BTreeMap` or `BTreeSet`, listed here in some
order) and equal statistics. -/
structure SameBatch (b b' : TreeUpdateBatch) : Prop where
  nodes : b.nodeBatch.nodes.Perm b'.nodeBatch.nodes
  values : b.nodeBatch.values.Perm b'.nodeBatch.values
  stale : b.staleNodeIndexBatch.Perm b'.staleNodeIndexBatch
  stats : b.nodeStats = b'.nodeStats

/-- What the update calls return: equal hashes (and proofs), and the same batch. -/
def SameUpdate {α : Type} (x y : α × TreeUpdateBatch) : Prop := x.1 = y.1 ∧ SameBatch x.2 y.2

/-- Two stores hold the same records, perhaps in tables of different order. -/
structure SameRecords (s s' : Store) : Prop where
  nodes : s.nodes.Perm s'.nodes
  values : s.values.Perm s'.values
  stale : s.stale.Perm s'.stale
  preimages : s.preimages.Perm s'.preimages
  allow : s.allowOverwrite = s'.allowOverwrite

/-- Each table of the store has one entry per key (which is what makes it a hash table or a B-tree). -/
structure Tables (s : Store) : Prop where
  nodes : s.nodes.NodupKeys
  values : s.values.NodupKeys
  stale : s.stale.Nodup
  preimages : s.preimages.NodupKeys

/-- The two readers give equal answers to lookups of nodes and values. -/
structure SameLookups (R R' : Reader) : Prop where
  node : ∀ k, R.getNodeOption k = R'.getNodeOption k
  value : ∀ v k, R.getValueOption v k = R'.getValueOption v k

/-- Every query gives the same answer, or the same error, through the two readers. -/
structure EqualQueries (H : Hasher) (R R' : Reader) : Prop where
  get : ∀ k v, get R k v = get R' k v
  getWithProof : ∀ k v, getWithProof H R k v = getWithProof H R' k v
  rootHash : ∀ v, getRootHash H R v = getRootHash H R' v
  rootHashOption : ∀ v, getRootHashOption H R v = getRootHashOption H R' v
  leafCount : ∀ v, getLeafCount R v = getLeafCount R' v
  range : ∀ k v, getRangeProof H R k v = getRangeProof H R' k v
  exclusion : ∀ k v, getWithExclusionProof H R k v = getWithExclusionProof H R' k v
  ics23 : ∀ checked pre key v, getWithIcs23Proof H checked R pre key v = getWithIcs23Proof H checked R' pre key v
  iterNew : ∀ v start, Iter.new R v start = Iter.new R' v start
  iterByIndex : ∀ v i, Iter.newByIndex R v i = Iter.newByIndex R' v i
  iterNext : ∀ it : Iter, it.next R = it.next R'

end Jmt.Spec

namespace Jmt
open Spec

/-- `ShuffledRun H ops y`: a process that performed `ops` on the empty store has now the store `y`, where the tables were in any order
whenever one was iterated, and may be listed in any order now. -/
inductive ShuffledRun (H : Hasher) (ow : Bool) : List Op → Sys → Prop
  | start : ShuffledRun H ow [] ⟨Store.new ow, 0⟩
  | commit {ops y σ sets hs b s' s''} (h : ShuffledRun H ow ops y) (hσ : Reorders σ)
      (hput : putValueSetsBy σ H y.store.reader sets y.next = .ok (hs, b))
      (hwrite : y.store.writeTreeUpdateBatch b = .ok s') (hre : SameRecords s'' s') :
      ShuffledRun H ow (ops ++ [.commit sets]) ⟨s'', y.next + sets.length⟩
  | batch {ops y σ sets hs b s' s''} (h : ShuffledRun H ow ops y) (hσ : Reorders σ)
      (hput : batchPutValueSetsBy σ H y.store.reader sets none y.next = .ok (hs, b))
      (hwrite : y.store.writeTreeUpdateBatch b = .ok s') (hre : SameRecords s'' s') :
      ShuffledRun H ow (ops ++ [.batch sets]) ⟨s'', y.next + sets.length⟩
  | purge {ops y r s' s''} (h : ShuffledRun H ow ops y) (hp : y.store.purgeStaleNodes r = .ok s') (hre : SameRecords s'' s') :
      ShuffledRun H ow (ops ++ [.purge r]) ⟨s'', y.next⟩

end Jmt
