import Verif.Spec.ByteStore
/-!
# Specification vocabulary: a whole `TreeUpdateBatch` as bytes
-/
namespace Jmt
open Borsh (PackedKey PackedBatch)

/-- `pb` has the same content as the update `b`: the same nodes, values and stale entries in some order, the same statistics.  (`BTreeMap` and
`BTreeSet` iterate in ascending order, the only one that `Borsh.treeUpdateBatch` encodes.) -/
structure Spec.PackedAs (b : TreeUpdateBatch) (pb : PackedBatch × List (Version × PackedKey) × List NodeStats) : Prop where
  nodes : (b.nodeBatch.nodes.map (fun e => (e.1.packed, e.2))).Perm pb.1.1
  values : b.nodeBatch.values.Perm pb.1.2
  stale : (b.staleNodeIndexBatch.map (fun x => (x.staleSince, x.nodeKey.packed))).Perm pb.2.1
  stats : b.nodeStats = pb.2.2

/-- The sizes that borsh can write: fewer than 2^32 elements in each collection, fewer than 2^32 bytes in each value. -/
structure Spec.Encodable (sets : List ValueSet) (b : TreeUpdateBatch) : Prop where
  nodes : b.nodeBatch.nodes.length < 2 ^ 32
  values : b.nodeBatch.values.length < 2 ^ 32
  stale : b.staleNodeIndexBatch.length < 2 ^ 32
  versions : sets.length < 2 ^ 32
  bytes : ∀ ws ∈ sets, ∀ w ∈ ws, ∀ x : Value, w.2 = some x → x.length < 2 ^ 32

end Jmt
