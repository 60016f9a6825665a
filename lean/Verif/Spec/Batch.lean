import Verif.Spec.History
/-!
# Specification vocabulary for the batch API
-/
namespace Jmt

/-- Equality of two update batches: `BTreeMap`s with the same entries, `BTreeSet`s with the same elements, equal
statistics. -/
structure TreeUpdateBatch.Same (b b' : TreeUpdateBatch) : Prop where
  nodes : ∀ k, b.nodeBatch.nodes.get? k = b'.nodeBatch.nodes.get? k
  values : ∀ v k, b.nodeBatch.values.get? (v, k) = b'.nodeBatch.values.get? (v, k)
  stale : ∀ x, x ∈ b.staleNodeIndexBatch ↔ x ∈ b'.staleNodeIndexBatch
  stats : b.nodeStats = b'.nodeStats

/-- The entries whose key begins with the nibbles `q`. -/
def Spec.entriesUnder (es : List Spec.Entry) (q : List Nibble) : List Spec.Entry :=
  es.filter (fun e => q.isPrefixOf e.1.nibbles)

/-- Hash of the canonical subtree of the entries whose key begins with the nibbles `q`. -/
def Spec.hashUnder (H : Hasher) (es : List Spec.Entry) (q : List Nibble) : Digest :=
  Spec.subtree H (256 - 4 * q.length) (4 * q.length) (Spec.entriesUnder es q)

/-- The precomputed hashes `c` for the set `set` that leads to the map `s`: they contain the hash of every node below
the root on the path of a written key (there is a node at `q` iff at least two keys share the nibbles before its last). -/
def HashesFor (H : Hasher) (s : Spec.Map) (set : List (KeyHash × Value)) (c : List Nibble → Option Digest) : Prop :=
  ∀ es, Spec.Lists H s es → ∀ kv ∈ set, ∀ q, q ≠ [] → q <+: kv.1.nibbles →
    2 ≤ (Spec.entriesUnder es q.dropLast).length → c q = some (Spec.hashUnder H es q)

end Jmt
