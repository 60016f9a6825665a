import Verif.Spec.Borsh
import Verif.Model.NibblePath
import Verif.Model.Proof
/-!
# The derived borsh implementations

`#[derive(BorshSerialize, BorshDeserialize)]` writes the fields of a struct in the order of their declaration and, for an enum,
one byte with the position of the variant followed by its fields.  `PhantomData` takes no bytes, `Box<T>` is written as `T`.
-/
namespace Jmt.Borsh

/-- src/types.rs:10 `Version = u64`. -/
def version : Codec Version := uint 8

/-- `usize` is written as `u64`. -/
def usize : Codec Nat := uint 8

/-- src/types/nibble/nibble_path.rs:18-41 `NibblePath`: `num_nibbles`, `bytes`. -/
def nibblePath : Codec NibblePath :=
  iso (pair usize (vec u8)) (fun p => ⟨p.1, p.2⟩) (fun p => (p.numNibbles, p.bytes))

/-- src/node_type.rs:36-57 `NodeKey` with its packed path: `version`, `nibble_path`. -/
structure PackedKey where
  version : Version
  path : NibblePath
deriving DecidableEq, Repr

/-- src/node_type.rs:36-57 `NodeKey`. -/
def nodeKey : Codec PackedKey := iso (pair version nibblePath) (fun p => ⟨p.1, p.2⟩) (fun k => (k.version, k.path))

/-- src/lib.rs:199-233 `KeyHash`, `ValueHash` and src/lib.rs:157-172 `RootHash`: newtypes of `[u8; 32]`. -/
def hash : Codec Bytes32 := bytes32

/-- src/node_type.rs:104-118 `NodeType`: `Leaf`, `Internal { leaf_count }`. -/
def nodeType : Codec NodeType where
  enc | .leaf => some [0]
      | .internal n => (usize.enc n).map (1 :: ·)
  dec | 0 :: bs => some (.leaf, bs)
      | 1 :: bs => (usize.dec bs).map (fun r => (.internal r.1, r.2))
      | _ => none

/-- src/node_type.rs:134-156 `Child`: `hash`, `version`, `node_type`. -/
def child : Codec Child :=
  iso (pair bytes32 (pair version nodeType)) (fun p => ⟨p.1, p.2.1, p.2.2⟩) (fun c => (c.hash, c.version, c.nodeType))

/-- src/node_type.rs:180-197 `Children`: `children` (a boxed array), `num_children`. -/
def children : Codec Children :=
  iso (pair (array 16 (option child)) usize) (fun p => ⟨p.1, p.2⟩) (fun c => (c.slots, c.numChildren))

/-- src/node_type.rs:298-314 `InternalNode`: `children`, `leaf_count`. -/
def internalNode : Codec InternalNode :=
  iso (pair children usize) (fun p => ⟨p.1, p.2⟩) (fun n => (n.children, n.leafCount))

/-- src/node_type.rs:820-836 `LeafNode`: `key_hash`, `value_hash`. -/
def leafNode : Codec LeafNode := iso (pair hash hash) (fun p => ⟨p.1, p.2⟩) (fun l => (l.keyHash, l.valueHash))

/-- src/node_type.rs:878-886 `Node`: `Null`, `Internal`, `Leaf`, in this order. -/
def node : Codec Node where
  enc | .null => some [0]
      | .internal n => (internalNode.enc n).map (1 :: ·)
      | .leaf l => (leafNode.enc l).map (2 :: ·)
  dec | 0 :: bs => some (.null, bs)
      | 1 :: bs => (internalNode.dec bs).map (fun r => (.internal r.1, r.2))
      | 2 :: bs => (leafNode.dec bs).map (fun r => (.leaf r.1, r.2))
      | _ => none

/-- src/types/proof.rs:57-64, 84-88 `SparseMerkleInternalNode`, `SparseMerkleLeafNode` and src/types/proof.rs:26-45
`SparseMerkleNode`: `Null`, `Internal`, `Leaf`. -/
def smNode : Codec SMNode where
  enc | .null => some [0]
      | .internal l r => ((pair bytes32 bytes32).enc (l, r)).map (1 :: ·)
      | .leaf k v => ((pair hash hash).enc (k, v)).map (2 :: ·)
  dec | 0 :: bs => some (.null, bs)
      | 1 :: bs => ((pair bytes32 bytes32).dec bs).map (fun r => (.internal r.1.1 r.1.2, r.2))
      | 2 :: bs => ((pair hash hash).dec bs).map (fun r => (.leaf r.1.1 r.1.2, r.2))
      | _ => none

/-- src/types/proof/definition.rs:19-42 `SparseMerkleProof`: `leaf`, `siblings`. -/
def smProof : Codec SMProof :=
  iso (pair (option (pair hash hash)) (vec smNode)) (fun p => ⟨p.1, p.2⟩) (fun p => (p.leaf, p.siblings))

/-- src/types/proof/definition.rs:514-517 `UpdateMerkleProof`. -/
def updateProof : Codec (List SMProof) := vec smProof

/-- src/types/proof/definition.rs:596-602 `SparseMerkleRangeProof`. -/
def rangeProof : Codec RangeProof := iso (vec smNode) (fun p => ⟨p⟩) (fun p => p.rightSiblings)

/-- src/writer.rs:94-100 `NodeStats`. -/
def nodeStats : Codec NodeStats :=
  iso (pair usize (pair usize (pair usize usize))) (fun p => ⟨p.1, p.2.1, p.2.2.1, p.2.2.2⟩)
    (fun s => (s.newNodes, s.newLeaves, s.staleNodes, s.staleLeaves))

/-- The derived `Ord` of `NibblePath` (src/types/nibble/nibble_path.rs:18-41) as a Boolean. -/
def pathLt (p q : NibblePath) : Bool :=
  decide (p.numNibbles < q.numNibbles) || (decide (p.numNibbles = q.numNibbles) && decide (p.bytes < q.bytes))

/-- The derived `Ord` of `NodeKey` (src/node_type.rs:36-57): version first. -/
def keyLt (a b : PackedKey) : Bool :=
  decide (a.version < b.version) || (decide (a.version = b.version) && pathLt a.path b.path)

/-- The derived `Ord` of `StaleNodeIndex` (src/writer.rs:103-111), as a pair. -/
def staleLt (a b : Version × PackedKey) : Bool :=
  decide (a.1 < b.1) || (decide (a.1 = b.1) && keyLt a.2 b.2)

/-- The order of `(Version, KeyHash)`. -/
def valueLt (a b : Version × KeyHash) : Bool :=
  decide (a.1 < b.1) || (decide (a.1 = b.1) && decide (a.2.val < b.2.val))

/-- src/writer.rs:24-28 `NodeBatch`: two `BTreeMap`s, as ascending lists. -/
abbrev PackedBatch := List (PackedKey × Node) × List ((Version × KeyHash) × Option Value)

/-- src/writer.rs:24-28 `NodeBatch`: `nodes`, `values`. -/
def nodeBatch : Codec PackedBatch :=
  pair (sorted (fun a b => keyLt a.1 b.1) (pair nodeKey node))
    (sorted (fun a b => valueLt a.1 b.1) (pair (pair version hash) (option (vec u8))))

/-- src/writer.rs:103-111 `StaleNodeIndex`: `stale_since_version`, `node_key`. -/
def staleNodeIndex : Codec (Version × PackedKey) := pair version nodeKey

/-- src/writer.rs:117-122 `TreeUpdateBatch`: `node_batch`, `stale_node_index_batch` (a `BTreeSet`), `node_stats`. -/
def treeUpdateBatch : Codec (PackedBatch × List (Version × PackedKey) × List NodeStats) :=
  pair nodeBatch (pair (sorted staleLt staleNodeIndex) (vec nodeStats))

end Jmt.Borsh
