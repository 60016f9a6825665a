import Verif.Model.Borsh
/-!
# Specification: the borsh bytes of every type

Written down type by type, without the encoders.  Integers are little endian; a vector has its length in four bytes in front.
-/
namespace Jmt.Spec.Bytes
open Jmt Jmt.Borsh

/-- A vector of things whose bytes are given. -/
def vec (l : List (List UInt8)) : List UInt8 := leBytes 4 l.length ++ l.flatten

/-- A vector of bytes. -/
def bytes (l : List UInt8) : List UInt8 := leBytes 4 l.length ++ l

/-- An optional thing: a byte 0, or a byte 1 and the thing. -/
def opt {α : Type} (g : α → List UInt8) : Option α → List UInt8
  | none => [0]
  | some a => 1 :: g a

/-- `NodeKey`: version, number of nibbles, packed nibbles. -/
def nodeKey (k : PackedKey) : List UInt8 := leBytes 8 k.version ++ leBytes 8 k.path.numNibbles ++ bytes k.path.bytes

/-- `NodeType`. -/
def nodeType : NodeType → List UInt8
  | .leaf => [0]
  | .internal n => 1 :: leBytes 8 n

/-- `Child`. -/
def child (c : Child) : List UInt8 := c.hash.val ++ leBytes 8 c.version ++ nodeType c.nodeType

/-- `Node`: sixteen optional children, their number, the number of leaves; or the two hashes of a leaf. -/
def node : Node → List UInt8
  | .null => [0]
  | .internal n => 1 :: (((List.finRange 16).map fun i => opt child (n.children.slots i)).flatten ++
      leBytes 8 n.children.numChildren ++ leBytes 8 n.leafCount)
  | .leaf l => 2 :: (l.keyHash.val ++ l.valueHash.val)

/-- `SparseMerkleNode`. -/
def smNode : SMNode → List UInt8
  | .null => [0]
  | .internal l r => 1 :: (l.val ++ r.val)
  | .leaf k v => 2 :: (k.val ++ v.val)

/-- `SparseMerkleProof`. -/
def proof (p : SMProof) : List UInt8 := opt (fun l => l.1.val ++ l.2.val) p.leaf ++ vec (p.siblings.map smNode)

/-- `UpdateMerkleProof`. -/
def updateProof (ps : List SMProof) : List UInt8 := vec (ps.map proof)

/-- `SparseMerkleRangeProof`. -/
def rangeProof (p : RangeProof) : List UInt8 := vec (p.rightSiblings.map smNode)

/-- `NodeStats`. -/
def nodeStats (s : NodeStats) : List UInt8 := leBytes 8 s.newNodes ++ leBytes 8 s.newLeaves ++ leBytes 8 s.staleNodes ++ leBytes 8 s.staleLeaves

/-- `NodeBatch`: the nodes with their keys, then the values with their keys. -/
def nodeBatch (b : PackedBatch) : List UInt8 :=
  vec (b.1.map fun e => nodeKey e.1 ++ node e.2) ++
    vec (b.2.map fun e => leBytes 8 e.1.1 ++ e.1.2.val ++ opt bytes e.2)

/-- `TreeUpdateBatch`: the node batch, the stale entries, the statistics. -/
def update (u : PackedBatch × List (Version × PackedKey) × List NodeStats) : List UInt8 :=
  nodeBatch u.1 ++ vec (u.2.1.map fun x => leBytes 8 x.1 ++ nodeKey x.2) ++ vec (u.2.2.map nodeStats)

end Jmt.Spec.Bytes
