import Verif.Spec.Json
import Verif.Model.Borsh
/-!
# Specification: the JSON text of every type

Written down type by type, without the encoders and without the JSON value type.
-/
namespace Jmt.Spec.JsonText
open Jmt Jmt.Serde

/-- The texts, separated by commas. -/
def commaSep : List (List Char) → List Char
  | [] => []
  | [t] => t
  | t :: ts => t ++ ',' :: commaSep ts

/-- An array. -/
def arr (ts : List (List Char)) : List Char := '[' :: (commaSep ts ++ [']'])

/-- An object. -/
def obj (es : List (String × List Char)) : List Char :=
  '{' :: (commaSep (es.map fun e => '"' :: (e.1.toList ++ '"' :: ':' :: e.2)) ++ ['}'])

/-- An optional value: `null` if there is none. -/
def orNull {α : Type} (g : α → List Char) : Option α → List Char
  | none => "null".toList
  | some a => g a

/-- Bytes: an array of decimal numbers. -/
def bytes (l : List UInt8) : List Char := arr (l.map fun b => digits b.toNat)

/-- `NibblePath`. -/
def path (p : NibblePath) : List Char := obj [("num_nibbles", digits p.numNibbles), ("bytes", bytes p.bytes)]

/-- `NodeKey`. -/
def nodeKey (k : Borsh.PackedKey) : List Char := obj [("version", digits k.version), ("nibble_path", path k.path)]

/-- A leaf: `LeafNode` and `SparseMerkleLeafNode`. -/
def leaf (k : KeyHash) (v : ValueHash) : List Char := obj [("key_hash", bytes k.val), ("value_hash", bytes v.val)]

/-- `NodeType`. -/
def nodeType : NodeType → List Char
  | .leaf => "\"Leaf\"".toList
  | .internal n => obj [("Internal", obj [("leaf_count", digits n)])]

/-- `Child`. -/
def child (c : Child) : List Char :=
  obj [("hash", bytes c.hash.val), ("version", digits c.version), ("node_type", nodeType c.nodeType)]

/-- `Children`: sixteen places, the empty ones `null`. -/
def children (c : Children) : List Char :=
  obj [("children", arr ((List.finRange 16).map fun i => orNull child (c.slots i))),
    ("num_children", digits c.numChildren)]

/-- `InternalNode`. -/
def internalNode (n : InternalNode) : List Char :=
  obj [("children", children n.children), ("leaf_count", digits n.leafCount)]

/-- `Node`. -/
def node : Node → List Char
  | .null => "\"Null\"".toList
  | .internal n => obj [("Internal", internalNode n)]
  | .leaf l => obj [("Leaf", leaf l.keyHash l.valueHash)]

/-- `SparseMerkleNode`. -/
def smNode : SMNode → List Char
  | .null => "\"Null\"".toList
  | .internal l r => obj [("Internal", obj [("left_child", bytes l.val), ("right_child", bytes r.val)])]
  | .leaf k v => obj [("Leaf", leaf k v)]

/-- `SparseMerkleProof`. -/
def proof (p : SMProof) : List Char :=
  obj [("leaf", orNull (fun l => leaf l.1 l.2) p.leaf), ("siblings", arr (p.siblings.map smNode)),
    ("phantom_hasher", "null".toList)]

/-- `UpdateMerkleProof`. -/
def updateProof (ps : List SMProof) : List Char := arr (ps.map proof)

/-- `SparseMerkleRangeProof`. -/
def rangeProof (p : RangeProof) : List Char :=
  obj [("right_siblings", arr (p.rightSiblings.map smNode)), ("_phantom", "null".toList)]

end Jmt.Spec.JsonText
