import Verif.Spec.Serde
import Verif.Model.Borsh
/-!
# The derived serde implementations

`#[derive(Serialize, Deserialize)]` on the types of this crate, in JSON.  No type has an attribute that changes its format (the
only one is the `bound` of src/types/proof/definition.rs:31).
-/
namespace Jmt.Serde

/-- src/types.rs:10 `Version = u64`. -/
def version : Form Version := uint (2 ^ 64)

/-- `usize` on a 64-bit machine. -/
def usize : Form Nat := uint (2 ^ 64)

/-- src/types/nibble.rs:21-22 `Nibble`: a newtype of `u8`; the range is not checked. -/
def nibble : Form UInt8 := u8

/-- src/types/nibble/nibble_path.rs:18-41 `NibblePath`: `num_nibbles`, `bytes`. -/
def nibblePath : Form NibblePath :=
  iso (struct ((field "num_nibbles" usize).and (field "bytes" (vec u8)))) (fun p => ⟨p.1, p.2⟩) (fun p => (p.numNibbles, p.bytes))

/-- src/node_type.rs:36-57 `NodeKey`: `version`, `nibble_path`. -/
def nodeKey : Form Borsh.PackedKey :=
  iso (struct ((field "version" version).and (field "nibble_path" nibblePath))) (fun p => ⟨p.1, p.2⟩) (fun k => (k.version, k.path))

/-- src/lib.rs:199-233 `KeyHash`, `ValueHash` and src/lib.rs:157-172 `RootHash`: newtypes of `[u8; 32]`. -/
def hash : Form Bytes32 := bytes32

/-- The only field of the variant `Internal` of `NodeType` (src/node_type.rs:115-118). -/
def leafCountField : Form Nat := struct (field "leaf_count" usize)

/-- src/node_type.rs:104-118 `NodeType`: `Leaf`, `Internal { leaf_count }`. -/
def nodeType : Form NodeType where
  enc | .leaf => some (.str "Leaf")
      | .internal n => (leafCountField.enc n).map (tagged "Internal")
  dec j := do
    let (name, c) ← variant j
    if name = "Leaf" then (if isUnit c then some .leaf else none)
    else if name = "Internal" then (do
      let c ← c
      let n ← leafCountField.dec c
      some (.internal n))
    else none
  absent := none

/-- src/node_type.rs:134-156 `Child`: `hash`, `version`, `node_type`. -/
def child : Form Child :=
  iso (struct ((field "hash" bytes32).and ((field "version" version).and (field "node_type" nodeType))))
    (fun p => ⟨p.1, p.2.1, p.2.2⟩) (fun c => (c.hash, c.version, c.nodeType))

/-- src/node_type.rs:180-197 `Children`: `children`, `num_children`. -/
def children : Form Children :=
  iso (struct ((field "children" (array 16 (option child))).and (field "num_children" usize)))
    (fun p => ⟨p.1, p.2⟩) (fun c => (c.slots, c.numChildren))

/-- src/node_type.rs:298-314 `InternalNode`: `children`, `leaf_count`. -/
def internalNode : Form InternalNode :=
  iso (struct ((field "children" children).and (field "leaf_count" usize))) (fun p => ⟨p.1, p.2⟩) (fun n => (n.children, n.leafCount))

/-- src/node_type.rs:820-836 `LeafNode` and src/types/proof.rs:84-88 `SparseMerkleLeafNode`: `key_hash`, `value_hash`. -/
def leafPair : Form (KeyHash × ValueHash) := struct ((field "key_hash" hash).and (field "value_hash" hash))

/-- src/node_type.rs:820-836 `LeafNode`. -/
def leafNode : Form LeafNode := iso leafPair (fun p => ⟨p.1, p.2⟩) (fun l => (l.keyHash, l.valueHash))

/-- src/node_type.rs:878-886 `Node`: `Null`, `Internal`, `Leaf`. -/
def node : Form Node where
  enc | .null => some (.str "Null")
      | .internal n => (internalNode.enc n).map (tagged "Internal")
      | .leaf l => (leafNode.enc l).map (tagged "Leaf")
  dec j := do
    let (name, c) ← variant j
    if name = "Null" then (if isUnit c then some .null else none)
    else if name = "Internal" then (do
      let c ← c
      let n ← internalNode.dec c
      some (.internal n))
    else if name = "Leaf" then (do
      let c ← c
      let l ← leafNode.dec c
      some (.leaf l))
    else none
  absent := none

/-- src/types/proof.rs:57-64 `SparseMerkleInternalNode`: `left_child`, `right_child`. -/
def childHashes : Form (Bytes32 × Bytes32) := struct ((field "left_child" bytes32).and (field "right_child" bytes32))

/-- src/types/proof.rs:26-45 `SparseMerkleNode`: `Null`, `Internal`, `Leaf`. -/
def smNode : Form SMNode where
  enc | .null => some (.str "Null")
      | .internal l r => (childHashes.enc (l, r)).map (tagged "Internal")
      | .leaf k v => (leafPair.enc (k, v)).map (tagged "Leaf")
  dec j := do
    let (name, c) ← variant j
    if name = "Null" then (if isUnit c then some .null else none)
    else if name = "Internal" then (do
      let c ← c
      let p ← childHashes.dec c
      some (.internal p.1 p.2))
    else if name = "Leaf" then (do
      let c ← c
      let p ← leafPair.dec c
      some (.leaf p.1 p.2))
    else none
  absent := none

/-- The fields of src/types/proof/definition.rs:19-42 `SparseMerkleProof`: `leaf`, `siblings`, `phantom_hasher`. -/
def smProofFields : Rec (Option (KeyHash × ValueHash) × List SMNode × Unit) :=
  (field "leaf" (option leafPair)).and ((field "siblings" (vec smNode)).and (field "phantom_hasher" phantom))

/-- src/types/proof/definition.rs:19-42 `SparseMerkleProof`. -/
def smProof : Form SMProof :=
  iso (struct smProofFields) (fun p => ⟨p.1, p.2.1⟩) (fun p => (p.leaf, p.siblings, ()))

/-- src/types/proof/definition.rs:514-517 `UpdateMerkleProof`: a newtype of a vector.  (The derived impls
ask `H` itself to implement the serde traits, since the field has no `bound` attribute; this concerns types only and is not
modelled.) -/
def updateProof : Form (List SMProof) := vec smProof

/-- src/types/proof/definition.rs:596-602 `SparseMerkleRangeProof`: `right_siblings`, `_phantom`. -/
def rangeProof : Form RangeProof :=
  iso (struct ((field "right_siblings" (vec smNode)).and (field "_phantom" phantom))) (fun p => ⟨p.1⟩) (fun p => (p.rightSiblings, ()))

end Jmt.Serde
