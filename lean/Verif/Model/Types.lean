import Verif.Spec.Basic
/-!
# Model: node keys, node types, errors, the reader interface
-/
namespace Jmt

/-- src/types/nibble.rs:22 `Nibble(u8)`, always `< 16` (checked by `From<u8>`, lines 24-29). -/
abbrev Nibble := Fin 16

/-- src/types/nibble.rs:24-29 `Nibble::from(u8)` with its assert; the caller's panic is an explicit
`none`. -/
def Nibble.ofNat? (n : Nat) : Option Nibble := if h : n < 16 then some ⟨n, h⟩ else none

/-- src/types/nibble.rs:19 `ROOT_NIBBLE_HEIGHT = 32 * 2`. -/
def rootNibbleHeight : Nat := 64

/-- The two nibbles of a byte, most significant first (src/bytes32ext.rs:23-29 `get_nibble`). -/
def byteNibbles (b : UInt8) : List Nibble :=
  [⟨(b.toNat >>> 4) % 16, Nat.mod_lt _ (by decide)⟩, ⟨b.toNat % 16, Nat.mod_lt _ (by decide)⟩]

/-- The 64 nibbles of a key: `NibblePath::new(key.0.to_vec()).nibbles()`
(src/types/nibble/nibble_path.rs:101-109, 185-188, 245-260).  The packed-byte `NibblePath`
is modelled in `Model/NibblePath.lean` and proved to behave as this list. -/
def KeyHash.nibbles (k : KeyHash) : List Nibble := k.val.flatMap byteNibbles

/-- Packs nibbles two per byte (src/types/nibble/nibble_path.rs:123-132 `push`); `none` on odd length. -/
def packNibbles : List Nibble → Option (List UInt8)
  | [] => some []
  | [_] => none
  | a :: b :: rest => (packNibbles rest).map (UInt8.ofNat (16 * a.val + b.val) :: ·)

/-- `KeyHash(nibble_path.bytes().try_into().expect(..))` (src/tree.rs:988-999): `none` models the
panic when the path does not have exactly 64 nibbles. -/
def KeyHash.ofNibbles? (ns : List Nibble) : Option KeyHash :=
  match packNibbles ns with
  | none => none
  | some bs => if h : bs.length = 32 then some ⟨bs, h⟩ else none

/-- src/node_type.rs:51-57 `NodeKey`. -/
structure NodeKey where
  version : Version
  path : List Nibble
deriving DecidableEq, Repr

/-- Failures.  `panic` is a Rust panic (assert, expect, unwrap, unreachable, overflow check);
the others are `Result::Err` values. -/
inductive Err where
  | panic (msg : String)
  | missingNode (k : NodeKey)
  | missingRoot (v : Version)
  | missingValue (v : Version) (k : KeyHash)
  | bail (msg : String)
  | io (msg : String)
deriving Repr

/-- src/node_type.rs:115-119 `NodeType`. -/
inductive NodeType where
  | leaf
  | internal (leafCount : Nat)
deriving DecidableEq, Repr

/-- src/node_type.rs:146-156 `Child`. -/
structure Child where
  hash : Digest
  version : Version
  nodeType : NodeType
deriving DecidableEq, Repr

/-- src/node_type.rs:167-169. -/
def Child.isLeaf (c : Child) : Bool := match c.nodeType with | .leaf => true | .internal _ => false

/-- src/node_type.rs:171-176. -/
def Child.leafCount (c : Child) : Nat := match c.nodeType with | .leaf => 1 | .internal n => n

/-- src/node_type.rs:192-197 `Children`: 16 optional slots and a separately maintained
counter. -/
structure Children where
  slots : Nibble → Option Child
  numChildren : Nat

/-- src/node_type.rs:309-314 `InternalNode`. -/
structure InternalNode where
  children : Children
  leafCount : Nat

/-- src/node_type.rs:831-836 `LeafNode`. -/
structure LeafNode where
  keyHash : KeyHash
  valueHash : ValueHash
deriving DecidableEq, Repr

/-- src/node_type.rs:879-886 `Node`. -/
inductive Node where
  | null
  | internal (n : InternalNode)
  | leaf (l : LeafNode)

/-- src/reader.rs:10-42 `TreeReader`; every method may fail. -/
structure Reader where
  getNodeOption : NodeKey → Except Err (Option Node)
  getValueOption : Version → KeyHash → Except Err (Option Value)
  getRightmostLeaf : Except Err (Option (NodeKey × LeafNode))

/-- src/reader.rs:12-15 `get_node`. -/
def Reader.getNode (R : Reader) (k : NodeKey) : Except Err Node :=
  match R.getNodeOption k with
  | .error e => .error e
  | .ok none => .error (.missingNode k)
  | .ok (some n) => .ok n

/-- src/reader.rs:22-29 `get_value`. -/
def Reader.getValue (R : Reader) (maxVersion : Version) (k : KeyHash) : Except Err Value :=
  match R.getValueOption maxVersion k with
  | .error e => .error e
  | .ok none => .error (.missingValue maxVersion k)
  | .ok (some v) => .ok v

/-- src/node_type.rs:68-70 `new_empty_path`. -/
def NodeKey.root (v : Version) : NodeKey := ⟨v, []⟩

/-- src/node_type.rs:83-87 `gen_child_node_key`; `push` asserts that the path has fewer than
64 nibbles (src/types/nibble/nibble_path.rs:124). -/
def NodeKey.genChild (k : NodeKey) (v : Version) (n : Nibble) : Except Err NodeKey :=
  if k.path.length < rootNibbleHeight then .ok ⟨v, k.path ++ [n]⟩
  else .error (.panic "ROOT_NIBBLE_HEIGHT > num_nibbles")

/-- src/node_type.rs:100-102 `set_version`. -/
def NodeKey.setVersion (k : NodeKey) (v : Version) : NodeKey := ⟨v, k.path⟩

/-- src/types/proof.rs:38-45 `SparseMerkleNode`. -/
inductive SMNode where
  | null
  | internal (left right : Digest)
  | leaf (k : KeyHash) (v : ValueHash)
deriving DecidableEq, Repr

/-- src/types/proof.rs:47-55 `SparseMerkleNode::hash`. -/
def SMNode.hash (H : Hasher) : SMNode → Digest
  | .null => placeholder
  | .internal l r => H.internalHash l r
  | .leaf k v => H.leafHash k v

/-- src/types/proof/definition.rs:20-43 `SparseMerkleProof`; siblings bottom to root. -/
structure SMProof where
  leaf : Option (KeyHash × ValueHash)
  siblings : List SMNode
deriving DecidableEq, Repr

end Jmt
