import Verif.Model.Types
/-!
# Model of src/node_type.rs: children, internal-node hashing, siblings
-/
namespace Jmt

namespace Children

/-- src/node_type.rs:218-220 `Children::new`. -/
def empty : Children := ⟨fun _ => none, 0⟩

/-- src/node_type.rs:223-229 `Children::insert`. -/
def insert (cs : Children) (n : Nibble) (c : Child) : Children :=
  { slots := fun i => if i = n then some c else cs.slots i
    numChildren := if (cs.slots n).isNone then cs.numChildren + 1 else cs.numChildren }

/-- src/node_type.rs:242-248 `Children::remove`; the `-= 1` is checked. -/
def remove (cs : Children) (n : Nibble) : Except Err Children :=
  if (cs.slots n).isSome && cs.numChildren == 0 then .error (.panic "num_children underflow")
  else .ok
    { slots := fun i => if i = n then none else cs.slots i
      numChildren := if (cs.slots n).isSome then cs.numChildren - 1 else cs.numChildren }

/-- src/node_type.rs:256-258, 280-291 `Children::iter` = `iter_sorted`. -/
def iter (cs : Children) : List (Nibble × Child) :=
  (List.finRange 16).filterMap (fun i => (cs.slots i).map (fun c => (i, c)))

/-- src/node_type.rs:251-253 `Children::values`. -/
def values (cs : Children) : List Child := (List.finRange 16).filterMap cs.slots

end Children

/-- `u16::count_ones`. -/
def countOnes16 (b : BitVec 16) : Nat := (List.finRange 16).countP (fun i => b.getLsbD i.val)

/-- `u8::count_ones` of a small natural. -/
def countOnes8 (w : Nat) : Nat := (List.range 8).countP (fun i => w.testBit i)

/-- `u16::trailing_zeros` (16 for zero). -/
def trailingZeros16 (b : BitVec 16) : Nat :=
  match (List.finRange 16).find? (fun i => b.getLsbD i.val) with
  | some i => i.val
  | none => 16

/-- src/node_type.rs:391-393 `has_only_child`. -/
def hasOnlyChild (width : Nat) (re rl : BitVec 16) : Bool :=
  width == 1 || (countOnes16 re == 1 && rl != 0#16)

/-- src/node_type.rs:397-404 `has_child`. -/
def hasChild (width : Nat) (re nb rl : BitVec 16) : Bool :=
  width == 1 || (re == nb && rl != 0#16)

/-- src/node_type.rs:797-809 `get_child_and_sibling_half_start`, in `u8` arithmetic. -/
def childAndSiblingHalfStart (n : Nibble) (height : Nat) : Nat × Nat :=
  let c : BitVec 8 := ((0xff : BitVec 8) <<< height) &&& BitVec.ofNat 8 n.val
  (c.toNat, (c ^^^ ((1 : BitVec 8) <<< height)).toNat)

/-- src/node_type.rs:812-817 `get_child_half_start`. -/
def childHalfStart (n : Nibble) (height : Nat) : Nat :=
  (((0xff : BitVec 8) <<< height) &&& BitVec.ofNat 8 n.val).toNat

/-- src/node_type.rs:492-500 `range_bitmaps`, with its two asserts. -/
def rangeBitmaps (start width : Nat) (bm : BitVec 16 × BitVec 16) :
    Except Err (BitVec 16 × BitVec 16) :=
  if ¬ (start < 16 ∧ countOnes8 width = 1 ∧ start % width = 0) then
    .error (.panic "range_bitmaps: start/width")
  else if ¬ (width ≤ 16 ∧ start + width ≤ 16) then .error (.panic "range_bitmaps: bounds")
  else
    let mask : BitVec 16 := ((((1 : BitVec 32) <<< width) - 1) <<< start).truncate 16
    .ok (bm.1 &&& mask, bm.2 &&& mask)

namespace InternalNode

/-- src/node_type.rs:430-437 `sum_leaf_count`. -/
def sumLeafCount (cs : Children) : Nat := (cs.values.map Child.leafCount).sum

/-- src/node_type.rs:408-428 `InternalNode::new`, with its asserts. -/
def new (cs : Children) : Except Err InternalNode :=
  if cs.numChildren = 0 then .error (.panic "Children must not be empty")
  else if cs.numChildren = 1 then
    match cs.values with
    | [] => .error (.panic "Must have 1 element")
    | c :: _ =>
      if c.isLeaf then .error (.panic "If there's only one child, it must not be a leaf.")
      else .ok ⟨cs, sumLeafCount cs⟩
  else .ok ⟨cs, sumLeafCount cs⟩

/-- src/node_type.rs:443-447 `InternalNode::node_type`. -/
def nodeType (n : InternalNode) : NodeType := .internal n.leafCount

/-- src/node_type.rs:469-471 `child`. -/
def child (n : InternalNode) (i : Nibble) : Option Child := n.children.slots i

/-- src/node_type.rs:476-489 `generate_bitmaps`.  The assert `existence | leaf == existence` is
kept. -/
def generateBitmaps (n : InternalNode) : Except Err (BitVec 16 × BitVec 16) :=
  let bm := n.children.iter.foldl
    (fun (bm : BitVec 16 × BitVec 16) (e : Nibble × Child) =>
      (bm.1 ||| ((1 : BitVec 16) <<< e.1.val),
       if e.2.isLeaf then bm.2 ||| ((1 : BitVec 16) <<< e.1.val) else bm.2)) (0, 0)
  if bm.1 ||| bm.2 = bm.1 then .ok bm else .error (.panic "leaf_bitmap subset of existence_bitmap")

/-- `self.child(Nibble::from(idx as u8)).with_context(..).unwrap()`
(src/node_type.rs:517-529, 578-588): the child at an index taken from a bitmap. -/
def childAtIdx (n : InternalNode) (idx : Nat) : Except Err (Nibble × Child) :=
  match Nibble.ofNat? idx with
  | none => .error (.panic "Nibble out of range")
  | some i =>
    match n.child i with
    | none => .error (.panic "Corrupted internal node")
    | some c => .ok (i, c)

/-- src/node_type.rs:566-604 `merkle_hash`, `width = 2^h`. -/
def merkleHash (H : Hasher) (n : InternalNode) :
    (h : Nat) → (start : Nat) → BitVec 16 × BitVec 16 → Except Err Digest
  | h, start, bm => do
    let r ← rangeBitmaps start (2 ^ h) bm
    if r.1 = 0#16 then .ok placeholder
    else if hasOnlyChild (2 ^ h) r.1 r.2 then do
      let c ← n.childAtIdx (trailingZeros16 r.1)
      .ok c.2.hash
    else
      match h with
      | 0 => .error (.panic "width / 2 = 0")
      | h' + 1 => do
        let left ← merkleHash H n h' start r
        let right ← merkleHash H n h' (start + 2 ^ h') r
        .ok (H.internalHash left right)

/-- src/node_type.rs:449-455 `InternalNode::hash`. -/
def hash (H : Hasher) (n : InternalNode) : Except Err Digest := do
  let bm ← n.generateBitmaps
  n.merkleHash H 4 0 bm

/-- src/node_type.rs:317-325 `SparseMerkleInternalNode::from`. -/
def toSM (H : Hasher) (n : InternalNode) : Except Err SMNode := do
  let bm ← n.generateBitmaps
  let l ← n.merkleHash H 3 0 bm
  let r ← n.merkleHash H 3 8 bm
  .ok (.internal l r)

/-- A failed `tree_reader.get_node(..).unwrap()` is a panic. -/
def unwrapNode : Except Err Node → Except Err Node
  | .ok n => .ok n
  | .error _ => .error (.panic "unwrap on a failed get_node")

/-- src/node_type.rs:504-564 `build_sibling`, `width = 2^h`.  `getNode` is the reader's
`get_node`. -/
def buildSibling (H : Hasher) (getNode : NodeKey → Except Err Node) (n : InternalNode)
    (nodeKey : NodeKey) (start h : Nat) (bm : BitVec 16 × BitVec 16) : Except Err SMNode := do
  let r ← rangeBitmaps start (2 ^ h) bm
  if r.1 = 0#16 then .ok .null
  else if hasOnlyChild (2 ^ h) r.1 r.2 then do
    let (i, c) ← n.childAtIdx (trailingZeros16 r.1)
    let ck ← nodeKey.genChild c.version i
    let cn ← unwrapNode (getNode ck)
    match cn with
    | .internal node => node.toSM H
    | .leaf l => .ok (.leaf l.keyHash l.valueHash)
    | .null => .error (.panic "Impossible to get a null node at this location")
  else
    match h with
    | 0 => .error (.panic "width / 2 = 0")
    | h' + 1 => do
      let left ← n.merkleHash H h' start r
      let right ← n.merkleHash H h' (start + 2 ^ h') r
      .ok (.internal left right)

/-- src/node_type.rs:609-651 `get_only_child_without_siblings`: the loop, heights `h-1 .. 0`. -/
def getOnlyChildWithoutSiblingsLoop (n : InternalNode) (nodeKey : NodeKey) (i : Nibble)
    (bm : BitVec 16 × BitVec 16) : Nat → Except Err (Option NodeKey)
  | 0 => .error (.panic "Impossible to get here")
  | h + 1 => do
    let r ← rangeBitmaps (childHalfStart i h) (2 ^ h) bm
    if r.1 = 0#16 then .ok none
    else if hasOnlyChild (2 ^ h) r.1 r.2 then do
      let (j, c) ← n.childAtIdx (trailingZeros16 r.1)
      let ck ← nodeKey.genChild c.version j
      .ok (some ck)
    else getOnlyChildWithoutSiblingsLoop n nodeKey i bm h

/-- src/node_type.rs:609-651 `get_only_child_without_siblings`. -/
def getOnlyChildWithoutSiblings (n : InternalNode) (nodeKey : NodeKey) (i : Nibble) :
    Except Err (Option NodeKey) := do
  let bm ← n.generateBitmaps
  getOnlyChildWithoutSiblingsLoop n nodeKey i bm 4

/-- src/node_type.rs:676-762 `get_child_with_siblings_helper`: the loop, heights `h-1 .. 0`.
Siblings are returned top to bottom, as pushed. -/
def getChildWithSiblingsLoop (H : Hasher) (getNode : NodeKey → Except Err Node) (n : InternalNode)
    (nodeKey : NodeKey) (i : Nibble) (onlyChild : Bool) (bm : BitVec 16 × BitVec 16) :
    Nat → List SMNode → Except Err (Option NodeKey × List SMNode)
  | 0, _ => .error (.panic "Impossible to get here")
  | h + 1, acc => do
    let (cs, ss) := childAndSiblingHalfStart i h
    let sib ← n.buildSibling H getNode nodeKey ss h bm
    let acc := acc ++ [sib]
    let r ← rangeBitmaps cs (2 ^ h) bm
    if r.1 = 0#16 then .ok (none, acc)
    else if onlyChild && hasOnlyChild (2 ^ h) r.1 r.2 then do
      let (j, c) ← n.childAtIdx (trailingZeros16 r.1)
      let ck ← nodeKey.genChild c.version j
      .ok (some ck, acc)
    else if !onlyChild && hasChild (2 ^ h) r.1 ((1 : BitVec 16) <<< i.val) r.2 then do
      let (j, c) ← n.childAtIdx i.val
      let ck ← nodeKey.genChild c.version j
      .ok (some ck, acc)
    else getChildWithSiblingsLoop H getNode n nodeKey i onlyChild bm h acc

/-- src/node_type.rs:676-762; `onlyChild = false` is `get_child_with_siblings` (765-772),
`onlyChild = true` is `get_only_child_with_siblings` (780-787). -/
def getChildWithSiblings (H : Hasher) (getNode : NodeKey → Except Err Node) (n : InternalNode)
    (nodeKey : NodeKey) (i : Nibble) (onlyChild : Bool) :
    Except Err (Option NodeKey × List SMNode) := do
  let bm ← n.generateBitmaps
  getChildWithSiblingsLoop H getNode n nodeKey i onlyChild bm 4 []

end InternalNode

/-- src/node_type.rs:857-859 `LeafNode::hash`. -/
def LeafNode.hash (H : Hasher) (l : LeafNode) : Digest := H.leafHash l.keyHash l.valueHash

namespace Node

/-- src/node_type.rs:933-935 `is_leaf`. -/
def isLeaf : Node → Bool
  | .leaf _ => true
  | _ => false

/-- src/node_type.rs:938-946 `node_type`. -/
def nodeType : Node → Except Err NodeType
  | .null => .error (.panic "unreachable: node_type of null")
  | .leaf _ => .ok .leaf
  | .internal n => .ok n.nodeType

/-- src/node_type.rs:949-955 `leaf_count`. -/
def leafCount : Node → Nat
  | .null => 0
  | .leaf _ => 1
  | .internal n => n.leafCount

/-- src/node_type.rs:958-964 `Node::hash`. -/
def hash (H : Hasher) : Node → Except Err Digest
  | .null => .ok placeholder
  | .internal n => n.hash H
  | .leaf l => .ok (l.hash H)

end Node

end Jmt
