import Verif.Model.NodeType
/-!
# Model of src/iterator.rs: `JellyfishMerkleIterator`
-/
namespace Jmt

/-- `u16::leading_zeros` (16 for zero). -/
def leadingZeros16 (b : BitVec 16) : Nat :=
  match (List.finRange 16).reverse.find? (fun i => b.getLsbD i.val) with
  | some i => 15 - i.val
  | none => 16

/-- src/iterator.rs:26-42 `NodeVisitInfo`. -/
structure VisitInfo where
  nodeKey : NodeKey
  node : InternalNode
  bitmap : BitVec 16
  next : BitVec 16

namespace VisitInfo

/-- src/iterator.rs:46-55 `NodeVisitInfo::new`. -/
def new (nodeKey : NodeKey) (node : InternalNode) : Except Err VisitInfo := do
  let bm ← node.generateBitmaps
  if bm.1 = 0#16 then .error (.panic "assert!(children_bitmap != 0)")
  else .ok ⟨nodeKey, node, bm.1, (1 : BitVec 16) <<< trailingZeros16 bm.1⟩

/-- `while next & bitmap == 0 { next <<= 1 }` (src/iterator.rs:68-70, 89-91).  After 16 shifts `next`
is zero and the Rust loop does not terminate; the model then fails. -/
def shiftLoop (bitmap : BitVec 16) : Nat → BitVec 16 → Except Err (BitVec 16)
  | 0, _ => .error (.panic "does not terminate")
  | f + 1, next => if next &&& bitmap = 0#16 then shiftLoop bitmap f (next <<< 1) else .ok next

/-- src/iterator.rs:60-77 `new_next_child_to_visit`. -/
def newNextChildToVisit (nodeKey : NodeKey) (node : InternalNode) (i : Nibble) : Except Err VisitInfo := do
  let bm ← node.generateBitmaps
  let next : BitVec 16 := (1 : BitVec 16) <<< i.val
  if bm.1.toNat < next.toNat then .error (.panic "assert!(children_bitmap >= next_child_to_visit)")
  else do
    let next ← shiftLoop bm.1 17 next
    .ok ⟨nodeKey, node, bm.1, next⟩

/-- src/iterator.rs:80-83 `is_rightmost`, with its assert. -/
def isRightmost (v : VisitInfo) : Except Err Bool :=
  if leadingZeros16 v.next < leadingZeros16 v.bitmap then .error (.panic "assert!(leading_zeros >= leading_zeros)")
  else .ok (leadingZeros16 v.next == leadingZeros16 v.bitmap)

/-- src/iterator.rs:86-92 `advance`, with its assert. -/
def advance (v : VisitInfo) : Except Err VisitInfo := do
  let r ← v.isRightmost
  if r then .error (.panic "Advancing past rightmost child.")
  else do
    let next ← shiftLoop v.bitmap 17 (v.next <<< 1)
    .ok { v with next := next }

end VisitInfo

/-- src/iterator.rs:101-115 `JellyfishMerkleIterator`; the stack has its top first.  The reader is a
parameter of the operations. -/
structure Iter where
  version : Version
  stack : List VisitInfo
  done : Bool

namespace Iter

/-- src/iterator.rs:191-200 `cleanup_stack`. -/
def cleanupStack : List VisitInfo → Except Err (List VisitInfo)
  | [] => .ok []
  | info :: rest => do
    let r ← info.isRightmost
    if r then cleanupStack rest
    else do
      let info ← info.advance
      .ok (info :: rest)

/-- src/iterator.rs:132-170: one turn of the descent of `new` at an internal node; `.inr` means that
the loop goes on with the next node key and stack. -/
def newStep (version : Version) (key : NodeKey) (n : InternalNode) (i : Nibble) (stack : List VisitInfo) :
    Except Err (Sum Iter (NodeKey × List VisitInfo)) :=
  match n.child i with
  | some child => do
    let info ← VisitInfo.newNextChildToVisit key n i
    let key ← key.genChild child.version i
    .ok (.inr (key, info :: stack))
  | none => do
    let bm ← n.generateBitmaps
    if 15 < leadingZeros16 bm.1 then .error (.panic "attempt to subtract with overflow")
    else if i.val < 15 - leadingZeros16 bm.1 then do
      let info ← VisitInfo.newNextChildToVisit key n i
      .ok (.inl ⟨version, info :: stack, false⟩)
    else do
      let stack ← cleanupStack stack
      .ok (.inl ⟨version, stack, false⟩)

/-- src/iterator.rs:172-188: the end of `new`, below the last internal node. -/
def newFinish (R : Reader) (version : Version) (start : KeyHash) (key : NodeKey)
    (stack : List VisitInfo) : Except Err Iter := do
  let node ← R.getNode key
  match node with
  | .internal _ => .error (.panic "Should have reached the bottom of the tree.")
  | .leaf l =>
    if l.keyHash.val < start.val then do
      let stack ← cleanupStack stack
      .ok ⟨version, stack, stack.isEmpty⟩
    else .ok ⟨version, stack, false⟩
  | .null => .ok ⟨version, stack, true⟩

/-- src/iterator.rs:132-189: the loop of `new`; `rem` are the nibbles of the starting key still to be
consumed. -/
def newLoop (R : Reader) (version : Version) (start : KeyHash) :
    (rem : List Nibble) → NodeKey → List VisitInfo → Except Err Iter
  | rem, key, stack => do
    let node ← R.getNode key
    match node with
    | .internal n =>
      match rem with
      | [] => .error (.panic "Should have enough nibbles.")
      | i :: rest => do
        match ← newStep version key n i stack with
        | .inl it => .ok it
        | .inr (key, stack) => newLoop R version start rest key stack
    | _ => newFinish R version start key stack

/-- src/iterator.rs:124-189 `JellyfishMerkleIterator::new`. -/
def new (R : Reader) (version : Version) (start : KeyHash) : Except Err Iter :=
  newLoop R version start start.nibbles (NodeKey.root version) []

/-- src/iterator.rs:255-272 `skip_leaves`, over `children_sorted`. -/
def skipLeaves (target : Nat) : List (Nibble × Child) → Nat → Except Err ((Nibble × Child) × Nat)
  | [], _ => .error (.bail "Bug: Internal node has less leaves than expected.")
  | e :: rest, skipped =>
    if skipped + e.2.leafCount ≤ target then skipLeaves target rest (skipped + e.2.leafCount)
    else .ok (e, skipped)

/-- src/iterator.rs:219-249: the loop of `new_by_index`. -/
def byIndexLoop (R : Reader) (version : Version) (idx : Nat) :
    Nat → NodeKey → Node → Nat → List VisitInfo → Except Err Iter
  | 0, _, _, _, _ => .error (.bail "Bug: potential infinite loop.")
  | f + 1, key, node, skipped, stack =>
    match node with
    | .null => .error (.panic "The Node::Null case has already been covered before loop.")
    | .leaf _ =>
      if skipped = idx then .ok ⟨version, stack, false⟩
      else .error (.bail "Bug: The leaf should be the exact one we are looking for.")
    | .internal n => do
      let ((i, child), skipped) ← skipLeaves idx n.children.iter skipped
      let nextKey ← key.genChild child.version i
      let info ← VisitInfo.newNextChildToVisit key n i
      let node ← R.getNode nextKey
      byIndexLoop R version idx f nextKey node skipped (info :: stack)

/-- src/iterator.rs:204-252 `new_by_index`; the loop runs `0..=ROOT_NIBBLE_HEIGHT`. -/
def newByIndex (R : Reader) (version : Version) (idx : Nat) : Except Err Iter := do
  let node ← R.getNode (NodeKey.root version)
  if node.leafCount ≤ idx then .ok ⟨version, [], true⟩
  else byIndexLoop R version idx (rootNibbleHeight + 1) (NodeKey.root version) node 0 []

/-- What one call of `next` returns: `None`, `Some(Err(..))` or `Some(Ok((key, value)))`. -/
abbrev Item := Option (Except Err (KeyHash × Value))

/-- src/iterator.rs:312-351: the loop of `next`.  Every turn either returns or pushes an internal node
whose path is one nibble longer, and `gen_child_node_key` refuses paths of 64 nibbles, so 65 turns
are enough from any state. -/
def nextLoop (R : Reader) (version : Version) :
    Nat → List VisitInfo → Except Err (Item × Iter)
  | 0, _ => .error (.panic "unreachable: path longer than 64 nibbles")
  | _ + 1, [] => .error (.panic "We have checked that self.parent_stack is not empty.")
  | f + 1, top :: rest => do
    let (i, child) ← top.node.childAtIdx (trailingZeros16 top.next)
    let nodeKey ← top.nodeKey.genChild child.version i
    match R.getNode nodeKey with
    | .error e => .ok (some (.error e), ⟨version, top :: rest, false⟩)
    | .ok .null => .ok (some (.error (.bail "Should not reach a null node.")), ⟨version, top :: rest, false⟩)
    | .ok (.internal n) => do
      let info ← VisitInfo.new nodeKey n
      nextLoop R version f (info :: top :: rest)
    | .ok (.leaf l) =>
      match R.getValue nodeKey.version l.keyHash with
      | .error e => .ok (some (.error e), ⟨version, top :: rest, false⟩)
      | .ok x => do
        let stack ← cleanupStack (top :: rest)
        .ok (some (.ok (l.keyHash, x)), ⟨version, stack, false⟩)

/-- src/iterator.rs:280-352 `next`.  An `.error` is a panic; errors of the reader are items. -/
def next (R : Reader) (it : Iter) : Except Err (Item × Iter) :=
  if it.done then .ok (none, it)
  else
    match it.stack with
    | [] =>
      match R.getNode (NodeKey.root it.version) with
      | .error e => .ok (some (.error e), it)
      | .ok .null => .error (.panic "We would have set done to true in new.")
      | .ok (.internal _) => .ok (none, it)
      | .ok (.leaf l) =>
        match R.getValue it.version l.keyHash with
        | .error e => .ok (some (.error e), { it with done := true })
        | .ok x => .ok (some (.ok (l.keyHash, x)), { it with done := true })
    | top :: rest => nextLoop R it.version 65 (top :: rest)

end Iter
end Jmt
