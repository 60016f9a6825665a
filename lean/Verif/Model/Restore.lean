import Verif.Model.Mock
import Verif.Model.Proof
import Verif.Model.Bytes
/-!
# Model of src/restore.rs: `JellyfishMerkleRestore`

`Vec<InternalInfo>` is a list, top node first; `[Option<ChildInfo>; 16]` is a function on nibbles.
-/
namespace Jmt

/-- src/restore.rs:35-48 `ChildInfo`. -/
inductive ChildInfo where
  | internal (hash : Option Digest) (leafCount : Nat)
  | leaf (node : LeafNode)
deriving DecidableEq, Repr

/-- src/restore.rs:52-61 `into_child`. -/
def ChildInfo.intoChild (H : Hasher) (version : Version) : ChildInfo → Except Err Child
  | .internal (some h) n => .ok ⟨h, version, .internal n⟩
  | .internal none _ => .error (.panic "Must have been initialized.")
  | .leaf l => .ok ⟨l.hash H, version, .leaf⟩

/-- src/restore.rs:64-72 `InternalInfo`. -/
structure InternalInfo where
  nodeKey : NodeKey
  children : Nibble → Option ChildInfo

namespace InternalInfo

/-- src/restore.rs:75-80 `new_empty`. -/
def newEmpty (k : NodeKey) : InternalInfo := ⟨k, fun _ => none⟩

/-- src/restore.rs:82-85 `set_child`. -/
def setChild (info : InternalInfo) (i : Nibble) (c : ChildInfo) : InternalInfo :=
  { info with children := fun j => if j = i then some c else info.children j }

/-- src/restore.rs:94-98: the loop of `into_internal_node` over the given indices. -/
def collect (H : Hasher) (version : Version) (children : Nibble → Option ChildInfo) :
    List Nibble → Children → Except Err Children
  | [], cs => .ok cs
  | i :: is, cs =>
    match children i with
    | none => collect H version children is cs
    | some c => do
      let ch ← c.intoChild H version
      collect H version children is (cs.insert i ch)

/-- src/restore.rs:89-101 `into_internal_node`. -/
def intoInternalNode (H : Hasher) (info : InternalInfo) (version : Version) :
    Except Err (NodeKey × InternalNode) := do
  let cs ← collect H version info.children (List.finRange 16) Children.empty
  let n ← InternalNode.new cs
  .ok (info.nodeKey, n)

/-- `children.iter().rposition(|x| x.is_some())` (src/restore.rs:476-480, 514-518). -/
def rposition (info : InternalInfo) : Option Nibble :=
  (List.finRange 16).reverse.find? (fun i => (info.children i).isSome)

end InternalInfo

/-- src/restore.rs:107-160 `JellyfishMerkleRestore` without the store handle, which is passed along separately.
`num_keys_received : u64` cannot overflow in practice and is a natural number. -/
structure Restore where
  version : Version
  partialNodes : List InternalInfo
  frozenNodes : NodeBatch
  previousLeaf : Option LeafNode
  numKeysReceived : Nat
  expectedRoot : Digest

namespace Restore

/-- src/restore.rs:197-212 `new_overwrite`; also the `else` branch of `new` (src/restore.rs:178-183). -/
def newOverwrite (version : Version) (expectedRoot : Digest) : Restore :=
  ⟨version, [InternalInfo.newEmpty (NodeKey.root version)], ⟨[], []⟩, none, 0, expectedRoot⟩

/-- src/node_type.rs:90-97 `gen_parent_node_key`. -/
def genParent (k : NodeKey) : Except Err NodeKey :=
  match k.path with
  | [] => .error (.panic "Current node key is root.")
  | p => .ok ⟨k.version, p.dropLast⟩

/-- src/restore.rs:231-234: climb while the node exists.  The fuel is the path length, an upper bound for the
number of rounds: `gen_parent_node_key` panics at the root. -/
def climb (R : Reader) : Nat → NodeKey → Except Err NodeKey
  | fuel, k => do
    match ← R.getNodeOption k with
    | none => .ok k
    | some _ =>
      let p ← genParent k
      match fuel with
      | 0 => .error (.panic "unreachable: the path is longer than its length")
      | fuel + 1 => climb R fuel p

/-- src/restore.rs:253-262: what is known about a stored node. -/
def childInfoOf (H : Hasher) : Node → Except Err ChildInfo
  | .internal n => do
    let h ← n.hash H
    .ok (.internal (some h) n.leafCount)
  | .leaf l => .ok (.leaf l)
  | .null => .error (.bail "Null node should not appear in storage.")

/-- src/restore.rs:249-265: the scan over child positions. -/
def scan (H : Hasher) (R : Reader) (version : Version) (nodeKey : NodeKey) :
    List Nibble → InternalInfo → Except Err InternalInfo
  | [], info => .ok info
  | i :: is, info => do
    let ck ← nodeKey.genChild version i
    match ← R.getNodeOption ck with
    | none => scan H R version nodeKey is info
    | some node =>
      let c ← childInfoOf H node
      scan H R version nodeKey is (info.setChild i c)

/-- src/restore.rs:249 `0..previous_child_index.unwrap_or(16)`. -/
def scanRange : Option Nibble → List Nibble
  | none => List.finRange 16
  | some i => (List.finRange 16).filter (fun j => decide (j < i))

/-- src/restore.rs:267-279: the entry for the partial node below. -/
def markPartial (prev : Option Nibble) (info : InternalInfo) : InternalInfo :=
  match prev with
  | none => info
  | some i => info.setChild i (.internal none 0)

/-- src/restore.rs:246-287: the loop rebuilding the partial nodes bottom up; returns them top first (the final
`reverse`).  The fuel is the path length: every round shortens the path by one. -/
def rebuild (H : Hasher) (R : Reader) (version : Version) :
    Nat → NodeKey → Option Nibble → List InternalInfo → Except Err (List InternalInfo)
  | fuel, k, prev, acc => do
    let info ← scan H R version k (scanRange prev) (InternalInfo.newEmpty k)
    let acc := markPartial prev info :: acc
    match k.path.getLast?, fuel with
    | none, _ => .ok acc
    | some _, 0 => .error (.panic "unreachable: the path is longer than its length")
    | some i, fuel + 1 => do
      let p ← genParent k
      rebuild H R version fuel p (some i) acc

/-- src/restore.rs:216-289 `recover_partial_nodes`. -/
def recoverPartialNodes (H : Hasher) (R : Reader) (version : Version) (rightmost : NodeKey) :
    Except Err (List InternalInfo) := do
  if rightmost.path = [] then
    .error (.bail "Root node would not be written until entire restoration process has completed successfully.")
  else
    let p ← genParent rightmost
    let k ← climb R p.path.length p
    rebuild H R version k.path.length k none []

/-- src/restore.rs:163-195 `new`. -/
def new (H : Hasher) (R : Reader) (version : Version) (expectedRoot : Digest) : Except Err Restore := do
  match ← R.getRightmostLeaf with
  | some (nodeKey, leaf) =>
    let ps ← recoverPartialNodes H R version nodeKey
    .ok ⟨version, ps, ⟨[], []⟩, some leaf, 0, expectedRoot⟩
  | none => .ok (newOverwrite version expectedRoot)

/-- src/restore.rs:487-490 and 509: `frozen_nodes.insert_node`. -/
def insertFrozen (r : Restore) (k : NodeKey) (n : Node) : Restore :=
  { r with frozenNodes := { r.frozenNodes with nodes := r.frozenNodes.nodes.insert k n } }

/-- src/restore.rs:466-493 `freeze_previous_leaf`. -/
def freezePreviousLeaf (r : Restore) : Except Err Restore :=
  if r.numKeysReceived = 0 then .ok r
  else
    match r.partialNodes.getLast? with
    | none => .error (.panic "Must have at least one partial node.")
    | some last =>
      match last.rposition with
      | none => .error (.panic "Must have at least one child.")
      | some i =>
        match last.children i with
        | some (.leaf node) => do
          let ck ← last.nodeKey.genChild r.version i
          .ok (r.insertFrozen ck (.leaf node))
        | _ => .error (.panic "Must have at least one child and must not have further internal nodes.")

/-- src/restore.rs:510-534: tell the parent, now the last partial node, about the node just frozen. -/
def fillParent (parents : List InternalInfo) (hash : Digest) (leafCount : Nat) : Except Err (List InternalInfo) :=
  match parents.getLast? with
  | none => .ok parents
  | some parent =>
    match parent.rposition with
    | none => .error (.panic "Must have at least one child.")
    | some i =>
      match parent.children i with
      | some (.internal none 0) => .ok (parents.dropLast ++ [parent.setChild i (.internal (some hash) leafCount)])
      | some (.internal _ _) => .error (.panic "assert_eq!(hash.replace(node_hash), None)")
      | _ => .error (.panic "Must have at least one child and the rightmost child must not be a leaf.")

/-- src/restore.rs:496-535 `freeze_internal_nodes`: the given number of rounds. -/
def freezeInternalLoop (H : Hasher) : Nat → Restore → Except Err Restore
  | 0, r => .ok r
  | fuel + 1, r =>
    match r.partialNodes.getLast? with
    | none => .error (.panic "This node must exist.")
    | some last => do
      let (k, n) ← last.intoInternalNode H r.version
      let h ← n.hash H
      let ps ← fillParent r.partialNodes.dropLast h n.leafCount
      freezeInternalLoop H fuel { r.insertFrozen k (.internal n) with partialNodes := ps }

/-- src/restore.rs:496-535 `freeze_internal_nodes`: one node is popped per round, so there are
`len - num_remaining_nodes` rounds. -/
def freezeInternalNodes (H : Hasher) (r : Restore) (remaining : Nat) : Except Err Restore :=
  freezeInternalLoop H (r.partialNodes.length - remaining) r

/-- src/restore.rs:459-462 `freeze`. -/
def freeze (H : Hasher) (r : Restore) (remaining : Nat) : Except Err Restore := do
  let r ← r.freezePreviousLeaf
  r.freezeInternalNodes H remaining

/-- `partial_nodes[i].set_child(j, c)`. -/
def setChildAt (r : Restore) (i : Nat) (j : Nibble) (c : ChildInfo) : Restore :=
  { r with partialNodes := r.partialNodes.modify i (fun info => info.setChild j c) }

/-- src/restore.rs:405-419: the chain of internal nodes with one internal child.  `visited` and `rem` are the two halves
of the nibble iterator. -/
def pushChain (version : Version) : Nat → List Nibble → List Nibble → List InternalInfo →
    Except Err (List Nibble × List InternalInfo)
  | 0, visited, _, ps => .ok (visited, ps)
  | n + 1, visited, rem, ps =>
    match rem with
    | [] => .error (.panic "This nibble must exist.")
    | x :: rem =>
      pushChain version n (visited ++ [x]) rem
        (ps ++ [(InternalInfo.newEmpty ⟨version, visited⟩).setChild x (.internal none 0)])

/-- src/restore.rs:379-456 `insert_at_leaf`. -/
def insertAtLeaf (H : Hasher) (r : Restore) (childIndex : Nibble) (existing : LeafNode) (newKey : KeyHash)
    (valueHash : ValueHash) (visited rem : List Nibble) : Except Err Restore := do
  let num := r.partialNodes.length
  let r := r.setChildAt (num - 1) childIndex (.internal none 0)
  let common := Bytes32.commonPrefixNibblesLen existing.keyHash newKey
  let (visited, ps) ← pushChain r.version (common - num) visited rem r.partialNodes
  let existingIdx ← nibbleAt existing.keyHash common
  let info := (InternalInfo.newEmpty ⟨r.version, visited⟩).setChild existingIdx (.leaf existing)
  let r := { r with partialNodes := ps ++ [info] }
  let r ← r.freeze H r.partialNodes.length
  let newIdx ← nibbleAt newKey common
  if ¬ existingIdx < newIdx then .error (.panic "New leaf must be on the right.")
  else .ok (r.setChildAt (r.partialNodes.length - 1) newIdx (.leaf ⟨newKey, valueHash⟩))

/-- src/restore.rs:324-373: the loop of `add_one` from level `i` on; `visited ++ rem` are the nibbles of the key. -/
def addOneLoop (H : Hasher) (newKey : KeyHash) (valueHash : ValueHash) :
    Nat → (visited rem : List Nibble) → Restore → Except Err Restore
  | _, _, [], r => .ok r
  | i, visited, x :: rem, r =>
    match r.partialNodes[i]? with
    | none => .error (.panic "assert!(i < self.partial_nodes.len())")
    | some info =>
      match info.children x with
      | some (.leaf node) =>
        if i = r.partialNodes.length - 1 then
          insertAtLeaf H r x node newKey valueHash (visited ++ [x]) rem
        else .error (.panic "If we see a leaf, there will be no more partial internal nodes on lower level")
      | some (.internal _ _) => addOneLoop H newKey valueHash (i + 1) (visited ++ [x]) rem r
      | none => do
        let r ← r.freeze H (i + 1)
        .ok (r.setChildAt i x (.leaf ⟨newKey, valueHash⟩))

/-- src/restore.rs:324-373 `add_one`. -/
def addOne (H : Hasher) (r : Restore) (newKey : KeyHash) (valueHash : ValueHash) : Except Err Restore :=
  addOneLoop H newKey valueHash 0 [] newKey.nibbles r

/-- src/restore.rs:616-646 `compute_left_sibling_impl` on the `2^h` children from `start` on. -/
def leftSiblingImpl (H : Hasher) (children : Nibble → Option ChildInfo) : (h start : Nat) →
    Except Err (Digest × Bool)
  | 0, start =>
    match Nibble.ofNat? start with
    | none => .error (.panic "slice index out of range")
    | some i =>
      match children i with
      | some (.internal (some h) _) => .ok (h, false)
      | some (.internal none _) => .error (.panic "The hash must be known.")
      | some (.leaf l) => .ok (l.hash H, true)
      | none => .ok (placeholder, true)
  | h + 1, start => do
    let l ← leftSiblingImpl H children h start
    let r ← leftSiblingImpl H children h (start + 2 ^ h)
    if l.1 = placeholder && r.2 then .ok (r.1, true)
    else if l.2 && r.1 = placeholder then .ok (l.1, true)
    else .ok (H.internalHash l.1 r.1, false)

/-- src/restore.rs:608-613 `compute_left_sibling`. -/
def computeLeftSibling (H : Hasher) (info : InternalInfo) (n : Nibble) (height : Nat) : Except Err Digest := do
  let r ← leftSiblingImpl H info.children height (childAndSiblingHalfStart n height).2
  .ok r.1

/-- src/restore.rs:560-570: the sibling on the left of bit `i` of the key. -/
def leftSiblingAt (H : Hasher) (r : Restore) (key : KeyHash) (i : Nat) : Except Err Digest :=
  if r.partialNodes.length * 4 ≤ i then .ok placeholder
  else
    match r.partialNodes[i / 4]? with
    | none => .error (.panic "index out of bounds")
    | some info => do
      let n ← nibbleAt key (i / 4)
      computeLeftSibling H info n (3 - i % 4)

/-- src/restore.rs:558-576: the loop collecting left siblings (kept bottom first, i.e. in reverse of the vector) and counting
the zero bits. -/
def collectLeft (H : Hasher) (r : Restore) (key : KeyHash) :
    Nat → List Bool → List Digest → Nat → Except Err (List Digest × Nat)
  | _, [], ls, n => .ok (ls, n)
  | i, true :: bits, ls, n => do
    let s ← leftSiblingAt H r key i
    collectLeft H r key (i + 1) bits (s :: ls) n
  | i, false :: bits, ls, n => collectLeft H r key (i + 1) bits ls (n + 1)

/-- src/restore.rs:584-598: removal of superfluous placeholders, over the bits from the last to the first; `ls` is bottom
first. -/
def trimLeft (numRight : Nat) : List Bool → List Digest → Nat → Except Err (List Digest)
  | [], ls, _ => .ok ls
  | true :: bits, ls, n =>
    match ls with
    | [] => .error (.panic "This sibling must exist.")
    | l :: ls' => if l = placeholder then trimLeft numRight bits ls' n else .ok ls
  | false :: bits, ls, n => if numRight < n then trimLeft numRight bits ls (n - 1) else .ok ls

/-- src/restore.rs:538-605 `verify`.  `checked` says whether integer overflow panics. -/
def verify (H : Hasher) (checked : Bool) (r : Restore) (proof : RangeProof) : Except Err Unit :=
  match r.previousLeaf with
  | none => .error (.panic "The previous leaf must exist.")
  | some leaf => do
    let (ls, n) ← collectLeft H r leaf.keyHash 0 (Bytes32.iterBits leaf.keyHash) [] 0
    if n < proof.rightSiblings.length then .error (.bail "Too many right siblings in the proof.")
    else
      let ls ← trimLeft proof.rightSiblings.length (Bytes32.iterBits leaf.keyHash).reverse ls n
      proof.verify H checked r.expectedRoot (leaf.keyHash, leaf.valueHash) ls

/-- src/restore.rs:304: the value goes to the batch first. -/
def insertValue (r : Restore) (k : KeyHash) (x : Value) : Restore :=
  { r with frozenNodes := { r.frozenNodes with values := r.frozenNodes.values.insert (r.version, k) (some x) } }

/-- `add_one` returns no `Result`: whatever fails inside is a panic. -/
def panics {α : Type} : Except Err α → Except Err α
  | .error (.panic s) => .error (.panic s)
  | .error _ => .error (.panic "add_one failed")
  | .ok a => .ok a

/-- src/restore.rs:305-308: the new key, its leaf and the counter. -/
def addEntry (H : Hasher) (r : Restore) (k : KeyHash) (x : Value) : Except Err Restore := do
  let r ← panics ((r.insertValue k x).addOne H k (H.hash x))
  .ok { r with previousLeaf := some ⟨k, H.hash x⟩, numKeysReceived := r.numKeysReceived + 1 }

/-- src/restore.rs:298-309: the loop of `add_chunk_impl`.  The state reached is returned also when the loop stops with an
error, because the receiver keeps it. -/
def addKeys (H : Hasher) : List (KeyHash × Value) → Restore → Restore × Except Err Unit
  | [], r => (r, .ok ())
  | (k, x) :: rest, r =>
    if r.previousLeaf.any (fun l => !decide (l.keyHash.val < k.val)) then
      (r, .error (.bail "Account keys must come in increasing order."))
    else
      match addEntry H r k x with
      | .error e => (r, .error e)
      | .ok r' => addKeys H rest r'

/-- src/restore.rs:291-319 `add_chunk_impl`: the receiver, the store and the result.  A store whose
`write_node_batch` fails is left unchanged (the mock store would stop in the middle). -/
def addChunk (H : Hasher) (checked : Bool) (r : Restore) (s : Store) (chunk : List (KeyHash × Value))
    (proof : RangeProof) : Restore × Store × Except Err Unit :=
  if chunk = [] then (r, s, .error (.bail "Should not add empty chunks."))
  else
    match addKeys H chunk r with
    | (r, .error e) => (r, s, .error e)
    | (r, .ok ()) =>
      match r.verify H checked proof with
      | .error e => (r, s, .error e)
      | .ok () =>
        match s.writeNodeBatch r.frozenNodes with
        | .error e => (r, s, .error e)
        | .ok s' => ({ r with frozenNodes := ⟨[], []⟩ }, s', .ok ())

/-- src/restore.rs:657-661: one round of the loop below. -/
def countChild (info : InternalInfo) (acc : Nat × Option LeafNode) (i : Nibble) : Nat × Option LeafNode :=
  match info.children i with
  | none => acc
  | some (.leaf l) => (acc.1 + 1, some l)
  | some (.internal _ _) => (acc.1 + 1, acc.2)

/-- src/restore.rs:654-662: the leaves among the children of the only partial node, last one wins, and the number of
children. -/
def rootChildren (info : InternalInfo) : Nat × Option LeafNode :=
  (List.finRange 16).foldl (countChild info) (0, none)

/-- src/restore.rs:653-667: the leaf of a tree with a single leaf. -/
def singleLeaf (r : Restore) : Option LeafNode :=
  match r.partialNodes with
  | [info] => if (rootChildren info).1 = 1 then (rootChildren info).2 else none
  | _ => none

/-- src/restore.rs:651-680 `finish_impl`. -/
def finish (H : Hasher) (r : Restore) (s : Store) : Except Err Store :=
  match r.singleLeaf with
  | some leaf =>
    if r.frozenNodes.nodes = [] ∧ r.frozenNodes.values = [] then
      s.writeNodeBatch (r.insertFrozen (NodeKey.root r.version) (.leaf leaf)).frozenNodes
    else .error (.panic "assert!(self.frozen_nodes.is_empty())")
  | none => do
    let r ← r.freeze H 0
    s.writeNodeBatch r.frozenNodes

end Restore
end Jmt
