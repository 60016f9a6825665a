import Verif.Model.TreeCache
/-!
# Model of src/tree.rs: `put_value_sets` and its helpers, `get_with_proof`, root and leaf-count queries
-/
namespace Jmt

/-- src/types/nibble/nibble_path.rs:339-361 `skip_common_prefix` on the remaining items of both
iterators: number of matched items, what remains of each. -/
def skipCommonPrefix {α : Type} [DecidableEq α] : List α → List α → Nat × List α × List α
  | x :: xs, y :: ys =>
    if x = y then
      let r := skipCommonPrefix xs ys
      (r.1 + 1, r.2.1, r.2.2)
    else (0, x :: xs, y :: ys)
  | xs, ys => (0, xs, ys)

/-- src/tree.rs:1422-1429 `PutResult<(NodeKey, Node)>`. -/
inductive PutResult where
  | updated (k : NodeKey) (n : Node)
  | removed
  | notChanged

/-- The result of the recursive insertion functions. -/
abbrev InsertRes := Except Err (PutResult × Option SMProof × TreeCache)

/-- `if with_proof { Some(SparseMerkleProof::new(leaf, vec![])) } else { None }`
(src/tree.rs:605-609, 745-749, 861-868, 953-960, 968-974). -/
def proofIf (withProof : Bool) (leaf : Option (KeyHash × ValueHash)) : Option SMProof :=
  if withProof then some ⟨leaf, []⟩ else none

/-- src/tree.rs:982-1003 `create_leaf_node`; `visited ++ rem` is `nibble_iter.get_nibble_path()`. -/
def createLeafNode (tc : TreeCache) (nodeKey : NodeKey) (visited rem : List Nibble)
    (vh : ValueHash) : Except Err (NodeKey × Node × TreeCache) :=
  match KeyHash.ofNibbles? (visited ++ rem) with
  | none => .error (.panic "LeafNode must have full nibble path.")
  | some k => do
    let n := Node.leaf ⟨k, vh⟩
    let tc ← tc.putNode nodeKey n
    .ok (nodeKey, n, tc)

/-- src/tree.rs:924-943: the chain of single-child internal nodes above a fork,
`count` levels, bottom-up. -/
def chainUp (H : Hasher) (version : Version) :
    (count : Nat) → TreeCache → NodeKey → (path : List Nibble) → InternalNode →
    Except Err (NodeKey × InternalNode × TreeCache)
  | 0, tc, nk, _, node => .ok (nk, node, tc)
  | c + 1, tc, _, path, node =>
    match path.getLast? with
    | none => .error (.panic "Common nibble_path below internal node ran out of nibble")
    | some nib => do
      let path := path.dropLast
      let nk : NodeKey := ⟨version, path⟩
      let h ← node.hash H
      let children := Children.empty.insert nib ⟨h, version, node.nodeType⟩
      let inode ← InternalNode.new children
      let tc ← tc.putNode nk (.internal inode)
      chainUp H version c tc nk path inode

/-- src/tree.rs:823-979 `insert_at_leaf_node`. -/
def insertAtLeafNode (H : Hasher) (version : Version) (value : Option ValueHash) (withProof : Bool)
    (nodeKey : NodeKey) (leaf : LeafNode) (visited rem : List Nibble) (tc : TreeCache) :
    InsertRes := do
  let s1 := skipCommonPrefix visited leaf.keyHash.nibbles
  if s1.2.1 ≠ [] then .error (.panic "Inserting a key at the wrong leaf node")
  else
  let s2 := skipCommonPrefix rem s1.2.2
  let commonNibbles := s2.1
  let visited' := visited ++ rem.take commonNibbles
  let rem' := s2.2.1
  let leafRem := s2.2.2
  match rem' with
  | [] =>
    if leafRem ≠ [] then .error (.panic "path_to_leaf_remaining.is_finished()")
    else do
    let tc ← tc.deleteNode nodeKey true
    let proof := proofIf withProof (some (leaf.keyHash, leaf.valueHash))
    match value with
    | some vh => do
      let (nk, n, tc) ← createLeafNode tc (nodeKey.setVersion version) visited' [] vh
      .ok (.updated nk n, proof, tc)
    | none => .ok (.removed, proof, tc)
  | newIdx :: rem'' =>
    match value with
    | none => .ok (.notChanged, proofIf withProof none, tc)
    | some vh => do
      let tc ← tc.deleteNode nodeKey true
      match leafRem with
      | [] => .error (.panic "Ran out of nibbles")
      | oldIdx :: _ =>
        if oldIdx = newIdx then .error (.panic "assert_ne!(existing_leaf_index, new_leaf_index)")
        else do
        let children := Children.empty.insert oldIdx ⟨leaf.hash H, version, .leaf⟩
        let nk : NodeKey := ⟨version, visited'⟩
        let oldKey ← nk.genChild version oldIdx
        let tc ← tc.putNode oldKey (.leaf leaf)
        let newKey ← nk.genChild version newIdx
        let (_, newLeaf, tc) ← createLeafNode tc newKey (visited' ++ [newIdx]) rem'' vh
        let nh ← newLeaf.hash H
        let children := children.insert newIdx ⟨nh, version, .leaf⟩
        let inode ← InternalNode.new children
        let tc ← tc.putNode nk (.internal inode)
        let (nk, top, tc) ← chainUp H version commonNibbles tc nk visited' inode
        .ok (.updated nk (.internal top),
          proofIf withProof (some (leaf.keyHash, leaf.valueHash)), tc)

/-- src/tree.rs:760-783: the children after the child at `idx` has been rewritten or removed. -/
def updateChildren (H : Hasher) (version : Version) (cs : Children) (idx : Nibble) :
    PutResult → Except Err Children
  | .updated _ n => do
    let h ← n.hash H
    let t ← n.nodeType
    .ok (cs.insert idx ⟨h, version, t⟩)
  | _ => cs.remove idx

/-- src/tree.rs:785-816: delete this internal node; a single remaining leaf child moves up,
otherwise the node is rewritten at the new version.  `children.iter()` with its first element and
"is there a second" is a pattern match on the list. -/
def rewriteInternal (version : Version) (nodeKey : NodeKey) (children : Children)
    (proof : Option SMProof) (tc : TreeCache) : InsertRes := do
  let tc ← tc.deleteNode nodeKey false
  let nk := nodeKey.setVersion version
  match children.iter with
  | [] => .ok (.removed, proof, tc)
  | [(n, c)] =>
    if c.isLeaf then do
      let ck ← nodeKey.genChild c.version n
      let cn ← tc.getNode ck
      let tc ← tc.deleteNode ck true
      let tc ← tc.putNode nk cn
      .ok (.updated nk cn, proof, tc)
    else do
      let inode ← InternalNode.new children
      let tc ← tc.putNode nk (.internal inode)
      .ok (.updated nk (.internal inode), proof, tc)
  | _ => do
      let inode ← InternalNode.new children
      let tc ← tc.putNode nk (.internal inode)
      .ok (.updated nk (.internal inode), proof, tc)

/-- src/tree.rs:759-816: after the child has been processed, rewrite this internal node. -/
def rebuildInternal (H : Hasher) (version : Version) (withProof : Bool)
    (nodeKey : NodeKey) (node : InternalNode) (idx : Nibble)
    (r : PutResult) (proof : Option SMProof) (tc : TreeCache) : InsertRes :=
  match r with
  | .notChanged => .ok (.notChanged, proofIf withProof none, tc)
  | r => do
    let children ← updateChildren H version node.children idx r
    rewriteInternal version nodeKey children proof tc

/-- src/tree.rs:703-723: the proof leaf when the visited slot is empty. -/
def closestLeaf (tc : TreeCache) : Option NodeKey → Except Err (Option (KeyHash × ValueHash))
  | none => .ok none
  | some ck =>
    match tc.getNode ck with
    | .error _ => .error (.panic "this node should be in the cache")
    | .ok (.leaf l) => .ok (some (l.keyHash, l.valueHash))
    | .ok _ => .error (.panic "get_only_child_with_siblings should return a leaf node in that case")

/-- src/tree.rs:695-704: append this node's siblings to the proof of the child. -/
def extendProof (siblings : List SMNode) : Option SMProof → Option SMProof
  | none => none
  | some p => some ⟨p.leaf, p.siblings ++ siblings.reverse⟩

/-- src/tree.rs:671-686: key of the child to visit, and its siblings when a proof is wanted. -/
def childKeyAndSiblings (H : Hasher) (withProof : Bool) (nodeKey : NodeKey) (node : InternalNode)
    (idx : Nibble) (c : Child) (tc : TreeCache) : Except Err (NodeKey × List SMNode) :=
  if withProof then do
    let (ck?, sibs) ← node.getChildWithSiblings H tc.getNode nodeKey idx false
    match ck? with
    | none => .error (.panic "child_key.unwrap()")
    | some ck => .ok (ck, sibs)
  else do
    let ck ← nodeKey.genChild c.version idx
    .ok (ck, [])

/-- src/tree.rs:653-816 `insert_at_internal_node`; `recur` is the recursive `insert_at` on the
remaining nibbles. -/
def insertAtInternalNode (H : Hasher) (version : Version) (value : Option ValueHash)
    (withProof : Bool) (recur : NodeKey → TreeCache → InsertRes)
    (nodeKey : NodeKey) (node : InternalNode) (idx : Nibble) (visited rem : List Nibble)
    (tc : TreeCache) : InsertRes := do
  let (r, proof, tc) ← (match node.child idx with
    | some c => do
      let (ck, siblings) ← childKeyAndSiblings H withProof nodeKey node idx c tc
      let (r, p, tc) ← recur ck tc
      .ok (r, extendProof siblings p, tc)
    | none => do
      let proof ← (if withProof then do
          let (ck?, sibs) ← node.getChildWithSiblings H tc.getNode nodeKey idx true
          let leaf ← closestLeaf tc ck?
          .ok (some ⟨leaf, sibs.reverse⟩)
        else .ok none)
      match value with
      | some vh => do
        let nk ← nodeKey.genChild version idx
        let (nk, n, tc) ← createLeafNode tc nk (visited ++ [idx]) rem vh
        .ok (.updated nk n, proof, tc)
      | none => .ok (.notChanged, proofIf withProof none, tc))
  rebuildInternal H version withProof nodeKey node idx r proof tc

/-- src/tree.rs:614-643: insertion at a null (or absent) node. -/
def insertAtNull (version : Version) (value : Option ValueHash) (withProof : Bool)
    (nodeKey : NodeKey) (alreadyExists : Bool) (visited rem : List Nibble) (tc : TreeCache) :
    InsertRes := do
  if nodeKey.path ≠ [] then .error (.bail "Null node exists for non-root node")
  else
  let tc ← (if nodeKey.version = version ∧ alreadyExists = true then tc.deleteNode nodeKey false
    else .ok tc)
  match value with
  | some vh => do
    let (nk, n, tc) ← createLeafNode tc (NodeKey.root version) visited rem vh
    .ok (.updated nk n, proofIf withProof none, tc)
  | none => .ok (.notChanged, proofIf withProof none, tc)

/-- src/tree.rs:576-646 `insert_at`, structural on the remaining nibbles of the key. -/
def insertAt (H : Hasher) (version : Version) (value : Option ValueHash) (withProof : Bool) :
    (rem : List Nibble) → (visited : List Nibble) → NodeKey → TreeCache → InsertRes
  | rem, visited, nodeKey, tc => do
    let node? ← tc.getNodeOption nodeKey
    match node? with
    | some (.internal node) =>
      match rem with
      | [] => .error (.panic "Ran out of nibbles")
      | idx :: rem' =>
        insertAtInternalNode H version value withProof
          (fun nk tc => insertAt H version value withProof rem' (visited ++ [idx]) nk tc)
          nodeKey node idx visited rem' tc
    | some (.leaf leaf) =>
      insertAtLeafNode H version value withProof nodeKey leaf visited rem tc
    | some .null => insertAtNull version value withProof nodeKey true visited rem tc
    | none => insertAtNull version value withProof nodeKey false visited rem tc

/-- src/tree.rs:527-570 `put`. -/
def put (H : Hasher) (key : KeyHash) (value : Option ValueHash) (version : Version)
    (tc : TreeCache) (withProof : Bool) : Except Err (Option SMProof × TreeCache) := do
  let (r, proof, tc) ← insertAt H version value withProof key.nibbles [] tc.rootNodeKey tc
  match r with
  | .updated nk _ => .ok (proof, tc.setRootNodeKey nk)
  | .notChanged => .ok (proof, tc)
  | .removed => do
    let tc := tc.setRootNodeKey (NodeKey.root version)
    let tc ← tc.putNode (NodeKey.root version) .null
    .ok (proof, tc)

/-- One value set: pairs of a key and `Some(value)` (insert) or `None` (delete). -/
abbrev ValueSet := List (KeyHash × Option Value)

/-- src/tree.rs:427-439, 493-508: the inner loop over one value set, with the list of proofs
(one per write, empty when `withProof = false`). -/
def putAll (H : Hasher) (version : Version) (withProof : Bool) :
    ValueSet → TreeCache → Except Err (List SMProof × TreeCache)
  | [], tc => .ok ([], tc)
  | (k, x) :: rest, tc => do
    let tc := tc.putValue version k x
    let (p, tc) ← put H k (x.map H.hash) version tc withProof
    let ps ← (match withProof, p with
      | true, some p => .ok [p]
      | true, none => .error (.panic "unwrap on missing proof")
      | false, _ => .ok [])
    let (ps', tc) ← putAll H version withProof rest tc
    .ok (ps ++ ps', tc)

/-- src/tree.rs:425-445, 490-515: the outer loop; `version = first_version + idx`. -/
def putSets (H : Hasher) (withProof : Bool) :
    (version : Version) → List ValueSet → TreeCache → Except Err (List (List SMProof) × TreeCache)
  | _, [], tc => .ok ([], tc)
  | version, vs :: rest, tc => do
    let (ps, tc) ← putAll H version withProof vs tc
    let tc ← tc.freeze H
    let (pss, tc) ← putSets H withProof (version + 1) rest tc
    .ok (ps :: pss, tc)

/-- src/tree.rs:420-447 `put_value_sets`. -/
def putValueSets (H : Hasher) (R : Reader) (sets : List ValueSet) (first : Version) :
    Except Err (List Digest × TreeUpdateBatch) := do
  let tc ← TreeCache.new R first
  let (_, tc) ← putSets H false first sets tc
  .ok tc.finish

/-- src/tree.rs:344-356 `put_value_set`. -/
def putValueSet (H : Hasher) (R : Reader) (vs : ValueSet) (version : Version) :
    Except Err (Digest × TreeUpdateBatch) := do
  let (hs, b) ← putValueSets H R [vs] version
  match hs with
  | [h] => .ok (h, b)
  | _ => .error (.panic "root_hashes must consist of a single value.")

/-- src/tree.rs:484-525 `put_value_sets_with_proof`. -/
def putValueSetsWithProof (H : Hasher) (R : Reader) (sets : List ValueSet) (first : Version) :
    Except Err (List (Digest × List SMProof) × TreeUpdateBatch) := do
  let tc ← TreeCache.new R first
  let (pss, tc) ← putSets H true first sets tc
  let (hs, b) := tc.finish
  .ok (hs.zip pss, b)

/-- src/tree.rs:361-379 `put_value_set_with_proof`. -/
def putValueSetWithProof (H : Hasher) (R : Reader) (vs : ValueSet) (version : Version) :
    Except Err (Digest × List SMProof × TreeUpdateBatch) := do
  let (hps, b) ← putValueSetsWithProof H R [vs] version
  match hps with
  | [hp] => .ok (hp.1, hp.2, b)
  | _ => .error (.panic "root_hashes must consist of a single value.")

/-- src/tree.rs:450-479 `append_value_set` (feature `migration`). -/
def appendValueSet (H : Hasher) (R : Reader) (vs : ValueSet) (latest : Version) :
    Except Err (Digest × TreeUpdateBatch) := do
  let tc ← TreeCache.newOverwrite R latest
  let (_, tc) ← putAll H latest false vs tc
  let tc ← tc.freeze H
  let (hs, b) := tc.finish
  match hs with
  | [h] => .ok (h, b)
  | _ => .error (.bail "appending a value set failed, we expected a single root hash")

/-- src/tree.rs:1018-1080: the descent of `get_with_proof`; `fuel` is what is left of
`0..=ROOT_NIBBLE_HEIGHT`, `sibs` the siblings collected so far, root first.  Any failure to
read the root is reported as `MissingRootError` (lines 1019-1025). -/
def getWithProofLoop (H : Hasher) (R : Reader) (key : KeyHash) (version : Version) :
    (fuel : Nat) → (depth : Nat) → NodeKey → (rem : List Nibble) → (sibs : List SMNode) →
    Except Err (Option Value × SMProof)
  | 0, _, _, _, _ => .error (.bail "Jellyfish Merkle tree has cyclic graph inside.")
  | fuel + 1, depth, nk, rem, sibs => do
    let node ← (match R.getNode nk with
      | .ok n => .ok n
      | .error e => if depth = 0 then .error (.missingRoot version) else .error e)
    match node with
    | .internal inode =>
      match rem with
      | [] => .error (.bail "ran out of nibbles")
      | idx :: rem' => do
        let (ck?, sibs') ← inode.getChildWithSiblings H R.getNode nk idx true
        let sibs := sibs ++ sibs'
        match ck? with
        | some ck => getWithProofLoop H R key version fuel (depth + 1) ck rem' sibs
        | none => .ok (none, ⟨none, sibs.reverse⟩)
    | .leaf l => do
      let v ← (if l.keyHash = key then do
          let v ← R.getValue version l.keyHash
          .ok (some v)
        else .ok none)
      .ok (v, ⟨some (l.keyHash, l.valueHash), sibs.reverse⟩)
    | .null =>
      if depth = 0 then .ok (none, ⟨none, []⟩)
      else .error (.bail "Non-root null node exists")

/-- src/tree.rs:1006-1080 `get_with_proof`. -/
def getWithProof (H : Hasher) (R : Reader) (key : KeyHash) (version : Version) :
    Except Err (Option Value × SMProof) :=
  getWithProofLoop H R key version (rootNibbleHeight + 1) 0 (NodeKey.root version) key.nibbles []

/-- src/tree.rs:1356-1358, 1391-1393 `get`. -/
def get (R : Reader) (key : KeyHash) (version : Version) : Except Err (Option Value) :=
  R.getValueOption version key

/-- src/tree.rs:1400-1403 `get_root_node_option`. -/
def getRootNodeOption (R : Reader) (version : Version) : Except Err (Option Node) :=
  R.getNodeOption (NodeKey.root version)

/-- src/tree.rs:1395-1398 `get_root_node`. -/
def getRootNode (R : Reader) (version : Version) : Except Err Node := do
  match ← getRootNodeOption R version with
  | some n => .ok n
  | none => .error (.missingRoot version)

/-- src/tree.rs:1405-1407 `get_root_hash`. -/
def getRootHash (H : Hasher) (R : Reader) (version : Version) : Except Err Digest := do
  let n ← getRootNode R version
  n.hash H

/-- src/tree.rs:1409-1413 `get_root_hash_option`. -/
def getRootHashOption (H : Hasher) (R : Reader) (version : Version) :
    Except Err (Option Digest) := do
  match ← getRootNodeOption R version with
  | some n => do
    let h ← n.hash H
    .ok (some h)
  | none => .ok none

/-- src/tree.rs:1416-1418 `get_leaf_count`. -/
def getLeafCount (R : Reader) (version : Version) : Except Err Nat := do
  let n ← getRootNode R version
  .ok n.leafCount

end Jmt
