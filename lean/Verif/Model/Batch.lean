import Verif.Model.NibblePath
import Verif.Model.Tree
/-!
# Model of the batch API of src/tree.rs: `batch_put_value_sets` and its helpers

`fuel` in the three recursive functions is `64 - depth`: at depth 64 both `NibbleRangeIterator::new`
(assert, src/types/nibble.rs:60) and `get_nibble` (index check) panic, so running out of fuel is that panic.
-/
namespace Jmt

/-- A key hash with the hash of its value, the element of the `kvs` slices. -/
abbrev Kv := KeyHash × ValueHash

/-- `BTreeMap::insert` on key-sorted entries: the value of an equal key is replaced. -/
def sortedInsert (k : KeyHash) (v : Value) : List (KeyHash × Value) → List (KeyHash × Value)
  | [] => [(k, v)]
  | (k', v') :: rest =>
    if k = k' then (k, v) :: rest
    else if k.val < k'.val then (k, v) :: (k', v') :: rest
    else (k', v') :: sortedInsert k v rest

/-- src/tree.rs:95-97 `value_set.into_iter().collect::<BTreeMap<_, _>>().into_iter()`: one entry per key (the last
one given), in key order. -/
def dedupSorted (kvs : List (KeyHash × Value)) : List (KeyHash × Value) :=
  kvs.foldl (fun acc kv => sortedInsert kv.1 kv.2 acc) []

/-- The optional `HashMap<NibblePath, [u8; 32]>` of precomputed node hashes; it is only read, so it is a lookup function. -/
abbrev HashCache := Option (List Nibble → Option Digest)

/-- src/tree.rs:58-72 `get_hash`: a hash missing from a given cache is `unreachable!`. -/
def getHash (H : Hasher) (nk : NodeKey) (n : Node) : HashCache → Except Err Digest
  | some cache =>
    match cache nk.path with
    | some h => .ok h
    | none => .error (.panic "unreachable: can not be found in hash cache")
  | none => n.hash H

/-- One turn of the `for (left, right) in NibbleRangeIterator::new(kvs, depth)` loops (src/tree.rs:146-149, 254-255,
318-319): the child index `kvs[left].0.0.get_nibble(depth)` and the slice `&kvs[left..=right]`. -/
def batchGroup (kvs : List Kv) (depth : Nat) (lr : Nat × Nat) : Except Err (Nibble × List Kv) :=
  match kvs[lr.1]? with
  | none => .error (.panic "index out of bounds")
  | some kv => do
    let c ← nibbleAt kv.1 depth
    if lr.2 < kvs.length then .ok (c, (kvs.drop lr.1).take (lr.2 + 1 - lr.1))
    else .error (.panic "range end index out of range")

/-- All turns of such a loop.  The iterator does not depend on the loop body. -/
def batchGroupsOf (kvs : List Kv) (depth : Nat) : List (Nat × Nat) → Except Err (List (Nibble × List Kv))
  | [] => .ok []
  | lr :: rest => do
    let g ← batchGroup kvs depth lr
    let gs ← batchGroupsOf kvs depth rest
    .ok (g :: gs)

/-- `NibbleRangeIterator::new(kvs, depth)` and all its turns. -/
def batchGroups (kvs : List Kv) (depth : Nat) : Except Err (List (Nibble × List Kv)) := do
  let rs ← nibbleRanges kvs depth
  batchGroupsOf kvs depth rs

/-- The loop over the groups: `child` builds the new child of a group, which is then inserted into `children`
(src/tree.rs:146-187, 254-286, 318-333). -/
def batchLoop (H : Hasher) (cache : HashCache) (version : Version)
    (child : Nibble → List Kv → TreeCache → Except Err (NodeKey × Node × TreeCache)) :
    List (Nibble × List Kv) → Children → TreeCache → Except Err (Children × TreeCache)
  | [], cs, tc => .ok (cs, tc)
  | (c, g) :: rest, cs, tc => do
    let (nk, n, tc) ← child c g tc
    let h ← getHash H nk n cache
    let t ← n.nodeType
    batchLoop H cache version child rest (cs.insert c ⟨h, version, t⟩) tc

/-- The end of all three functions: `InternalNode::new(children)`, `put_node`, return
(src/tree.rs:188-194, 293-296, 334-337). -/
def batchFinish (nk : NodeKey) (cs : Children) (tc : TreeCache) : Except Err (NodeKey × Node × TreeCache) := do
  let n ← InternalNode.new cs
  let tc ← tc.putNode nk (.internal n)
  .ok (nk, .internal n, tc)

/-- A new leaf at `nk` (src/tree.rs:241-244, 308-311). -/
def batchLeaf (nk : NodeKey) (kv : Kv) (tc : TreeCache) : Except Err (NodeKey × Node × TreeCache) := do
  let tc ← tc.putNode nk (.leaf ⟨kv.1, kv.2⟩)
  .ok (nk, .leaf ⟨kv.1, kv.2⟩, tc)

/-- src/tree.rs:299-340 `batch_create_subtree`. -/
def batchCreateSubtree (H : Hasher) (cache : HashCache) (version : Version) :
    (fuel : Nat) → NodeKey → List Kv → (depth : Nat) → TreeCache → Except Err (NodeKey × Node × TreeCache)
  | _, nk, [kv], _, tc => batchLeaf nk kv tc
  | 0, _, _, _, _ => .error (.panic "assert!(nibble_idx < ROOT_NIBBLE_HEIGHT)")
  | fuel + 1, nk, kvs, depth, tc => do
    let gs ← batchGroups kvs depth
    let (cs, tc) ← batchLoop H cache version
      (fun c g tc => do
        let ck ← nk.genChild version c
        batchCreateSubtree H cache version fuel ck g (depth + 1) tc) gs Children.empty tc
    batchFinish nk cs tc

/-- src/tree.rs:283-292: the existing leaf goes into its own slot unless some group went there. -/
def batchIsolate (H : Hasher) (version : Version) (nk : NodeKey) (leaf : LeafNode) (bucket : Nibble)
    (isolated : Bool) (cs : Children) (tc : TreeCache) : Except Err (Children × TreeCache) :=
  if isolated then do
    let lk ← nk.genChild version bucket
    let tc ← tc.putNode lk (.leaf leaf)
    .ok (cs.insert bucket ⟨leaf.hash H, version, .leaf⟩, tc)
  else .ok (cs, tc)

/-- src/tree.rs:228-297 `batch_create_subtree_with_existing_leaf`.  `isolated_existing_leaf` is cleared in the turn
whose child index is the bucket of the existing leaf. -/
def batchWithLeaf (H : Hasher) (cache : HashCache) (version : Version) (leaf : LeafNode) :
    (fuel : Nat) → NodeKey → List Kv → (depth : Nat) → TreeCache → Except Err (NodeKey × Node × TreeCache)
  | fuel, nk, kvs, depth, tc =>
    match decide (kvs.map Prod.fst = [leaf.keyHash]), kvs with
    | true, kv :: _ => batchLeaf nk (leaf.keyHash, kv.2) tc
    | _, _ =>
      match fuel with
      | 0 => .error (.panic "index out of bounds")
      | fuel + 1 => do
        let bucket ← nibbleAt leaf.keyHash depth
        let gs ← batchGroups kvs depth
        let (cs, tc) ← batchLoop H cache version
          (fun c g tc => do
            let ck ← nk.genChild version c
            if bucket = c then batchWithLeaf H cache version leaf fuel ck g (depth + 1) tc
            else batchCreateSubtree H cache version fuel ck g (depth + 1) tc) gs Children.empty tc
        let (cs, tc) ← batchIsolate H version nk leaf bucket (decide (bucket ∉ gs.map Prod.fst)) cs tc
        batchFinish nk cs tc

/-- src/tree.rs:122-226 `batch_insert_at`. -/
def batchInsertAt (H : Hasher) (cache : HashCache) (version : Version) :
    (fuel : Nat) → NodeKey → List Kv → (depth : Nat) → TreeCache → Except Err (NodeKey × Node × TreeCache)
  | fuel, nk, kvs, depth, tc =>
    if kvs = [] then .error (.panic "assert!(!kvs.is_empty())")
    else do
      let node ← tc.getNode nk
      match node with
      | .internal inode =>
        let tc ← tc.deleteNode nk false
        match fuel with
        | 0 => .error (.panic "assert!(nibble_idx < ROOT_NIBBLE_HEIGHT)")
        | fuel + 1 =>
          let gs ← batchGroups kvs depth
          let (cs, tc) ← batchLoop H cache version
            (fun c g tc =>
              match inode.child c with
              | some ch => do
                let ck ← nk.genChild ch.version c
                batchInsertAt H cache version fuel ck g (depth + 1) tc
              | none => do
                let ck ← nk.genChild version c
                batchCreateSubtree H cache version fuel ck g (depth + 1) tc) gs inode.children tc
          batchFinish (nk.setVersion version) cs tc
      | .leaf l =>
        let tc ← tc.deleteNode nk true
        batchWithLeaf H cache version l fuel (nk.setVersion version) kvs depth tc
      | .null =>
        if nk.path ≠ [] then .error (.bail "Null node exists for non-root node")
        else do
          let tc ← (if nk.version = version then tc.deleteNode nk false else .ok tc)
          batchCreateSubtree H cache version fuel (NodeKey.root version) kvs depth tc

/-- One value set (src/tree.rs:88-116). -/
def batchSet (H : Hasher) (version : Version) (set : List (KeyHash × Value)) (cache : HashCache) (tc : TreeCache) :
    Except Err TreeCache := do
  if set = [] then .error (.panic "Transactions that output empty write set should not be included.")
  else do
    let kvs := dedupSorted set
    let tc := kvs.foldl (fun tc kv => tc.putValue version kv.1 (some kv.2)) tc
    let (nk, _, tc) ← batchInsertAt H cache version 64 tc.rootNodeKey (kvs.map (fun kv => (kv.1, H.hash kv.2))) 0 tc
    (tc.setRootNodeKey nk).freeze H

/-- The loop over `zip_eq(value_sets, hash_sets)`, which panics when one side ends before the other (src/tree.rs:86-117). -/
def batchSets (H : Hasher) : Version → List (List (KeyHash × Value)) → List HashCache → TreeCache → Except Err TreeCache
  | _, [], [], tc => .ok tc
  | version, set :: sets, cache :: caches, tc => do
    let tc ← batchSet H version set cache tc
    batchSets H (version + 1) sets caches tc
  | _, _, _, _ => .error (.panic "itertools::zip_eq() reached end of one iterator before the other")

/-- src/tree.rs:74-120 `batch_put_value_sets`. -/
def batchPutValueSets (H : Hasher) (R : Reader) (sets : List (List (KeyHash × Value)))
    (nodeHashes : Option (List (List Nibble → Option Digest))) (first : Version) :
    Except Err (List Digest × TreeUpdateBatch) := do
  let tc ← TreeCache.new R first
  let caches : List HashCache := match nodeHashes with
    | some hs => hs.map some
    | none => sets.map (fun _ => none)
  let tc ← batchSets H first sets caches tc
  .ok tc.finish

end Jmt
