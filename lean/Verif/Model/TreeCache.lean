import Verif.Model.NodeType
import Verif.Model.AMap
/-!
# Model of src/tree_cache.rs and the batch types of src/writer.rs
-/
namespace Jmt

/-- src/writer.rs:95-100 `NodeStats`. -/
structure NodeStats where
  newNodes : Nat
  newLeaves : Nat
  staleNodes : Nat
  staleLeaves : Nat
deriving DecidableEq, Repr

/-- src/writer.rs:105-111 `StaleNodeIndex`. -/
structure StaleNodeIndex where
  staleSince : Version
  nodeKey : NodeKey
deriving DecidableEq, Repr

/-- src/writer.rs:25-28 `NodeBatch` (`BTreeMap`s as association lists). -/
structure NodeBatch where
  nodes : AMap NodeKey Node
  values : AMap (Version × KeyHash) (Option Value)

/-- src/writer.rs:118-122 `TreeUpdateBatch` (the `BTreeSet` as a duplicate-free list). -/
structure TreeUpdateBatch where
  nodeBatch : NodeBatch
  staleNodeIndexBatch : List StaleNodeIndex
  nodeStats : List NodeStats

/-- src/types.rs:13 `PRE_GENESIS_VERSION = u64::MAX`. -/
def preGenesisVersion : Version := u64Size - 1

/-- src/tree_cache.rs:90-102 `FrozenTreeCache`. -/
structure Frozen where
  nodeBatch : NodeBatch
  stale : List StaleNodeIndex
  stats : List NodeStats
  rootHashes : List Digest

/-- src/tree_cache.rs:105-112. -/
def Frozen.empty : Frozen := ⟨⟨[], []⟩, [], [], []⟩

/-- src/tree_cache.rs:116-147 `TreeCache`.  `HashMap`s are association lists with unique keys,
the `HashSet` a duplicate-free list. -/
structure TreeCache where
  rootNodeKey : NodeKey
  nextVersion : Version
  nodeCache : AMap NodeKey Node
  valueCache : AMap (Version × KeyHash) (Option Value)
  numNewLeaves : Nat
  stale : List NodeKey
  numStaleLeaves : Nat
  frozen : Frozen
  reader : Reader

namespace TreeCache

/-- src/tree_cache.rs:154-190 `TreeCache::new`. -/
def new (R : Reader) (nextVersion : Version) : Except Err TreeCache := do
  if nextVersion = 0 then
    let pre ← R.getNodeOption (NodeKey.root preGenesisVersion)
    match pre with
    | some _ =>
      .ok ⟨NodeKey.root preGenesisVersion, nextVersion, [], [], 0, [], 0, Frozen.empty, R⟩
    | none =>
      .ok ⟨NodeKey.root 0, nextVersion, AMap.insert [] (NodeKey.root 0) .null, [], 0, [], 0,
        Frozen.empty, R⟩
  else
    .ok ⟨NodeKey.root (nextVersion - 1), nextVersion, [], [], 0, [], 0, Frozen.empty, R⟩

/-- src/tree_cache.rs:198-221 `new_overwrite` (feature `migration`). -/
def newOverwrite (R : Reader) (current : Version) : Except Err TreeCache := do
  let rl ← R.getRightmostLeaf
  match rl with
  | none => .error (.bail "creating an overwrite cache for an empty tree is not supported")
  | some (nk, _) =>
    if nk.version = current then
      .ok ⟨NodeKey.root current, current, [], [], 0, [], 0, Frozen.empty, R⟩
    else .error (.bail "the supplied version is not the latest version of the tree")

/-- What lies under the mutable cache: the frozen part, then the reader
(src/tree_cache.rs:227-231, 239-243). -/
def base (tc : TreeCache) (k : NodeKey) : Except Err (Option Node) :=
  match tc.frozen.nodeBatch.nodes.get? k with
  | some n => .ok (some n)
  | none => tc.reader.getNodeOption k

/-- src/tree_cache.rs:236-244 `get_node_option`. -/
def getNodeOption (tc : TreeCache) (k : NodeKey) : Except Err (Option Node) :=
  match tc.nodeCache.get? k with
  | some n => .ok (some n)
  | none => tc.base k

/-- src/tree_cache.rs:224-232 `get_node`. -/
def getNode (tc : TreeCache) (k : NodeKey) : Except Err Node :=
  match tc.getNodeOption k with
  | .error e => .error e
  | .ok none => .error (.missingNode k)
  | .ok (some n) => .ok n

/-- src/tree_cache.rs:252-254 `set_root_node_key`. -/
def setRootNodeKey (tc : TreeCache) (k : NodeKey) : TreeCache := { tc with rootNodeKey := k }

/-- src/tree_cache.rs:257-268 `put_node`. -/
def putNode (tc : TreeCache) (k : NodeKey) (n : Node) : Except Err TreeCache :=
  match tc.nodeCache.get? k with
  | some _ => .error (.bail "Node with key already exists in NodeBatch")
  | none => .ok { tc with
      nodeCache := tc.nodeCache.insert k n
      numNewLeaves := if n.isLeaf then tc.numNewLeaves + 1 else tc.numNewLeaves }

/-- src/tree_cache.rs:270-272 `put_value`. -/
def putValue (tc : TreeCache) (v : Version) (k : KeyHash) (x : Option Value) : TreeCache :=
  { tc with valueCache := tc.valueCache.insert (v, k) x }

/-- src/tree_cache.rs:275-287 `delete_node`, with its assert and the checked `-= 1`. -/
def deleteNode (tc : TreeCache) (k : NodeKey) (isLeaf : Bool) : Except Err TreeCache :=
  match tc.nodeCache.get? k with
  | none =>
    if k ∈ tc.stale then .error (.panic "Node gets stale twice unexpectedly.")
    else .ok { tc with
      stale := k :: tc.stale
      numStaleLeaves := if isLeaf then tc.numStaleLeaves + 1 else tc.numStaleLeaves }
  | some _ =>
    if isLeaf && tc.numNewLeaves == 0 then .error (.panic "num_new_leaves underflow")
    else .ok { tc with
      nodeCache := tc.nodeCache.erase k
      numNewLeaves := if isLeaf then tc.numNewLeaves - 1 else tc.numNewLeaves }

/-- src/tree_cache.rs:293-303: the root node at freeze time; a missing root is replaced by a null
node. -/
def freezeRoot (tc : TreeCache) : Except Err (Node × TreeCache) := do
  match ← tc.getNodeOption tc.rootNodeKey with
  | some n => .ok (n, tc)
  | none =>
    let tc ← tc.putNode tc.rootNodeKey .null
    .ok (.null, tc)

/-- src/tree_cache.rs:312-324: if nothing changed, copy the root node to the next version. -/
def freezeCopy (tc : TreeCache) : Except Err TreeCache := do
  if tc.nextVersion > 0 ∧ tc.nodeCache = [] ∧ tc.stale = [] then
    let n ← tc.getNode tc.rootNodeKey
    tc.putNode (tc.rootNodeKey.setVersion tc.nextVersion) n
  else .ok tc

/-- src/tree_cache.rs:326-357: drain the mutable part into the frozen part.  `next_version += 1`
is the checked u64 addition (a panic in debug builds). -/
def freezeDrain (tc : TreeCache) : Except Err TreeCache :=
  if tc.nextVersion + 1 < u64Size then
    .ok { tc with
      frozen :=
        { nodeBatch :=
            { nodes := tc.frozen.nodeBatch.nodes.extend tc.nodeCache
              values := tc.frozen.nodeBatch.values.extend tc.valueCache }
          stale := tc.frozen.stale ++ (tc.stale.map (fun k => ⟨tc.nextVersion, k⟩)).filter
            (fun i => decide (i ∉ tc.frozen.stale))
          stats := tc.frozen.stats ++
            [⟨tc.nodeCache.length, tc.numNewLeaves, tc.stale.length, tc.numStaleLeaves⟩]
          rootHashes := tc.frozen.rootHashes }
      nodeCache := []
      valueCache := []
      stale := []
      numStaleLeaves := 0
      numNewLeaves := 0
      nextVersion := tc.nextVersion + 1 }
  else .error (.panic "next_version overflow")

/-- src/tree_cache.rs:290-357 `freeze`. -/
def freeze (H : Hasher) (tc : TreeCache) : Except Err TreeCache := do
  let (n, tc) ← tc.freezeRoot
  let h ← n.hash H
  let tc := { tc with frozen := { tc.frozen with rootHashes := tc.frozen.rootHashes ++ [h] } }
  let tc ← tc.freezeCopy
  tc.freezeDrain

/-- src/tree_cache.rs:391-406 `From<TreeCache> for (Vec<RootHash>, TreeUpdateBatch)`. -/
def finish (tc : TreeCache) : List Digest × TreeUpdateBatch :=
  (tc.frozen.rootHashes, ⟨tc.frozen.nodeBatch, tc.frozen.stale, tc.frozen.stats⟩)

end TreeCache
end Jmt
