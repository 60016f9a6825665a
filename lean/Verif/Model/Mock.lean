import Verif.Model.Tree
/-!
# Model of src/mock.rs: `MockTreeStore`

The `RwLock` is not modelled: every method takes the lock for its whole duration, so each is one
atomic step here.  Hash maps and B-tree sets are association lists / duplicate-free lists; where
Rust iterates in B-tree order and the order matters (values), the model sorts.
-/
namespace Jmt

/-- src/mock.rs:25-30 `MockTreeStoreInner` and src/mock.rs:37-40 `MockTreeStore`. -/
structure Store where
  nodes : AMap NodeKey Node
  stale : List StaleNodeIndex
  values : AMap KeyHash (List (Version × Option Value))
  preimages : AMap KeyHash (List UInt8)
  allowOverwrite : Bool

namespace Store

/-- src/mock.rs:148-153 `MockTreeStore::new`. -/
def new (allowOverwrite : Bool) : Store := ⟨[], [], [], [], allowOverwrite⟩

/-- src/mock.rs:120-145 `put_value`. -/
def putValue (vh : AMap KeyHash (List (Version × Option Value))) (version : Version) (key : KeyHash)
    (value : Option Value) : Except Err (AMap KeyHash (List (Version × Option Value))) :=
  match vh.get? key with
  | some hist =>
    match hist.getLast? with
    | some (last, _) =>
      if version < last then .error (.bail "values must be pushed in order")
      else if version = last then .ok (vh.insert key (hist.dropLast ++ [(version, value)]))
      else .ok (vh.insert key (hist ++ [(version, value)]))
    | none => .ok (vh.insert key (hist ++ [(version, value)]))
  | none => .ok (vh.insert key [(version, value)])

/-- src/mock.rs:73-89 `get_value_option`. -/
def getValueOption (s : Store) (maxVersion : Version) (key : KeyHash) : Option Value :=
  match s.values.get? key with
  | some hist =>
    match hist.reverse.find? (fun e => decide (e.1 ≤ maxVersion)) with
    | some e => e.2
    | none => none
  | none => none

/-- src/mock.rs:56-71 `get_rightmost_leaf`, in the (unspecified) iteration order of the map. -/
def getRightmostLeaf (s : Store) : Option (NodeKey × LeafNode) :=
  s.nodes.foldl (fun acc e =>
    match e.2 with
    | .leaf l =>
      match acc with
      | none => some (e.1, l)
      | some (_, best) => if best.keyHash.val < l.keyHash.val then some (e.1, l) else acc
    | _ => acc) none

/-- src/mock.rs:51-90 `impl TreeReader for MockTreeStore`. -/
def reader (s : Store) : Reader where
  getNodeOption k := .ok (s.nodes.get? k)
  getValueOption v k := .ok (s.getValueOption v k)
  getRightmostLeaf := .ok s.getRightmostLeaf

/-- src/mock.rs:100-106: the loop inserting nodes. -/
def insertNodes (allowOverwrite : Bool) :
    List (NodeKey × Node) → AMap NodeKey Node → Except Err (AMap NodeKey Node)
  | [], m => .ok m
  | (k, n) :: rest, m =>
    if !allowOverwrite && (m.get? k).isSome then .error (.panic "assert_eq!(replaced, None)")
    else insertNodes allowOverwrite rest (m.insert k n)

/-- B-tree order on `(Version, KeyHash)`, the key of `NodeBatch::values`
(src/writer.rs:25-28). -/
def valueKeyLe (a b : (Version × KeyHash) × Option Value) : Bool :=
  decide (a.1.1 < b.1.1) || (decide (a.1.1 = b.1.1) && decide (a.1.2.val ≤ b.1.2.val))

/-- src/mock.rs:107-114: the loop inserting values. -/
def insertValues :
    List ((Version × KeyHash) × Option Value) → AMap KeyHash (List (Version × Option Value)) →
    Except Err (AMap KeyHash (List (Version × Option Value)))
  | [], vh => .ok vh
  | ((v, k), x) :: rest, vh => do
    let vh ← putValue vh v k x
    insertValues rest vh

/-- src/mock.rs:99-116 `write_node_batch`; values are visited in B-tree order. -/
def writeNodeBatch (s : Store) (b : NodeBatch) : Except Err Store := do
  let nodes ← insertNodes s.allowOverwrite b.nodes s.nodes
  let values ← insertValues (b.values.mergeSort valueKeyLe) s.values
  .ok { s with nodes := nodes, values := values }

/-- src/mock.rs:176-180 `put_stale_node_index`, folded over the batch (src/mock.rs:184-188). -/
def insertStale : List StaleNodeIndex → List StaleNodeIndex → Except Err (List StaleNodeIndex)
  | [], st => .ok st
  | i :: rest, st =>
    if i ∈ st then .error (.bail "Duplicated retire log.") else insertStale rest (st ++ [i])

/-- src/mock.rs:182-190 `write_tree_update_batch`. -/
def writeTreeUpdateBatch (s : Store) (b : TreeUpdateBatch) : Except Err Store := do
  let s ← s.writeNodeBatch b.nodeBatch
  let stale ← insertStale b.staleNodeIndexBatch s.stale
  .ok { s with stale := stale }

/-- src/mock.rs:204-208: the pruning loop. -/
def purgeLoop : List StaleNodeIndex → Store → Except Err Store
  | [], s => .ok s
  | i :: rest, s =>
    match s.nodes.get? i.nodeKey with
    | none => .error (.bail "Stale node index refers to non-existent node.")
    | some _ =>
      purgeLoop rest { s with
        nodes := s.nodes.erase i.nodeKey
        stale := s.stale.filter (fun j => decide (j ≠ i)) }

/-- src/mock.rs:192-211 `purge_stale_nodes`.  The B-tree set is ordered by `stale_since_version`
first (src/writer.rs:105-111), so `take_while` selects all entries up to that version. -/
def purgeStaleNodes (s : Store) (leastReadable : Version) : Except Err Store :=
  purgeLoop (s.stale.filter (fun i => decide (i.staleSince ≤ leastReadable))) s

/-- src/mock.rs:213-215 `num_nodes`. -/
def numNodes (s : Store) : Nat := s.nodes.length

/-- src/mock.rs:156-167 `put_leaf`. -/
def putLeaf (s : Store) (k : NodeKey) (l : LeafNode) (value : Value) : Except Err Store :=
  match s.nodes.get? k with
  | some _ => .error (.bail "Key exists.")
  | none => do
    let values ← putValue s.values k.version l.keyHash (some value)
    .ok { s with nodes := s.nodes.insert k (.leaf l), values := values }

/-- src/mock.rs:169-174 `put_key_preimage`. -/
def putKeyPreimage (s : Store) (k : KeyHash) (pre : List UInt8) : Store :=
  { s with preimages := s.preimages.insert k pre }

/-- src/mock.rs:92-96 `preimage`. -/
def preimage (s : Store) (k : KeyHash) : Option (List UInt8) := s.preimages.get? k

end Store
end Jmt
