import Verif.Model.Mock
/-!
# Model of src/mock.rs: what a failing call leaves in the `MockTreeStore`

`Store.writeTreeUpdateBatch` and `Store.purgeStaleNodes` return the new store, or only the error.  In the program the store is
changed in place, one entry at a time, so a call that fails has changed it already; the lock (`parking_lot::RwLock`,
src/mock.rs:7) is not poisoned by a panic, so other threads - or the caller, after catching the panic - go on with what is left.
Here the same loops return the store they leave, and the error if there is one.  Iteration is in B-tree order.
-/
namespace Jmt
namespace Store

/-- B-tree order on `NodeKey` (src/node_type.rs:37-57: version, then path; src/types/nibble/nibble_path.rs:19-41: number of
nibbles, then bytes - for paths of the same length, the same as comparing nibble by nibble). -/
def nodeKeyLe (a b : NodeKey × Node) : Bool :=
  decide (a.1.version < b.1.version) || (decide (a.1.version = b.1.version) &&
    (decide (a.1.path.length < b.1.path.length) || (decide (a.1.path.length = b.1.path.length) &&
      decide (a.1.path.map (·.val) ≤ b.1.path.map (·.val)))))

/-- B-tree order on `StaleNodeIndex` (src/writer.rs:105-111). -/
def staleLe (a b : StaleNodeIndex) : Bool :=
  decide (a.staleSince < b.staleSince) || (decide (a.staleSince = b.staleSince) &&
    nodeKeyLe (a.nodeKey, .null) (b.nodeKey, .null))

/-- src/mock.rs:101-106: the loop inserting nodes. The node is inserted before the assertion. -/
def insertNodesUntil (allowOverwrite : Bool) : List (NodeKey × Node) → AMap NodeKey Node → AMap NodeKey Node × Option Err
  | [], m => (m, none)
  | (k, n) :: rest, m =>
    if !allowOverwrite && (m.get? k).isSome then (m.insert k n, some (.panic "assert_eq!(replaced, None)"))
    else insertNodesUntil allowOverwrite rest (m.insert k n)

/-- src/mock.rs:107-114: the loop inserting values. `put_value` (src/mock.rs:120-145) changes nothing when it fails. -/
def insertValuesUntil : List ((Version × KeyHash) × Option Value) → AMap KeyHash (List (Version × Option Value)) →
    AMap KeyHash (List (Version × Option Value)) × Option Err
  | [], vh => (vh, none)
  | ((v, k), x) :: rest, vh =>
    match putValue vh v k x with
    | .ok vh => insertValuesUntil rest vh
    | .error e => (vh, some e)

/-- src/mock.rs:176-180 `put_stale_node_index`, folded over the batch (src/mock.rs:184-188): `collect` stops at the first
error. -/
def insertStaleUntil : List StaleNodeIndex → List StaleNodeIndex → List StaleNodeIndex × Option Err
  | [], st => (st, none)
  | i :: rest, st => if i ∈ st then (st, some (.bail "Duplicated retire log.")) else insertStaleUntil rest (st ++ [i])

/-- src/mock.rs:182-190 `write_tree_update_batch` with src/mock.rs:99-116 `write_node_batch`. -/
def writeUntil (s : Store) (b : TreeUpdateBatch) : Store × Option Err :=
  match insertNodesUntil s.allowOverwrite (b.nodeBatch.nodes.mergeSort nodeKeyLe) s.nodes with
  | (nodes, some e) => ({ s with nodes := nodes }, some e)
  | (nodes, none) =>
    match insertValuesUntil (b.nodeBatch.values.mergeSort valueKeyLe) s.values with
    | (values, some e) => ({ s with nodes := nodes, values := values }, some e)
    | (values, none) =>
      match insertStaleUntil (b.staleNodeIndexBatch.mergeSort staleLe) s.stale with
      | (stale, e) => ({ s with nodes := nodes, values := values, stale := stale }, e)

/-- src/mock.rs:204-208: the pruning loop. -/
def purgeLoopUntil : List StaleNodeIndex → Store → Store × Option Err
  | [], s => (s, none)
  | i :: rest, s =>
    match s.nodes.get? i.nodeKey with
    | none => (s, some (.bail "Stale node index refers to non-existent node."))
    | some _ =>
      purgeLoopUntil rest { s with
        nodes := s.nodes.erase i.nodeKey
        stale := s.stale.filter (fun j => decide (j ≠ i)) }

/-- src/mock.rs:192-211 `purge_stale_nodes`. -/
def purgeUntil (s : Store) (leastReadable : Version) : Store × Option Err :=
  purgeLoopUntil ((s.stale.filter (fun i => decide (i.staleSince ≤ leastReadable))).mergeSort staleLe) s

end Store
end Jmt
