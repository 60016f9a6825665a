import Verif.Model.TreeCache
/-!
# Node batches (src/writer.rs)
-/
namespace Jmt.NodeBatch

/-- src/writer.rs:71-78 `extend`. -/
def extend (b : NodeBatch) (nodes : AMap NodeKey Node) (values : AMap (Version × KeyHash) (Option Value)) : NodeBatch :=
  { nodes := b.nodes.extend nodes, values := b.values.extend values }

/-- src/writer.rs:81-83 `merge`. -/
def merge (b rhs : NodeBatch) : NodeBatch := b.extend rhs.nodes rhs.values

/-- src/writer.rs:40-43 `clear`. -/
def clear (_ : NodeBatch) : NodeBatch := { nodes := [], values := [] }

/-- src/writer.rs:86-88 `is_empty`. -/
def isEmpty (b : NodeBatch) : Bool := b.nodes.isEmpty && b.values.isEmpty

/-- src/writer.rs:46-48 `get_node`. -/
def getNode (b : NodeBatch) (k : NodeKey) : Option Node := b.nodes.get? k

/-- src/writer.rs:56-58 `insert_node`: the previous node under the key is returned. -/
def insertNode (b : NodeBatch) (k : NodeKey) (n : Node) : NodeBatch × Option Node :=
  ({ b with nodes := b.nodes.insert k n }, b.nodes.get? k)

/-- src/writer.rs:61-63 `insert_value`. -/
def insertValue (b : NodeBatch) (v : Version) (k : KeyHash) (x : Value) : NodeBatch :=
  { b with values := b.values.insert (v, k) (some x) }

end Jmt.NodeBatch
