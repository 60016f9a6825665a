import Verif.Spec.RestoreRun
/-!
# Specification vocabulary: a restoration whose process may end inside `write_node_batch`

`TreeWriter::write_node_batch` (src/writer.rs:15-20) is not required to be atomic: `add_chunk` (src/restore.rs:291-319) may end after some of the
nodes and values of the batch have reached the database.
-/
namespace Jmt
namespace Spec

/-- The batch `add_chunk` hands to `write_node_batch` when it gets that far (src/restore.rs:298-316). -/
def chunkBatch (H : Hasher) (checked : Bool) (r : Restore) (chunk : List (KeyHash × Value)) (proof : RangeProof) : Except Err NodeBatch :=
  match Restore.addKeys H chunk r with
  | (_, .error e) => .error e
  | (r', .ok ()) => do
    r'.verify H checked proof
    .ok r'.frozenNodes

/-- A part of a batch. -/
def PartOf (part batch : NodeBatch) : Prop :=
  AMap.NodupKeys part.nodes ∧ AMap.NodupKeys part.values ∧ (∀ e ∈ part.nodes, e ∈ batch.nodes) ∧ ∀ e ∈ part.values, e ∈ batch.values

/-- The node at path `q` comes before the one at `p` in the tree read from left to right, children before their parent. -/
def Before (q p : List Nibble) : Prop := p <+: q ∨ ∃ c i j, i < j ∧ c ++ [i] <+: q ∧ c ++ [j] <+: p

/-- The database stores the values of a batch before its nodes, and the nodes from left to right, children before their parent: what it may hold
when it is stopped in between. -/
def LeftToRight (batch part : NodeBatch) : Prop :=
  (part.nodes = [] ∨ ∀ e ∈ batch.values, e ∈ part.values) ∧
  ∀ a ∈ part.nodes, ∀ b ∈ batch.nodes, Before b.1.path a.1.path → b ∈ part.nodes

/-- What `MockTreeStore` (src/mock.rs:99-118) may hold when it is stopped in between: it stores the nodes first, in the order of their keys
(src/writer.rs:25-28, src/types/nibble/nibble_path.rs:19-41: shorter paths first), then the values. -/
def NodesFirst (batch part : NodeBatch) : Prop :=
  (part.values = [] ∨ ∀ e ∈ batch.nodes, e ∈ part.nodes) ∧
  ∀ a ∈ part.nodes, ∀ b ∈ batch.nodes,
    (b.1.path.length < a.1.path.length ∨ b.1.path.length = a.1.path.length ∧ b.1.path < a.1.path) → b ∈ part.nodes

/-- Sessions of an honest sender in which the receiving process may also end inside a write: `allowed batch part` says which parts of a batch
the database may then hold.  After each such end the receiver is started again and the sender continues above the rightmost stored leaf. -/
inductive CrashRun (H : Hasher) (checked ow : Bool) (src : Reader) (v : Version) (all : List (KeyHash × Value)) (w : Version) (root : Digest)
    (allowed : NodeBatch → NodeBatch → Prop) : Sess → Prop where
  | start : CrashRun H checked ow src v all w root allowed (Sess.start ow w root)
  | step {z z' : Sess} (ev : SendEvent) : CrashRun H checked ow src v all w root allowed z → z.step H checked src v all w root ev = .ok z' →
      CrashRun H checked ow src v all w root allowed z'
  | cut {z : Sess} {s' : Store} {batch part : NodeBatch} {r : Restore} {k : KeyHash} {x : Value} {P : RangeProof} (n : Nat) :
      CrashRun H checked ow src v all w root allowed z →
      ((Spec.above all z.pos).take (n + 1)).getLast? = some (k, x) → getRangeProof H src k v = .ok P →
      chunkBatch H checked z.receiver ((Spec.above all z.pos).take (n + 1)) P = .ok batch →
      PartOf part batch → allowed batch part → z.store.writeNodeBatch part = .ok s' →
      Restore.new H s'.reader w root = .ok r →
      CrashRun H checked ow src v all w root allowed ⟨r, s', s'.getRightmostLeaf.map (fun l => l.2.keyHash)⟩

end Spec
end Jmt
