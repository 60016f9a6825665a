import Verif.Model.Borsh
import Verif.Spec.NibblePath
import Verif.Spec.Backend
/-!
# Specification of a byte-level backend

A real backend keeps bytes: a node is stored under the borsh encoding of its key as the borsh encoding of the node.  Values
are bytes already and are looked up by version and key hash, as the `TreeReader` trait prescribes (src/reader.rs:13-27).
-/
namespace Jmt
open Borsh (nodeKey node PackedKey)

/-- src/node_type.rs:36-57: a node key as the struct that is encoded, its path packed. -/
def NodeKey.packed (k : NodeKey) : PackedKey := ⟨k.version, NibblePath.ofList k.path⟩

/-- Key bytes to node bytes. -/
abbrev ByteDb := List UInt8 → Option (List UInt8)

/-- The reader of a byte-level backend: `get_node_option` encodes the key, looks it up and decodes what it finds. -/
def byteReader (db : ByteDb) (vals : Version → KeyHash → Except Err (Option Value)) : Reader where
  getNodeOption k :=
    match nodeKey.enc k.packed with
    | none => .ok none
    | some kb =>
      match db kb with
      | none => .ok none
      | some nb =>
        match node.fromSlice nb with
        | some n => .ok (some n)
        | none => .error (.io "not a node")
  getValueOption := vals
  getRightmostLeaf := .ok none

/-- The pairs of bytes to be written for a node batch. -/
def Spec.BytesOf (b : NodeBatch) (kb nb : List UInt8) : Prop :=
  ∃ k n, b.nodes.get? k = some n ∧ nodeKey.enc k.packed = some kb ∧ node.enc n = some nb

/-- Any part of the batch has been written. -/
structure Spec.BytesPartlyWritten (b : NodeBatch) (db' db : ByteDb)
    (vals' vals : Version → KeyHash → Except Err (Option Value)) : Prop where
  node : ∀ kb, db' kb = db kb ∨ ∃ nb, Spec.BytesOf b kb nb ∧ db' kb = some nb
  value : ∀ v k, (∀ w x, b.values.get? (w, k) = some x → v < w) → vals' v k = vals v k

/-- The batch has been written, and nothing else. -/
structure Spec.BytesWritten (b : NodeBatch) (db' db : ByteDb)
    (vals' vals : Version → KeyHash → Except Err (Option Value)) : Prop where
  new : ∀ kb nb, Spec.BytesOf b kb nb → db' kb = some nb
  old : ∀ kb, (∀ nb, ¬ Spec.BytesOf b kb nb) → db' kb = db kb
  newValue : ∀ v k w x, b.values.get? (w, k) = some x → w ≤ v →
    (∀ u x', b.values.get? (u, k) = some x' → u ≤ v → u ≤ w) → vals' v k = .ok x
  oldValue : ∀ v k, (∀ w x, b.values.get? (w, k) = some x → v < w) → vals' v k = vals v k

/-- `ByteRun H ops db vals n st`: a client that started on an empty byte-level backend and performed `ops`, all through the
bytes, has now `db` and `vals`; `n` is the next version and `st` are the stale-node indices written so far.  As in
`BackendRun` writes may be interrupted and repeated, and pruning may do anything to the entries it may delete. -/
inductive ByteRun (H : Hasher) : List Op → ByteDb → (Version → KeyHash → Except Err (Option Value)) → Version →
    List StaleNodeIndex → Prop
  | start : ByteRun H [] (fun _ => none) (fun _ _ => .ok none) 0 []
  | commit {ops db vals n st} {sets : List ValueSet} {hs b db1 vals1 db' vals'} (h : ByteRun H ops db vals n st)
      (hput : putValueSets H (byteReader db vals) sets n = .ok (hs, b))
      (hpart : Spec.BytesPartlyWritten b.nodeBatch db1 db vals1 vals)
      (hwrite : Spec.BytesWritten b.nodeBatch db' db1 vals' vals1) :
      ByteRun H (ops ++ [.commit sets]) db' vals' (n + sets.length) (st ++ b.staleNodeIndexBatch)
  | batch {ops db vals n st} {sets : List (List (KeyHash × Value))} {hs b db1 vals1 db' vals'}
      (h : ByteRun H ops db vals n st)
      (hput : batchPutValueSets H (byteReader db vals) sets none n = .ok (hs, b))
      (hpart : Spec.BytesPartlyWritten b.nodeBatch db1 db vals1 vals)
      (hwrite : Spec.BytesWritten b.nodeBatch db' db1 vals' vals1) :
      ByteRun H (ops ++ [.batch sets]) db' vals' (n + sets.length) (st ++ b.staleNodeIndexBatch)
  | purge {ops db vals n st} {r : Version} {db'} (h : ByteRun H ops db vals n st)
      (hp : ∀ kb, (∀ x ∈ st, nodeKey.enc x.nodeKey.packed = some kb → r < x.staleSince) → db' kb = db kb) :
      ByteRun H (ops ++ [.purge r]) db' vals n st

/-- The number of single writes of a history. -/
def numWrites (ops : List Op) : Nat := ((setsOf ops).map List.length).sum

end Jmt
