import Verif.Model.RestoreBackend
import Verif.Spec.RestoreRun
import Verif.Spec.Crash
/-!
# Restoring into any storage backend, whose writes may fail
-/
namespace Jmt

/-- What a backend promises about `get_rightmost_leaf` (src/reader.rs:41): it finds a leaf node with the greatest key among the leaf nodes
it holds; nothing, if there are none. -/
def Spec.FindsRightmostLeaf (R : Reader) : Prop :=
  (R.getRightmostLeaf = .ok none ∧ ∀ k l, R.getNodeOption k ≠ .ok (some (.leaf l))) ∨
  ∃ k l, R.getRightmostLeaf = .ok (some (k, l)) ∧ R.getNodeOption k = .ok (some (.leaf l)) ∧
    ∀ k' l', R.getNodeOption k' = .ok (some (.leaf l')) → ¬ l.keyHash.val < l'.keyHash.val

/-- The backend holds nothing. -/
structure Spec.Vacant (R : Reader) : Prop where
  node : ∀ k, R.getNodeOption k = .ok none
  value : ∀ v k, R.getValueOption v k = .ok none
  rightmost : Spec.FindsRightmostLeaf R

/-- A restoration into some backend by an honest sender; the pairs `all` of version `v` of `src` go to version `w`.  `RestoreOn … r R pos whole`:
the receiver is `r`, the backend shows `R`, the keys up to `pos` have been sent, and `whole` says that the backend holds exactly the
batches that were written completely. -/
inductive RestoreOn (H : Hasher) (checked : Bool) (src : Reader) (v : Version) (all : List (KeyHash × Value)) (w : Version) (root : Digest) :
    Restore → Reader → Option KeyHash → Bool → Prop where
  /-- `JellyfishMerkleRestore::new` on a backend that holds nothing. -/
  | start {R : Reader} {r : Restore} : Spec.Vacant R → Restore.new H R w root = .ok r →
      RestoreOn H checked src v all w root r R none true
  /-- The process ends and `JellyfishMerkleRestore::new` is called again; the sender continues above the rightmost leaf. -/
  | restart {r r' : Restore} {R : Reader} {pos : Option KeyHash} {l : Option (NodeKey × LeafNode)} :
      RestoreOn H checked src v all w root r R pos true → Spec.FindsRightmostLeaf R →
      Restore.new H R w root = .ok r' → R.getRightmostLeaf = .ok l →
      RestoreOn H checked src v all w root r' R (l.map (fun a => a.2.keyHash)) true
  /-- The next `n + 1` pairs with the range proof of the last of them; the backend writes the batch. -/
  | chunk {r r' : Restore} {R R' : Reader} {pos : Option KeyHash} {whole : Bool} {n : Nat} {k : KeyHash} {x : Value} {P : RangeProof}
      {b : NodeBatch} :
      RestoreOn H checked src v all w root r R pos whole →
      ((Spec.above all pos).take (n + 1)).getLast? = some (k, x) → getRangeProof H src k v = .ok P →
      r.prepare H checked ((Spec.above all pos).take (n + 1)) P = (r', .ok b) → Spec.Written b R' R →
      RestoreOn H checked src v all w root r'.cleared R' (some k) true
  /-- The same, but the write fails: the backend holds any part of the batch, `add_chunk` returns the error and the receiver lives on.  The sender
  goes on with the *next* pairs. -/
  | failed {r r' : Restore} {R R' : Reader} {pos : Option KeyHash} {whole whole' : Bool} {n : Nat} {k : KeyHash} {x : Value} {P : RangeProof}
      {b : NodeBatch} :
      RestoreOn H checked src v all w root r R pos whole →
      ((Spec.above all pos).take (n + 1)).getLast? = some (k, x) → getRangeProof H src k v = .ok P →
      r.prepare H checked ((Spec.above all pos).take (n + 1)) P = (r', .ok b) → Spec.PartlyWritten b R' R →
      (whole' = true → whole = true ∧ R' = R) →
      RestoreOn H checked src v all w root r' R' (some k) whole'

end Jmt
