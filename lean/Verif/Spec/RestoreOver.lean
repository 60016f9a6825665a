import Verif.Spec.RestoreBackend
import Verif.Spec.Queries
/-!
# Restoring into a store that holds something already
-/
namespace Jmt

/-- A restoration with `JellyfishMerkleRestore::new_overwrite` into a backend that shows `R0` at first, which may hold anything: other versions, or what
earlier attempts at restoring the same version left.  The honest sender's pairs `all` of version `v` of `src` go to version `w`.
`RestoreOver … r R pos`: the receiver is `r`, the backend shows `R`, the keys up to `pos` have been sent in the present attempt. -/
inductive RestoreOver (H : Hasher) (checked : Bool) (src : Reader) (v : Version) (all : List (KeyHash × Value)) (w : Version) (root : Digest)
    (R0 : Reader) : Restore → Reader → Option KeyHash → Prop where
  | start : RestoreOver H checked src v all w root R0 (Restore.newOverwrite w root) R0 none
  /-- The next `n + 1` pairs with the range proof of the last of them; the backend writes the batch. -/
  | chunk {r r' : Restore} {R R' : Reader} {pos : Option KeyHash} {n : Nat} {k : KeyHash} {x : Value} {P : RangeProof} {b : NodeBatch} :
      RestoreOver H checked src v all w root R0 r R pos →
      ((Spec.above all pos).take (n + 1)).getLast? = some (k, x) → getRangeProof H src k v = .ok P →
      r.prepare H checked ((Spec.above all pos).take (n + 1)) P = (r', .ok b) → Spec.Written b R' R →
      RestoreOver H checked src v all w root R0 r'.cleared R' (some k)
  /-- The same, but the write fails and leaves any part of the batch in the backend; the receiver lives on, and the sender goes on with the next pairs. -/
  | failed {r r' : Restore} {R R' : Reader} {pos : Option KeyHash} {n : Nat} {k : KeyHash} {x : Value} {P : RangeProof} {b : NodeBatch} :
      RestoreOver H checked src v all w root R0 r R pos →
      ((Spec.above all pos).take (n + 1)).getLast? = some (k, x) → getRangeProof H src k v = .ok P →
      r.prepare H checked ((Spec.above all pos).take (n + 1)) P = (r', .ok b) → Spec.PartlyWritten b R' R →
      RestoreOver H checked src v all w root R0 r' R' (some k)
  /-- The receiver is lost (the process ends, perhaps in the middle of a write: take `failed` before), and another attempt is made from the beginning. -/
  | again {r : Restore} {R : Reader} {pos : Option KeyHash} : RestoreOver H checked src v all w root R0 r R pos →
      RestoreOver H checked src v all w root R0 (Restore.newOverwrite w root) R none

end Jmt

namespace Jmt

/-- A node works on, writing only: from the backend `R` whose next version is `n`, the lists of value sets `css` are committed one after the other with
`put_value_sets` and written.  `WorksOn H R n css R' n'`: after that the backend shows `R'` and the next version is `n'`. -/
inductive WorksOn (H : Hasher) (R : Reader) (n : Version) : List (List ValueSet) → Reader → Version → Prop where
  | start : WorksOn H R n [] R n
  | commit {css : List (List ValueSet)} {R1 R2 : Reader} {n1 : Version} {sets : List ValueSet} {hs : List Digest} {b : TreeUpdateBatch} :
      WorksOn H R n css R1 n1 → putValueSets H R1 sets n1 = .ok (hs, b) → Spec.Written b.nodeBatch R2 R1 →
      WorksOn H R n (css ++ [sets]) R2 (n1 + sets.length)

end Jmt
