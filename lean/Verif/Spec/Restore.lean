import Verif.Spec.Range
/-!
# Specification vocabulary for restoring a snapshot: the strings hashed by the receiver
-/
namespace Jmt.Spec
open Jmt

/-- The strings hashed for the complete subtrees to the left of the path of `k`. -/
def leftStrings (H : Hasher) (es : List Entry) (k : KeyHash) : List Preimage :=
  ((List.range 256).filter (fun d => bit k d)).flatMap
    (fun d => subtreeStrings H (256 - (d + 1)) (d + 1) (leftEntries es k d))

/-- All strings that may be hashed to check a range proof against the entries `es` received so far, the last of which is `leaf`:
those of the subtrees on the left, and for each possible depth of the leaf those on its path. -/
def checkStrings (H : Hasher) (es : List Entry) (leaf : Entry) (rights : List SMNode) : List Preimage :=
  leftStrings H es leaf.1 ++
    (List.range 257).flatMap (fun n => rangeStrings H rights leaf (leftHashes H es leaf.1 n))

/-- The pairs of a chunk up to the first one that is not above its predecessor. -/
def ascending : Option KeyHash → List (KeyHash × Value) → List (KeyHash × Value)
  | _, [] => []
  | last, (k, x) :: rest =>
    if ∀ l, last = some l → l.val < k.val then (k, x) :: ascending (some k) rest else []

end Jmt.Spec
