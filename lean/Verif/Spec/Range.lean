import Verif.Spec.Hashing
/-!
# Specification vocabulary for range proofs
-/
namespace Jmt.Spec
open Jmt

/-- The entries of the subtree to the left of the path of `k` at depth `d`: the same first `d` bits as
`k`, then a 0. -/
def leftEntries (es : List Entry) (k : KeyHash) (d : Nat) : List Entry :=
  es.filter (fun e => (List.range d).all (fun i => bit e.1 i == bit k i) && bit e.1 d == false)

/-- The canonical hash of that subtree. -/
def leftHash (H : Hasher) (es : List Entry) (k : KeyHash) (d : Nat) : Digest :=
  subtree H (256 - (d + 1)) (d + 1) (leftEntries es k d)

/-- The left siblings of the first `n` steps of the path of `k`, bottom first: one for each 1 bit. -/
def leftHashes (H : Hasher) (es : List Entry) (k : KeyHash) (n : Nat) : List Digest :=
  (((List.range n).filter (fun d => bit k d)).map (leftHash H es k)).reverse

/-- The strings hashed when climbing the bits (bottom first) with left and right siblings. -/
def climbStrings (H : Hasher) : List Bool → List Digest → List SMNode → Digest → List Preimage
  | true :: bits, l :: ls, rs, cur => .internal l cur :: climbStrings H bits ls rs (H.internalHash l cur)
  | false :: bits, ls, r :: rs, cur =>
    .internal cur (r.hash H) :: climbStrings H bits ls rs (H.internalHash cur (r.hash H))
  | _, _, _, _ => []

/-- The strings hashed to check a range proof: the leaf, then one string for each sibling. -/
def rangeStrings (H : Hasher) (rights : List SMNode) (leaf : Entry) (lefts : List Digest) : List Preimage :=
  .leaf leaf.1 leaf.2 ::
    climbStrings H ((List.range (lefts.length + rights.length)).map (bit leaf.1)).reverse lefts rights
      (H.leafHash leaf.1 leaf.2)

end Jmt.Spec
