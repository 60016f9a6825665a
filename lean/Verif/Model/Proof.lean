import Verif.Model.Bytes
import Verif.Model.Tree
/-!
# Model of src/types/proof/definition.rs: verification of proofs and of updates

`usize` subtraction is explicit: `checked = true` is a build with overflow checks (debug), where an
underflow panics; `checked = false` wraps (release).
-/
namespace Jmt

/-- `a - b` on `usize`. -/
def usub (checked : Bool) (a b : Nat) : Except Err Nat :=
  if b ≤ a then .ok (a - b)
  else if checked then .error (.panic "attempt to subtract with overflow")
  else .ok (a + u64Size - b)

/-- `a + b` on `usize`. -/
def uadd (checked : Bool) (a b : Nat) : Except Err Nat :=
  if a + b < u64Size then .ok (a + b)
  else if checked then .error (.panic "attempt to add with overflow")
  else .ok ((a + b) % u64Size)

namespace SMProof

/-- The hash a proof starts from (src/types/proof/definition.rs:181-184). -/
def leafHash (H : Hasher) : Option (KeyHash × ValueHash) → Digest
  | none => placeholder
  | some l => H.leafHash l.1 l.2

/-- One step of the fold (src/types/proof/definition.rs:195-201). -/
def foldStep (H : Hasher) (hash : Digest) (p : SMNode × Bool) : Digest :=
  if p.2 then H.internalHash (p.1.hash H) hash else H.internalHash hash (p.1.hash H)

/-- `siblings.iter().zip(key.iter_bits().rev().skip(skip)).fold(..)`
(src/types/proof/definition.rs:185-201). -/
def foldSiblings (H : Hasher) (start : Digest) (siblings : List SMNode) (key : KeyHash) (skip : Nat) :
    Digest :=
  (siblings.zip ((Bytes32.iterBits key).reverse.drop skip)).foldl (foldStep H) start

/-- The checks on key and leaf (src/types/proof/definition.rs:138-179). -/
def checkLeaf (H : Hasher) (P : SMProof) (key : KeyHash) (value : Option Value) : Except Err Unit :=
  match value, P.leaf with
  | some v, some leaf =>
    if key ≠ leaf.1 then .error (.bail "Keys do not match.")
    else if H.hash v ≠ leaf.2 then .error (.bail "Value hashes do not match.")
    else .ok ()
  | some _, none => .error (.bail "Expected inclusion proof. Found non-inclusion proof.")
  | none, some leaf =>
    if key = leaf.1 then .error (.bail "Expected non-inclusion proof, but key exists in proof.")
    else if Bytes32.commonPrefixBitsLen key leaf.1 < P.siblings.length then
      .error (.bail "Key would not have ended up in the subtree")
    else .ok ()
  | none, none => .ok ()

/-- src/types/proof/definition.rs:125-212 `verify`. -/
def verify (H : Hasher) (P : SMProof) (expectedRoot : Digest) (key : KeyHash) (value : Option Value) :
    Except Err Unit := do
  if P.siblings.length > 256 then .error (.bail "more than 256 siblings")
  else
  checkLeaf H P key value
  if foldSiblings H (leafHash H P.leaf) P.siblings key (256 - P.siblings.length) ≠ expectedRoot then
    .error (.bail "Root hashes do not match.")
  else .ok ()

/-- src/types/proof/definition.rs:102-109 `verify_existence`. -/
def verifyExistence (H : Hasher) (P : SMProof) (root : Digest) (key : KeyHash) (value : Value) :
    Except Err Unit := verify H P root key (some value)

/-- src/types/proof/definition.rs:113-119 `verify_nonexistence`. -/
def verifyNonexistence (H : Hasher) (P : SMProof) (root : Digest) (key : KeyHash) : Except Err Unit :=
  verify H P root key none

/-- src/types/proof/definition.rs:485-510 `root_hash`. -/
def rootHash (H : Hasher) (checked : Bool) (P : SMProof) : Except Err Digest :=
  match P.leaf with
  | none => .error (.panic "need leaf hash for root_hash")
  | some leaf => do
    let skip ← usub checked 256 P.siblings.length
    .ok (foldSiblings H (leafHash H P.leaf) P.siblings leaf.1 skip)

/-- `Vec::resize` / `Vec::with_capacity`: more than `isize::MAX` bytes panics (a `SparseMerkleNode` is
65 bytes). -/
def maxVec : Nat := 2 ^ 57

/-- src/types/proof/definition.rs:258-262: the loop counting common bits; it does not terminate when
the two iterators end together. -/
def commonBits : List Bool → List Bool → Except Err Nat
  | a :: as, b :: bs => if a = b then do
      let n ← commonBits as bs
      .ok (n + 1)
    else .ok 0
  | [], [] => .error (.panic "does not terminate")
  | _, _ => .ok 0

/-- src/types/proof/definition.rs:232-278: the number of default siblings. -/
def numDefaultSiblings (checked : Bool) (oldKey newKey : KeyHash) (numSiblings : Nat) : Except Err Nat := do
  let s := skipCommonPrefix newKey.nibbles oldKey.nibbles
  let d ← usub checked (4 * (s.1 + 1)) numSiblings
  let toPath := (d / 4) * 4
  let leafNibble ← commonBits (s.2.1.flatMap Nibble.bits) (s.2.2.flatMap Nibble.bits)
  let prevRoot := (4 - numSiblings % 4) % 4
  let a ← uadd checked prevRoot toPath
  let b ← uadd checked a leafNibble
  usub checked b 4

/-- src/types/proof/definition.rs:225-301 `compute_new_merkle_path_on_split`. -/
def computeNewMerklePathOnSplit (H : Hasher) (checked : Bool) (P : SMProof) (leaf : KeyHash × ValueHash)
    (newKey : KeyHash) (newValue : Value) : Except Err SMProof := do
  let n ← numDefaultSiblings checked leaf.1 newKey P.siblings.length
  let n1 ← uadd checked n 1
  let cap ← uadd checked n1 P.siblings.length
  if cap > maxVec ∨ n1 > maxVec then .error (.panic "capacity overflow")
  else
    .ok ⟨some (newKey, H.hash newValue),
      ([SMNode.leaf leaf.1 leaf.2] ++ List.replicate (n1 - 1) SMNode.null).take n1 ++ P.siblings⟩

/-- Is this the default (null) sibling? -/
def isNull (s : SMNode) : Bool := s == SMNode.null

/-- src/types/proof/definition.rs:375-475: the new root after deleting the proven leaf. -/
def rootAfterDelete (H : Hasher) (checked : Bool) (siblings : List SMNode) (key : KeyHash) :
    Except Err Digest :=
  match siblings.dropWhile isNull with
  | [] => .ok placeholder
  | .null :: _ => .ok placeholder
  | .internal l r :: rest => do
    let skip ← usub checked 256 (rest.length + 1)
    .ok (foldSiblings H placeholder (.internal l r :: rest) key skip)
  | .leaf k v :: rest => do
    let rest := rest.dropWhile isNull
    let skip ← usub checked 256 rest.length
    .ok (foldSiblings H (H.leafHash k v) rest key skip)

/-- src/types/proof/definition.rs:305-483 `check_compute_new_root`. -/
def checkComputeNewRoot (H : Hasher) (checked : Bool) (P : SMProof) (oldRoot : Digest) (key : KeyHash)
    (value : Option Value) : Except Err Digest :=
  match value with
  | some v =>
    match P.leaf with
    | some leaf => do
      let r ← rootHash H checked P
      if r ≠ oldRoot then .error (.bail "Condition failed: self.root_hash() == old_root_hash")
      else if key = leaf.1 then rootHash H checked ⟨some (key, H.hash v), P.siblings⟩
      else do
        let P' ← computeNewMerklePathOnSplit H checked P leaf key v
        rootHash H checked P'
    | none =>
      match verifyNonexistence H P oldRoot key with
      | .error _ => .error (.bail "Condition failed: verify_nonexistence")
      | .ok _ => rootHash H checked ⟨some (key, H.hash v), P.siblings⟩
  | none =>
    match P.leaf with
    | some leaf => do
      let r ← rootHash H checked P
      if r ≠ oldRoot then .error (.bail "Condition failed: self.root_hash() == old_root_hash")
      else if key ≠ leaf.1 then .error (.bail "Key to remove doesn't match the leaf key")
      else rootAfterDelete H checked P.siblings key
    | none => .ok oldRoot

/-- src/types/proof/definition.rs:552-563: the loop of `verify_update`. -/
def updateLoop (H : Hasher) (checked : Bool) :
    List SMProof → List (KeyHash × Option Value) → Digest → Except Err Digest
  | P :: Ps, (k, x) :: us, root => do
    let root ← checkComputeNewRoot H checked P root k x
    updateLoop H checked Ps us root
  | _, _, root => .ok root

/-- src/types/proof/definition.rs:536-574 `UpdateMerkleProof::verify_update`. -/
def verifyUpdate (H : Hasher) (checked : Bool) (Ps : List SMProof) (oldRoot newRoot : Digest)
    (updates : List (KeyHash × Option Value)) : Except Err Unit := do
  if updates.length ≠ Ps.length then .error (.bail "Mismatched number of updates and proofs.")
  else
  let root ← updateLoop H checked Ps updates oldRoot
  if root ≠ newRoot then .error (.bail "Root hashes do not match.") else .ok ()

end SMProof

/-- src/types/proof/definition.rs:597-602 `SparseMerkleRangeProof`: the right siblings, bottom first. -/
structure RangeProof where
  rightSiblings : List SMNode

namespace RangeProof

/-- src/types/proof/definition.rs:662-687: the loop of `verify`. -/
def verifyLoop (H : Hasher) : List Bool → List Digest → List SMNode → Digest → Except Err Digest
  | [], _, _, cur => .ok cur
  | true :: bits, l :: ls, rs, cur => verifyLoop H bits ls rs (H.internalHash l cur)
  | true :: _, [], _, _ => .error (.bail "Missing left sibling.")
  | false :: bits, ls, r :: rs, cur => verifyLoop H bits ls rs (H.internalHash cur (r.hash H))
  | false :: _, _, [], _ => .error (.bail "Missing right sibling.")

/-- src/types/proof/definition.rs:650-699 `SparseMerkleRangeProof::verify`. -/
def verify (H : Hasher) (checked : Bool) (P : RangeProof) (expectedRoot : Digest)
    (leaf : KeyHash × ValueHash) (leftSiblings : List Digest) : Except Err Unit := do
  let skip ← usub checked 256 (leftSiblings.length + P.rightSiblings.length)
  let cur ← verifyLoop H ((Bytes32.iterBits leaf.1).reverse.drop skip) leftSiblings P.rightSiblings
    (H.leafHash leaf.1 leaf.2)
  if cur ≠ expectedRoot then .error (.bail "Root hashes do not match.") else .ok ()

end RangeProof
end Jmt
