import Verif.Spec.Tree
import Verif.Model.Types
/-!
# Specification: hashing a path, and what "no collision" means

Soundness of a proof can only hold as long as nobody finds a collision.  The statements
assume that no two *strings actually hashed* (by the canonical tree and by the proof check) collide,
and that none of them hashes to the placeholder.  No global injectivity is assumed: no function into 32
bytes has it.
-/
namespace Jmt.Spec
open Jmt

/-- What is fed to the hash function: the content of a leaf or of an internal node. -/
inductive Preimage where
  | leaf (k : KeyHash) (v : ValueHash)
  | internal (l r : Digest)
deriving DecidableEq, Repr

def Preimage.hash (H : Hasher) : Preimage → Digest
  | .leaf k v => H.leafHash k v
  | .internal l r => H.internalHash l r

/-- The byte string hashed: domain separator, then the two 32-byte fields. -/
def Preimage.bytes : Preimage → List UInt8
  | .leaf k v => leafSep ++ k.val ++ v.val
  | .internal l r => internalSep ++ l.val ++ r.val

/-- Combine the hash `h` of a child with the hash of its sibling; the bit says that the child is the
right one. -/
def combine (b : Bool) (sib h : Digest) : Preimage := if b then .internal sib h else .internal h sib

/-- The strings hashed to compute the canonical root (same recursion as `subtree`). -/
def subtreeStrings (H : Hasher) : (f d : Nat) → List Entry → List Preimage
  | _, _, [] => []
  | _, _, [(k, v)] => [.leaf k v]
  | 0, _, _ :: _ :: _ => []
  | f + 1, d, e₁ :: e₂ :: es =>
      let l := (e₁ :: e₂ :: es).filter (fun e => bit e.1 d == false)
      let r := (e₁ :: e₂ :: es).filter (fun e => bit e.1 d == true)
      .internal (subtree H f (d + 1) l) (subtree H f (d + 1) r) ::
        (subtreeStrings H f (d + 1) l ++ subtreeStrings H f (d + 1) r)

def treeStrings (H : Hasher) (es : List Entry) : List Preimage := subtreeStrings H 256 0 es

/-- The hash at depth `d` of the path of `key`, from the siblings (root first) below that depth and the
hash `h` at the bottom. -/
def pathHash (H : Hasher) (key : KeyHash) (h : Digest) : (d : Nat) → List SMNode → Digest
  | _, [] => h
  | d, s :: S => (combine (bit key d) (s.hash H) (pathHash H key h (d + 1) S)).hash H

/-- The strings hashed on the way. -/
def pathStrings (H : Hasher) (key : KeyHash) (h : Digest) : (d : Nat) → List SMNode → List Preimage
  | _, [] => []
  | d, s :: S => combine (bit key d) (s.hash H) (pathHash H key h (d + 1) S) :: pathStrings H key h (d + 1) S

/-- The hash at the bottom of a proof. -/
def bottomHash (H : Hasher) : Option (KeyHash × ValueHash) → Digest
  | none => placeholder
  | some l => H.leafHash l.1 l.2

/-- The strings hashed to check the proof `P` for `key`. -/
def proofStrings (H : Hasher) (P : SMProof) (key : KeyHash) : List Preimage :=
  (match P.leaf with | none => [] | some l => [Preimage.leaf l.1 l.2]) ++
    pathStrings H key (bottomHash H P.leaf) 0 P.siblings.reverse

/-- No two of the strings collide and none of them hashes to the placeholder. -/
structure NoCollision (H : Hasher) (ps : List Preimage) : Prop where
  inj : ∀ a ∈ ps, ∀ b ∈ ps, a.hash H = b.hash H → a = b
  notPlaceholder : ∀ a ∈ ps, a.hash H ≠ placeholder

end Jmt.Spec

namespace Jmt.Spec
open Jmt

/-- The same for a digest `f` on byte strings: no two different strings among `ss` have the same digest,
and none of the node strings `ps ⊆ ss` has the placeholder as digest. -/
structure NoDigestCollision (f : List UInt8 → Digest) (ps : List Preimage) (values : List Value) : Prop where
  inj : ∀ a ∈ ps.map Preimage.bytes ++ values, ∀ b ∈ ps.map Preimage.bytes ++ values, f a = f b → a = b
  notPlaceholder : ∀ a ∈ ps, f a.bytes ≠ placeholder

end Jmt.Spec

namespace Jmt.Spec
open Jmt

/-- The string hashed to obtain the hash of a proof sibling (none for the null node). -/
def nodeString : SMNode → List Preimage
  | .null => []
  | .internal l r => [.internal l r]
  | .leaf k v => [.leaf k v]

/-- The strings hashed by the check of one update: the leaf, the siblings, and the path of the leaf key
(or of the updated key if there is no leaf). -/
def updateStrings (H : Hasher) (P : SMProof) (key : KeyHash) : List Preimage :=
  (match P.leaf with | none => [] | some l => [Preimage.leaf l.1 l.2]) ++
    (P.siblings.flatMap nodeString ++
      pathStrings H (match P.leaf with | none => key | some l => l.1) (bottomHash H P.leaf) 0 P.siblings.reverse)

end Jmt.Spec
