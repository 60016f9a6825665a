import Verif.Model.Proof
import Verif.Spec.Tree
import Verif.Spec.Hashing
/-!
# Specification: calls that do not panic
-/
namespace Jmt.Spec

/-- The call ends by panicking. -/
def Panics {α : Type} (r : Except Err α) : Prop := ∃ m, r = .error (.panic m)

/-- A proof of the shape every proof of `get_with_proof` and `put_value_sets_with_proof` has: at most 256 siblings, and if an insertion of
`k` meets the leaf of another key, the two keys agree on the bits of the path proven. -/
def WellShaped (P : SMProof) (k : KeyHash) (x : Option Value) : Prop :=
  P.siblings.length ≤ 256 ∧ ∀ l, P.leaf = some l → x ≠ none → l.1 ≠ k →
    P.siblings.length ≤ Bytes32.commonPrefixBitsLen k l.1

/-- The proof `P` makes the check of the update `(k, x)` from the root `old` panic in a build with overflow checks: it has a leaf, and
either more than 256 siblings, or it is the proof of another leaf for the root `old`, is used for an insertion, and has more siblings
than the two keys have leading bits in common. -/
def PanicsAt (H : Hasher) (P : SMProof) (old : Digest) (k : KeyHash) (x : Option Value) : Prop :=
  ∃ l, P.leaf = some l ∧ (256 < P.siblings.length ∨
    (x ≠ none ∧ l.1 ≠ k ∧ Bytes32.commonPrefixBitsLen k l.1 < P.siblings.length ∧
      pathHash H l.1 (H.leafHash l.1 l.2) 0 P.siblings.reverse = old))

/-- The same for a build without overflow checks (release): only an insertion with the proof of another leaf can panic, namely if the proof
has at least two siblings more than the two keys have leading bits in common and is accepted for the root `old` - where the siblings of a
proof with more than 256 of them are ignored. -/
def PanicsAtRelease (H : Hasher) (P : SMProof) (old : Digest) (k : KeyHash) (x : Option Value) : Prop :=
  ∃ l, P.leaf = some l ∧ x ≠ none ∧ l.1 ≠ k ∧ Bytes32.commonPrefixBitsLen k l.1 + 1 < P.siblings.length ∧
    (if P.siblings.length ≤ 256 then pathHash H l.1 (H.leafHash l.1 l.2) 0 P.siblings.reverse else H.leafHash l.1 l.2) = old

end Jmt.Spec
