import Verif.Spec.History
import Verif.Model.Exclusion
/-!
# Specification vocabulary for exclusion proofs
-/
namespace Jmt

/-- The greatest key with a value that is smaller than `k` (byte order), `none` exactly if there is none. -/
def Spec.IsPredKey (mp : Spec.Map) (k : KeyHash) : Option KeyHash → Prop
  | none => ∀ k', mp k' ≠ none → ¬ k'.val < k.val
  | some l => l.val < k.val ∧ mp l ≠ none ∧ ∀ k', mp k' ≠ none → k'.val < k.val → k'.val ≤ l.val

/-- The least key with a value that is greater than `k` (byte order), `none` exactly if there is none. -/
def Spec.IsSuccKey (mp : Spec.Map) (k : KeyHash) : Option KeyHash → Prop
  | none => ∀ k', mp k' ≠ none → ¬ k.val < k'.val
  | some r => k.val < r.val ∧ mp r ≠ none ∧ ∀ k', mp k' ≠ none → k.val < k'.val → r.val ≤ k'.val

/-- `P` is an existence proof for `k` with its value in the map, accepted against the root hash. -/
def Spec.ProvesKey (H : Hasher) (root : Digest) (mp : Spec.Map) (k : KeyHash) (P : SMProof) : Prop :=
  ∃ x, mp k = some x ∧ P.verifyExistence H root k x = .ok ()

/-- The exclusion proof has the shape demanded by the neighbours that exist, and proves each of them. -/
def Spec.ExcludesBy (H : Hasher) (root : Digest) (mp : Spec.Map) :
    (pred succ : Option KeyHash) → ExclusionProof → Prop
  | none, some r, .leftmost R => Spec.ProvesKey H root mp r R
  | some l, some r, .middle R L => Spec.ProvesKey H root mp r R ∧ Spec.ProvesKey H root mp l L
  | some l, none, .rightmost L => Spec.ProvesKey H root mp l L
  | _, _, _ => False

end Jmt
