import Verif.Model.Types
/-!
# Specification of read faults
-/
namespace Jmt.Spec

/-- `R'` is the reader `R` with faults: every lookup of `R'` gives the answer of `R`, or an error, or - for the node keys in
`lostNode` and the values in `lostValue` - reports that nothing is stored there. -/
structure FaultyView (lostNode : NodeKey → Prop) (lostValue : Version → KeyHash → Prop) (R' R : Reader) : Prop where
  node : ∀ k, R'.getNodeOption k = R.getNodeOption k ∨ (∃ e, R'.getNodeOption k = .error e) ∨
    (lostNode k ∧ R'.getNodeOption k = .ok none)
  value : ∀ v k, R'.getValueOption v k = R.getValueOption v k ∨ (∃ e, R'.getValueOption v k = .error e) ∨
    (lostValue v k ∧ R'.getValueOption v k = .ok none)
  rightmost : R'.getRightmostLeaf = R.getRightmostLeaf ∨ ∃ e, R'.getRightmostLeaf = .error e

/-- Any node and any value may be reported missing. -/
abbrev AnyFault := FaultyView (fun _ => True) (fun _ _ => True)

/-- Only errors: nothing is reported missing. -/
abbrev OnlyErrors := FaultyView (fun _ => False) (fun _ _ => False)

/-- Every node except roots, and every value, may be reported missing. -/
abbrev RootsNotLost := FaultyView (fun k => k.path ≠ []) (fun _ _ => True)

end Jmt.Spec
