import Verif.Spec.Reads
import Verif.Spec.Iterate
import Verif.Model.Ics23
/-!
# All queries of one version
-/
namespace Jmt

/-- Two readers answer every query of the crate about version `v` (of the first) and `v'` (of the second) alike: those of
`SameReads`, range proofs, exclusion proofs and ics23 proofs (including their errors), and iteration from a key or from an
index. -/
structure SameQueries (H : Hasher) (R R' : Reader) (v v' : Version) : Prop extends SameReads H R R' v v' where
  range : ∀ k, getRangeProof H R k v = getRangeProof H R' k v'
  exclusion : ∀ k, getWithExclusionProof H R k v = getWithExclusionProof H R' k v'
  ics23 : ∀ checked pre key, getWithIcs23Proof H checked R pre key v = getWithIcs23Proof H checked R' pre key v'
  iter : ∀ start, ∃ it it' items, Iter.new R v start = .ok it ∧ Iter.new R' v' start = .ok it' ∧
    it.Yields R items ∧ it'.Yields R' items
  iterByIndex : ∀ i, ∃ it it' items, Iter.newByIndex R v i = .ok it ∧ Iter.newByIndex R' v' i = .ok it' ∧
    it.Yields R items ∧ it'.Yields R' items

/-- Two readers answer every query that starts from the root node of version `v` (of the first) and `v'` (of the second) alike: all those of
`SameQueries` except `get`, which does not look at the tree. -/
structure SameTreeQueries (H : Hasher) (R R' : Reader) (v v' : Version) : Prop where
  getWithProof : ∀ k, getWithProof H R k v = getWithProof H R' k v'
  rootHash : getRootHash H R v = getRootHash H R' v'
  rootHashOption : getRootHashOption H R v = getRootHashOption H R' v'
  leafCount : getLeafCount R v = getLeafCount R' v'
  range : ∀ k, getRangeProof H R k v = getRangeProof H R' k v'
  exclusion : ∀ k, getWithExclusionProof H R k v = getWithExclusionProof H R' k v'
  ics23 : ∀ checked pre key, getWithIcs23Proof H checked R pre key v = getWithIcs23Proof H checked R' pre key v'
  iter : ∀ start, ∃ it it' items, Iter.new R v start = .ok it ∧ Iter.new R' v' start = .ok it' ∧
    it.Yields R items ∧ it'.Yields R' items
  iterByIndex : ∀ i, ∃ it it' items, Iter.newByIndex R v i = .ok it ∧ Iter.newByIndex R' v' i = .ok it' ∧
    it.Yields R items ∧ it'.Yields R' items

end Jmt
