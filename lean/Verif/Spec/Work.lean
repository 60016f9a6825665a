import Verif.Model.Tree
/-!
# Specification: how much a call reads and writes
-/
namespace Jmt.Spec
open Jmt

/-- The nodes in the list `L` (and the value of `k` as of version `v`) are all that the call with result `r` on the reader
`R` can have depended on: every reader that shows the same for them gets the same result. -/
def DependsOnly {α : Type} (call : Reader → α) (R : Reader) (v : Version) (k : KeyHash) (L : List NodeKey) : Prop :=
  ∀ R' : Reader, (∀ nk ∈ L, R'.getNodeOption nk = R.getNodeOption nk) → R'.getValueOption v k = R.getValueOption v k →
    call R' = call R

/-- Number of writes in a list of value sets. -/
def writesIn (sets : List ValueSet) : Nat := (sets.map List.length).sum

/-- At most `66` nodes per write and one per version are written, at most `66` per write retired, at most one value
entry per write stored; also version by version, as the statistics of the batch report it. -/
structure BoundedUpdate (sets : List ValueSet) (b : TreeUpdateBatch) : Prop where
  nodes : b.nodeBatch.nodes.length ≤ 66 * writesIn sets + sets.length
  stale : b.staleNodeIndexBatch.length ≤ 66 * writesIn sets
  values : b.nodeBatch.values.length ≤ writesIn sets
  versions : b.nodeStats.length = sets.length
  each : ∀ (j : Nat) (ws : ValueSet) (st : NodeStats), sets[j]? = some ws → b.nodeStats[j]? = some st →
    st.newNodes ≤ 66 * ws.length + 1 ∧ st.staleNodes ≤ 66 * ws.length

end Jmt.Spec
