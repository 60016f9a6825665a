import Verif.Model.Mock
/-!
# `purge_stale_nodes` as a scan of the B-tree set
-/
namespace Jmt

/-- src/mock.rs:192-211 `purge_stale_nodes`, with the elements of the `BTreeSet` as `iter` yields them: `take_while` stops at the first one that
is stale only since a later version (`Store.purgeStaleNodes` filters instead). -/
def Store.purgeScan (s : Store) (iter : List StaleNodeIndex) (leastReadable : Version) : Except Err Store :=
  Store.purgeLoop (iter.takeWhile (fun i => decide (i.staleSince ≤ leastReadable))) s

end Jmt
