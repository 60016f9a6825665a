import Verif.Spec.History
/-!
# Specification of a rollback

Not an operation of the crate: what an operator does who goes back to version `v` by deleting every record of a later version.
-/
namespace Jmt

/-- The store without the records of versions after `v`: their nodes, the values written at them and the retirements made at them. -/
def Store.rollback (s : Store) (v : Version) : Store :=
  { s with
    nodes := s.nodes.filter (fun e => decide (e.1.version ≤ v))
    values := s.values.map (fun e => (e.1, e.2.filter (fun x => decide (x.1 ≤ v))))
    stale := s.stale.filter (fun x => decide (x.staleSince ≤ v)) }

/-- The history that ends with version `v`: the same value sets up to `v`, and the pruning of the history `ops`. -/
def rolledBackAs (ops : List Op) (v : Version) : List Op :=
  [.commit ((setsOf ops).take (v + 1)), .purge (horizon ops).2]

end Jmt
