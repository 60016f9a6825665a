import Verif.Spec.RootRetire
import Verif.Spec.IterResume
/-!
# Reading versions that may have been pruned

The English property: a query about a committed version, pruned or not, fails or tells the truth.
-/
namespace Jmt.Spec

/-- The history without its purges. -/
def withoutPurges (ops : List Op) : List Op :=
  ops.filter (fun op => match op with | .purge _ => false | _ => true)

end Jmt.Spec
