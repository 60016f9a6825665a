import Verif.Spec.Queries
import Verif.Spec.RestoreRun
/-!
# Specification: the ordinary history a restored store stands for
-/
namespace Jmt

/-- The history that leads to the pairs `all` at version `w`: nothing is written at the versions before `w`, the pairs are
written at `w`, and the older versions are pruned. -/
def restoredAs (w : Version) (all : List (KeyHash × Value)) : List Op :=
  [.commit (List.replicate w [] ++ [all.map (fun e => (e.1, some e.2))]), .purge w]

end Jmt
