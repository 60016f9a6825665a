import Verif.Spec.Tree
import Verif.Model.System
/-!
# Specification of histories

What the operations of a history mean for the reader: which value sets have been committed (set
`i` is version `i`), and from which version on the tree must be readable.
-/
namespace Jmt

/-- The value set that a set of the batch API stands for: it has no deletions. -/
def someSet (set : List (KeyHash × Value)) : ValueSet := set.map (fun kv => (kv.1, some kv.2))

/-- All committed value sets in order; set number `i` is version `i`. -/
def setsOf : List Op → List ValueSet
  | [] => []
  | .commit sets :: ops => sets ++ setsOf ops
  | .batch sets :: ops => sets.map someSet ++ setsOf ops
  | .purge _ :: ops => setsOf ops

/-- The batch API panics on an empty value set (src/tree.rs:89-92); every other operation is always allowed. -/
def Op.Allowed : Op → Prop
  | .batch sets => ∀ s ∈ sets, s ≠ []
  | _ => True

instance : DecidablePred Op.Allowed
  | .batch sets => inferInstanceAs (Decidable (∀ s ∈ sets, s ≠ []))
  | .commit _ => inferInstanceAs (Decidable True)
  | .purge _ => inferInstanceAs (Decidable True)

/-- Number of committed versions and least version promised to be readable: `purge r` gives up the
versions below `r`, but never the latest one. -/
def horizonStep (a : Nat × Nat) : Op → Nat × Nat
  | .commit sets => (a.1 + sets.length, a.2)
  | .batch sets => (a.1 + sets.length, a.2)
  | .purge r => (a.1, max a.2 (min r (a.1 - 1)))

def horizon (ops : List Op) : Nat × Nat := ops.foldl horizonStep (0, 0)

/-- Version `v` is committed and not given up by pruning. -/
def Readable (ops : List Op) (v : Version) : Prop := (horizon ops).2 ≤ v ∧ v < (setsOf ops).length

/-- The map at version `v` of a history. -/
def mapAt (ops : List Op) (v : Version) : Spec.Map := Spec.stateAfter Spec.Map.empty (setsOf ops) (v + 1)

/-- The client started on an empty store, performed `ops`, and every call succeeded. -/
def Reached (H : Hasher) (ops : List Op) (y : Sys) : Prop :=
  ∃ allowOverwrite, Sys.run H ops ⟨Store.new allowOverwrite, 0⟩ = .ok y

end Jmt
