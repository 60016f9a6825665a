import Verif.Spec.Reads
/-!
# Specification of `append_value_set`: the latest value set grows, no version is added
-/
namespace Jmt

/-- The value sets after one operation: a commit adds versions, an append extends the last value set. -/
def AOp.after (hist : List ValueSet) : AOp → List ValueSet
  | .commit sets => hist ++ sets
  | .batch sets => hist ++ sets.map someSet
  | .append vs =>
    match hist.getLast? with
    | some last => hist.dropLast ++ [last ++ vs]
    | none => hist
  | .purge _ => hist

/-- The value sets after a list of operations. -/
def setsAfter (hist : List ValueSet) (ops : List AOp) : List ValueSet := ops.foldl AOp.after hist

/-- The latest map of a history of value sets. -/
def latestMap (hist : List ValueSet) : Spec.Map := Spec.stateAfter Spec.Map.empty hist hist.length

/-- `vs` is applied to a map that holds something, and deletes only while something is left. -/
def NeverEmptied (mp : Spec.Map) (vs : ValueSet) : Prop :=
  (∃ k x, mp k = some x) ∧ ∀ pre k post, vs = pre ++ (k, none) :: post → ∃ k' x, (mp.writes pre) k' = some x

/-- Every append of a list of operations is of that kind, and every purge is of a version below `bar`. -/
def SafeAppends (bar : Version) : List ValueSet → List AOp → Prop
  | _, [] => True
  | hist, op :: ops => (match op with | .append vs => NeverEmptied (latestMap hist) vs | .commit _ => True | .batch _ => True | .purge r => r < bar) ∧
      SafeAppends bar (AOp.after hist op) ops

/-- The oldest version that can be read after the purges of `ops`, if it was `low` before. -/
def lowAfter (low : Version) : List AOp → Version
  | [] => low
  | .purge r :: ops => lowAfter (max low r) ops
  | _ :: ops => lowAfter low ops

end Jmt
