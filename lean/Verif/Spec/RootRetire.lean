import Verif.Spec.History
/-!
# Which root nodes a call puts into the stale index

The English property: a call that commits the versions `n, n+1, ..` retires, for each version whose set has an effect on a
map that is not empty, the root node it was working from, and no other root.
-/
namespace Jmt.Spec

/-- The set committed as version `t` has an effect: it stores a value, or removes a key that is there. -/
def Effect (hist : List (List Write)) (t : Nat) : Prop :=
  ∃ ws, hist[t]? = some ws ∧ ∃ w ∈ ws, w.2 ≠ none ∨ stateAfter Map.empty hist t w.1 ≠ none

/-- Version `w` made the root node from which the call that started with version `n` works when it comes to version `t`: it is
the version before the call, or a version of the call whose set had an effect, and no set in between had one. -/
def WorkingRoot (hist : List (List Write)) (n t w : Nat) : Prop :=
  w < t ∧ (w + 1 = n ∨ (n ≤ w ∧ Effect hist w)) ∧ ∀ u, n ≤ u → w < u → u < t → ¬ Effect hist u

end Jmt.Spec

namespace Jmt.Spec

/-- The call `op`, made after the calls `ops`, retires the root of version `w` as of version `t`. -/
def RetiredBy (ops : List Op) (op : Op) (w t : Nat) : Prop :=
  (setsOf ops).length ≤ t ∧ stateAfter Map.empty (setsOf ops ++ setsOf [op]) t ≠ Map.empty ∧
    Effect (setsOf ops ++ setsOf [op]) t ∧ WorkingRoot (setsOf ops ++ setsOf [op]) (setsOf ops).length t w

/-- Some call of the history has retired the root of version `w` as of version `t`, and a later purge reached `t`. -/
def RootPurged (ops : List Op) (w : Nat) : Prop :=
  ∃ (pre : List Op) (op : Op) (post : List Op) (t r : Nat), ops = pre ++ op :: post ∧ RetiredBy pre op w t ∧
    Op.purge r ∈ post ∧ t ≤ r

/-- Some call of the history has retired the root of version `w` as of version `t`, and no later purge reached `t`. -/
def RootWaits (ops : List Op) (w t : Nat) : Prop :=
  ∃ (pre : List Op) (op : Op) (post : List Op), ops = pre ++ op :: post ∧ RetiredBy pre op w t ∧
    ∀ r, Op.purge r ∈ post → ¬ t ≤ r

end Jmt.Spec
