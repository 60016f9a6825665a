import Verif.Spec.ProofShape
/-!
# Specification: what is stored

The tree of a map has a node at a nibble path when some key starts with the path and the path one nibble shorter does not
yet single out a key.  Every version stores only the nodes it renews.  Stated over the maps and the value sets only.
-/
namespace Jmt.Spec
open Jmt

/-- The key starts with the nibbles `q`. -/
def Below (q : List Nibble) (k : KeyHash) : Prop := q <+: k.nibbles

/-- The tree of `s` has a node at `q`. -/
def IsNode (s : Map) (q : List Nibble) : Prop :=
  (∃ k, s k ≠ none ∧ Below q k) ∧
  (q = [] ∨ ∃ k k', k ≠ k' ∧ s k ≠ none ∧ s k' ≠ none ∧ Below q.dropLast k ∧ Below q.dropLast k')

/-- One write to `s` renews the node at `q`: it is not the deletion of an absent key, and its key passes through `q` or there was no
node at `q`. -/
def Renews (s : Map) (w : Write) (q : List Nibble) : Prop :=
  (w.2 ≠ none ∨ s w.1 ≠ none) ∧ (Below q w.1 ∨ ¬ IsNode s q)

/-- Some write of the set of version `u` renews the node at `q`. -/
def RenewedAt (hist : List (List Write)) (u : Version) (q : List Nibble) : Prop :=
  ∃ pre w post, hist[u]? = some (pre ++ w :: post) ∧ Renews ((stateAfter Map.empty hist u).writes pre) w q

/-- `w` is the last version up to `v` that renewed the node at `q`. -/
def LastRenewed (hist : List (List Write)) (v : Version) (q : List Nibble) (w : Version) : Prop :=
  w ≤ v ∧ RenewedAt hist w q ∧ ∀ u, w < u → u ≤ v → ¬ RenewedAt hist u q

/-- The entry for the child at `q` in its parent: hash, version, and whether the child is a leaf or how many leaves it has. -/
def ChildAt (H : Hasher) (s : Map) (ver : Version → Prop) (q : List Nibble) (c : Child) : Prop :=
  ver c.version ∧ ∃ es, ListsWhere H s (Below q) es ∧ es ≠ [] ∧
    c.hash = subtree H (256 - 4 * q.length) (4 * q.length) es ∧
    c.nodeType = if es.length = 1 then .leaf else .internal es.length

/-- What the node at `q` consists of. -/
def NodeAt (H : Hasher) (s : Map) (ver : List Nibble → Version → Prop) (q : List Nibble) : Node → Prop
  | .null => ListsWhere H s (Below q) []
  | .leaf l => ListsWhere H s (Below q) [(l.keyHash, l.valueHash)]
  | .internal n => ∃ es, ListsWhere H s (Below q) es ∧ 2 ≤ es.length ∧ n.leafCount = es.length ∧
      n.children.numChildren = (List.finRange 16).countP (fun i => (n.children.slots i).isSome) ∧
      ∀ i, (n.children.slots i = none ↔ ListsWhere H s (Below (q ++ [i])) []) ∧
        ∀ c, n.children.slots i = some c → ChildAt H s (ver (q ++ [i])) (q ++ [i]) c

/-- `x` is the last thing the set of version `v` writes to `k`. -/
def WrittenAt (hist : List (List Write)) (k : KeyHash) (v : Version) (x : Option Value) : Prop :=
  ∃ before after, hist[v]? = some (before ++ (k, x) :: after) ∧ ∀ w ∈ after, w.1 ≠ k

end Jmt.Spec
