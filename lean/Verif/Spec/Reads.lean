import Verif.Spec.History
/-!
# Specification vocabulary for what can be read from a store
-/
namespace Jmt

/-- Two readers answer every query about version `v` (of the first) and `v'` (of the second) alike:
`get`, `get_with_proof` (value and proof), `get_root_hash`, `get_root_hash_option`, `get_leaf_count`. -/
structure SameReads (H : Hasher) (R R' : Reader) (v v' : Version) : Prop where
  get : ∀ k, get R k v = get R' k v'
  getWithProof : ∀ k, getWithProof H R k v = getWithProof H R' k v'
  rootHash : getRootHash H R v = getRootHash H R' v'
  rootHashOption : getRootHashOption H R v = getRootHashOption H R' v'
  leafCount : getLeafCount R v = getLeafCount R' v'

/-- `ReachFrom s v k`: the node key `k` is reached from the root of version `v` by following
the child pointers stored in internal nodes. -/
inductive ReachFrom (s : Store) (v : Version) : NodeKey → Prop
  | root : ReachFrom s v ⟨v, []⟩
  | child {k : NodeKey} {n : InternalNode} {i : Nibble} {c : Child} : ReachFrom s v k →
      s.nodes.get? k = some (.internal n) → n.children.slots i = some c →
      ReachFrom s v ⟨c.version, k.path ++ [i]⟩

/-- Of several writes to one key within a set only the last is kept. -/
def Spec.keepLast (ws : List Spec.Write) : List Spec.Write :=
  ws.foldr (fun w acc => if w.1 ∈ acc.map Prod.fst then acc else w :: acc) []

end Jmt
