import Verif.Model.Types
import Verif.Spec.Tree
/-!
# Specification: what the proof for a key consists of

Stated over the map, the bits of its keys and `Spec.subtree` only.
-/
namespace Jmt.Spec
open Jmt

/-- `k` and `k'` have the same first `d` bits. -/
def Shares (k k' : KeyHash) (d : Nat) : Prop := ∀ i, i < d → bit k' i = bit k i

/-- `k'` leaves the path of `k` exactly at bit `d`. -/
def Beside (k : KeyHash) (d : Nat) (k' : KeyHash) : Prop := Shares k k' d ∧ bit k' d ≠ bit k d

/-- `es` lists, once each and with the hash of their value, the keys of `s` that satisfy `p`. -/
structure ListsWhere (H : Hasher) (s : Map) (p : KeyHash → Prop) (es : List Entry) : Prop where
  nodup : (es.map Prod.fst).Nodup
  mem : ∀ k vh, (k, vh) ∈ es ↔ p k ∧ ∃ v, s k = some v ∧ vh = H.hash v

/-- The node at the top of a subtree holding the entries `es`, which agree on their first `d` bits. -/
def nodeOf (H : Hasher) (d : Nat) (es : List Entry) : SMNode :=
  match es with
  | [] => .null
  | [(k, vh)] => .leaf k vh
  | es => .internal
      (subtree H (255 - d) (d + 1) (es.filter (fun e => bit e.1 d == false)))
      (subtree H (255 - d) (d + 1) (es.filter (fun e => bit e.1 d == true)))

/-- The proof for key `k` in the map `s`: as many siblings as it takes until at most one key of the map is
left around `k`, no more; that key (if any) is the leaf of the proof; and the sibling at depth `d + 1`, counted from the
root (the list itself is bottom-up), is the top of the subtree of the keys that leave the path of `k` at bit `d`. -/
structure ProofShape (H : Hasher) (s : Map) (k : KeyHash) (P : SMProof) : Prop where
  enough : ∀ k₁ k₂, s k₁ ≠ none → s k₂ ≠ none → Shares k k₁ P.siblings.length → Shares k k₂ P.siblings.length → k₁ = k₂
  needed : ∀ d, d < P.siblings.length → ∃ k₁ k₂, k₁ ≠ k₂ ∧ s k₁ ≠ none ∧ s k₂ ≠ none ∧ Shares k k₁ d ∧ Shares k k₂ d
  leaf : ∀ k' vh, P.leaf = some (k', vh) ↔ Shares k k' P.siblings.length ∧ ∃ v, s k' = some v ∧ vh = H.hash v
  sibling : ∀ d, d < P.siblings.length → ∃ es, ListsWhere H s (Beside k d) es ∧
    P.siblings.reverse[d]? = some (nodeOf H (d + 1) es)

end Jmt.Spec
