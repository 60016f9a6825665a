import Verif.Spec.Basic
/-!
# Specification of the hash of an internal node

An internal node has 16 slots; the hash is that of the binary tree with four levels over them.
-/
namespace Jmt.Spec
open Jmt

/-- A slot: empty, or the hash of the child and whether it is a leaf. -/
abbrev Slot := Option (Digest × Bool)

/-- Hash of the binary tree with `h` levels over `2^h` slots: without children it is the placeholder, a
single leaf stands for itself, a single slot for its child, and otherwise the two halves are hashed
together. -/
def slotTree (H : Hasher) : (h : Nat) → List Slot → Digest
  | 0, l => match l.filterMap id with
    | [] => placeholder
    | c :: _ => c.1
  | h + 1, l => match l.filterMap id with
    | [] => placeholder
    | [(d, true)] => d
    | _ => H.internalHash (slotTree H h (l.take (2 ^ h))) (slotTree H h (l.drop (2 ^ h)))

end Jmt.Spec
