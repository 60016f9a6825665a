import Verif.Model.Mock
/-!
# Specification: the order of keys

Paths are compared by their length and then nibble by nibble, node keys by version and then by path, stale-node entries by the version since when
they are stale and then by node key.
-/
namespace Jmt.Spec
open Jmt

/-- `p` comes before `q`. -/
def PathBefore (p q : List Nibble) : Prop := p.length < q.length ∨ (p.length = q.length ∧ p < q)

/-- Node keys. -/
def KeyBefore (a b : NodeKey) : Prop := a.version < b.version ∨ (a.version = b.version ∧ PathBefore a.path b.path)

/-- Stale-node entries. -/
def StaleBefore (a b : StaleNodeIndex) : Prop :=
  a.staleSince < b.staleSince ∨ (a.staleSince = b.staleSince ∧ KeyBefore a.nodeKey b.nodeKey)

/-- Keys of values: by version and then by the key of the map, byte by byte. -/
def ValueBefore (a b : Version × KeyHash) : Prop := a.1 < b.1 ∨ (a.1 = b.1 ∧ a.2.val < b.2.val)

/-- A strict total order. -/
structure StrictOrder {α : Type} (before : α → α → Prop) : Prop where
  irrefl : ∀ a, ¬ before a a
  trans : ∀ a b c, before a b → before b c → before a c
  total : ∀ a b, a ≠ b → before a b ∨ before b a

end Jmt.Spec
