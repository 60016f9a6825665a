import Verif.Model.NibblePath
/-!
# Specification of packed nibble paths, of common prefixes and of nibble ranges
-/
namespace Jmt

/-- Two nibbles per byte, the first one in the upper half; a last odd nibble leaves the lower half zero. -/
def Spec.pack : List Nibble → List UInt8
  | [] => []
  | [a] => [UInt8.ofNat (16 * a.val)]
  | a :: b :: rest => UInt8.ofNat (16 * a.val + b.val) :: Spec.pack rest

/-- The packed representation of a list of nibbles. -/
def NibblePath.ofList (l : List Nibble) : NibblePath := ⟨l.length, Spec.pack l⟩

/-- `c` is the longest common prefix of `xs` and `ys`. -/
def Spec.IsLcp {α : Type} (c xs ys : List α) : Prop :=
  c <+: xs ∧ c <+: ys ∧ ∀ d, d <+: xs → d <+: ys → d.length ≤ c.length

/-- The iterator stands at position `pos` of the part `[start, stop)` of the path `l`. -/
structure NibbleIter.At (it : NibbleIter) (l : List Nibble) : Prop where
  path : it.path = NibblePath.ofList l
  start_le : it.start ≤ it.pos
  pos_le : it.pos ≤ it.stop
  stop_le : it.stop ≤ l.length

/-- What a nibble iterator has yielded so far, and what it will yield. -/
def NibbleIter.visited (it : NibbleIter) (l : List Nibble) : List Nibble := (l.take it.pos).drop it.start
def NibbleIter.remaining (it : NibbleIter) (l : List Nibble) : List Nibble := (l.take it.stop).drop it.pos

/-- Consecutive, non-empty index ranges covering `[pos, n)`. -/
def Spec.Tiles : Nat → List (Nat × Nat) → Nat → Prop
  | pos, [], n => pos = n
  | pos, (l, r) :: rest, n => l = pos ∧ l ≤ r ∧ r < n ∧ Spec.Tiles (r + 1) rest n

end Jmt
