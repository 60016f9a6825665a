import Verif.Spec.Basic
/-!
# The borsh format

The encoding rules of the external crate `borsh` 1.x with the feature `de_strict_order` (Cargo.toml:27), as far as the derived
implementations of this crate need them.  An encoder is partial (`none` is the `Err` of a collection with 2^32 or more
elements; a natural number of the model that does not fit the Rust integer type has no encoding either).  A decoder takes
what it needs from the front of the input and returns the rest.
-/
namespace Jmt.Borsh

/-- How one type is written and read. -/
structure Codec (α : Type) where
  enc : α → Option (List UInt8)
  dec : List UInt8 → Option (α × List UInt8)

/-- `borsh::from_slice` / `try_from_slice`: all bytes must be consumed. -/
def Codec.fromSlice {α : Type} (c : Codec α) (bs : List UInt8) : Option α :=
  match c.dec bs with
  | some (a, []) => some a
  | _ => none

/-- An unsigned integer of `n` bytes, little endian. -/
def leBytes : Nat → Nat → List UInt8
  | 0, _ => []
  | n + 1, x => UInt8.ofNat (x % 256) :: leBytes n (x / 256)

/-- The value of a little endian byte string. -/
def leValue : List UInt8 → Nat
  | [] => 0
  | b :: bs => b.toNat + 256 * leValue bs

/-- `n` raw bytes (`[u8; n]`). -/
def takeBytes (n : Nat) (bs : List UInt8) : Option (List UInt8 × List UInt8) :=
  if n ≤ bs.length then some (bs.take n, bs.drop n) else none

/-- Unsigned integers of `n` bytes: `u32` is `uint 4`, `u64` and `usize` are `uint 8`. -/
def uint (n : Nat) : Codec Nat where
  enc x := if x < 256 ^ n then some (leBytes n x) else none
  dec bs := (takeBytes n bs).map (fun r => (leValue r.1, r.2))

/-- `u8`. -/
def u8 : Codec UInt8 where
  enc b := some [b]
  dec | [] => none
      | b :: bs => some (b, bs)

/-- `[u8; 32]`. -/
def bytes32 : Codec Bytes32 where
  enc b := some b.val
  dec bs := if h : (bs.take 32).length = 32 then some (⟨bs.take 32, h⟩, bs.drop 32) else none

/-- Two fields, one after the other. -/
def pair {α β : Type} (c : Codec α) (d : Codec β) : Codec (α × β) where
  enc p := do
    let a ← c.enc p.1
    let b ← d.enc p.2
    some (a ++ b)
  dec bs := do
    let (a, bs) ← c.dec bs
    let (b, bs) ← d.dec bs
    some ((a, b), bs)

/-- A struct with the same fields as another type. -/
def iso {α β : Type} (c : Codec α) (f : α → β) (g : β → α) : Codec β where
  enc b := c.enc (g b)
  dec bs := (c.dec bs).map (fun r => (f r.1, r.2))

/-- `Option<T>`: a byte 0 or 1, then the content. -/
def option {α : Type} (c : Codec α) : Codec (Option α) where
  enc | none => some [0]
      | some a => (c.enc a).map (1 :: ·)
  dec | 0 :: bs => some (none, bs)
      | 1 :: bs => (c.dec bs).map (fun r => (some r.1, r.2))
      | _ => none

/-- Elements one after the other. -/
def encSeq {α : Type} (c : Codec α) : List α → Option (List UInt8)
  | [] => some []
  | a :: as => do
    let x ← c.enc a
    let xs ← encSeq c as
    some (x ++ xs)

/-- A given number of elements. -/
def decSeq {α : Type} (c : Codec α) : Nat → List UInt8 → Option (List α × List UInt8)
  | 0, bs => some ([], bs)
  | n + 1, bs => do
    let (a, bs) ← c.dec bs
    let (as, bs) ← decSeq c n bs
    some (a :: as, bs)

/-- `Vec<T>`: the length as `u32`, then the elements. -/
def vec {α : Type} (c : Codec α) : Codec (List α) where
  enc l := do
    let n ← (uint 4).enc l.length
    let xs ← encSeq c l
    some (n ++ xs)
  dec bs := do
    let (n, bs) ← (uint 4).dec bs
    decSeq c n bs

/-- `[T; n]`: the elements only. -/
def array {α : Type} (n : Nat) (c : Codec α) : Codec (Fin n → α) where
  enc f := encSeq c (List.ofFn f)
  dec bs := do
    let (l, bs) ← decSeq c n bs
    if h : l.length = n then some (fun i => l[i.val]'(h ▸ i.isLt), bs) else none

/-- Neighbouring elements ascend strictly: the check of `de_strict_order`. -/
def ascending {α : Type} (lt : α → α → Bool) : List α → Bool
  | a :: b :: l => lt a b && ascending lt (b :: l)
  | _ => true

/-- `BTreeSet<T>` (`BTreeMap<K, V>` with `lt` comparing keys): a vector in ascending order, which is checked when reading. -/
def sorted {α : Type} (lt : α → α → Bool) (c : Codec α) : Codec (List α) where
  enc l := if ascending lt l then (vec c).enc l else none
  dec bs := do
    let (l, bs) ← (vec c).dec bs
    if ascending lt l then some (l, bs) else none

end Jmt.Borsh
