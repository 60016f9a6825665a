import Verif.Model.Types
/-!
# Model of src/bytes32ext.rs: bit and nibble views of 32-byte strings
-/
namespace Jmt
namespace Bytes32

/-- Byte access `self[i]`; the callers below stay in range. -/
def byte (k : Bytes32) (i : Nat) : UInt8 := k.val.getD i 0

/-- src/bytes32ext.rs:84-92 `HashValueBitIterator::get_bit`. -/
def getBit (k : Bytes32) (i : Nat) : Bool :=
  (byte k (i / 8) >>> UInt8.ofNat (7 - i % 8)) &&& 1 != 0

/-- src/bytes32ext.rs:38-40, 95-105 `iter_bits`: positions `0..256` in order. -/
def iterBits (k : Bytes32) : List Bool := (List.range 256).map (getBit k)

/-- src/bytes32ext.rs:31-36 `common_prefix_bits_len`. -/
def commonPrefixBitsLen (a b : Bytes32) : Nat :=
  (((iterBits a).zip (iterBits b)).takeWhile (fun p => p.1 == p.2)).length

/-- src/bytes32ext.rs:15-17 `common_prefix_nibbles_len`. -/
def commonPrefixNibblesLen (a b : Bytes32) : Nat := commonPrefixBitsLen a b / 4

/-- src/bytes32ext.rs:23-29 `get_nibble` (before the checked conversion to `Nibble`). -/
def getNibble (k : Bytes32) (i : Nat) : UInt8 :=
  if i % 2 = 0 then byte k (i / 2) >>> 4 else byte k (i / 2) &&& 0x0f

/-- src/bytes32ext.rs:42-47 `nibble`. -/
def nibble (k : Bytes32) (i : Nat) : UInt8 :=
  (byte k (i / 2) >>> (if i % 2 = 0 then 4 else 0)) &&& 0x0f

/-- src/bytes32ext.rs:55-59: the loop of `from_bit_iter`. -/
def fromBitsLoop : List Bool → Nat → List UInt8 → List UInt8
  | [], _, buf => buf
  | b :: bs, i, buf =>
    fromBitsLoop bs (i + 1)
      (if b then buf.set (i / 8) ((buf.getD (i / 8) 0) ||| ((1 : UInt8) <<< UInt8.ofNat (7 - i % 8))) else buf)

/-- src/bytes32ext.rs:50-61 `from_bit_iter`. -/
def fromBitIter (bits : List Bool) : Option (List UInt8) :=
  if bits.length ≠ 256 then none else some (fromBitsLoop bits 0 (List.replicate 32 0))

end Bytes32

/-- The four bits of a nibble, most significant first
(src/types/nibble/nibble_path.rs:162-168 `get_bit` on the packed nibble). -/
def Nibble.bits (n : Nibble) : List Bool := [n.val.testBit 3, n.val.testBit 2, n.val.testBit 1, n.val.testBit 0]

/-- src/bytes32ext.rs:23-29 `get_nibble` with the index check of the byte array. -/
def nibbleAt (k : KeyHash) (i : Nat) : Except Err Nibble :=
  if i < 64 then
    match Nibble.ofNat? (Bytes32.getNibble k i).toNat with
    | some n => .ok n
    | none => .error (.panic "Nibble out of range")
  else .error (.panic "index out of bounds")

end Jmt
