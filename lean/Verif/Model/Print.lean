import Verif.Model.NibblePath
/-!
# Model of the hand-written `Debug` implementations: what the log shows for a key, a hash, a path

Text is a list of characters.
-/
namespace Jmt
namespace Print

/-- The digits of `{:x}`. -/
def hexDigits : List Char := ['0', '1', '2', '3', '4', '5', '6', '7', '8', '9', 'a', 'b', 'c', 'd', 'e', 'f']

/-- `{:x}` of a number below 16 (src/types/nibble.rs:37-41 `LowerHex for Nibble`). -/
def hexDigit (n : Nat) : Char := hexDigits.getD n '?'

/-- `{:02x}` of a byte, and one byte of `hex::encode`. -/
def hexByte (b : UInt8) : List Char := [hexDigit (b.toNat / 16), hexDigit (b.toNat % 16)]

/-- src/lib.rs:288-303: one turn of the loop in `Debug for EscapedByteSlice`. -/
def escapeByte (b : UInt8) : List Char :=
  if b = 10 then ['\\', 'n']
  else if b = 13 then ['\\', 'r']
  else if b = 9 then ['\\', 't']
  else if b = 92 ∨ b = 34 then ['\\', Char.ofNat b.toNat]
  else if b = 0 then ['\\', '0']
  else if 0x20 ≤ b ∧ b < 0x7f then [Char.ofNat b.toNat]
  else '\\' :: 'x' :: hexByte b

/-- src/lib.rs:282-308 `Debug for EscapedByteSlice`. -/
def escaped (bs : List UInt8) : List Char := 'b' :: '"' :: (bs.flatMap escapeByte ++ ['"'])

/-- src/lib.rs:256-262, 264-270, 272-278 `Debug for KeyHash`, `ValueHash`, `RootHash`: the name and, in parentheses, the
debug form of the string `hex::encode` returns (quotes around it; hex digits need no escape). -/
def debugHash (name : List Char) (d : Digest) : List Char :=
  name ++ '(' :: '"' :: (d.val.flatMap hexByte ++ ['"', ')'])

/-- src/types/nibble/nibble_path.rs:45-49 `Debug for NibblePath`: the nibbles, each as `{:x}`. -/
def debugPath (p : NibblePath) : Except Err (List Char) := do
  let ns ← NibbleIter.drain (p.numNibbles + 1) p.nibbles
  .ok (ns.map (fun n => hexDigit n.val))

end Print
end Jmt
