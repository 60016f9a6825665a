import Verif.Spec.Basic
/-!
# Specification of printed forms

How a person or a tool reads them back: byte string literals as in the Rust reference
(https://doc.rust-lang.org/reference/tokens.html#byte-string-literals), hexadecimal digits by their value.
-/
namespace Jmt.Spec

/-- The value of a hexadecimal digit. -/
def hexValue (c : Char) : Option Nat :=
  if '0' ≤ c ∧ c ≤ '9' then some (c.toNat - 48)
  else if 'a' ≤ c ∧ c ≤ 'f' then some (c.toNat - 87)
  else if 'A' ≤ c ∧ c ≤ 'F' then some (c.toNat - 55)
  else none

/-- A byte escape after its backslash, and what follows it. -/
def readEscape : List Char → Option (UInt8 × List Char)
  | 'n' :: r => some (10, r)
  | 'r' :: r => some (13, r)
  | 't' :: r => some (9, r)
  | '\\' :: r => some (92, r)
  | '"' :: r => some (34, r)
  | '\'' :: r => some (39, r)
  | '0' :: r => some (0, r)
  | 'x' :: h :: l :: r =>
    match hexValue h, hexValue l with
    | some a, some b => some (UInt8.ofNat (16 * a + b), r)
    | _, _ => none
  | _ => none

/-- One element at the front of the inside of a byte string literal, and what follows it: a byte escape, or an ASCII character
other than a quote, a backslash or a carriage return. -/
def readItem : List Char → Option (UInt8 × List Char)
  | [] => none
  | c :: cs =>
    if c = '\\' then readEscape cs
    else if c = '"' ∨ c = '\r' ∨ 128 ≤ c.toNat then none
    else some (UInt8.ofNat c.toNat, cs)

/-- The inside of a byte string literal, up to and including the closing quote, and the bytes it denotes. -/
inductive Inside : List Char → List UInt8 → Prop
  | stop : Inside ['"'] []
  | item {cs rest b bs} : readItem cs = some (b, rest) → Inside rest bs → Inside cs (b :: bs)

/-- `cs` is a byte string literal denoting `bs`. -/
def ByteStringLiteral (cs : List Char) (bs : List UInt8) : Prop := ∃ body, cs = 'b' :: '"' :: body ∧ Inside body bs

/-- Characters that are safe in one line of a log. -/
def Printable (c : Char) : Prop := 0x20 ≤ c.toNat ∧ c.toNat < 0x7f

end Jmt.Spec
