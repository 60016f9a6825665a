import Verif.Model.Bytes
import Verif.Model.Tree
/-!
# Model of src/types/nibble/nibble_path.rs (packed paths and their iterators) and of the
`NibbleRangeIterator` of src/types/nibble.rs
-/
namespace Jmt

/-- src/types/nibble/nibble_path.rs:31-41 `NibblePath`. -/
structure NibblePath where
  numNibbles : Nat
  bytes : List UInt8
deriving DecidableEq, Repr

namespace NibblePath

/-- A byte as a `Nibble` (src/types/nibble.rs:24-29: asserts `< 16`). -/
def toNibble (b : UInt8) : Except Err Nibble :=
  match Nibble.ofNat? b.toNat with
  | none => .error (.panic "Nibble out of range")
  | some n => .ok n

/-- `u8::from(nibble)` (src/types/nibble.rs:31-35). -/
def ofNibble (n : Nibble) : UInt8 := UInt8.ofNat n.val

/-- src/types/nibble/nibble_path.rs:101-105 `new` (the `checked_precondition!` compiles to nothing outside MIRAI). -/
def new (bytes : List UInt8) : NibblePath := ⟨bytes.length * 2, bytes⟩

/-- src/types/nibble/nibble_path.rs:111-120 `new_odd`. -/
def newOdd (bytes : List UInt8) : Except Err NibblePath :=
  match bytes.getLast? with
  | none => .error (.panic "Should have odd number of nibbles.")
  | some b =>
    if b &&& 0x0f = 0 then .ok ⟨bytes.length * 2 - 1, bytes⟩ else .error (.panic "Last nibble must be 0.")

/-- src/types/nibble/nibble_path.rs:123-131 `push`. -/
def push (p : NibblePath) (n : Nibble) : Except Err NibblePath :=
  if rootNibbleHeight ≤ p.numNibbles then .error (.panic "assert!(ROOT_NIBBLE_HEIGHT > self.num_nibbles)")
  else if p.numNibbles % 2 = 0 then .ok ⟨p.numNibbles + 1, p.bytes ++ [ofNibble n <<< 4]⟩
  else
    match p.bytes[p.numNibbles / 2]? with
    | none => .error (.panic "index out of bounds")
    | some b => .ok ⟨p.numNibbles + 1, p.bytes.set (p.numNibbles / 2) (b ||| ofNibble n)⟩

/-- src/types/nibble/nibble_path.rs:134-148 `pop`. -/
def pop (p : NibblePath) : Except Err (Option Nibble × NibblePath) :=
  match p.bytes.getLast? with
  | none => .ok (none, p)
  | some b =>
    if p.numNibbles % 2 = 0 then do
      let n ← toNibble (b &&& 0x0f)
      if p.numNibbles = 0 then .error (.panic "attempt to subtract with overflow")
      else .ok (some n, ⟨p.numNibbles - 1, p.bytes.dropLast ++ [b &&& 0xf0]⟩)
    else do
      let n ← toNibble (b >>> 4)
      .ok (some n, ⟨p.numNibbles - 1, p.bytes.dropLast⟩)

/-- src/types/nibble/nibble_path.rs:151-159 `last`. -/
def last (p : NibblePath) : Except Err (Option Nibble) :=
  if p.numNibbles % 2 = 0 then
    match p.bytes.getLast? with
    | none => .ok none
    | some b => do
      let n ← toNibble (b &&& 0x0f)
      .ok (some n)
  else
    match p.bytes.getLast? with
    | none => .error (.panic "Last byte must exist if num_nibbles is odd.")
    | some b => do
      let n ← toNibble (b >>> 4)
      .ok (some n)

/-- src/types/nibble/nibble_path.rs:162-167 `get_bit`. -/
def getBit (p : NibblePath) (i : Nat) : Except Err Bool :=
  if p.numNibbles * 4 ≤ i then .error (.panic "assert!(i < self.num_nibbles * 4)")
  else
    match p.bytes[i / 8]? with
    | none => .error (.panic "index out of bounds")
    | some b => .ok ((b >>> UInt8.ofNat (7 - i % 8)) &&& 1 != 0)

/-- src/types/nibble/nibble_path.rs:170-173 `get_nibble`. -/
def getNibble (p : NibblePath) (i : Nat) : Except Err Nibble :=
  if p.numNibbles ≤ i then .error (.panic "assert!(i < self.num_nibbles)")
  else
    match p.bytes[i / 2]? with
    | none => .error (.panic "index out of bounds")
    | some b => toNibble ((b >>> (if i % 2 = 1 then 0 else 4)) &&& 0xf)

/-- src/types/nibble/nibble_path.rs:196-198 `is_empty`. -/
def isEmpty (p : NibblePath) : Bool := p.numNibbles == 0

/-- src/types/nibble/nibble_path.rs:18-41: the derived `Ord`, by `num_nibbles`, then `bytes`. -/
def lt (p q : NibblePath) : Prop := p.numNibbles < q.numNibbles ∨ p.numNibbles = q.numNibbles ∧ p.bytes < q.bytes

/-- src/types/nibble/nibble_path.rs:52-60 `FromIterator<Nibble>` (`collect`). -/
def collect (ns : List Nibble) : Except Err NibblePath := ns.foldlM push (new [])

end NibblePath

/-- src/types/nibble/nibble_path.rs:244-260 `NibbleIterator`; the `Range` is its two ends. -/
structure NibbleIter where
  path : NibblePath
  pos : Nat
  stop : Nat
  start : Nat

/-- src/types/nibble/nibble_path.rs:211-214 `BitIterator`. -/
structure BitIter where
  path : NibblePath
  pos : Nat
  stop : Nat

namespace NibblePath

/-- src/types/nibble/nibble_path.rs:185-188 `nibbles`. -/
def nibbles (p : NibblePath) : NibbleIter := ⟨p, 0, p.numNibbles, 0⟩

/-- src/types/nibble/nibble_path.rs:176-182 `bits`. -/
def bits (p : NibblePath) : BitIter := ⟨p, 0, p.numNibbles * 4⟩

end NibblePath

namespace BitIter

/-- src/types/nibble/nibble_path.rs:228-233 `next`. -/
def next (it : BitIter) : Except Err (Option Bool × BitIter) :=
  if it.pos < it.stop then do
    let b ← it.path.getBit it.pos
    .ok (some b, { it with pos := it.pos + 1 })
  else .ok (none, it)

/-- src/types/nibble/nibble_path.rs:216-225 `peek`. -/
def peek (it : BitIter) : Except Err (Option Bool) :=
  if it.pos < it.stop then do
    let b ← it.path.getBit it.pos
    .ok (some b)
  else .ok none

/-- src/types/nibble/nibble_path.rs:236-240 `next_back`. -/
def nextBack (it : BitIter) : Except Err (Option Bool × BitIter) :=
  if it.pos < it.stop then do
    let b ← it.path.getBit (it.stop - 1)
    .ok (some b, { it with stop := it.stop - 1 })
  else .ok (none, it)

end BitIter

namespace NibbleIter

/-- src/types/nibble/nibble_path.rs:263-268 `next`. -/
def next (it : NibbleIter) : Except Err (Option Nibble × NibbleIter) :=
  if it.pos < it.stop then do
    let n ← it.path.getNibble it.pos
    .ok (some n, { it with pos := it.pos + 1 })
  else .ok (none, it)

/-- src/types/nibble/nibble_path.rs:270-279 `peek`. -/
def peek (it : NibbleIter) : Except Err (Option Nibble) :=
  if it.pos < it.stop then do
    let n ← it.path.getNibble it.pos
    .ok (some n)
  else .ok none

/-- src/types/nibble/nibble_path.rs:294-298 `visited_nibbles`. -/
def visitedNibbles (it : NibbleIter) : NibbleIter := ⟨it.path, it.start, it.pos, it.start⟩

/-- src/types/nibble/nibble_path.rs:301-305 `remaining_nibbles`. -/
def remainingNibbles (it : NibbleIter) : NibbleIter := ⟨it.path, it.pos, it.stop, it.pos⟩

/-- src/types/nibble/nibble_path.rs:308-315 `bits`. -/
def bits (it : NibbleIter) : BitIter := ⟨it.path, it.pos * 4, it.stop * 4⟩

/-- Running an iterator to its end (`collect` of the remaining items); `fuel` bounds the turns. -/
def drain : Nat → NibbleIter → Except Err (List Nibble)
  | 0, _ => .error (.panic "out of fuel")
  | f + 1, it => do
    let (n, it) ← it.next
    match n with
    | none => .ok []
    | some n => do
      let rest ← drain f it
      .ok (n :: rest)

/-- src/types/nibble/nibble_path.rs:319-323 `get_nibble_path`: visited then remaining, collected.
Each of the two iterators ends after `stop - pos` items, so the fuel is enough. -/
def getNibblePath (it : NibbleIter) : Except Err NibblePath := do
  let a ← drain (it.visitedNibbles.stop - it.visitedNibbles.pos + 1) it.visitedNibbles
  let b ← drain (it.remainingNibbles.stop - it.remainingNibbles.pos + 1) it.remainingNibbles
  NibblePath.collect (a ++ b)

/-- src/types/nibble/nibble_path.rs:326-329 `num_nibbles`. -/
def numNibbles (it : NibbleIter) : Nat := it.stop - it.start

/-- src/types/nibble/nibble_path.rs:332-334 `is_finished`. -/
def isFinished (it : NibbleIter) : Except Err Bool := do
  let n ← it.peek
  .ok n.isNone

/-- src/types/nibble/nibble_path.rs:339-361 `skip_common_prefix` on two nibble iterators; every turn
advances `x`, so `x.stop - x.pos + 1` turns are enough. -/
def skipCommonPrefix : Nat → NibbleIter → NibbleIter → Nat → Except Err (Nat × NibbleIter × NibbleIter)
  | 0, _, _, _ => .error (.panic "out of fuel")
  | f + 1, x, y, count => do
    let xp ← x.peek
    let yp ← y.peek
    match xp, yp with
    | some a, some b =>
      if a = b then do
        let (_, x) ← x.next
        let (_, y) ← y.next
        skipCommonPrefix f x y (count + 1)
      else .ok (count, x, y)
    | _, _ => .ok (count, x, y)

end NibbleIter

/-! ## `NibbleRangeIterator` -/

/-- `self.sorted_kvs[i].0 .0.nibble(idx)`; indexing out of bounds panics. -/
def kvNibble (kvs : List (KeyHash × ValueHash)) (idx i : Nat) : Except Err UInt8 :=
  match kvs[i]? with
  | none => .error (.panic "index out of bounds")
  | some kv => .ok (Bytes32.nibble kv.1 idx)

/-- src/types/nibble.rs:77-84: the binary search; `j - i` decreases in every turn. -/
def rangeSearch (kvs : List (KeyHash × ValueHash)) (idx : Nat) (cur : UInt8) :
    Nat → (i j : Nat) → Except Err Nat
  | 0, i, j => if i < j then .error (.panic "out of fuel") else .ok i
  | f + 1, i, j =>
    if i < j then do
      let mid := j - (j - i) / 2
      let n ← kvNibble kvs idx mid
      if cur < n then rangeSearch kvs idx cur f i (mid - 1)
      else rangeSearch kvs idx cur f mid j
    else .ok i

/-- src/types/nibble.rs:71-91 `NibbleRangeIterator::next`: the range found and the new position. -/
def rangeNext (kvs : List (KeyHash × ValueHash)) (idx pos : Nat) : Except Err (Option (Nat × Nat) × Nat) :=
  if pos < kvs.length then do
    let cur ← kvNibble kvs idx pos
    let i ← rangeSearch kvs idx cur kvs.length pos (kvs.length - 1)
    .ok (some (pos, i), i + 1)
  else .ok (none, pos)

/-- All ranges from a position on (`for (l, r) in NibbleRangeIterator::new(..)`). -/
def rangesFrom (kvs : List (KeyHash × ValueHash)) (idx : Nat) : Nat → Nat → Except Err (List (Nat × Nat))
  | 0, _ => .error (.panic "out of fuel")
  | f + 1, pos => do
    let (r, pos') ← rangeNext kvs idx pos
    match r with
    | none => .ok []
    | some lr => do
      let rest ← rangesFrom kvs idx f pos'
      .ok (lr :: rest)

/-- src/types/nibble.rs:57-67 `NibbleRangeIterator::new` and iteration to the end; every turn advances
the position, so `len + 1` turns are enough. -/
def nibbleRanges (kvs : List (KeyHash × ValueHash)) (idx : Nat) : Except Err (List (Nat × Nat)) :=
  if rootNibbleHeight ≤ idx then .error (.panic "assert!(nibble_idx < ROOT_NIBBLE_HEIGHT)")
  else rangesFrom kvs idx (kvs.length + 1) 0

end Jmt
