import Verif.Spec.Ics23
import Verif.Model.Proof
import Verif.Model.Exclusion
/-!
# Model of src/tree/ics23_impl.rs
-/
namespace Jmt

/-- src/tree/ics23_impl.rs:24-31: the bits of a key in the order of the two loops: bytes from the last, bits from the least
significant. -/
def ics23Bits (k : KeyHash) : List Bool :=
  (List.range 32).reverse.flatMap (fun byte => (List.range 8).map (fun b => (k.val.getD byte 0).toNat.testBit b))

/-- src/tree/ics23_impl.rs:36-57: one inner operation. -/
def ics23Inner (H : Hasher) (bit : Bool) (s : SMNode) : Ics23.InnerOp :=
  if bit then ⟨.sha256, internalSep ++ (s.hash H).val, []⟩ else ⟨.sha256, internalSep, (s.hash H).val⟩

/-- src/tree/ics23_impl.rs:24-60: the loop, with its counters `skip` and `sibling_idx`. -/
def ics23Path (H : Hasher) (sibs : List SMNode) : List Bool → (skip idx : Nat) → Except Err (List Ics23.InnerOp)
  | [], _, _ => .ok []
  | _ :: bits, skip + 1, idx => ics23Path H sibs bits skip idx
  | b :: bits, 0, idx =>
    match sibs[idx]? with
    | none => .error (.panic "index out of bounds")
    | some s => do
      let ops ← ics23Path H sibs bits 0 (idx + 1)
      .ok (ics23Inner H b s :: ops)

/-- src/tree/ics23_impl.rs:66-72 and 232-238: the leaf operation. -/
def ics23LeafOp : Ics23.LeafOp := ⟨.sha256, .sha256, .sha256, .noPrefix, leafSep⟩

/-- src/tree/ics23_impl.rs:14-74 `sparse_merkle_proof_to_ics23_existence_proof`. -/
def ics23Existence (H : Hasher) (checked : Bool) (key value : List UInt8) (P : SMProof) :
    Except Err Ics23.ExistenceProof := do
  let skip ← usub checked 256 P.siblings.length
  let path ← ics23Path H P.siblings (ics23Bits (H.hash key)) skip 0
  .ok ⟨key, value, some ics23LeafOp, path⟩

/-- `get(..)?.ok_or("missing value for key hash")?` (src/tree/ics23_impl.rs:99-101, 124-126, 142-144, 165-167). -/
def ics23Value (R : Reader) (k : KeyHash) (version : Version) : Except Err Value := do
  match ← get R k version with
  | none => .error (.bail "missing value for key hash")
  | some value => .ok value

/-- `preimage(..)?.ok_or("missing preimage for key hash")?` (src/tree/ics23_impl.rs:94-97, 127-130, 145-148, 168-171);
`pre` is `HasPreimage::preimage` (src/reader.rs:45-48). -/
def ics23Preimage (pre : KeyHash → Except Err (Option (List UInt8))) (k : KeyHash) : Except Err (List UInt8) := do
  match ← pre k with
  | none => .error (.bail "missing preimage for key hash")
  | some key => .ok key

/-- src/tree/ics23_impl.rs:88-108, 120-136, 138-154, 161-177: the proof of a neighbour as an ics23 proof.  The
first place (`preFirst`) asks for the preimage before the value, the others after it. -/
def ics23Neighbour (H : Hasher) (checked preFirst : Bool) (R : Reader) (pre : KeyHash → Except Err (Option (List UInt8)))
    (version : Version) (P : SMProof) : Except Err Ics23.ExistenceProof :=
  match P.leaf with
  | none => .error (.panic "must have leaf")
  | some leaf =>
    if preFirst then do
      let key ← ics23Preimage pre leaf.1
      let value ← ics23Value R leaf.1 version
      ics23Existence H checked key value P
    else do
      let value ← ics23Value R leaf.1 version
      let key ← ics23Preimage pre leaf.1
      ics23Existence H checked key value P

/-- src/tree/ics23_impl.rs:81-187 `exclusion_proof_to_ics23_nonexistence_proof`. -/
def ics23Nonexistence (H : Hasher) (checked : Bool) (R : Reader) (pre : KeyHash → Except Err (Option (List UInt8)))
    (key : List UInt8) (version : Version) : ExclusionProof → Except Err Ics23.NonExistenceProof
  | .leftmost r => do
    let r ← ics23Neighbour H checked true R pre version r
    .ok ⟨key, none, some r⟩
  | .middle r l => do
    let r ← ics23Neighbour H checked false R pre version r
    let l ← ics23Neighbour H checked false R pre version l
    .ok ⟨key, some l, some r⟩
  | .rightmost l => do
    let l ← ics23Neighbour H checked false R pre version l
    .ok ⟨key, some l, none⟩

/-- src/tree/ics23_impl.rs:192-227 `get_with_ics23_proof`. -/
def getWithIcs23Proof (H : Hasher) (checked : Bool) (R : Reader) (pre : KeyHash → Except Err (Option (List UInt8)))
    (key : List UInt8) (version : Version) : Except Err (Option Value × Ics23.CommitmentProof) := do
  match ← getWithExclusionProof H R (H.hash key) version with
  | .inl (x, P) => do
    let e ← ics23Existence H checked key x P
    .ok (some x, .exist e)
  | .inr ep => do
    let n ← ics23Nonexistence H checked R pre key version ep
    .ok (none, .nonexist n)

/-- src/tree/ics23_impl.rs:230-251 `ics23_spec`. -/
def ics23Spec : Ics23.ProofSpec where
  leafSpec := ics23LeafOp
  innerSpec :=
    { childOrder := [0, 1]
      childSize := 32
      minPrefixLength := internalSep.length
      maxPrefixLength := internalSep.length
      emptyChild := placeholder.val
      hash := .sha256 }
  maxDepth := 64
  minDepth := 0
  prehashKeyBeforeComparison := true

end Jmt
