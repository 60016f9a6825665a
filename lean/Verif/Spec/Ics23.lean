import Verif.Spec.Tree
import Verif.Model.Types
/-!
# Specification: the ics23 proof format and its verifier

This is the published verification algorithm of the external crate `ics23` 0.11 (`src/api.rs`, `src/verify.rs`,
`src/ops.rs` of that crate), restricted to what a specification like `ics23_spec` can reach: one hash function, no
length prefix, no IAVL special case, uncompressed and unbatched proofs.  It is not part of /repo; the
property speaks about what it accepts.  `f` is the hash function that `HashOp::Sha256` stands for.  A panic of the
verifier is `Err.panic`; acceptance is `.ok ()`.
-/
namespace Jmt.Ics23

/-- ics23 `HashOp` (the variants other than these two are lumped together). -/
inductive HashOp where
  | noHash | sha256 | other (n : Nat)
deriving DecidableEq, Repr

/-- ics23 `LengthOp`. -/
inductive LengthOp where
  | noPrefix | other (n : Nat)
deriving DecidableEq, Repr

/-- ics23 `LeafOp`. -/
structure LeafOp where
  hash : HashOp
  prehashKey : HashOp
  prehashValue : HashOp
  length : LengthOp
  pre : List UInt8
deriving DecidableEq, Repr

/-- ics23 `InnerOp`: `hash(prefix ++ child ++ suffix)`. -/
structure InnerOp where
  hash : HashOp
  pre : List UInt8
  suf : List UInt8
deriving DecidableEq, Repr

/-- ics23 `ExistenceProof`; `path` is leaf first. -/
structure ExistenceProof where
  key : List UInt8
  value : List UInt8
  leaf : Option LeafOp
  path : List InnerOp
deriving DecidableEq, Repr

/-- ics23 `NonExistenceProof`. -/
structure NonExistenceProof where
  key : List UInt8
  left : Option ExistenceProof
  right : Option ExistenceProof
deriving DecidableEq, Repr

/-- ics23 `CommitmentProof`. -/
inductive CommitmentProof where
  | exist (p : ExistenceProof)
  | nonexist (p : NonExistenceProof)
deriving DecidableEq, Repr

/-- ics23 `InnerSpec`. -/
structure InnerSpec where
  childOrder : List Nat
  childSize : Nat
  minPrefixLength : Nat
  maxPrefixLength : Nat
  emptyChild : List UInt8
  hash : HashOp

/-- ics23 `ProofSpec` (both sub-specifications present). -/
structure ProofSpec where
  leafSpec : LeafOp
  innerSpec : InnerSpec
  maxDepth : Nat
  minDepth : Nat
  prehashKeyBeforeComparison : Bool

/-- `ensure!(c)`. -/
def ensure (c : Bool) : Except Err Unit := if c then .ok () else .error (.bail "ensure")

/-- ops.rs `do_hash`. -/
def doHash (f : List UInt8 → Digest) : HashOp → List UInt8 → Except Err (List UInt8)
  | .noHash, d => .ok d
  | .sha256, d => .ok (f d).val
  | .other _, _ => .error (.bail "unsupported hash operation")

/-- ops.rs `prepare_leaf_data` with `do_length`. -/
def prepareLeafData (f : List UInt8 → Digest) (h : HashOp) (l : LengthOp) (d : List UInt8) : Except Err (List UInt8) := do
  ensure (!d.isEmpty)
  let x ← doHash f h d
  match l with
  | .noPrefix => .ok x
  | .other _ => .error (.bail "unsupported length operation")

/-- ops.rs `apply_leaf`. -/
def applyLeaf (f : List UInt8 → Digest) (l : LeafOp) (key value : List UInt8) : Except Err (List UInt8) := do
  let k ← prepareLeafData f l.prehashKey l.length key
  let v ← prepareLeafData f l.prehashValue l.length value
  doHash f l.hash (l.pre ++ k ++ v)

/-- ops.rs `apply_inner`. -/
def applyInner (f : List UInt8 → Digest) (i : InnerOp) (child : List UInt8) : Except Err (List UInt8) := do
  ensure (!child.isEmpty)
  doHash f i.hash (i.pre ++ child ++ i.suf)

/-- verify.rs: the loop of `calculate_existence_root_for_spec`. -/
def climb (f : List UInt8 → Digest) (s : InnerSpec) : List InnerOp → List UInt8 → Except Err (List UInt8)
  | [], h => .ok h
  | i :: is, h => do
    let h ← applyInner f i h
    ensure (!(decide (h.length > s.childSize) && decide (s.childSize ≥ 32)))
    climb f s is h

/-- verify.rs `calculate_existence_root_for_spec`. -/
def calculateRoot (f : List UInt8 → Digest) (s : ProofSpec) (p : ExistenceProof) : Except Err (List UInt8) := do
  ensure (!p.key.isEmpty)
  ensure (!p.value.isEmpty)
  match p.leaf with
  | none => .error (.bail "No leaf operation set")
  | some l => do
    let h ← applyLeaf f l p.key p.value
    climb f s.innerSpec p.path h

/-- verify.rs `ensure_leaf`. -/
def ensureLeaf (l spec : LeafOp) : Except Err Unit :=
  ensure (decide (spec.hash = l.hash) && decide (spec.prehashKey = l.prehashKey) &&
    decide (spec.prehashValue = l.prehashValue) && decide (spec.length = l.length) && spec.pre.isPrefixOf l.pre)

/-- verify.rs `ensure_inner`. -/
def ensureInner (i : InnerOp) (s : ProofSpec) : Except Err Unit :=
  ensure (decide (s.innerSpec.hash = i.hash) && !s.leafSpec.pre.isPrefixOf i.pre &&
    decide (s.innerSpec.minPrefixLength ≤ i.pre.length) &&
    decide (i.pre.length ≤ s.innerSpec.maxPrefixLength + (s.innerSpec.childOrder.length - 1) * s.innerSpec.childSize) &&
    decide (i.suf.length % s.innerSpec.childSize = 0))

/-- All steps of a path. -/
def ensureInners (s : ProofSpec) : List InnerOp → Except Err Unit
  | [] => .ok ()
  | i :: is => do
    ensureInner i s
    ensureInners s is

/-- verify.rs `check_existence_spec`. -/
def checkExistenceSpec (p : ExistenceProof) (s : ProofSpec) : Except Err Unit :=
  match p.leaf with
  | none => .error (.bail "Leaf and Leaf Spec must be set")
  | some l => do
    ensureLeaf l s.leafSpec
    ensure (decide (s.minDepth = 0) || decide (s.minDepth ≤ p.path.length))
    ensure (decide (s.maxDepth = 0) || decide (p.path.length ≤ s.maxDepth))
    ensureInners s p.path

/-- verify.rs `verify_existence`. -/
def verifyExistence (f : List UInt8 → Digest) (p : ExistenceProof) (s : ProofSpec) (root key value : List UInt8) :
    Except Err Unit := do
  checkExistenceSpec p s
  ensure (decide (p.key = key))
  ensure (decide (p.value = value))
  let r ← calculateRoot f s p
  ensure (decide (r = root))

/-- verify.rs `get_padding`. -/
def getPadding (s : InnerSpec) (branch : Nat) : Except Err (Nat × Nat × Nat) :=
  match s.childOrder.find? (fun x => decide (x = branch)) with
  | none => .error (.bail "Branch not found in spec.child_order")
  | some idx => .ok (idx * s.childSize + s.minPrefixLength, idx * s.childSize + s.maxPrefixLength,
      s.childSize * (s.childOrder.length - 1 - idx))

/-- verify.rs `has_padding`. -/
def hasPadding (i : InnerOp) (pad : Nat × Nat × Nat) : Bool :=
  decide (pad.1 ≤ i.pre.length) && decide (i.pre.length ≤ pad.2.1) && decide (i.suf.length = pad.2.2)

/-- verify.rs `order_from_padding`. -/
def orderFromPadding (s : InnerSpec) (i : InnerOp) : Except Err Nat :=
  go (List.range s.childOrder.length)
where
  go : List Nat → Except Err Nat
  | [] => .error (.bail "padding doesn't match")
  | b :: bs => do
    let pad ← getPadding s b
    if hasPadding i pad then .ok b else go bs

/-- verify.rs `left_branches_are_empty`. -/
def leftBranchesAreEmpty (s : InnerSpec) (i : InnerOp) : Except Err Bool := do
  let idx ← orderFromPadding s i
  if idx = 0 then .ok false
  else if i.pre.length < idx * s.childSize then .ok false
  else
    let start := i.pre.length - idx * s.childSize
    .ok ((List.range idx).all (fun j => decide ((i.pre.drop (start + j * s.childSize)).take s.childSize = s.emptyChild)))

/-- verify.rs `right_branches_are_empty`. -/
def rightBranchesAreEmpty (s : InnerSpec) (i : InnerOp) : Except Err Bool := do
  let idx ← orderFromPadding s i
  let n := s.childOrder.length - 1 - idx
  if n = 0 then .ok false
  else if i.suf.length ≠ n * s.childSize then .ok false
  else .ok ((List.range n).all (fun j => decide ((i.suf.drop (j * s.childSize)).take s.childSize = s.emptyChild)))

/-- verify.rs `ensure_left_most`. -/
def ensureLeftMost (s : InnerSpec) (path : List InnerOp) : Except Err Unit := do
  let pad ← getPadding s 0
  go pad path
where
  go (pad : Nat × Nat × Nat) : List InnerOp → Except Err Unit
  | [] => .ok ()
  | i :: is =>
    if hasPadding i pad then go pad is
    else do
      let e ← leftBranchesAreEmpty s i
      if e then go pad is else .error (.bail "step not leftmost")

/-- verify.rs `ensure_right_most`. -/
def ensureRightMost (s : InnerSpec) (path : List InnerOp) : Except Err Unit := do
  let pad ← getPadding s (s.childOrder.length - 1)
  go pad path
where
  go (pad : Nat × Nat × Nat) : List InnerOp → Except Err Unit
  | [] => .ok ()
  | i :: is =>
    if hasPadding i pad then go pad is
    else do
      let e ← rightBranchesAreEmpty s i
      if e then go pad is else .error (.bail "step not rightmost")

/-- verify.rs `is_left_step`. -/
def isLeftStep (s : InnerSpec) (l r : InnerOp) : Except Err Bool := do
  let li ← orderFromPadding s l
  let ri ← orderFromPadding s r
  .ok (decide (li + 1 = ri))

/-- verify.rs `ensure_left_neighbor`, on the two paths root first (the code pops them from the end; what is left
after the pops is handed on leaf first).  An exhausted path is an `unwrap` of `None`. -/
def ensureLeftNeighborTop (s : InnerSpec) : List InnerOp → List InnerOp → Except Err Unit
  | l :: ls, r :: rs =>
    if l.pre = r.pre ∧ l.suf = r.suf then ensureLeftNeighborTop s ls rs
    else do
      let b ← isLeftStep s l r
      ensure b
      ensureRightMost s ls.reverse
      ensureLeftMost s rs.reverse
  | _, _ => .error (.panic "called `Option::unwrap()` on a `None` value")

/-- verify.rs `ensure_left_neighbor`. -/
def ensureLeftNeighbor (s : InnerSpec) (left right : List InnerOp) : Except Err Unit :=
  ensureLeftNeighborTop s left.reverse right.reverse

/-- verify.rs: the local closure `key_for_comparison` of `verify_non_existence`. -/
def keyForComparison (f : List UInt8 → Digest) (s : ProofSpec) (key : List UInt8) : Except Err (List UInt8) :=
  if s.prehashKeyBeforeComparison then doHash f s.leafSpec.prehashKey key else .ok key

/-- The check of the left neighbour. -/
def checkLeft (f : List UInt8 → Digest) (s : ProofSpec) (root key : List UInt8) :
    Option ExistenceProof → Except Err Unit
  | none => .ok ()
  | some l => do
    verifyExistence f l s root l.key l.value
    let a ← keyForComparison f s key
    let b ← keyForComparison f s l.key
    ensure (decide (b < a))

/-- The check of the right neighbour. -/
def checkRight (f : List UInt8 → Digest) (s : ProofSpec) (root key : List UInt8) :
    Option ExistenceProof → Except Err Unit
  | none => .ok ()
  | some r => do
    verifyExistence f r s root r.key r.value
    let a ← keyForComparison f s key
    let b ← keyForComparison f s r.key
    ensure (decide (a < b))

/-- verify.rs `verify_non_existence`. -/
def verifyNonExistence (f : List UInt8 → Digest) (p : NonExistenceProof) (s : ProofSpec) (root key : List UInt8) :
    Except Err Unit := do
  checkLeft f s root key p.left
  checkRight f s root key p.right
  match p.left, p.right with
  | some l, none => ensureRightMost s.innerSpec l.path
  | none, some r => ensureLeftMost s.innerSpec r.path
  | some l, some r => ensureLeftNeighbor s.innerSpec l.path r.path
  | none, none => .error (.bail "neither left nor right proof defined")

/-- api.rs `verify_membership` (`true` is `.ok ()`). -/
def verifyMembership (f : List UInt8 → Digest) (p : CommitmentProof) (s : ProofSpec) (root key value : List UInt8) :
    Except Err Unit :=
  match p with
  | .exist e => verifyExistence f e s root key value
  | .nonexist _ => .error (.bail "no existence proof")

/-- api.rs `verify_non_membership`. -/
def verifyNonMembership (f : List UInt8 → Digest) (p : CommitmentProof) (s : ProofSpec) (root key : List UInt8) :
    Except Err Unit :=
  match p with
  | .nonexist e => verifyNonExistence f e s root key
  | .exist _ => .error (.bail "no nonexistence proof")

/-- Every byte string hashed while checking an existence proof, leaf first. -/
def climbStrings (f : List UInt8 → Digest) : List InnerOp → List UInt8 → List (List UInt8)
  | [], _ => []
  | i :: is, h => (i.pre ++ h ++ i.suf) :: climbStrings f is (f (i.pre ++ h ++ i.suf)).val

/-- The string hashed by a leaf operation with hashed key and value. -/
def leafString (f : List UInt8 → Digest) (l : LeafOp) (key value : List UInt8) : List UInt8 :=
  l.pre ++ (f key).val ++ (f value).val

/-- Every node string hashed while checking an existence proof. -/
def strings (f : List UInt8 → Digest) (p : ExistenceProof) : List (List UInt8) :=
  match p.leaf with
  | none => []
  | some l => leafString f l p.key p.value :: climbStrings f p.path (f (leafString f l p.key p.value)).val

/-- No two of the byte strings collide and none of them hashes to the placeholder. -/
structure NoCollision (f : List UInt8 → Digest) (ss : List (List UInt8)) : Prop where
  inj : ∀ a ∈ ss, ∀ b ∈ ss, f a = f b → a = b
  notPlaceholder : ∀ a ∈ ss, f a ≠ placeholder

end Jmt.Ics23
