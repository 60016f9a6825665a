/-!
# Basic vocabulary shared by the specification and the model

Byte strings, 32-byte keys and digests, the hash-function interface, and the two domain
separators.  Nothing here mentions nibbles, node keys, caches or storage.
-/
namespace Jmt

/-- `[u8; 32]`: a list of exactly 32 bytes (src/lib.rs:172-260 wraps it in `RootHash`, `KeyHash`,
`ValueHash`; the newtypes are not distinguished here). -/
abbrev Bytes32 := { l : List UInt8 // l.length = 32 }

/-- A digest, `[u8; 32]` (src/lib.rs:312-325 `finalize`). -/
abbrev Digest := Bytes32
/-- src/lib.rs:214 `KeyHash`. -/
abbrev KeyHash := Bytes32
/-- src/lib.rs:233 `ValueHash`. -/
abbrev ValueHash := Bytes32
/-- src/lib.rs:152 `OwnedValue`. -/
abbrev Value := List UInt8
/-- src/types.rs:10 `Version` (u64; kept as a natural number, overflow is checked where it can
occur, see `TreeCache.freeze`). -/
macro "Version" : term => `(Nat)

/-- 2^64, the range of `u64`. -/
def u64Size : Nat := 2 ^ 64

/-- ASCII string to bytes. -/
def ascii (s : String) : List UInt8 := s.toList.map (fun c => UInt8.ofNat c.toNat)

/-- src/lib.rs:149 `SPARSE_MERKLE_PLACEHOLDER_HASH = *b"SPARSE_MERKLE_PLACEHOLDER_HASH__"`. -/
def placeholder : Digest :=
  ⟨[83, 80, 65, 82, 83, 69, 95, 77, 69, 82, 75, 76, 69, 95, 80, 76, 65, 67, 69, 72, 79, 76, 68,
    69, 82, 95, 72, 65, 83, 72, 95, 95], rfl⟩

example : placeholder.val = ascii "SPARSE_MERKLE_PLACEHOLDER_HASH__" := by decide

/-- src/types/proof.rs:23 `LEAF_DOMAIN_SEPARATOR = b"JMT::LeafNode"`. -/
def leafSep : List UInt8 := [74, 77, 84, 58, 58, 76, 101, 97, 102, 78, 111, 100, 101]

example : leafSep = ascii "JMT::LeafNode" := by decide

/-- src/types/proof.rs:24 `INTERNAL_DOMAIN_SEPARATOR = b"JMT::IntrnalNode"`. -/
def internalSep : List UInt8 :=
  [74, 77, 84, 58, 58, 73, 110, 116, 114, 110, 97, 108, 78, 111, 100, 101]

example : internalSep = ascii "JMT::IntrnalNode" := by decide

/-- src/lib.rs:312-325 `trait SimpleHasher`: a hasher is a state machine. -/
structure Hasher where
  State : Type
  new : State
  update : State → List UInt8 → State
  finalize : State → Digest

namespace Hasher

/-- src/lib.rs:320-324 `SimpleHasher::hash`. -/
def hash (H : Hasher) (data : List UInt8) : Digest := H.finalize (H.update H.new data)

/-- src/types/proof.rs:150-156 `SparseMerkleLeafNode::hash`. -/
def leafHash (H : Hasher) (k : KeyHash) (v : ValueHash) : Digest :=
  H.finalize (H.update (H.update (H.update H.new leafSep) k.val) v.val)

/-- src/types/proof.rs:74-81 `SparseMerkleInternalNode::hash`. -/
def internalHash (H : Hasher) (l r : Digest) : Digest :=
  H.finalize (H.update (H.update (H.update H.new internalSep) l.val) r.val)

end Hasher

/-- src/lib.rs:327-342 `impl SimpleHasher for T: Digest`: a digest hashes the concatenation of the
updates.  `f` is the underlying function on byte strings. -/
def Hasher.ofDigest (f : List UInt8 → Digest) : Hasher where
  State := List UInt8
  new := []
  update s d := s ++ d
  finalize s := f s

/-- src/lib.rs:347-364 `TransparentHasher`: each update overwrites a prefix of the 32-byte
state. -/
def Hasher.transparent : Hasher where
  State := Bytes32
  new := ⟨List.replicate 32 0, by simp⟩
  update s d := ⟨(d.take 32) ++ s.val.drop d.length, by
    have := s.property; simp [this]; omega⟩
  finalize s := s

end Jmt
