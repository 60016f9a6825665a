import Verif.Spec.Sha256
import Verif.Props.Batch
import Verif.Props.Sample
/-!
# The test vectors of the project

src/tests/sha2_256_vectors.json, replayed as in src/tests/vectors.rs:29-52: each vector is put into a `Sha256Jmt` on an empty
store as version 0.  These are not proofs of properties; they compare the model with digests the real code is tested against.
-/
namespace Jmt

/-- `Sha256Jmt` (src/tree.rs:30-32) uses this hasher. -/
abbrev sha256 : Hasher := .ofDigest Sha256.digest

namespace Vectors
open Sample (okAnd)

/-- A number of `4 n` bits as `n / 2` bytes, for digests written in hexadecimal. -/
def bytes (n : Nat) : List UInt8 := Sha256.beBytes n 32

/-- `expected_root` of the vectors, in order. -/
def root0 : Nat := 0x5350415253455f4d45524b4c455f504c414345484f4c4445525f484153485f5f
def root1 : Nat := 0x6b97115f56e533f2fd443f7e76e4d1ff94d34e6b2e233f2dbdf5cfd1ec39a30c
def root2 : Nat := 0xe1e1e220d4b4a9611a9a09dbcee964b4a6c3a40f6f4dee265ad45cf64568790b

def hello : List UInt8 := [0x68, 0x65, 0x6c, 0x6c, 0x6f]
def goodbye : List UInt8 := [0x67, 0x6f, 0x6f, 0x64, 0x62, 0x79, 0x65]
def world : List UInt8 := [0x77, 0x6f, 0x72, 0x6c, 0x64]

/-- `jmt.put_value_set(pairs, 0)` returns the root. -/
def check (pairs : List (List UInt8 × List UInt8)) (root : Nat) : Bool :=
  okAnd (putValueSets sha256 (Store.new false).reader [pairs.map fun p => (sha256.hash p.1, some p.2)] 0)
    (fun r => r.1.map Subtype.val == [bytes root])

/-- The same through the batch API. -/
def checkBatch (pairs : List (List UInt8 × List UInt8)) (root : Nat) : Bool :=
  okAnd (batchPutValueSets sha256 (Store.new false).reader [pairs.map fun p => (sha256.hash p.1, p.2)] none 0)
    (fun r => r.1.map Subtype.val == [bytes root])

/-- FIPS 180-4: the digest of `abc`. -/
example : (Sha256.digest [0x61, 0x62, 0x63]).val =
    bytes 0xba7816bf8f01cfea414140de5dae2223b00361a396177a9cb410ff61f20015ad := by decide +kernel

example : check [] root0 = true := by decide +kernel
example : check [(hello, world)] root1 = true := by decide +kernel
example : check [(hello, world), (goodbye, world)] root2 = true := by decide +kernel

example : checkBatch [(hello, world)] root1 = true := by decide +kernel
example : checkBatch [(hello, world), (goodbye, world)] root2 = true := by decide +kernel

/-- The canonical root of the specification (Spec/Tree.lean) gives the expected roots too. -/
example : (Spec.root sha256 [(sha256.hash hello, sha256.hash world), (sha256.hash goodbye, sha256.hash world)]).val =
    bytes root2 := by decide +kernel

end Vectors
end Jmt
