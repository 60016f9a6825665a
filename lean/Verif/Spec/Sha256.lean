import Verif.Spec.Basic
/-!
# SHA-256 (FIPS 180-4)

Not part of the codebase (it comes from the `sha2` crate, src/lib.rs:327-337 `impl SimpleHasher for T: Digest`).  It is here so that
the model can be run on the test vectors of the project.  Words are natural numbers below `2 ^ 32`; `force` makes the
kernel evaluate a number before it goes on.
-/
namespace Jmt.Sha256

def force {α : Type} (n : Nat) (k : Nat → α) : α :=
  match n with
  | 0 => k 0
  | m + 1 => k (m + 1)

def word : Nat := 0x100000000
def rotr (x n : Nat) : Nat := (x >>> n) ||| ((x <<< (32 - n)) % word)

/-- FIPS 180-4, 4.2.2. -/
def K : List Nat :=
  [0x428a2f98, 0x71374491, 0xb5c0fbcf, 0xe9b5dba5, 0x3956c25b, 0x59f111f1, 0x923f82a4, 0xab1c5ed5,
   0xd807aa98, 0x12835b01, 0x243185be, 0x550c7dc3, 0x72be5d74, 0x80deb1fe, 0x9bdc06a7, 0xc19bf174,
   0xe49b69c1, 0xefbe4786, 0x0fc19dc6, 0x240ca1cc, 0x2de92c6f, 0x4a7484aa, 0x5cb0a9dc, 0x76f988da,
   0x983e5152, 0xa831c66d, 0xb00327c8, 0xbf597fc7, 0xc6e00bf3, 0xd5a79147, 0x06ca6351, 0x14292967,
   0x27b70a85, 0x2e1b2138, 0x4d2c6dfc, 0x53380d13, 0x650a7354, 0x766a0abb, 0x81c2c92e, 0x92722c85,
   0xa2bfe8a1, 0xa81a664b, 0xc24b8b70, 0xc76c51a3, 0xd192e819, 0xd6990624, 0xf40e3585, 0x106aa070,
   0x19a4c116, 0x1e376c08, 0x2748774c, 0x34b0bcb5, 0x391c0cb3, 0x4ed8aa4a, 0x5b9cca4f, 0x682e6ff3,
   0x748f82ee, 0x78a5636f, 0x84c87814, 0x8cc70208, 0x90befffa, 0xa4506ceb, 0xbef9a3f7, 0xc67178f2]

/-- FIPS 180-4, 5.3.3. -/
def H0 : List Nat :=
  [0x6a09e667, 0xbb67ae85, 0x3c6ef372, 0xa54ff53a, 0x510e527f, 0x9b05688c, 0x1f83d9ab, 0x5be0cd19]

/-- FIPS 180-4, 6.2.2 step 1: the words so far followed by the next `n`, given the last sixteen. -/
def schedule : Nat → List Nat → List Nat
  | n + 1, w0 :: w1 :: rest =>
    let w9 := rest.getD 7 0
    let w14 := rest.getD 12 0
    force ((((rotr w14 17).xor (rotr w14 19)).xor (w14 >>> 10) + w9 +
      ((rotr w1 7).xor (rotr w1 18)).xor (w1 >>> 3) + w0) % word)
      fun w => w0 :: schedule n (w1 :: rest ++ [w])
  | _, ws => ws

/-- FIPS 180-4, 6.2.2 step 3. -/
def rounds : List Nat → List Nat → (a b c d e f g h : Nat) → List Nat
  | k :: ks, w :: ws, a, b, c, d, e, f, g, h =>
    force ((h + ((rotr e 6).xor (rotr e 11)).xor (rotr e 25) + ((e &&& f).xor ((e.xor 0xffffffff) &&& g)) + k + w) % word)
      fun t1 =>
        force ((((rotr a 2).xor (rotr a 13)).xor (rotr a 22) + (((a &&& b).xor (a &&& c)).xor (b &&& c)) + t1) % word)
          fun a' => force ((d + t1) % word) fun e' => rounds ks ws a' a b c e' e f g
  | _, _, a, b, c, d, e, f, g, h => [a, b, c, d, e, f, g, h]

def forceAll {α : Type} : List Nat → (List Nat → α) → α
  | [], k => k []
  | n :: ns, k => force n fun n => forceAll ns fun ns => k (n :: ns)

/-- FIPS 180-4, 6.2.2: one block of sixteen words. -/
def block (hs ws : List Nat) : List Nat :=
  match hs with
  | [a, b, c, d, e, f, g, h] =>
    forceAll (List.zipWith (fun x y => (x + y) % word) hs (rounds K (schedule 48 ws) a b c d e f g h)) id
  | _ => hs

def words : List UInt8 → List Nat
  | a :: b :: c :: d :: rest => (((a.toNat * 256 + b.toNat) * 256 + c.toNat) * 256 + d.toNat) :: words rest
  | _ => []

def blocks : Nat → List Nat → List Nat → List Nat
  | n + 1, hs, ws => forceAll (ws.take 16) fun b => blocks n (block hs b) (ws.drop 16)
  | 0, hs, _ => hs

/-- The `k` low bytes of `n`, most significant first. -/
def beBytes (n : Nat) : Nat → List UInt8
  | 0 => []
  | k + 1 => UInt8.ofNat (n / 256 ^ k % 256) :: beBytes n k

/-- FIPS 180-4, 5.1.1. -/
def pad (m : List UInt8) : List UInt8 :=
  m ++ 0x80 :: List.replicate ((119 - m.length % 64) % 64) 0 ++ beBytes (8 * m.length) 8

def finalWords (m : List UInt8) : List Nat := blocks ((pad m).length / 64) H0 (words (pad m))

/-- The digest of a byte string (the padding to 32 bytes is never needed). -/
def digest (m : List UInt8) : Digest :=
  forceAll (finalWords m) fun ws =>
    ⟨(ws.flatMap fun w => beBytes w 4).take 32 ++ List.replicate (32 - (ws.flatMap fun w => beBytes w 4).length) 0, by
      rw [List.length_append, List.length_take, List.length_replicate]; omega⟩

end Jmt.Sha256
