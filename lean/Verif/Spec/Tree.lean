import Verif.Spec.Basic
/-!
# The specification: a versioned map and its canonical sparse-Merkle root

A reader who knows what a sparse Merkle tree is should be able to check this file in minutes.
-/
namespace Jmt.Spec
open Jmt

/-- The `i`-th bit (big-endian, `0 ≤ i < 256`) of a 32-byte key. -/
def bit (k : KeyHash) (i : Nat) : Bool := (k.val.getD (i / 8) 0).toNat.testBit (7 - i % 8)

/-- A key together with the hash of its value. -/
abbrev Entry := KeyHash × ValueHash

/-- Canonical root of the subtree holding exactly the entries `es`, which agree on their first `d`
bits (`f` is the number of bits left, `f + d = 256`): no entry - the placeholder;
one entry - its leaf hash; otherwise split on bit `d`. -/
def subtree (H : Hasher) : (f d : Nat) → List Entry → Digest
  | _, _, [] => placeholder
  | _, _, [(k, v)] => H.leafHash k v
  | 0, _, _ :: _ :: _ => placeholder -- two distinct 256-bit keys cannot agree on all bits
  | f + 1, d, e₁ :: e₂ :: es =>
      H.internalHash
        (subtree H f (d + 1) ((e₁ :: e₂ :: es).filter (fun e => bit e.1 d == false)))
        (subtree H f (d + 1) ((e₁ :: e₂ :: es).filter (fun e => bit e.1 d == true)))

/-- Canonical root hash of a finite map given as a list of entries. -/
def root (H : Hasher) (es : List Entry) : Digest := subtree H 256 0 es

/-- A map from key hashes to values. -/
abbrev Map := KeyHash → Option Value

/-- One write: `some v` stores `v`, `none` deletes. -/
abbrev Write := KeyHash × Option Value

def Map.empty : Map := fun _ => none

/-- Apply one write. -/
def Map.write (s : Map) (w : Write) : Map := fun k => if k = w.1 then w.2 else s k

/-- Apply the writes of one value set, in order (later writes to the same key win). -/
def Map.writes (s : Map) (ws : List Write) : Map := ws.foldl Map.write s

/-- The map after the first `n` value sets of a history. -/
def stateAfter (s : Map) (hist : List (List Write)) (n : Nat) : Map :=
  (hist.take n).foldl Map.writes s

/-- `es` lists each key of `s` exactly once, with the hash of its value. -/
structure Lists (H : Hasher) (s : Map) (es : List Entry) : Prop where
  nodup : (es.map Prod.fst).Nodup
  mem : ∀ k vh, (k, vh) ∈ es ↔ ∃ v, s k = some v ∧ vh = H.hash v

end Jmt.Spec
