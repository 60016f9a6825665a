import Verif.Proofs.Range
import Verif.Props.Update
/-!
# C22: range proofs
-/
namespace Jmt
open Spec (Entry)

variable {H : Hasher} {ops : List Op} {y : Sys}

theorem leftHashes_perm {m m' : List Entry} (h : m.Perm m') (k : KeyHash) {n : Nat} :
    Spec.leftHashes H m k n = Spec.leftHashes H m' k n := by
  unfold Spec.leftHashes
  congr 1
  apply List.map_congr_left
  intro d _
  unfold Spec.leftHash
  exact subtree_perm H _ _ (h.filter _)

/-- C22, completeness: for a key of a readable version `get_range_proof` returns a proof that `verify` accepts against the root
hash, together with the leaf and the canonical left siblings, which depend on the smaller keys only.
`n` is the depth of the leaf: the number of siblings. -/
theorem C22_range_complete (hr : Reached H ops y) (hb : (setsOf ops).length < 2 ^ 64) {v : Version}
    (hv : Readable ops v) {es} (hes : Spec.Lists H (mapAt ops v) es) {k : KeyHash} {x : Value}
    (hx : mapAt ops v k = some x) (checked : Bool) :
    ∃ P root n, getRangeProof H y.store.reader k v = .ok P ∧ getRootHash H y.store.reader v = .ok root ∧ n ≤ 256 ∧
      P.verify H checked root (k, H.hash x)
        (Spec.leftHashes H (es.filter (fun e => decide (e.1.val < k.val))) k n) = .ok () := by
  have ra := hr.readAt hb hv
  have hp := lists_perm ra.lists hes
  have hlen := specProof_len H (entriesAfter H (setsOf ops) (v + 1)) k
  refine ⟨⟨rightSiblingsOf (specProof H (entriesAfter H (setsOf ops) (v + 1)) k).siblings k⟩, _,
    (specProof H (entriesAfter H (setsOf ops) (v + 1)) k).siblings.length, ?_, ra.rootHash, hlen, ?_⟩
  · unfold getRangeProof
    rw [ra.gwp, ok_bind]
    simp only [hx]
  · rw [leftHashes_filter (fun e => decide (e.1.val < k.val)) (fun e _ h => by simpa using h) hlen,
      ← leftHashes_perm hp, root_eq_sh]
    exact range_complete ra.nodup ((ra.lists.mem k _).2 ⟨x, hx, rfl⟩) checked

/-- C22: for a key without a value no range proof is made. -/
theorem C22_range_absent (hr : Reached H ops y) (hb : (setsOf ops).length < 2 ^ 64) {v : Version}
    (hv : Readable ops v) {k : KeyHash} (hx : mapAt ops v k = none) :
    ∃ s, getRangeProof H y.store.reader k v = .error (.bail s) := by
  have ra := hr.readAt hb hv
  refine ⟨"rightmost_key_to_prove must exist.", ?_⟩
  unfold getRangeProof
  rw [ra.gwp, ok_bind]
  simp only [hx]

/-- C22, soundness: if `verify` accepts any range proof, leaf and left siblings against the root of a map, then the map has
a value with that hash at that key, and the left siblings are the canonical ones, which authenticate all smaller keys.
(More than 256 siblings only pass without overflow checks, and only in a tree with this one leaf.)  The number of siblings
is a machine integer. -/
theorem C22_range_sound {s : Spec.Map} {es} (hl : Spec.Lists H s es) (P : RangeProof) (k : KeyHash) (vh : ValueHash)
    (ls : List Digest) (checked : Bool) (hmach : ls.length + P.rightSiblings.length < 2 ^ 64)
    (hnc : Spec.NoCollision H (Spec.treeStrings H es ++ Spec.rangeStrings H P.rightSiblings (k, vh) ls))
    (hv : P.verify H checked (Spec.root H es) (k, vh) ls = .ok ()) :
    (∃ x, s k = some x ∧ vh = H.hash x) ∧
    (ls.length + P.rightSiblings.length ≤ 256 →
      ls = Spec.leftHashes H (es.filter (fun e => decide (e.1.val < k.val))) k
        (ls.length + P.rightSiblings.length)) := by
  rw [root_eq_sh] at hv
  obtain ⟨h1, h2⟩ := range_sound (nodupE_of_lists hl) hv hmach hnc
  refine ⟨(hl.mem k vh).1 h1, fun h => ?_⟩
  rw [leftHashes_filter (fun e => decide (e.1.val < k.val)) (fun e _ h => by simpa using h) h]
  exact (h2 h).1

/-! ### The hypotheses are met -/

example (H : Hasher) : ∃ y, Reached H Sample.ops y ∧ ∃ P, getRangeProof H y.store.reader (Sample.key 0x1f) 1 = .ok P := by
  obtain ⟨y, hy⟩ := Sample.reached H
  obtain ⟨es, hes⟩ := C03_listing_exists H Sample.ops 1
  obtain ⟨P, -, -, h, -⟩ := C22_range_complete hy Sample.bound Sample.readable1 hes (k := Sample.key 0x1f) (x := [2])
    (by decide) true
  exact ⟨y, hy, P, h⟩

/-- Two keys `10..`, `80..`: a range proof for the second needs no right sibling and one left sibling, the leaf of the first. -/
def Sample.range80 : RangeProof := ⟨[]⟩

example : ∃ x, Sample.s2 (Sample.key 0x80) = some x ∧ Sample.toy [3] = Sample.T.hash x :=
  (C22_range_sound Sample.lists2 Sample.range80 (Sample.key 0x80) (Sample.toy [3])
    [Sample.T.leafHash (Sample.key 0x10) (Sample.toy [4])] true (by decide)
    ⟨by decide +kernel, by decide +kernel⟩ (Sample.ok_of (by decide +kernel))).1

end Jmt
