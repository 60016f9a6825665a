import Verif.Proofs.WriteWork
import Verif.Props.ProofShape
import Verif.Props.Batch
import Verif.Props.Faults
/-!
# Property C57: bounded work

How many nodes a call reads, writes and retires, on any reader.
-/
namespace Jmt
open Spec (Entry)
variable {H : Hasher}

/-- C57, reads: a successful `get_with_proof` depends on at most `2 n + 1` nodes of the store, where `n` is the number of
siblings in the proof it returns (`C31_proof_shape` says what `n` is), and on one value. -/
theorem C57_reads_bounded (R : Reader) (k : KeyHash) (v : Version) {x : Option Value} {P : SMProof}
    (h : getWithProof H R k v = .ok (x, P)) :
    ∃ L : List NodeKey, L.length ≤ 2 * P.siblings.length + 1 ∧
      Spec.DependsOnly (fun R => getWithProof H R k v) R v k L := by
  obtain ⟨-, L, h1, h2⟩ := gwpLoop_dep (fun _ => rfl) h
  exact ⟨L, by simpa using h1, fun R' hn hv => (h2 R' hn hv).trans h.symm⟩

theorem finish_bounded {wp : Bool} {R : Reader} {sets : List ValueSet} {first : Version} {tc tc' : TreeCache}
    {pss : List (List SMProof)} (h1 : TreeCache.new R first = .ok tc) (h2 : putSets H wp first sets tc = .ok (pss, tc')) :
    Spec.BoundedUpdate sets tc'.finish.2 := by
  obtain ⟨hb, hf⟩ := new_blank h1
  obtain ⟨sts, q1, q2, q3, q4, q5, q6⟩ := putSets_work hb h2
  rw [hf] at q1 q4 q5 q6
  have hst : tc'.finish.2.nodeStats = sts := by
    show tc'.frozen.stats = sts
    rw [q1]; rfl
  refine ⟨?_, ?_, ?_, by rw [hst]; exact q2, fun j ws st hj hs => q3 j ws st hj (hst ▸ hs)⟩
  · exact Nat.le_trans q4 (by simp [Frozen.empty])
  · exact Nat.le_trans q6 (by simp [Frozen.empty])
  · exact Nat.le_trans q5 (by simp [Frozen.empty])

/-- C57, writes: whatever the reader answers, an update made of `n` writes stores at most `66 n` nodes plus one per version,
retires at most `66 n` nodes and stores at most `n` value entries. -/
theorem C57_writes_bounded (R : Reader) (sets : List ValueSet) (first : Version) {hs b}
    (h : putValueSets H R sets first = .ok (hs, b)) : Spec.BoundedUpdate sets b := by
  unfold putValueSets at h
  obtain ⟨tc, h1, h⟩ := bind_ok_inv h
  obtain ⟨⟨pss, tc'⟩, h2, h⟩ := bind_ok_inv h
  have hb : b = tc'.finish.2 := by cases h; rfl
  rw [hb]
  exact finish_bounded h1 h2

/-- C57, writes with proofs. -/
theorem C57_writes_with_proof_bounded (R : Reader) (sets : List ValueSet) (first : Version) {hs b}
    (h : putValueSetsWithProof H R sets first = .ok (hs, b)) : Spec.BoundedUpdate sets b := by
  unfold putValueSetsWithProof at h
  obtain ⟨tc, h1, h⟩ := bind_ok_inv h
  obtain ⟨⟨pss, tc'⟩, h2, h⟩ := bind_ok_inv h
  have hb : b = tc'.finish.2 := by cases h; rfl
  rw [hb]
  exact finish_bounded h1 h2

/-- C57, the migration API. -/
theorem C57_append_bounded (R : Reader) (ws : ValueSet) (v : Version) {r b}
    (h : appendValueSet H R ws v = .ok (r, b)) : Spec.BoundedUpdate [ws] b := by
  unfold appendValueSet at h
  obtain ⟨tc, h1, h⟩ := bind_ok_inv h
  obtain ⟨⟨ps, t⟩, h2, h⟩ := bind_ok_inv h
  obtain ⟨tc', h3, h⟩ := bind_ok_inv h
  have hblank : Blank tc ∧ tc.frozen = Frozen.empty := by
    unfold TreeCache.newOverwrite at h1
    obtain ⟨rl, -, h1⟩ := bind_ok_inv h1
    cases rl with
    | none => cases h1
    | some x =>
      obtain ⟨nk, l⟩ := x
      simp only [] at h1
      split at h1
      · cases h1; exact ⟨⟨rfl, rfl, rfl, .inl rfl⟩, rfl⟩
      · cases h1
  have hb : b = tc'.finish.2 := by
    simp only [] at h
    split at h
    · cases h; rfl
    · cases h
  have h4 : putSets H false v [ws] tc = .ok ([ps], tc') := by
    unfold putSets
    rw [h2, ok_bind]
    simp only []
    rw [h3, ok_bind]
    rfl
  obtain ⟨sts, q1, q2, q3, q4, q5, q6⟩ := putSets_work hblank.1 h4
  rw [hblank.2] at q1 q4 q5 q6
  have hst : tc'.finish.2.nodeStats = sts := by
    show tc'.frozen.stats = sts
    rw [q1]; rfl
  rw [hb]
  refine ⟨?_, ?_, ?_, by rw [hst]; exact q2, fun j ws st hj hs => q3 j ws st hj (hst ▸ hs)⟩
  · exact Nat.le_trans q4 (by simp [Frozen.empty])
  · exact Nat.le_trans q6 (by simp [Frozen.empty])
  · exact Nat.le_trans q5 (by simp [Frozen.empty])

/-- C57, the batch API on a store made by a history: version by version, as reported by the statistics of the batch
(`C29_node_stats_exact`: they count the nodes). -/
theorem C57_batch_bounded {ops : List Op} {y : Sys} (hr : Reached H ops y) (sets : List (List (KeyHash × Value)))
    (hb : (setsOf ops).length + sets.length < 2 ^ 64) {hs b}
    (h : batchPutValueSets H y.store.reader sets none y.next = .ok (hs, b)) :
    b.nodeStats.length = sets.length ∧ ∀ (j : Nat) (ws : List (KeyHash × Value)) (st : NodeStats), sets[j]? = some ws →
      b.nodeStats[j]? = some st → st.newNodes ≤ 66 * ws.length + 1 ∧ st.staleNodes ≤ 66 * ws.length := by
  obtain ⟨hs', b1, b', e1, e2, e3⟩ := C15_batch_same_batches hr sets (batch_nonempty h) hb
  rw [e1] at h
  cases h
  have hB := C57_writes_bounded _ _ _ e2
  refine ⟨by rw [e3.stats, hB.versions, List.length_map], fun j ws st hj hst => ?_⟩
  have := hB.each j (someSet ws) st (by rw [List.getElem?_map, hj]; rfl) (by rw [← e3.stats]; exact hst)
  simpa [someSet] using this

namespace Sample

/-- Two keys that differ in their last nibble only. -/
def twin (b : UInt8) : KeyHash := ⟨List.replicate 31 0xAA ++ [b], by simp⟩

/-- A hasher that is cheap to evaluate. -/
abbrev U : Hasher := .ofDigest (fun _ => ⟨List.replicate 32 7, by simp⟩)

end Sample

/-- The bounds are reached: inserting a key next to one that shares all but its last nibble writes 66 nodes, and deleting
it again retires 66. -/
theorem C57_bounds_reached : ∃ (hs : List Digest) (b : TreeUpdateBatch) (st st' : NodeStats),
    putValueSets Sample.U (Store.new false).reader
      [[(Sample.twin 0, some [1])], [(Sample.twin 1, some [1])], [(Sample.twin 1, none)]] 0 = .ok (hs, b) ∧
    b.nodeStats[1]? = some st ∧ st.newNodes = 66 ∧ b.nodeStats[2]? = some st' ∧ st'.staleNodes = 66 := by
  have h : Sample.okAnd (putValueSets Sample.U (Store.new false).reader
      [[(Sample.twin 0, some [1])], [(Sample.twin 1, some [1])], [(Sample.twin 1, none)]] 0)
      (fun x => (x.2.nodeStats[1]?.map NodeStats.newNodes == some 66) &&
        (x.2.nodeStats[2]?.map NodeStats.staleNodes == some 66)) = true := by decide +kernel
  obtain ⟨⟨hs, b⟩, h1, h2⟩ := Sample.of_okAnd h
  rw [Bool.and_eq_true, beq_iff_eq, beq_iff_eq, Option.map_eq_some_iff, Option.map_eq_some_iff] at h2
  obtain ⟨⟨st, a1, a2⟩, st', b1, b2⟩ := h2
  exact ⟨hs, b, st, st', h1, a1, a2, b1, b2⟩

/-- C57 on the sample history. -/
example : ∃ y P L, Reached H Sample.ops y ∧ getWithProof H y.store.reader (Sample.key 0x10) 3 = .ok (some [4], P) ∧
    List.length L ≤ 2 * P.siblings.length + 1 ∧
    Spec.DependsOnly (fun R => getWithProof H R (Sample.key 0x10) 3) y.store.reader 3 (Sample.key 0x10) L := by
  obtain ⟨y, hy⟩ := Sample.reached H
  obtain ⟨P, h⟩ := C02_get_with_proof_agrees hy Sample.bound Sample.readable3 (Sample.key 0x10)
  obtain ⟨L, h1, h2⟩ := C57_reads_bounded _ _ _ h
  exact ⟨y, P, L, hy, h, h1, h2⟩

end Jmt
