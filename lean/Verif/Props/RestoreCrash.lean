import Verif.Proofs.RestoreCut
import Verif.Props.RestoreSample
/-!
# C54: the process ends inside `write_node_batch` during a restoration
-/
namespace Jmt
open Spec (Entry chunkBatch PartOf LeftToRight CrashRun)
open Store

section
variable {H : Hasher} {ops : List Op} {y : Sys} {v w : Version} {all : List (KeyHash × Value)} {checked ow : Bool} {root : Digest}
  {allowed : NodeBatch → NodeBatch → Prop}

theorem chunkBatch_inv {r : Restore} {chunk : List (KeyHash × Value)} {P : RangeProof} {batch : NodeBatch}
    (h : chunkBatch H checked r chunk P = .ok batch) : ∃ r', Restore.addKeys H chunk r = (r', .ok ()) ∧ r'.frozenNodes = batch := by
  unfold chunkBatch at h
  cases ha : Restore.addKeys H chunk r with
  | mk r' res =>
    rw [ha] at h
    cases res with
    | error e => cases h
    | ok u =>
      simp only [] at h
      obtain ⟨u, -, h2⟩ := bind_ok_inv h
      exact ⟨r', rfl, Except.ok.inj h2⟩

/-- One interrupted write. -/
theorem sess_cut (hasc : Asc (entriesOf H all)) (hall : all.Pairwise (fun a b => a.1.val < b.1.val)) {z : Sess} {p0 gp : List (KeyHash × Value)}
    (h : SessInv H all w root z p0 gp) {n : Nat} {e : KeyHash × Value} (he : ((Spec.above all z.pos).take (n + 1)).getLast? = some e)
    {P : RangeProof} {batch part : NodeBatch} (hb : chunkBatch H checked z.receiver ((Spec.above all z.pos).take (n + 1)) P = .ok batch)
    (hpart : PartOf part batch) (hltr : LeftToRight batch part) :
    ∃ s' r p0', z.store.writeNodeBatch part = .ok s' ∧ Restore.new H s'.reader w root = .ok r ∧
      SessInv H all w root ⟨r, s', s'.getRightmostLeaf.map (fun l => l.2.keyHash)⟩ p0' p0'.dropLast := by
  obtain ⟨t, ht⟩ := h.got
  have hab : Spec.above all z.pos = t := by
    rw [h.pos, ← ht]
    exact above_append (by rw [ht]; exact hall)
  rw [hab] at he hb
  obtain ⟨r', h1, rfl⟩ := chunkBatch_inv hb
  have hne : t.take (n + 1) ≠ [] := by intro hc; rw [hc] at he; simp at he
  have hpre : gp ++ t.take (n + 1) <+: all := by
    rw [← ht]
    exact (List.prefix_append_right_inj gp).2 (List.take_prefix _ _)
  obtain ⟨h2, h3⟩ := addKeys_inv (t.take (n + 1)) h.inv h1 (fun m hm => by cases hm)
  obtain ⟨h3, h4⟩ := h3 rfl
  rw [h3] at h2
  obtain ⟨s', p0', h5, h6, h7⟩ := cut_durable h2 hasc (h4 hne) hpre h.accepted hpart hltr
  obtain ⟨r, h8, h9⟩ := sess_new (root := root) hasc h7 h6
  exact ⟨s', r, p0', h5, h8, h9⟩

/-- Every state of a session with interrupted writes. -/
theorem crash_inv (hr : Reached H ops y) (hb : (setsOf ops).length < 2 ^ 64) (hv : Readable ops v) (hall : SortedPairs (mapAt ops v) all)
    (hroot : getRootHash H y.store.reader v = .ok root) (hnp : NP H (entriesOf H all)) (hltr : ∀ b p, allowed b p → LeftToRight b p) {z : Sess}
    (h : CrashRun H checked ow y.store.reader v all w root allowed z) : ∃ p0 gp, SessInv H all w root z p0 gp := by
  obtain ⟨hasc, -, -, -⟩ := honest_setting hr hb hv hall hroot
  induction h with
  | start => exact ⟨_, _, sess_start ow⟩
  | step ev _ hs ih =>
    obtain ⟨p0, gp, hi⟩ := ih
    obtain ⟨z2, p1, g1, h1, h2⟩ := sess_run (checked := checked) hr hb hv hall hroot hnp [ev] hi
    unfold Sess.run at h1
    rw [hs, ok_bind] at h1
    cases h1
    exact ⟨_, _, h2⟩
  | cut n _ hl hP hbat hpart hal hw hnew ih =>
    obtain ⟨p0, gp, hi⟩ := ih
    obtain ⟨s1, r1, p1, h1, h2, h3⟩ := sess_cut hasc hall.sorted hi hl hbat hpart (hltr _ _ hal)
    rw [hw] at h1
    cases h1
    rw [hnew] at h2
    cases h2
    exact ⟨_, _, h3⟩

/-- C54, what holds: if the database stores the values of a batch before its nodes and the nodes from left to right, children before their
parent, then the process may end inside any write, as often as it likes: continuing with the pairs above the rightmost stored leaf completes to
the same tree.  (Without that order it is false, see below: nothing in the interface asks for it.) -/
theorem C54_interrupted_chunk_partial (hr : Reached H ops y) (hb : (setsOf ops).length < 2 ^ 64) (hv : Readable ops v)
    (hall : SortedPairs (mapAt ops v) all) (hne : all ≠ []) (hroot : getRootHash H y.store.reader v = .ok root)
    (hph : ∀ p ∈ Spec.treeStrings H (Spec.hashed H all), p.hash H ≠ placeholder) {z : Sess}
    (hz : CrashRun H checked ow y.store.reader v all w root LeftToRight z)
    (sizes : List Nat) (hsizes : all.length ≤ (sizes.map (· + 1)).sum) :
    ∃ z' s', Sess.run H checked y.store.reader v all w root z (sizes.map .feed) = .ok z' ∧
      z'.receiver.finish H z'.store = .ok s' ∧ SameQueries H s'.reader y.store.reader w v ∧
      ∀ key, (s'.nodes.get? key).isSome ↔ ReachFrom s' w key := by
  obtain ⟨hasc, -, -, -⟩ := honest_setting hr hb hv hall hroot
  have hnp : NP H (entriesOf H all) := np_of' hasc.nodup hph
  obtain ⟨p0, gp, hi⟩ := crash_inv hr hb hv hall hroot hnp (fun _ _ h => h) hz
  obtain ⟨z', p0', h3, h4⟩ := feed_all (checked := checked) hr hb hv hall hroot hnp sizes hi (by omega)
  obtain ⟨s', h5, h6, h7⟩ := finish_same hr hb hv hall hne hroot h4
  exact ⟨z', s', h3, h5, h6, h7⟩

/-- C54, what holds: with that order, at every point of such a session the next chunk reaches `write_node_batch`, storing any allowed part of the
batch succeeds even on a store that panics when a node is written twice, and the receiver starts again on what is there. -/
theorem C54_recovery_succeeds_partial (hr : Reached H ops y) (hb : (setsOf ops).length < 2 ^ 64) (hv : Readable ops v)
    (hall : SortedPairs (mapAt ops v) all) (hroot : getRootHash H y.store.reader v = .ok root)
    (hph : ∀ p ∈ Spec.treeStrings H (Spec.hashed H all), p.hash H ≠ placeholder) {z : Sess}
    (hz : CrashRun H checked ow y.store.reader v all w root LeftToRight z) (n : Nat) {k : KeyHash} {x : Value}
    (hl : ((Spec.above all z.pos).take (n + 1)).getLast? = some (k, x)) :
    ∃ P batch, getRangeProof H y.store.reader k v = .ok P ∧
      chunkBatch H checked z.receiver ((Spec.above all z.pos).take (n + 1)) P = .ok batch ∧
      ∀ part, PartOf part batch → LeftToRight batch part →
        ∃ s' r, z.store.writeNodeBatch part = .ok s' ∧ Restore.new H s'.reader w root = .ok r := by
  obtain ⟨hasc, -, hrt, -⟩ := honest_setting hr hb hv hall hroot
  have hnp : NP H (entriesOf H all) := np_of' hasc.nodup hph
  obtain ⟨p0, gp, hi⟩ := crash_inv hr hb hv hall hroot hnp (fun _ _ h => h) hz
  have hmem : (k, x) ∈ all := by
    have := List.mem_of_mem_take (List.mem_of_getLast? hl)
    exact (List.mem_filter.1 this).1
  have hP := honest_proof hr hb hv hall hmem
  obtain ⟨t, ht⟩ := hi.got
  have hab : Spec.above all z.pos = t := by
    rw [hi.pos, ← ht]
    exact above_append (by rw [ht]; exact hall.sorted)
  have hpre : gp ++ (Spec.above all z.pos).take (n + 1) <+: all := by
    rw [hab]
    conv => rhs; rw [← ht]
    exact (List.prefix_append_right_inj gp).2 (List.take_prefix _ _)
  obtain ⟨r2, s2, h1, -⟩ := sess_chunk (checked := checked) hasc hnp hrt hi hpre hl
  obtain ⟨batch, hbat⟩ : ∃ batch, chunkBatch H checked z.receiver ((Spec.above all z.pos).take (n + 1))
      ⟨rightSiblingsOf (specProof H (entriesOf H all) k).siblings k⟩ = .ok batch := by
    unfold Restore.addChunk at h1
    unfold chunkBatch
    split at h1
    · cases h1
    · cases ha : Restore.addKeys H ((Spec.above all z.pos).take (n + 1)) z.receiver with
      | mk r' res =>
        rw [ha] at h1
        cases res with
        | error e => cases h1
        | ok u =>
          simp only [] at h1 ⊢
          cases hv : r'.verify H checked ⟨rightSiblingsOf (specProof H (entriesOf H all) k).siblings k⟩ with
          | error e => rw [hv] at h1; cases h1
          | ok u => exact ⟨_, rfl⟩
  refine ⟨_, batch, hP, hbat, fun part hpart hltr => ?_⟩
  obtain ⟨s', r, p0', h2, h3, -⟩ := sess_cut hasc hall.sorted hi hl hbat hpart hltr
  exact ⟨s', r, h2, h3⟩

end
end Jmt
