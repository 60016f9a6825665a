import Verif.Proofs.BackendLife
import Verif.Props.RestoreBackend
import Verif.Props.StateSync
import Verif.Props.Backend
/-!
# C69: a node on any storage backend, from state sync on
-/
namespace Jmt
open Spec (PartlyWritten Written SameLookups)

section
variable {H : Hasher} {ops ops' : List Op} {y : Sys} {v w n : Version} {all : List (KeyHash × Value)} {checked : Bool} {root : Digest}
  {r : Restore} {R R1 R2 : Reader} {pos : Option KeyHash} {whole : Bool} {b : NodeBatch} {st : List StaleNodeIndex}

/-- When everything is sent and `finish` gets to its write, the backend then shows what a mock store with the invariant of `restoredAs w all` shows. -/
theorem restored_backend (hr : Reached H ops y) (hb : (setsOf ops).length < 2 ^ 64) (hv : Readable ops v) (hall : SortedPairs (mapAt ops v) all)
    (hne : all ≠ []) (hroot : getRootHash H y.store.reader v = .ok root)
    (hph : ∀ p ∈ Spec.treeStrings H (Spec.hashed H all), p.hash H ≠ placeholder)
    (h : RestoreOn H checked y.store.reader v all w root r R pos whole) (hdone : Spec.above all pos = []) (hlast : r.lastBatch H = .ok b)
    (hw : Written b R1 R) :
    ∃ s', SysInv H s' (setsOf (restoredAs w all)) (horizon (restoredAs w all)).2 ∧ SameLookups R1 s'.reader ∧
      SameQueries H s'.reader y.store.reader w v ∧ ∀ k n, s'.nodes.get? k = some n → k.version = w := by
  obtain ⟨hasc, -, hrt, -⟩ := honest_setting hr hb hv hall hroot
  have hnp : NP H (entriesOf H all) := np_of' hasc.nodup hph
  obtain ⟨z, p0, gp, p, hs⟩ := bsim_of hr hb hv hall hroot hnp h
  have hrest := bsim_rest hall hs
  rw [hdone, List.append_nil] at hrest
  have hc : p = [] ∨ 2 ≤ all.length := by
    apply Classical.byContradiction
    intro hc
    rw [not_or] at hc
    have hvne := addKeys_values p hc.1 hs.add
    obtain ⟨e, he⟩ : ∃ e, p.getLast? = some e := by
      cases hl : p.getLast? with
      | none => exact absurd (List.getLast?_eq_none_iff.1 hl) hc.1
      | some e => exact ⟨e, rfl⟩
    obtain ⟨r1, s1, h3, h4⟩ := sess_chunk (checked := true) hasc hnp hrt hs.inv (by rw [hrest]; exact List.prefix_refl _) he
    rw [hrest] at h4
    have hr1 : r1 = r.cleared := by
      unfold Restore.addChunk at h3
      rw [if_neg hc.1, hs.add] at h3
      simp only [] at h3
      split at h3
      · cases h3
      · split at h3
        · cases h3
        · cases h3; rfl
    subst hr1
    obtain ⟨l, hsl⟩ := (sess_single h4 hne).2 hc.2
    have hsl' : r.singleLeaf = some l := hsl
    unfold Restore.lastBatch at hlast
    rw [hsl'] at hlast
    simp only [] at hlast
    rw [if_neg (fun hc => hvne hc.2)] at hlast
    cases hlast
  obtain ⟨b', s', h1, h2, h4, h5, h3⟩ := bsim_finish_store hr hb hv hall hne hroot hnp hs hrest hc
  rw [hlast] at h1
  cases h1
  exact ⟨s', h2, h3 R1 hw, h4, h5⟩

theorem length_restoredAs (w : Version) (all : List (KeyHash × Value)) (ops' : List Op) :
    (setsOf (restoredAs w all ++ ops')).length = w + 1 + (setsOf ops').length := by
  rw [setsOf_append, List.length_append, setsOf_restoredAs]; simp

/-- C69: a node takes version `v` of a source over into an empty backend as its version `w` - chunks of any sizes, restarts, failed and partly
written chunks as in C67 - and then works on from version `w + 1` with commits, batch commits (interrupted and repeated at will) and prunings that delete any
part of what they may.  Then each of its versions that pruning has not given up answers every query like a mock store which wrote the pairs at version `w` and
then went through the same history, and the next commit returns the root hashes it returns there. -/
theorem C69_node_after_sync (hr : Reached H ops y) (hb : (setsOf ops).length < 2 ^ 64) (hv : Readable ops v) (hall : SortedPairs (mapAt ops v) all)
    (hne : all ≠ []) (hroot : getRootHash H y.store.reader v = .ok root)
    (hph : ∀ p ∈ Spec.treeStrings H (Spec.hashed H all), p.hash H ≠ placeholder)
    (h : RestoreOn H checked y.store.reader v all w root r R pos whole) (hdone : Spec.above all pos = []) (hlast : r.lastBatch H = .ok b)
    (hw : Written b R1 R) (hfrom : BackendFrom H [] R1 (w + 1) ops' R2 n st) (hb' : w + 1 + (setsOf ops').length < 2 ^ 64) :
    n = w + 1 + (setsOf ops').length ∧ ∃ y1, Reached H (restoredAs w all ++ ops') y1 ∧ y1.next = n ∧
      (∀ u, Readable (restoredAs w all ++ ops') u → SameQueries H R2 y1.store.reader u u) ∧
      ∀ sets : List ValueSet, n + sets.length < 2 ^ 64 →
        ∃ hs b1 b2, putValueSets H R2 sets n = .ok (hs, b1) ∧ putValueSets H y1.store.reader sets n = .ok (hs, b2) := by
  obtain ⟨s', hi, hl, -⟩ := restored_backend hr hb hv hall hne hroot hph h hdone hlast hw
  have hlen := length_restoredAs w all ops'
  obtain ⟨hok, hn, s, hi2, ht⟩ := hfrom.tracks (tracks_lookups hl) hi (by rw [setsOf_restoredAs]; simp) (by omega)
  obtain ⟨y1, hy1⟩ := C13_history_never_fails H (restoredAs w all ++ ops') (by
    intro op hop
    rcases List.mem_append.1 hop with hop | hop
    · unfold restoredAs at hop
      simp only [List.mem_cons, List.not_mem_nil, or_false] at hop
      rcases hop with rfl | rfl <;> trivial
    · exact hok op hop) (by omega)
  obtain ⟨b1, b2⟩ := hy1.inv (by omega)
  refine ⟨hn.trans hlen, y1, hy1, b1.trans hn.symm, fun u hu => ?_, fun sets hsets => ?_⟩
  · exact (ht.readAt_inv hi2 hu.1 hu.2).sameQueries (hy1.readAt (by omega) hu)
  · rw [hn] at ht
    obtain ⟨⟨⟨hs, bt⟩, e1, e2⟩, -⟩ := ht.put hi2 sets (by unfold preGenesisVersion u64Size; omega)
    obtain ⟨hs1, c, s1, c1, c2, c3⟩ := hi2.commit sets (by unfold preGenesisVersion u64Size; omega)
    obtain ⟨hs2, d, s2, d1, d2, d3⟩ := b2.commit sets (by unfold preGenesisVersion u64Size; omega)
    rw [e2] at c1
    cases c1
    obtain rfl : hs = hs2 := by rw [c3.hashes, d3.hashes]
    exact ⟨hs, bt, d, hn ▸ e1, hn ▸ d1⟩

/-- C69: such a node never gets stuck: after any such history the next commit or batch commit succeeds. -/
theorem C69_node_never_fails (hr : Reached H ops y) (hb : (setsOf ops).length < 2 ^ 64) (hv : Readable ops v) (hall : SortedPairs (mapAt ops v) all)
    (hne : all ≠ []) (hroot : getRootHash H y.store.reader v = .ok root)
    (hph : ∀ p ∈ Spec.treeStrings H (Spec.hashed H all), p.hash H ≠ placeholder)
    (h : RestoreOn H checked y.store.reader v all w root r R pos whole) (hdone : Spec.above all pos = []) (hlast : r.lastBatch H = .ok b)
    (hw : Written b R1 R) (hfrom : BackendFrom H [] R1 (w + 1) ops' R2 n st) :
    (∀ sets : List ValueSet, n + sets.length < 2 ^ 64 →
      (∃ res, putValueSets H R2 sets n = .ok res) ∧ ∃ res, putValueSetsWithProof H R2 sets n = .ok res) ∧
    ∀ sets : List (List (KeyHash × Value)), (∀ s ∈ sets, s ≠ []) → n + sets.length < 2 ^ 64 →
      ∃ res, batchPutValueSets H R2 sets none n = .ok res := by
  obtain ⟨s', hi, hl, -⟩ := restored_backend hr hb hv hall hne hroot hph h hdone hlast hw
  have hlen := length_restoredAs w all ops'
  have hn : n = w + 1 + (setsOf ops').length := by
    clear hlen
    induction hfrom with
    | start => simp [setsOf]
    | commit _ _ _ _ ih => rw [setsOf_commit, List.length_append, ih]; omega
    | batch _ _ _ _ ih => rw [setsOf_append, List.length_append, ih]; simp [setsOf]; omega
    | purge _ _ ih => rw [setsOf_purge, ih]
  constructor
  · intro sets hsets
    obtain ⟨-, hn', s, hi2, ht⟩ := hfrom.tracks (tracks_lookups hl) hi (by rw [setsOf_restoredAs]; simp) (by omega)
    rw [hn'] at ht
    obtain ⟨⟨x, e1, -⟩, x', e2, -⟩ := ht.put hi2 sets (by unfold preGenesisVersion u64Size; omega)
    exact ⟨⟨x, hn' ▸ e1⟩, x', hn' ▸ e2⟩
  · intro sets hns hsets
    obtain ⟨-, hn', s, hi2, ht⟩ := hfrom.tracks (tracks_lookups hl) hi (by rw [setsOf_restoredAs]; simp) (by omega)
    rw [hn'] at ht
    obtain ⟨x, e1, -⟩ := ht.putBatch hi2 sets hns (by unfold preGenesisVersion u64Size; omega)
    exact ⟨x, hn' ▸ e1⟩

/-- C69: a node that took over version `v` under its own number and replays what the source has committed since - in any grouping, with prunings of its own -
answers every query about every version both keep as the source does. -/
theorem C69_node_follows_source (hr : Reached H ops y) (hb : (setsOf ops).length < 2 ^ 64) (hv : Readable ops v)
    (hall : SortedPairs (mapAt ops v) all) (hne : all ≠ []) (hroot : getRootHash H y.store.reader v = .ok root)
    (hph : ∀ p ∈ Spec.treeStrings H (Spec.hashed H all), p.hash H ≠ placeholder)
    (h : RestoreOn H checked y.store.reader v all v root r R pos whole) (hdone : Spec.above all pos = []) (hlast : r.lastBatch H = .ok b)
    (hw : Written b R1 R) (hfrom : BackendFrom H [] R1 (v + 1) ops' R2 n st)
    {later : List Op} {y2 : Sys} (hr2 : Reached H (ops ++ later) y2) (hb2 : (setsOf (ops ++ later)).length < 2 ^ 64)
    (hs : setsOf ops' = (setsOf (ops ++ later)).drop (v + 1)) :
    n = y2.next ∧ ∀ u, Readable (ops ++ later) u → Readable (restoredAs v all ++ ops') u → SameQueries H R2 y2.store.reader u u := by
  have hlt : v < (setsOf (ops ++ later)).length := by rw [length_setsOf_append]; have := hv.2; omega
  have hlen : v + 1 + (setsOf ops').length = (setsOf (ops ++ later)).length := by rw [hs, List.length_drop]; omega
  obtain ⟨hn, y1, hy1, -, hq, -⟩ := C69_node_after_sync hr hb hv hall hne hroot hph h hdone hlast hw hfrom (by omega)
  refine ⟨by rw [hn, hlen, (hr2.inv hb2).1], fun u hu hu' => ?_⟩
  have hwu : v ≤ u := by
    have := horizon_mono (restoredAs v all) ops'
    rw [horizon_restoredAs] at this
    exact Nat.le_trans this hu'.1
  obtain ⟨s', hi, hl, -⟩ := restored_backend hr hb hv hall hne hroot hph h hdone hlast hw
  obtain ⟨-, -, s, hi2, ht⟩ := hfrom.tracks (tracks_lookups hl) hi (by rw [setsOf_restoredAs]; simp)
    (by rw [length_restoredAs]; omega)
  have r1 := ht.readAt_inv hi2 hu'.1 hu'.2
  have hmap : mapAt (ops ++ later) v = mapAt ops v := by
    have := hv.2
    unfold mapAt Spec.stateAfter
    rw [setsOf_append, List.take_append_of_le_length (by omega)]
  have hm : mapAt (restoredAs v all ++ ops') u = mapAt (ops ++ later) u := by
    obtain ⟨d, rfl⟩ := Nat.exists_eq_add_of_le hwu
    exact mapAt_follow (by rw [hmap]; exact hall) hlt hs
  have rs := hr2.readAt hb2 hu
  rw [← hm] at rs
  exact r1.sameQueries rs

/-- `BackendRun` is the case of a backend that holds nothing. -/
theorem C69_backendRun_is : BackendRun H ops R n st ↔
    ∃ R0 : Reader, (∀ k, R0.getNodeOption k = .ok none) ∧ (∀ v k, R0.getValueOption v k = .ok none) ∧ BackendFrom H [] R0 0 ops R n st := by
  constructor
  · intro h
    induction h with
    | start hn hv => exact ⟨_, hn, hv, .start⟩
    | commit _ a b c ih => obtain ⟨R0, h1, h2, h3⟩ := ih; exact ⟨R0, h1, h2, .commit h3 a b c⟩
    | batch _ a b c ih => obtain ⟨R0, h1, h2, h3⟩ := ih; exact ⟨R0, h1, h2, .batch h3 a b c⟩
    | purge _ a ih => obtain ⟨R0, h1, h2, h3⟩ := ih; exact ⟨R0, h1, h2, .purge h3 a⟩
  · rintro ⟨R0, h1, h2, h3⟩
    induction h3 with
    | start => exact .start h1 h2
    | commit _ a b c ih => exact .commit ih a b c
    | batch _ a b c ih => exact .batch ih a b c
    | purge _ a ih => exact .purge ih a

end

/-- Version 1 of the sample history taken over as version 1 with two failed chunk writes; the node then replays versions 2 to 4 of the source in two commits, prunes
up to version 3 on a backend that makes all it may delete unreadable, and answers queries about version 4 like the source. -/
example : ∃ (y : Sys) (R2 : Reader) (st : List StaleNodeIndex), Reached Sample.T Sample.ops y ∧
    (∃ R1, BackendFrom Sample.T [] R1 2 [.commit ((setsOf Sample.ops).drop 2), .purge 3] R2 5 st) ∧ SameQueries Sample.T R2 y.store.reader 4 4 := by
  obtain ⟨y, root, r, R, b, R1, hy, hroot, h1, h2, h3, -⟩ := Sample.restoredOn 1
  have hp : SortedPairs (mapAt Sample.ops 1) Sample.all1 := Sample.sorted1
  have f0 := BackendFrom.start (H := Sample.T) (st0 := []) (R0 := R1) (n0 := 2)
  obtain ⟨⟨hs, u⟩, e⟩ := ((C69_node_never_fails hy Sample.bound Sample.readable1 hp (by decide) hroot Sample.noPlaceholder1 h1 (by decide) h2 h3 f0).1
    ((setsOf Sample.ops).drop 2) (by decide)).1
  have f1 := BackendFrom.commit f0 e (partlyWritten_none _ _) (overlay_written _ _)
  have f2 := BackendFrom.purge f1 (Sample.failing_pruned _ 3 _)
  have hq := C69_node_follows_source (later := []) hy Sample.bound Sample.readable1 hp (by decide) hroot Sample.noPlaceholder1 h1 (by decide) h2 h3 f2
    (by rw [List.append_nil]; exact hy) (by decide) (by decide)
  exact ⟨y, _, _, hy, ⟨R1, f2⟩, hq.2 4 (by constructor <;> decide) (by constructor <;> decide)⟩

end Jmt
