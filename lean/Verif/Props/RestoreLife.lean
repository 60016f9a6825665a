import Verif.Props.RestoreWorks
import Verif.Props.BackendLife
/-!
# C70: the life of a node after a restoration over what its backend held before
-/
namespace Jmt
open Spec (Entry PartlyWritten Written)

section
variable {H : Hasher} {ops ops' : List Op} {y : Sys} {v w n : Version} {all : List (KeyHash × Value)} {checked : Bool} {root : Digest}
  {r : Restore} {R R' R0 R2 : Reader} {pos : Option KeyHash} {b : NodeBatch} {st0 st : List StaleNodeIndex}

/-- What is read of a version that both a mock store and a backend following it have: all that starts from the root, and the values of the keys present. -/
theorem Tracks.readTree {P : Prop} {s : Store} {hist : List ValueSet} {low n : Nat} (ht : Tracks P R st s n) (hi : SysInv H s hist low)
    {u : Version} (h1 : low ≤ u) (h2 : u < hist.length) :
    ReadTree H R u (Spec.stateAfter Spec.Map.empty hist (u + 1)) (entriesAfter H hist (u + 1)) := by
  refine (hi.reads.readAt h1 h2).toReadTree.found (fun k => ?_) (fun x k => ?_)
  · show Except.ok (s.nodes.get? k) = _ ∨ Except.ok (s.nodes.get? k) = _
    cases hk : s.nodes.get? k with
    | some nd => exact .inl (ht.node k nd hk).symm
    | none => exact .inr rfl
  · rcases ht.value x k with h | ⟨-, h⟩
    · exact .inl h.symm
    · exact .inr (congrArg Except.ok h)

section
variable (hr : Reached H ops y) (hb : (setsOf ops).length < 2 ^ 64) (hv : Readable ops v) (hall : SortedPairs (mapAt ops v) all)
    (hne : all ≠ []) (hroot : getRootHash H y.store.reader v = .ok root)
    (hph : ∀ p ∈ Spec.treeStrings H (Spec.hashed H all), p.hash H ≠ placeholder)
    (h : RestoreOver H checked y.store.reader v all w root R0 r R pos) (hdone : Spec.above all pos = []) (hlast : r.lastBatch H = .ok b)
    (hw : Written b R' R) (hnew : ∀ k : NodeKey, w < k.version → R0.getNodeOption k = .ok none)
    (hold : ∀ x ∈ st0, x.nodeKey.version < w) (hfrom : BackendFrom H st0 R' (w + 1) ops' R2 n st)
include hr hb hv hall hne hroot hph h hdone hlast hw hnew hold hfrom

theorem restored_life (hb' : w + 1 + (setsOf ops').length < 2 ^ 64) :
    (∀ op ∈ ops', op.Allowed) ∧ n = w + 1 + (setsOf ops').length ∧
      ∃ s, SysInv H s (setsOf (restoredAs w all ++ ops')) (horizon (restoredAs w all ++ ops')).2 ∧ Tracks False R2 st s n ∧
        OldPart w R' st0 ops' R2 st s := by
  obtain ⟨s', hi, ho, -, hver⟩ := restored_over hr hb hv hall hne hroot hph h hdone hlast hw
  have hlen := length_restoredAs w all ops'
  have ht0 : Tracks False R' st0 s' (w + 1) := by
    refine ⟨fun k nd hk => ?_, fun k hk _ => ?_, fun u k => ?_, fun x hx => ⟨by have := hold x hx; omega, .inr ?_⟩⟩
    · rcases ho.node k rfl with h1 | h1
      · rw [← h1]; show Except.ok _ = _; rw [hk]
      · have : Except.ok (s'.nodes.get? k) = Except.ok (ε := Err) none := h1
        rw [hk] at this; cases this
    · rw [ho.others k (by omega)]; exact hnew k (by omega)
    · rcases ho.value u k (fun _ _ hc => by cases hc) with h1 | h1
      · exact .inl h1.symm
      · exact .inr ⟨id, Except.ok.inj h1⟩
    · cases hk : s'.nodes.get? x.nodeKey with
      | none => rfl
      | some nd => have := hver _ _ hk; have := hold x hx; omega
  obtain ⟨h1, h2, s, h3, h4, h5⟩ := hfrom.tracks_old w ht0 hi (by rw [setsOf_restoredAs]; simp)
    (fun k nd hk => by have := hver k nd hk; omega) (Nat.le_succ w) (by omega)
  exact ⟨h1, h2.trans hlen, s, h3, h4, h5⟩

/-- C70: a node whose backend held something before - nothing of versions above `w`, and only nodes of versions below `w` handed over as stale - restores a
version of a source over it as its version `w` and works on from there with commits, batch commits (interrupted and repeated at will) and prunings that delete
any part of what they may, the old leftovers included.  Then each of its versions from `w` on that pruning has not given up answers every query that starts from its
root node, and `get` of the keys present, like a mock store which wrote the pairs at version `w` and then went through the same history, and the next commit
returns the root hashes it returns there. -/
theorem C70_life (hb' : w + 1 + (setsOf ops').length < 2 ^ 64) :
    n = w + 1 + (setsOf ops').length ∧ ∃ y1, Reached H (restoredAs w all ++ ops') y1 ∧ y1.next = n ∧
      (∀ u, Readable (restoredAs w all ++ ops') u → SameTreeQueries H R2 y1.store.reader u u ∧
        ∀ k x, mapAt (restoredAs w all ++ ops') u k = some x → Jmt.get R2 k u = .ok (some x)) ∧
      ∀ sets : List ValueSet, n + sets.length < 2 ^ 64 →
        ∃ hs b1 b2, putValueSets H R2 sets n = .ok (hs, b1) ∧ putValueSets H y1.store.reader sets n = .ok (hs, b2) := by
  obtain ⟨hok, hn, s, hi2, ht, -⟩ := restored_life hr hb hv hall hne hroot hph h hdone hlast hw hnew hold hfrom hb'
  have hlen := length_restoredAs w all ops'
  obtain ⟨y1, hy1⟩ := C13_history_never_fails H (restoredAs w all ++ ops') (by
    intro op hop
    rcases List.mem_append.1 hop with hop | hop
    · unfold restoredAs at hop
      simp only [List.mem_cons, List.not_mem_nil, or_false] at hop
      rcases hop with rfl | rfl <;> trivial
    · exact hok op hop) (by omega)
  obtain ⟨b1, b2⟩ := hy1.inv (by omega)
  refine ⟨hn, y1, hy1, by omega, fun u hu => ?_, fun sets hsets => ?_⟩
  · have hrt := ht.readTree hi2 hu.1 hu.2
    exact ⟨hrt.sameTree (hy1.readAt (by omega) hu).toReadTree, hrt.present⟩
  · rw [hn, ← hlen] at ht
    obtain ⟨⟨⟨hs, bt⟩, e1, e2⟩, -⟩ := ht.put hi2 sets (by unfold preGenesisVersion u64Size; omega)
    obtain ⟨hs1, c, s1, c1, c2, c3⟩ := hi2.commit sets (by unfold preGenesisVersion u64Size; omega)
    obtain ⟨hs2, d, s2, d1, d2, d3⟩ := b2.commit sets (by unfold preGenesisVersion u64Size; omega)
    rw [e2] at c1
    cases c1
    obtain rfl : hs = hs2 := by rw [c3.hashes, d3.hashes]
    rw [hn, ← hlen]
    exact ⟨hs, bt, d, e1, d1⟩

/-- C70: such a node never gets stuck. -/
theorem C70_life_never_fails :
    (∀ sets : List ValueSet, n + sets.length < 2 ^ 64 →
      (∃ res, putValueSets H R2 sets n = .ok res) ∧ ∃ res, putValueSetsWithProof H R2 sets n = .ok res) ∧
    ∀ sets : List (List (KeyHash × Value)), (∀ s ∈ sets, s ≠ []) → n + sets.length < 2 ^ 64 →
      ∃ res, batchPutValueSets H R2 sets none n = .ok res := by
  have hlen := length_restoredAs w all ops'
  have hn : n = w + 1 + (setsOf ops').length := by
    clear hlen
    induction hfrom with
    | start => simp [setsOf]
    | commit _ _ _ _ ih => rw [setsOf_commit, List.length_append, ih]; omega
    | batch _ _ _ _ ih => rw [setsOf_append, List.length_append, ih]; simp [setsOf]; omega
    | purge _ _ ih => rw [setsOf_purge, ih]
  constructor
  · intro sets hsets
    obtain ⟨-, -, s, hi2, ht, -⟩ := restored_life hr hb hv hall hne hroot hph h hdone hlast hw hnew hold hfrom (by omega)
    rw [hn, ← hlen] at ht
    obtain ⟨⟨x, e1, -⟩, x', e2, -⟩ := ht.put hi2 sets (by unfold preGenesisVersion u64Size; omega)
    rw [hn, ← hlen]
    exact ⟨⟨x, e1⟩, x', e2⟩
  · intro sets hns hsets
    obtain ⟨-, -, s, hi2, ht, -⟩ := restored_life hr hb hv hall hne hroot hph h hdone hlast hw hnew hold hfrom (by omega)
    rw [hn, ← hlen] at ht
    obtain ⟨x, e1, -⟩ := ht.putBatch hi2 sets hns (by unfold preGenesisVersion u64Size; omega)
    rw [hn, ← hlen]
    exact ⟨x, e1⟩

end

/-- What a mock store holds after its own history meets the conditions on what the backend held before. -/
theorem old_history {ops0 : List Op} {y0 : Sys} (hr0 : Reached H ops0 y0) (hw0 : (setsOf ops0).length ≤ w) (hw64 : w < 2 ^ 64) :
    (∀ k : NodeKey, w < k.version → y0.store.reader.getNodeOption k = .ok none) ∧ ∀ x ∈ y0.store.stale, x.nodeKey.version < w := by
  obtain ⟨-, ⟨M, W, hI, -⟩, -⟩ := hr0.inv (by omega)
  refine ⟨fun k hk => ?_, fun x hx => ?_⟩
  · show Except.ok _ = _
    cases hc : y0.store.nodes.get? k with
    | none => rfl
    | some nd => have := hI.lt _ _ hc; omega
  · obtain ⟨nd, hnd⟩ := (hI.stale x hx).2.2.1
    have := hI.lt _ _ hnd
    omega

/-- C70: and the versions of the backend's own history before the restored one keep answering every query, throughout that life, until the
prunings give them up. -/
theorem C70_life_older_versions (hr : Reached H ops y) (hb : (setsOf ops).length < 2 ^ 64) (hv : Readable ops v) (hall : SortedPairs (mapAt ops v) all)
    (hne : all ≠ []) (hroot : getRootHash H y.store.reader v = .ok root)
    (hph : ∀ p ∈ Spec.treeStrings H (Spec.hashed H all), p.hash H ≠ placeholder)
    {ops0 : List Op} {y0 : Sys} (hr0 : Reached H ops0 y0) (hw0 : (setsOf ops0).length ≤ w)
    (h : RestoreOver H checked y.store.reader v all w root y0.store.reader r R pos) (hdone : Spec.above all pos = []) (hlast : r.lastBatch H = .ok b)
    (hw : Written b R' R) (hfrom : BackendFrom H y0.store.stale R' (w + 1) ops' R2 n st) (hb' : w + 1 + (setsOf ops').length < 2 ^ 64)
    {u : Version} (hu : Readable ops0 u) (hpurge : ∀ q, Op.purge q ∈ ops' → q ≤ u) : SameQueries H R2 y0.store.reader u u := by
  obtain ⟨hnew, hold⟩ := old_history (w := w) hr0 hw0 (by omega)
  obtain ⟨-, -, s, -, -, hO⟩ := restored_life hr hb hv hall hne hroot hph h hdone hlast hw hnew hold hfrom hb'
  obtain ⟨g1, g2⟩ := C70_rest_untouched hr hb hv hall hne hroot hph h hdone hlast hw
  have hb0 : (setsOf ops0).length < 2 ^ 64 := by omega
  have huw : u < w := Nat.lt_of_lt_of_le hu.2 hw0
  obtain ⟨s', a1, hr1⟩ := hr0.purge u hb0
  obtain ⟨-, hi⟩ := hr0.inv hb0
  obtain ⟨s'', a1', -, a3, -, -, a5⟩ := hi.purge u
  rw [a1] at a1'
  cases a1'
  have hu1 : Readable (ops0 ++ [.purge u]) u := by
    refine ⟨?_, by rw [setsOf_purge]; exact hu.2⟩
    rw [horizon_snoc_purge]
    have := hu.1
    omega
  let E : Reader := { getNodeOption := fun k => if k.version ≤ u then .ok (s'.nodes.get? k) else .ok none
                      getValueOption := fun q k => if q ≤ u then .ok (s'.getValueOption q k) else .ok none
                      getRightmostLeaf := .ok none }
  have hE : ReadTree H E u _ _ := (hr1.readAt_older (by rw [setsOf_purge]; exact hb0) hu1 (R' := E) (fun k hk => if_pos hk) (fun q k hq => if_pos hq)).toReadTree
  have hval : ∀ q k, q < w → R2.getValueOption q k = y0.store.reader.getValueOption q k :=
    fun q k hq => (hO.value q k hq).trans (g2 q k hq)
  have h2 : ReadTree H R2 u _ _ := hE.found (fun k => ?_) (fun q k => ?_)
  · have hm : mapAt (ops0 ++ [.purge u]) u = mapAt ops0 u := by unfold mapAt; rw [setsOf_purge]
    rw [hm] at h2
    exact (h2.sameTree (hr0.readAt hb0 hu).toReadTree).same (fun k => hval u k huw)
  · show (if k.version ≤ u then Except.ok (s'.nodes.get? k) else .ok none) = _ ∨ (if k.version ≤ u then Except.ok (s'.nodes.get? k) else .ok none) = _
    by_cases hk : k.version ≤ u
    · rw [if_pos hk, a5]
      split
      · exact .inr rfl
      · next hno =>
        left
        rw [hO.node k (by omega) (fun q hq x hx hle hxk => hno ⟨x, hx, Nat.le_trans hle (hpurge q hq), hxk⟩), g1 k (by omega)]
        rfl
    · rw [if_neg hk]; exact .inr rfl
  · show (if q ≤ u then Except.ok (s'.getValueOption q k) else .ok none) = _ ∨ (if q ≤ u then Except.ok (s'.getValueOption q k) else .ok none) = _
    by_cases hq : q ≤ u
    · left
      rw [if_pos hq, hval q k (by omega)]
      show Except.ok _ = Except.ok _
      unfold Store.getValueOption
      rw [a3]
    · rw [if_neg hq]; exact .inr rfl

end

/-- Version 1 of the sample history restored as version 5 over the sample history itself (versions 0 to 4); the node then commits a version, and prunes
up to version 3 on a backend that makes all it may delete unreadable: versions 5 and 6 can be read, and version 3 of the old history still. -/
example : ∃ (y0 : Sys) (R2 : Reader) (st : List StaleNodeIndex), Reached Sample.T Sample.ops y0 ∧
    (∃ R', BackendFrom Sample.T y0.store.stale R' 6 [.commit [[(Sample.key 0x1f, none)]], .purge 3] R2 7 st) ∧
    SameQueries Sample.T R2 y0.store.reader 3 3 ∧
    ∃ y1, Reached Sample.T (restoredAs 5 Sample.all1 ++ [.commit [[(Sample.key 0x1f, none)]], .purge 3]) y1 ∧
      SameTreeQueries Sample.T R2 y1.store.reader 5 5 ∧ SameTreeQueries Sample.T R2 y1.store.reader 6 6 := by
  obtain ⟨y0, hy0⟩ := Sample.reached Sample.T
  obtain ⟨y, root, r, R, b, R', hy, h1, h2, h3, h4⟩ := Sample.restoredOver 5 y0.store.reader
  obtain ⟨hnew, hold⟩ := old_history (w := 5) hy0 (by decide) (by decide)
  have f0 := BackendFrom.start (H := Sample.T) (st0 := y0.store.stale) (R0 := R') (n0 := 6)
  obtain ⟨⟨hs, u⟩, e⟩ := ((C70_life_never_fails hy Sample.bound Sample.readable1 Sample.sorted1 (by decide) h1 Sample.noPlaceholder1 h2 (by decide) h3 h4
    hnew hold f0).1 [[(Sample.key 0x1f, none)]] (by decide)).1
  have f1 := BackendFrom.commit f0 e (partlyWritten_none _ _) (overlay_written _ _)
  have f2 := BackendFrom.purge f1 (Sample.failing_pruned _ 3 _)
  obtain ⟨-, y1, hy1, -, hq, -⟩ := C70_life hy Sample.bound Sample.readable1 Sample.sorted1 (by decide) h1 Sample.noPlaceholder1 h2 (by decide) h3 h4
    hnew hold f2 (by decide)
  refine ⟨y0, _, _, hy0, ⟨R', f2⟩, ?_, y1, hy1, (hq 5 (by constructor <;> decide)).1, (hq 6 (by constructor <;> decide)).1⟩
  refine C70_life_older_versions hy Sample.bound Sample.readable1 Sample.sorted1 (by decide) h1 Sample.noPlaceholder1 hy0 (by decide) h2 (by decide) h3 h4 f2
    (by decide) Sample.readable3 (fun q hq => ?_)
  simp only [List.nil_append, List.cons_append, List.mem_cons, List.not_mem_nil, or_false] at hq
  rcases hq with hq | hq
  · cases hq
  · cases hq; exact Nat.le_refl 3

end Jmt
