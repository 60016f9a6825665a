import Verif.Proofs.Continue
import Verif.Props.RestoreSample
/-!
# C44: working on with a restored store
-/
namespace Jmt
open Spec (Entry)

section
variable {H : Hasher} {ops ops' : List Op} {y : Sys} {v w : Version} {all : List (KeyHash × Value)} {checked ow : Bool} {root : Digest}

theorem setsOf_restoredAs (w : Version) (all : List (KeyHash × Value)) :
    setsOf (restoredAs w all) = List.replicate w [] ++ [all.map (fun e => (e.1, some e.2))] := by
  simp [restoredAs, setsOf]

theorem horizon_restoredAs (w : Version) (all : List (KeyHash × Value)) : (horizon (restoredAs w all)).2 = w := by
  simp [restoredAs, horizon, horizonStep]

/-- The history `restoredAs w all` makes exactly version `w` readable, and its map there is the one the pairs are from. -/
theorem C44_restoredAs_map {mp : Spec.Map} (h : SortedPairs mp all) :
    mapAt (restoredAs w all) w = mp ∧ ∀ u, Readable (restoredAs w all) u ↔ u = w := by
  constructor
  · unfold mapAt
    rw [setsOf_restoredAs, stateAfter_replicate, writes_sorted h]
  · intro u
    unfold Readable
    rw [horizon_restoredAs, setsOf_restoredAs]
    simp only [List.length_append, List.length_replicate, List.length_singleton]
    omega

/-- A completed restoration satisfies the invariant of an ordinary history. -/
theorem restored_sysInv (hsorted : all.Pairwise (fun a b => a.1.val < b.1.val)) (hne : all ≠ []) {z : Sess} {s' : Store}
    {p0 : List (KeyHash × Value)} (h2 : SessInv H all w root z p0 all) (hst : z.store.stale = [])
    (hfin : z.receiver.finish H z.store = .ok s') :
    SysInv H s' (setsOf (restoredAs w all)) (horizon (restoredAs w all)).2 := by
  obtain ⟨s1, g1, g2, g3, rfl, g5⟩ := sess_finish h2 hne
  rw [hfin] at g1; cases g1
  rw [setsOf_restoredAs, horizon_restoredAs]
  have hst : s'.stale = [] := by rw [finish_stale hfin, hst]
  exact restored_inv hsorted hne g2 g5 hst (by rw [g3]; exact h2.inv.stored) (by
    rw [g3]
    exact fun k hin => (h2.inv.absent k hin).resolve_right (by rintro ⟨x, hx, -⟩; exact hin (List.mem_map.2 ⟨_, hx, rfl⟩)))

/-- C44: restore as in C25 (any chunks and restarts, then the rest).  On the finished store every further history of commits, batch
commits and purges succeeds, and afterwards every query of every version from `w` on that pruning has not given up is answered as by a
store that went through the ordinary history `restoredAs w all` before; further value sets get the same root hashes on both. -/
theorem C44_continue_after_restore (hr : Reached H ops y) (hb : (setsOf ops).length < 2 ^ 64) (hv : Readable ops v)
    (hall : SortedPairs (mapAt ops v) all) (hne : all ≠ []) (hroot : getRootHash H y.store.reader v = .ok root)
    (hph : ∀ p ∈ Spec.treeStrings H (Spec.hashed H all), p.hash H ≠ placeholder)
    (evs : List SendEvent) (sizes : List Nat) (hsizes : all.length ≤ (sizes.map (· + 1)).sum) :
    ∃ z z' s', Sess.run H checked y.store.reader v all w root (Sess.start ow w root) evs = .ok z ∧
      Sess.run H checked y.store.reader v all w root z (sizes.map .feed) = .ok z' ∧ z'.receiver.finish H z'.store = .ok s' ∧
      ∀ ops' : List Op, (∀ op ∈ ops', op.Allowed) → w + 1 + (setsOf ops').length < 2 ^ 64 →
      ∃ z1 y1, Sys.run H ops' ⟨s', w + 1⟩ = .ok z1 ∧ Reached H (restoredAs w all ++ ops') y1 ∧ z1.next = y1.next ∧
        (∀ u, Readable (restoredAs w all ++ ops') u → SameQueries H z1.store.reader y1.store.reader u u) ∧
        (∀ u k, get z1.store.reader k u = get y1.store.reader k u) ∧
        ∀ sets : List ValueSet, w + 1 + (setsOf ops').length + sets.length < 2 ^ 64 →
          ∃ hs s1 s2, z1.store.commit H sets z1.next = .ok (hs, s1) ∧ y1.store.commit H sets y1.next = .ok (hs, s2) := by
  obtain ⟨hasc, -, -, -⟩ := honest_setting hr hb hv hall hroot
  have hnp : NP H (entriesOf H all) := np_of' hasc.nodup hph
  obtain ⟨z, p0, gp, h1, h2⟩ := sess_run (checked := checked) hr hb hv hall hroot hnp evs
    (sess_start (H := H) (all := all) (w := w) (root := root) ow)
  obtain ⟨z', p0', h3, h4⟩ := feed_all (checked := checked) hr hb hv hall hroot hnp sizes h2 (by omega)
  obtain ⟨s', h5, -, -, -, -⟩ := sess_finish h4 hne
  have hi := restored_sysInv hall.sorted hne h4 (by rw [sess_stale _ h3, sess_stale evs h1]; rfl) h5
  refine ⟨z, z', s', h1, h3, h5, fun ops' hok hb' => ?_⟩
  have hlen : (setsOf (restoredAs w all ++ ops')).length = w + 1 + (setsOf ops').length := by
    rw [setsOf_append, List.length_append, setsOf_restoredAs]; simp
  obtain ⟨z1, a1, a2, a3⟩ := Sys.run_from (y := ⟨s', w + 1⟩) hi (by rw [setsOf_restoredAs]; simp) ops' hok
    (by unfold preGenesisVersion u64Size; omega)
  obtain ⟨y1, hy1⟩ := C13_history_never_fails H (restoredAs w all ++ ops') (by
    intro op hop
    rcases List.mem_append.1 hop with hop | hop
    · unfold restoredAs at hop
      simp only [List.mem_cons, List.not_mem_nil, or_false] at hop
      rcases hop with rfl | rfl <;> trivial
    · exact hok op hop) (by omega)
  obtain ⟨b1, b2⟩ := hy1.inv (by omega)
  refine ⟨z1, y1, a1, hy1, a2.trans b1.symm, fun u hu => ?_, fun u k => ?_, fun sets hsets => ?_⟩
  · exact (a3.reads.readAt hu.1 hu.2).sameQueries (hy1.readAt (by omega) hu)
  · unfold get
    show Except.ok _ = Except.ok _
    rw [a3.vals.get, b2.vals.get]
  · obtain ⟨hs, b, s1, c1, c2, c3⟩ := a3.commit sets (by unfold preGenesisVersion u64Size; omega)
    obtain ⟨hs', b', s2, d1, d2, d3⟩ := b2.commit sets (by unfold preGenesisVersion u64Size; omega)
    obtain rfl : hs = hs' := by rw [c3.hashes, d3.hashes]
    refine ⟨hs, s1, s2, ?_, ?_⟩
    · unfold Store.commit; simp only [a2, c1, ok_bind, c2]
    · unfold Store.commit; simp only [b1, d1, ok_bind, d2]

end

/-- The sample history restored as version 5, then a deletion, an insertion and a purge. -/
example : ∃ y root z z' s' z1 y1, Reached Sample.T Sample.ops y ∧
    Sess.run Sample.T true y.store.reader 1 Sample.all1 5 root (Sess.start false 5 root) [.feed 0, .restart] = .ok z ∧
    Sess.run Sample.T true y.store.reader 1 Sample.all1 5 root z [.feed 5] = .ok z' ∧
    z'.receiver.finish Sample.T z'.store = .ok s' ∧
    Sys.run Sample.T [.commit [[(Sample.key 0x1f, none), (Sample.key 0x44, some [7])]], .purge 6] ⟨s', 6⟩ = .ok z1 ∧
    Reached Sample.T (restoredAs 5 Sample.all1 ++ [.commit [[(Sample.key 0x1f, none), (Sample.key 0x44, some [7])]], .purge 6]) y1 ∧
    SameQueries Sample.T z1.store.reader y1.store.reader 6 6 := by
  obtain ⟨y, hy⟩ := Sample.reached Sample.T
  have hroot := (hy.readAt Sample.bound Sample.readable1).rootHash
  obtain ⟨z, z', s', h1, h2, h3, h4⟩ := C44_continue_after_restore (w := 5) (checked := true) (ow := false) hy Sample.bound Sample.readable1
    Sample.sorted1 (by decide) hroot Sample.noPlaceholder1 [.feed 0, .restart] [5] (by decide)
  obtain ⟨z1, y1, g1, g2, -, g3, -⟩ := h4 [.commit [[(Sample.key 0x1f, none), (Sample.key 0x44, some [7])]], .purge 6]
    (by intro op hop; simp only [List.mem_cons, List.not_mem_nil, or_false] at hop; rcases hop with rfl | rfl <;> trivial) (by decide)
  exact ⟨y, _, z, z', s', z1, y1, hy, h1, h2, h3, g1, g2, g3 6 (by constructor <;> decide)⟩

end Jmt
