import Verif.Props.WitnessA
import Verif.Props.Update
import Verif.Props.RestoreSample
import Verif.Props.Overwrite
import Verif.Props.Local
import Verif.Props.PreStale
import Verif.Props.Crash
import Verif.Props.NoPanic
import Verif.Props.Backend
import Verif.Props.Borsh
import Verif.Props.Fork
import Verif.Props.WrongVersion

/-! # Concrete cases for the theorems about verification, restoration, overwriting and backends (C17–C52)

Each of the following applies the theorem named in its proof, showing that its hypotheses can be met. -/

namespace Jmt
open Spec

variable {H : Hasher}

/-- C17: the accepted overwrite in the two-key map. -/
example : Spec.root Sample.T (upd Sample.es2 (Sample.key 0x10) (some (Sample.toy [9]))) = Spec.root Sample.T Sample.es3 :=
  C17_accepted_update_exact false [(Sample.key 0x10, some [9])] [Sample.proof10] Sample.lists2
    (es' := Sample.es3) (s := Sample.s2)
    (by
      have h := Sample.lists3
      exact (by decide +kernel : upd Sample.es2 (Sample.key 0x10) (some (Sample.toy [9])) = Sample.es3) ▸ h)
    (fun j k x P hj hP => by
      match j, hj, hP with
      | 0, hj, hP =>
        cases hj; cases hP
        refine ⟨.inr ⟨by decide, by simp, fun l hl => ?_⟩, fun em hem => ?_⟩
        · simp only [Sample.proof10, Option.some.injEq] at hl
          subst hl
          decide +kernel
        · have hp := lists_perm Sample.lists2 hem
          apply NoCollision.sub (ps := Spec.treeStrings Sample.T Sample.es2 ++ Spec.updateStrings Sample.T Sample.proof10 (Sample.key 0x10))
          · exact ⟨by decide +kernel, by decide +kernel⟩
          · intro p hp'
            rcases List.mem_append.1 hp' with hp' | hp'
            · exact List.mem_append_left _ (subtreeStrings_perm Sample.T 256 0 hp.symm _ hp')
            · exact List.mem_append_right _ hp'
      | j + 1, hj, _ => simp at hj)
    (Sample.ok_of (by decide +kernel))

/-- C24: after the two chunks of the two-key map, with a restart in between. -/
example : (∀ k, (Sample.fed [.restart, Sample.chunk10, .restart, Sample.chunk10, Sample.chunk80]).store.getValueOption 5 k = none) ∨
    ∃ last, ∀ k : KeyHash, (¬ last.val < k.val →
      ((Sample.fed [.restart, Sample.chunk10, .restart, Sample.chunk10, Sample.chunk80]).store.getValueOption 5 k).map Sample.T.hash =
        (Sample.s2 k).map Sample.T.hash) ∧
      ((last : KeyHash).val < k.val → (Sample.fed [.restart, Sample.chunk10, .restart, Sample.chunk10, Sample.chunk80]).store.getValueOption 5 k = none) :=
  C24_only_authentic_values Sample.lists2 (Sample.nc_fed Sample.fed_strings)

/-- C25: a restart between the two chunks. -/
example : ∃ r, Restore.new Sample.T (Sample.fed [.restart, Sample.chunk10]).store.reader 5 (Spec.root Sample.T Sample.es2) = .ok r :=
  C25_restart_succeeds Sample.lists2 (Sample.nc_fed (evs := [.restart, Sample.chunk10]) (by decide +kernel))

/-- C25: sending version 1 of the sample history with a restart. -/
example : ∃ y root z, Reached Sample.T Sample.ops y ∧
    Sess.run Sample.T true y.store.reader 1 Sample.all1 5 root (Sess.start false 5 root) [.feed 0, .restart, .feed 4] = .ok z ∧
    (Spec.above Sample.all1 z.pos = [] → ∃ s', z.receiver.finish Sample.T z.store = .ok s' ∧ SameQueries Sample.T s'.reader y.store.reader 5 1) := by
  obtain ⟨y, hy⟩ := Sample.reached Sample.T
  obtain ⟨z, hz, h⟩ := C25_finish_when_all_sent (w := 5) (checked := true) (ow := false) hy Sample.bound Sample.readable1 Sample.sorted1
    (by decide) ((hy.readAt Sample.bound Sample.readable1).rootHash) Sample.noPlaceholder1 [.feed 0, .restart, .feed 4]
  exact ⟨y, _, z, hy, hz, fun hd => (h hd).imp (fun _ h => ⟨h.1, h.2.1⟩)⟩

/-- C26: all of the two-key map received, and only its first key. -/
example : Spec.root Sample.T (Sample.es2.filter (fun e => !decide ((Sample.key 0x80).val < e.1.val))) = Spec.root Sample.T Sample.es2 :=
  C26_complete_root Sample.lists2 (Sample.key 0x80) (fun k x h => by
    have hm : (k, Sample.T.hash x) ∈ Sample.es2 := (Sample.lists2.mem k _).2 ⟨x, h, rfl⟩
    simp only [Sample.es2, List.mem_cons, Prod.mk.injEq, List.not_mem_nil, or_false] at hm
    rcases hm with ⟨rfl, -⟩ | ⟨rfl, -⟩ <;> decide)

example : Spec.root Sample.T (Sample.es2.filter (fun e => !decide ((Sample.key 0x10).val < e.1.val))) ≠ Spec.root Sample.T Sample.es2 :=
  C26_incomplete_root Sample.lists2 (Sample.key 0x10) (k := Sample.key 0x80) (x := [3]) (by decide) (by decide)
    ⟨by decide +kernel, by decide +kernel⟩

/-- C39: a purge after an append and a commit; an append on an empty store; an append at a version the store is not at. -/
example : ∃ y y' s', Reached Sample.T Sample.owOps y ∧ Sys.runA Sample.T Sample.owTail y = .ok y' ∧ y'.store.purgeStaleNodes 0 = .ok s' := by
  obtain ⟨y, y', hr, hrun, -⟩ := Sample.ow_reached
  obtain ⟨s', h⟩ := C39_purge_succeeds_partial hr hrun (by decide) Sample.safeTail (r := 0) (by decide)
  exact ⟨y, y', s', hr, hrun, h⟩

example : ∃ e, appendValueSet H (Store.new true).reader [(Sample.key 0x80, some [7])] 0 = .error (.bail e) :=
  C39_append_refuses_empty _ rfl _ _

example : ∃ y nk l e, Reached Sample.T Sample.owOps y ∧ y.store.reader.getRightmostLeaf = .ok (some (nk, l)) ∧ nk.version = 1 ∧
    appendValueSet Sample.T y.store.reader [(Sample.key 0x80, some [7])] 9 = .error (.bail e) := by
  have hk : Sample.check Sample.owOps (fun s => match s.getRightmostLeaf with
    | some (nk, _) => decide (nk.version = 1) | none => false) = true := by decide +kernel
  obtain ⟨y, hy, h⟩ := Sample.of_check hk
  cases hg : y.store.getRightmostLeaf with
  | none => rw [hg] at h; cases h
  | some p =>
    obtain ⟨nk, l⟩ := p
    rw [hg] at h
    have hv : nk.version = 1 := of_decide_eq_true h
    have hg' : y.store.reader.getRightmostLeaf = .ok (some (nk, l)) := by show Except.ok _ = _; rw [hg]
    obtain ⟨e, he⟩ := C39_append_refuses_other_version (H := Sample.T) y.store.reader hg' [(Sample.key 0x80, some [7])] (v := 9) (by omega)
    exact ⟨y, nk, l, e, hy, hg', hv, he⟩

/-- C40: two values of a key and one of another. -/
example : ∃ s, runPuts [((0, Sample.key 1), some [1]), ((2, Sample.key 1), none), ((1, Sample.key 2), some [5])] = .ok s ∧
    s.getValueOption 1 (Sample.key 1) = some [1] ∧
    ((∃ s', runPuts ([((0, Sample.key 1), some [1]), ((2, Sample.key 1), none), ((1, Sample.key 2), some [5])] ++
      [((1, Sample.key 1), some [8])]) = .ok s') ↔ False) := by
  have h : Sample.okAnd (runPuts [((0, Sample.key 1), some [1]), ((2, Sample.key 1), none), ((1, Sample.key 2), some [5])])
      (fun _ => true) = true := by decide +kernel
  obtain ⟨s, hs, -⟩ := Sample.of_okAnd h
  refine ⟨s, hs, (C40_newest_value hs 1 (Sample.key 1)).1 [] _ 0 (some [1]) rfl (by decide) (by decide) (by decide), ?_⟩
  rw [C40_put_accepted_iff hs]
  exact ⟨fun h => absurd (h ((2, Sample.key 1), none) (by simp) rfl) (by decide), False.elim⟩

/-- C40: the first commit of a history. -/
example : ∃ hs b, ∃ s' : Store, putValueSets Sample.T (Store.new false).reader [[(Sample.key 7, some [7])]] 0 = .ok (hs, b) ∧
    Spec.Written b.nodeBatch s'.reader (Store.new false).reader := by
  have h : Sample.okAnd (putValueSets Sample.T (Store.new false).reader [[(Sample.key 7, some [7])]] 0) (fun r =>
      decide ((r.2.nodeBatch.nodes.map Prod.fst).Nodup) && decide ((r.2.nodeBatch.values.map Prod.fst).Nodup) &&
      Sample.okAnd ((Store.new false).writeTreeUpdateBatch r.2) (fun _ => true)) = true := by decide +kernel
  obtain ⟨r, hr, h⟩ := Sample.of_okAnd h
  simp only [Bool.and_eq_true, decide_eq_true_eq] at h
  obtain ⟨s', hs, -⟩ := Sample.of_okAnd h.2
  exact ⟨r.1, r.2, s', hr, C40_accepted_write_is_stored h.1.1 h.1.2 hs⟩

/-- C42: leftovers of an interrupted write, then the batch API. -/
example : ∃ y R' r, Reached H Sample.ops y ∧ Leftover y.next R' y.store.reader ∧
    batchPutValueSets H R' [[(Sample.key 7, [7])]] none y.next = .ok r := by
  obtain ⟨y, hy⟩ := Sample.reached H
  have hl : Leftover y.next { y.store.reader with getNodeOption := fun k => if k = ⟨y.next, []⟩ then .ok (some .null) else y.store.reader.getNodeOption k }
      y.store.reader := by
    refine ⟨fun k hk => if_neg ?_, fun _ _ _ => rfl⟩
    intro h
    have hn : y.next = 5 := (hy.inv Sample.bound).1
    rw [h, hn] at hk
    rcases hk with hk | hk <;> revert hk <;> decide
  obtain ⟨r, h, -⟩ := C42_leftovers_same_batch hy [[(Sample.key 7, [7])]] (by decide) (by decide) hl
  exact ⟨y, _, r, hy, hl, h⟩

end Jmt
