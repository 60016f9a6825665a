import Verif.Props.Sound
import Verif.Props.Strong
import Verif.Props.Stale
import Verif.Props.Batch
import Verif.Props.Iterate
import Verif.Props.Range
import Verif.Props.Small
import Verif.Props.UpdateBytes
import Verif.Props.Faults

/-! # Concrete cases for the theorems about histories (C03–C38)

Each of the following applies the theorem named in its proof to a concrete history, showing that its
hypotheses can be met. -/

namespace Jmt
open Spec

variable {H : Hasher}

/-- C03: two sets on top of the sample history. -/
example : ∃ y hs b, Reached H Sample.ops y ∧
    putValueSets H y.store.reader [[(Sample.key 7, some [7])], [(Sample.key 0x10, none)]] y.next = .ok (hs, b) ∧ hs.length = 2 := by
  obtain ⟨y, hy⟩ := Sample.reached H
  obtain ⟨hs, b, -, h, -⟩ := hy.commit [[(Sample.key 7, some [7])], [(Sample.key 0x10, none)]] (by decide)
  exact ⟨y, hs, b, hy, h, (C03_commit_returns_canonical_roots hy _ (by decide) h).1⟩

/-- C06, C07 on a history: a map with two keys, and the proof of one of them for the other question. -/
theorem Sample.twoCommits_reached (H : Hasher) : ∃ y, Reached H Sample.twoCommits y :=
  C13_history_never_fails H Sample.twoCommits (by decide) (by decide)

theorem Sample.twoCommits_readable : Readable Sample.twoCommits 1 := by constructor <;> decide

theorem Sample.twoCommits_root {y : Sys} (hy : Reached Sample.T Sample.twoCommits y) :
    getRootHash Sample.T y.store.reader 1 = .ok (Spec.root Sample.T Sample.es2) :=
  (C03_root_hash_canonical hy (by decide) Sample.twoCommits_readable Sample.lists2).1

example : ∃ y, Reached Sample.T Sample.twoCommits y ∧ get y.store.reader (Sample.key 0x10) 1 = .ok (some [4]) := by
  obtain ⟨y, hy⟩ := Sample.twoCommits_reached Sample.T
  exact ⟨y, hy, C06_existence_sound_history hy (by decide) Sample.twoCommits_readable Sample.lists2 (Sample.twoCommits_root hy)
    Sample.proof10 _ _ Sample.nc2 (fun z hz _ => by
      have : z = [4] := by
        have h : mapAt Sample.twoCommits 1 (Sample.key 0x10) = some [4] := by decide
        rw [h] at hz; cases hz; rfl
      exact this.symm) Sample.accepted⟩

example : ∃ y, Reached Sample.T Sample.twoCommits y ∧ get y.store.reader (Sample.key 0x1f) 1 = .ok none := by
  obtain ⟨y, hy⟩ := Sample.twoCommits_reached Sample.T
  exact ⟨y, hy, C07_nonexistence_sound_history hy (by decide) Sample.twoCommits_readable Sample.lists2 (Sample.twoCommits_root hy)
    Sample.proof10 _ Sample.nc2' Sample.accepted'⟩

example : ¬ (Sample.proof10.verifyExistence Sample.T (Spec.root Sample.T Sample.es2) (Sample.key 0x10) [4] = .ok () ∧
    Sample.proof10.verifyNonexistence Sample.T (Spec.root Sample.T Sample.es2) (Sample.key 0x10) = .ok ()) :=
  C07_no_contradictory_proofs Sample.lists2 Sample.proof10 Sample.proof10 _ _ Sample.nc2 Sample.nc2

/-- C09: version 3 of the sample history after one more commit. -/
example : ∃ y hs s', Reached H Sample.ops y ∧ y.store.commit H [[(Sample.key 7, some [7])]] y.next = .ok (hs, s') ∧
    SameQueries H y.store.reader s'.reader 3 3 := by
  obtain ⟨y, hy⟩ := Sample.reached H
  obtain ⟨hs, b, s', -, -, h, -⟩ := hy.commit [[(Sample.key 7, some [7])]] (by decide)
  exact ⟨y, hs, s', hy, h, C09_commit_keeps_queries hy _ (by decide) h 3 Sample.readable3⟩

/-- C10: version 3 of the sample history after pruning at 3. -/
example : ∃ y s', Reached H Sample.ops y ∧ y.store.purgeStaleNodes 3 = .ok s' ∧ SameQueries H y.store.reader s'.reader 3 3 := by
  obtain ⟨y, hy⟩ := Sample.reached H
  obtain ⟨s', h, -⟩ := hy.purge 3 Sample.bound
  exact ⟨y, s', hy, h, C10_purge_keeps_queries hy Sample.bound 3 h 3 Sample.readable3 (.inl (Nat.le_refl _))⟩

/-- C11: a store with stale nodes. -/
example : ∃ y x, Reached Sample.T Sample.ops2 y ∧ x ∈ y.store.stale ∧ x.nodeKey.version < x.staleSince ∧
    (y.store.stale.map StaleNodeIndex.nodeKey).Nodup := by
  have hc : Sample.check Sample.ops2 (fun s => !s.stale.isEmpty) = true := by decide +kernel
  obtain ⟨y, hy, h⟩ := Sample.of_check hc
  match hs : y.store.stale, h with
  | x :: _, _ =>
    have hx : x ∈ y.store.stale := by rw [hs]; exact List.mem_cons_self
    exact ⟨y, x, hy, hx, (C11_stale_sound hy (by decide) hx).2.1, hs ▸ C11_stale_unique hy (by decide)⟩

example : ∃ y s', Reached H Sample.ops y ∧ y.store.purgeStaleNodes 4 = .ok s' := by
  obtain ⟨y, hy⟩ := Sample.reached H
  obtain ⟨s', h⟩ := (C11_no_index_failures hy Sample.bound 4 [[(Sample.key 7, some [7])]] (by decide)).1
  exact ⟨y, s', hy, h⟩

/-- C12: what remains of version 1 after pruning at 4. -/
example : ∃ y s', Reached H Sample.ops y ∧ y.store.purgeStaleNodes 4 = .ok s' ∧
    ∀ k n, s'.nodes.get? k = some n → k.path ≠ [] → ∃ v, v = 4 ∧ ReachFrom s' v k := by
  obtain ⟨y, hy⟩ := Sample.reached H
  obtain ⟨s', h, -⟩ := hy.purge 4 Sample.bound
  refine ⟨y, s', hy, h, fun k n hk hne => ?_⟩
  obtain ⟨v, hv, hlt, hreach⟩ := C12_purge_leaves_nothing_older hy Sample.bound h hk hne
  have h5 : (setsOf Sample.ops).length = 5 := by decide
  rw [h5] at hv hlt
  exact ⟨v, by omega, hreach⟩

/-- C14, C15, C30: one more call in two ways. -/
example : ∃ y y', Reached H (Sample.ops ++ [.commit [[(Sample.key 7, some [7])], [(Sample.key 8, some [8])]]]) y ∧
    Reached H (Sample.ops ++ [[(Sample.key 7, some [7])], [(Sample.key 8, some [8])]].map (fun s => .commit [s])) y' ∧
    SameQueries H y.store.reader y'.store.reader 5 5 := by
  obtain ⟨y, hy⟩ := C13_history_never_fails H (Sample.ops ++ [.commit [[(Sample.key 7, some [7])], [(Sample.key 8, some [8])]]])
    (by decide) (by decide)
  obtain ⟨y', hy'⟩ := C13_history_never_fails H
    (Sample.ops ++ [[(Sample.key 7, some [7])], [(Sample.key 8, some [8])]].map (fun s => .commit [s])) (by decide) (by decide)
  exact ⟨y, y', hy, hy', C14_multi_set_same_queries hy hy' (by decide) 5 (by constructor <;> decide)⟩

example : ∃ y y', Reached H (Sample.ops ++ [.batch [[(Sample.key 7, [7]), (Sample.key 7, [8])]]]) y ∧
    Reached H (Sample.ops ++ [.commit ([[(Sample.key 7, [7]), (Sample.key 7, [8])]].map someSet)]) y' ∧
    SameQueries H y.store.reader y'.store.reader 5 5 := by
  obtain ⟨y, hy⟩ := C13_history_never_fails H (Sample.ops ++ [.batch [[(Sample.key 7, [7]), (Sample.key 7, [8])]]])
    (by decide) (by decide)
  obtain ⟨y', hy'⟩ := C13_history_never_fails H
    (Sample.ops ++ [.commit ([[(Sample.key 7, [7]), (Sample.key 7, [8])]].map someSet)]) (by decide) (by decide)
  exact ⟨y, y', hy, hy', C15_batch_same_queries hy hy' (by decide) 5 (by constructor <;> decide)⟩

example : ∃ y y', Reached H (Sample.ops ++ [.commit [[(Sample.key 7, none), (Sample.key 7, some [8])]]]) y ∧
    Reached H (Sample.ops ++ [.commit ([[(Sample.key 7, none), (Sample.key 7, some [8])]].map Spec.keepLast)]) y' ∧
    SameQueries H y.store.reader y'.store.reader 5 5 := by
  obtain ⟨y, hy⟩ := C13_history_never_fails H (Sample.ops ++ [.commit [[(Sample.key 7, none), (Sample.key 7, some [8])]]])
    (by decide) (by decide)
  obtain ⟨y', hy'⟩ := C13_history_never_fails H
    (Sample.ops ++ [.commit ([[(Sample.key 7, none), (Sample.key 7, some [8])]].map Spec.keepLast)]) (by decide) (by decide)
  exact ⟨y, y', hy, hy', C30_last_write_same_queries hy hy' (by decide) 5 (by constructor <;> decide)⟩

/-- C15 with precomputed hashes: correct caches for a set of two keys on the sample history. -/
example : ∃ y c hs b, Reached H Sample.ops y ∧
    batchPutValueSets H y.store.reader [[(Sample.key 0x90, [1]), (Sample.key 0x10, [2])]] (some [c]) y.next = .ok (hs, b) := by
  obtain ⟨y, hy⟩ := Sample.reached H
  have hn := (hy.inv Sample.bound).1
  obtain ⟨es, hes⟩ := C03_listing_exists H (Sample.ops ++ [.batch [[(Sample.key 0x90, [1]), (Sample.key 0x10, [2])]]]) y.next
  obtain ⟨hs, b, b', h, -⟩ := C15_batch_with_hashes hy [[(Sample.key 0x90, [1]), (Sample.key 0x10, [2])]] (by decide) (by decide)
    [fun q => some (Spec.hashUnder H es q)] rfl (fun j set c hj hc => by
      match j, hj, hc with
      | 0, hj, hc =>
        cases hj; cases hc
        intro es' h' kv _ q _ _ _
        show some (Spec.hashUnder H es q) = _
        rw [hashUnder_eq, hashUnder_eq, sh_perm' (lists_perm hes h')]
      | j + 1, hj, _ => simp at hj)
  exact ⟨y, _, hs, b, hy, h⟩

example : ∀ r, batchPutValueSets H (Store.new false).reader [[(Sample.key 0x90, [1])], []] none 0 ≠ .ok r :=
  C15_empty_set_fails _ _ _ _ (by simp)

example : ∀ r, batchPutValueSets H (Store.new false).reader [[(Sample.key 0x90, [1])]] (some []) 0 ≠ .ok r :=
  C15_cache_count_mismatch_fails _ _ _ _ (by decide)

/-- C18: deleting an absent key on top of the sample history. -/
example : ∃ y y', Reached H Sample.ops y ∧ Reached H (Sample.ops ++ [.commit [[(Sample.key 7, none)]]]) y' ∧
    SameQueries H y.store.reader y'.store.reader 4 5 := by
  obtain ⟨y, hy⟩ := Sample.reached H
  obtain ⟨y', hy'⟩ := C13_history_never_fails H (Sample.ops ++ [.commit [[(Sample.key 7, none)]]]) (by decide) (by decide)
  refine ⟨y, y', hy, hy', C18_noop_same_queries hy [(Sample.key 7, none)] (by decide) (v := 4) (by decide) ?_ hy'⟩
  funext k
  have h7 : mapAt Sample.ops 4 (Sample.key 7) = none := by decide
  show (if k = Sample.key 7 then none else mapAt Sample.ops 4 k) = _
  split
  · next h => rw [h, h7]
  · rfl

/-- C21, C22. -/
example : ∃ y items it, Reached H Sample.ops y ∧ SortedPairs (mapAt Sample.ops 3) items ∧
    Iter.newByIndex y.store.reader 3 1 = .ok it ∧ it.Yields y.store.reader (items.drop 1) := by
  obtain ⟨y, hy⟩ := Sample.reached H
  obtain ⟨items, hs, h⟩ := C21_iterator_by_index hy Sample.bound Sample.readable3
  obtain ⟨it, h1, h2⟩ := h 1
  exact ⟨y, items, it, hy, hs, h1, h2⟩

example : ∃ y s, Reached H Sample.ops y ∧ getRangeProof H y.store.reader (Sample.key 7) 3 = .error (.bail s) := by
  obtain ⟨y, hy⟩ := Sample.reached H
  obtain ⟨s, h⟩ := C22_range_absent hy Sample.bound Sample.readable3 (k := Sample.key 7) (by decide)
  exact ⟨y, s, hy, h⟩

/-- C29: one more commit. -/
example : ∃ y hs b s', Reached H Sample.ops y ∧ putValueSets H y.store.reader [[(Sample.key 7, some [7])]] y.next = .ok (hs, b) ∧
    y.store.writeTreeUpdateBatch b = .ok s' ∧ s'.numNodes = y.store.numNodes + (b.nodeStats.map NodeStats.newNodes).sum := by
  obtain ⟨y, hy⟩ := Sample.reached H
  obtain ⟨hs, b, s', h, hw, -⟩ := hy.commit [[(Sample.key 7, some [7])]] (by decide)
  exact ⟨y, hs, b, s', hy, h, hw, (C29_num_nodes_commit hy _ (by decide) h hw).1⟩

/-- C38: nodes lost over the sample history. -/
example : ∃ y R', Reached H Sample.ops y ∧ AnyFault R' y.store.reader ∧
    (∀ k x P, getWithProof H R' k 3 = .ok (x, P) → x = mapAt Sample.ops 3 k) ∧
    (∀ k x, get R' k 3 = .ok x → get y.store.reader k 3 = .ok x) ∧
    (∀ sets r, putValueSets H R' sets 5 = .ok r → putValueSets H y.store.reader sets 5 = .ok r) ∧
    ∃ R'', FaultyView (fun _ => False) (fun _ _ => True) R'' y.store.reader ∧ get R'' (Sample.key 0x10) 3 = .ok none := by
  obtain ⟨y, hy⟩ := Sample.reached H
  have hf := Sample.loseNodes_faulty y.store.reader Sample.keep8 (by intro k h; simp [Sample.keep8, h])
  have hany : AnyFault (Sample.loseNodes y.store.reader Sample.keep8) y.store.reader :=
    ⟨fun k => (hf.node k).imp id (Or.imp id (fun h => ⟨trivial, h.2⟩)), fun v k => .inl rfl, .inl rfl⟩
  refine ⟨y, _, hy, hany, fun k x P h => C38_faulty_store_never_lies hy Sample.bound Sample.readable3 hany k x P h, fun k x h => ?_,
    fun sets r h => (C38_writes_fail_or_agree hf 5).1 sets r h, ?_⟩
  · exact C38_get_fails_or_agrees (P := fun k => k.path ≠ []) ⟨hf.node, fun v k => .inl rfl, .inl rfl⟩ k 3 x h
  · exact C38_lost_value_is_silent y.store.reader (Sample.key 0x10) 3 [4]
      (C01_get_is_versioned_map hy Sample.bound (Sample.key 0x10) 3)

end Jmt
