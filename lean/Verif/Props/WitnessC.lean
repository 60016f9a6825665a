import Verif.Props.WitnessB
import Verif.Props.UserMap
import Verif.Props.PrunedReads
import Verif.Props.Work
import Verif.Props.Space
import Verif.Props.Writers
import Verif.Props.WriteFail
import Verif.Props.Shuffle
import Verif.Props.RestoreBackend
import Verif.Props.Ics23Unique
import Verif.Props.RestoreCrashSample
import Verif.Props.Serde
import Verif.Props.Print
import Verif.Props.Borsh
import Verif.Props.Range

/-! # Concrete cases for the theorems about backends, encodings, pruned versions, writers and so on (C46–C68)

Each of the following applies the theorem named in its proof, showing that its hypotheses can be met. -/

namespace Jmt
open Spec

variable {H : Hasher}

/-- C46: the proof of the key `0x10` shown for the insertion of `0x81` makes the verifier panic; that of the overwrite of `0x10` does not. -/
example : Panics (SMProof.verifyUpdate Sample.T true [Sample.proof10] (Spec.root Sample.T Sample.es2) placeholder [(Sample.key 0x81, some [6])]) := by
  obtain ⟨y, hy⟩ := Sample.twoCommits_reached Sample.T
  have hg : ∃ P, getWithProof Sample.T y.store.reader (Sample.key 0x10) 1 = .ok (some [4], P) :=
    C02_get_with_proof_agrees hy (by decide) Sample.twoCommits_readable (Sample.key 0x10)
  unfold Panics
  have h : Sample.panicked (SMProof.verifyUpdate Sample.T true [Sample.proof10] (Spec.root Sample.T Sample.es2) placeholder
      [(Sample.key 0x81, some [6])]) = true := by decide +kernel
  exact Sample.of_panicked h

/-- C46: what a panic means in that case. -/
example : ∃ (j : Nat) (P : SMProof) (k : KeyHash) (x : Option Value) (r : Digest), [Sample.proof10][j]? = some P ∧
    [(Sample.key 0x81, some [6])][j]? = some (k, x) ∧ Spec.PanicsAt Sample.T P r k x := by
  have h : Sample.panicked (SMProof.verifyUpdate Sample.T true [Sample.proof10] (Spec.root Sample.T Sample.es2) placeholder
      [(Sample.key 0x81, some [6])]) = true := by decide +kernel
  obtain ⟨-, j, P, k, x, r, h1, h2, -, h3⟩ := C46_update_panics_iff.1 (Sample.of_panicked h)
  exact ⟨j, P, k, x, r, h1, h2, h3⟩

example : ¬ Panics (SMProof.verifyUpdate Sample.T true [Sample.proof10] (Spec.root Sample.T Sample.es2) placeholder [(Sample.key 0x10, some [6])]) := by
  obtain ⟨y, hy⟩ := Sample.twoCommits_reached Sample.T
  obtain ⟨P, hP⟩ := C02_get_with_proof_agrees hy (by decide) Sample.twoCommits_readable (Sample.key 0x10)
  have hw : WellShaped Sample.proof10 (Sample.key 0x10) (some [6]) := by
    unfold WellShaped Sample.proof10
    decide
  exact C46_update_no_panic_partial true (fun j P k x hj hk => by
    match j, hj, hk with
    | 0, hj, hk => cases hj; cases hk; exact hw
    | j + 1, hj, _ => simp at hj)

/-- C47: the in-memory store as a backend. -/
example : ∃ y st, Reached H Sample.ops y ∧ BackendRun H Sample.ops y.store.reader y.next st ∧
    SameQueries H y.store.reader y.store.reader 3 3 := by
  obtain ⟨y, hy⟩ := Sample.reached H
  obtain ⟨st, h, -⟩ := C47_mock_is_backend hy Sample.bound
  exact ⟨y, st, hy, h, C47_backend_queries h Sample.bound hy Sample.readable3⟩

/-- C49: proofs served for version 3 of the sample history. -/
example : ∃ y x p bs, Reached H Sample.ops y ∧ getWithProof H y.store.reader (Sample.key 0x10) 3 = .ok (x, p) ∧
    Borsh.smProof.enc p = some bs := by
  obtain ⟨y, hy⟩ := Sample.reached H
  obtain ⟨p, hp⟩ := C02_get_with_proof_agrees hy Sample.bound Sample.readable3 (Sample.key 0x10)
  obtain ⟨bs, h, -⟩ := C49_served_proofs hy Sample.bound Sample.readable3 hp
  exact ⟨y, _, p, bs, hy, hp, h⟩

example : ∃ y hps b, Reached H Sample.ops y ∧ putValueSetsWithProof H y.store.reader [[(Sample.key 7, some [7])]] y.next = .ok (hps, b) ∧
    ∀ newRoot proofs, hps[0]? = some (newRoot, proofs) → ∃ bs, Borsh.updateProof.enc proofs = some bs := by
  obtain ⟨y, hy⟩ := Sample.reached H
  obtain ⟨-, hps, b, s', h, -⟩ := C13_commit_never_fails hy [[(Sample.key 7, some [7])]] (by decide)
  refine ⟨y, hps, b, hy, h, fun newRoot proofs hr => ?_⟩
  obtain ⟨bs, h, -⟩ := C49_served_update_proofs hy [[(Sample.key 7, some [7])]] (by decide) h 0 _ newRoot proofs rfl hr (by decide)
  exact ⟨bs, h⟩

/-- C50: rolling back to version 3. -/
example : mapAt (rolledBackAs Sample.ops 3) 3 = mapAt Sample.ops 3 := by
  obtain ⟨y, hy⟩ := Sample.reached Sample.T
  exact (C50_rolledBackAs_map hy Sample.bound Sample.readable3 3).2 (Nat.le_refl _)

/-- C52: version 0 again. -/
example : ∃ y msg, Reached H [.commit [[(Sample.key 1, some [1])]]] y ∧
    y.store.commit H [[(Sample.key 2, some [2])]] 0 = .error (.panic msg) := by
  obtain ⟨y, h, -⟩ := Sys.run_ok H false [.commit [[(Sample.key 1, some [1])]]] (by decide) (by decide)
  have hy : Reached H _ y := ⟨false, h⟩
  obtain ⟨msg, hm⟩ := C52_mock_refuses_version_zero hy (by decide) (Sys.run_flag _ h) (by constructor <;> decide)
    [[(Sample.key 2, some [2])]] (by decide) (by decide) (by
      intro i ws pre k post hi hws
      match i, hi with
      | 0, hi =>
        cases hi
        rcases pre with _ | ⟨p, pre⟩ <;> simp at hws
      | i + 1, hi => simp at hi)
  exact ⟨y, msg, hy, hm⟩

/-- C56: version 1 of the sample history has been pruned at 4. -/
example : ∃ y, Reached H (Sample.ops ++ [.purge 4]) y ∧ (∀ k, get y.store.reader k 1 = .ok (mapAt (Sample.ops ++ [.purge 4]) 1 k)) ∧
    (getWithProof H y.store.reader (Sample.key 0x10) 1 = .error (.missingRoot 1) ↔ Spec.RootPurged (Sample.ops ++ [.purge 4]) 1) := by
  obtain ⟨y, hy⟩ := C13_history_never_fails H (Sample.ops ++ [.purge 4]) (by decide) (by decide)
  obtain ⟨es, hes⟩ := C03_listing_exists H (Sample.ops ++ [.purge 4]) 1
  exact ⟨y, hy, (C56_pruned_reads_fail_or_tell hy (by decide) (v := 1) (by decide) hes).1,
    C56_missing_reported_iff hy (by decide) (v := 1) (by decide) _⟩

example : ∃ y y0, Reached H (Sample.ops ++ [.purge 4]) y ∧ Reached H (withoutPurges (Sample.ops ++ [.purge 4])) y0 ∧
    ∀ r, getWithProof H y.store.reader (Sample.key 0x10) 1 = .ok r → getWithProof H y0.store.reader (Sample.key 0x10) 1 = .ok r := by
  obtain ⟨y, hy⟩ := C13_history_never_fails H (Sample.ops ++ [.purge 4]) (by decide) (by decide)
  obtain ⟨y0, h0, h⟩ := C56_pruned_proofs_fail_or_agree hy (by decide)
  exact ⟨y, y0, hy, h0, (h 1 (by decide) _).1⟩

/-- C57: an update on the sample history, in the three ways. -/
example : ∃ y hps b, Reached H Sample.ops y ∧ putValueSetsWithProof H y.store.reader [[(Sample.key 7, some [7])]] y.next = .ok (hps, b) ∧
    Spec.BoundedUpdate [[(Sample.key 7, some [7])]] b := by
  obtain ⟨y, hy⟩ := Sample.reached H
  obtain ⟨-, hps, b, s', h, -⟩ := C13_commit_never_fails hy [[(Sample.key 7, some [7])]] (by decide)
  exact ⟨y, hps, b, hy, h, C57_writes_with_proof_bounded _ _ _ h⟩

example : ∃ y hs b, Reached H Sample.ops y ∧ batchPutValueSets H y.store.reader [[(Sample.key 7, [7])]] none y.next = .ok (hs, b) ∧
    b.nodeStats.length = 1 := by
  obtain ⟨y, hy⟩ := Sample.reached H
  obtain ⟨hs, b, -, h, -⟩ := C15_batch_same_batches hy [[(Sample.key 7, [7])]] (by decide) (by decide)
  exact ⟨y, hs, b, hy, h, (C57_batch_bounded hy _ (by decide) h).1⟩

/-- C63: the sample history. -/
example : ∃ y, Reached H Sample.ops y ∧ y.store.stale.length < y.store.numNodes := by
  obtain ⟨y, hy⟩ := Sample.reached H
  exact ⟨y, hy, C63_stale_fewer_than_nodes hy Sample.bound (by decide)⟩

/-- C64: pruning at 3 and one more commit. -/
example : ∃ y y1 y2, Reached H Sample.ops y ∧ Reached H (Sample.ops ++ [.purge 3, .commit [[(Sample.key 7, some [7])]]]) y1 ∧
    Reached H (Sample.ops ++ [.commit [[(Sample.key 7, some [7])]], .purge 3]) y2 ∧ SameStore y1.store y2.store := by
  obtain ⟨y, hy⟩ := Sample.reached H
  obtain ⟨y1, y2, h1, h2, -, h3⟩ := C64_commit_and_pruning_commute hy 3 (by decide) [[(Sample.key 7, some [7])]] (by decide)
  exact ⟨y, y1, y2, hy, h1, h2, h3⟩

/-- C65: an update prepared on the sample history, written there. -/
example : ∃ y hs b, Reached H Sample.ops y ∧ PreparedUpdate H y.store.reader y.next hs b ∧ (y.store.writeUntil b).2 = none ∧
    (∃ s' left, y.store.purgeStaleNodes 3 = .ok s' ∧ y.store.purgeUntil 3 = (left, none) ∧ SameStore left s') := by
  obtain ⟨y, hy⟩ := Sample.reached H
  have hn : y.next = 5 := (hy.inv Sample.bound).1
  obtain ⟨hs, b, s', h, hw, -⟩ := hy.commit [[(Sample.key 7, some [7])]] (by decide)
  have hp : PreparedUpdate H y.store.reader y.next hs b := .inl ⟨[[(Sample.key 7, some [7])]], by simp, by rw [hn]; decide, h⟩
  exact ⟨y, hs, b, hy, hp, ((C65_models_agree hy Sample.bound hp y.store).1 s' hw).1, C65_purge_models_agree hy Sample.bound 3⟩

/-- C66: two processes that keep their tables in opposite orders. -/
example : ∃ y, Reached H Sample.ops y ∧ EqualQueries H (Sample.backwards y.store).reader y.store.reader := by
  obtain ⟨y, s, hs, b, s', hy, rfl, hrun, hrec, htab, -⟩ := C66_example H
  exact ⟨y, hy, C66_queries hrec htab⟩

/-- C66: any two runs of the sample history answer alike, and prune alike. -/
example : ∃ y z, ShuffledRun H false Sample.ops z ∧ Reached H Sample.ops y ∧ SameRecords z.store y.store ∧
    Alike SameRecords (z.store.purgeStaleNodes 3) (y.store.purgeStaleNodes 3) := by
  obtain ⟨y, s, hs, b, s', hy, rfl, hrun, hrec, htab, -⟩ := C66_example H
  obtain ⟨-, -, -, y0, h0, -, h1, h2, -⟩ := C66_histories hrun hrun
  exact ⟨y0, _, hrun, h0, h1, (C66_writes h1 h2).2 3⟩

/-- C61: the two versions of the user history at which "b" maps to 3 and "a" is there or not; iteration; ics23. -/
example : ∃ y root, Reached Sample.T (Sample.userOps.map (UserOp.hashed Sample.toy)) y ∧
    getRootHash Sample.T y.store.reader 2 = .ok root ∧
    (∃ it items, Iter.new y.store.reader 2 (Sample.toy [97]) = .ok it ∧ it.Yields y.store.reader items) := by
  obtain ⟨y, hy⟩ := Sample.user_reached
  have hd : Distinct Sample.toy (userKeys Sample.userOps ++ userKeys Sample.userOps) :=
    fun a ha b hb => Sample.userDistinct a (List.mem_cons_of_mem _ (by simpa using ha)) b (List.mem_cons_of_mem _ (by simpa using hb))
  obtain ⟨root, h1, -⟩ := C61_same_map_same_root (f := Sample.toy) hy (by decide) hy (by decide) (v := 2) (v' := 2)
    ⟨by decide, by decide⟩ ⟨by decide, by decide⟩ hd (fun _ => rfl)
  obtain ⟨it, items, h2, h3, -⟩ := C61_iterator (f := Sample.toy) hy (by decide) (v := 2) ⟨by decide, by decide⟩
    (fun a ha b hb => Sample.userDistinct a (List.mem_cons_of_mem _ ha) b (List.mem_cons_of_mem _ hb)) (Sample.toy [97])
  exact ⟨y, root, hy, h1, it, items, h2, h3⟩

/-- C62. -/
example : Print.escaped [1] ≠ Print.escaped [2] := fun h => absurd (C62_key_form_injective h) (by decide)

/-- C63: the sample history again: three keys at the oldest retained version. -/
example : ∃ y, Reached H (Sample.ops ++ [.purge 4]) y ∧ y.store.numNodes ≤ 64 * 3 + 66 * 0 + 5 := by
  obtain ⟨y, hy⟩ := C13_history_never_fails H (Sample.ops ++ [.purge 4]) (by decide) (by decide)
  refine ⟨y, hy, C63_nodes_after_pruning hy (by decide) [Sample.key 0x10, Sample.key 0x80, Sample.key 0x81] (fun k hk => ?_)⟩
  rcases Classical.em (k ∈ [Sample.key 0x10, Sample.key 0x80, Sample.key 0x81]) with h | h
  · exact h
  · exfalso
    simp only [List.mem_cons, List.not_mem_nil, or_false, not_or] at h
    apply hk
    show (((((((((Spec.Map.empty.write (Sample.key 0x10, some [1])).write (Sample.key 0x1f, some [2])).write (Sample.key 0x80, some [3])).write
      (Sample.key 0x10, some [4])).write (Sample.key 0x1f, none)).write (Sample.key 0x81, some [5])).write
      (Sample.key 0x10, some [6])).write (Sample.key 0x81, some [7]))) k = none
    unfold Spec.Map.write Spec.Map.empty
    simp [h.1, h.2.1, h.2.2]

/-- C64: a batch computed while the sample history is pruned at 3 (and the reader sees the store before that). -/
example : ∃ y r, Reached H Sample.ops y ∧ batchPutValueSets H y.store.reader [[(Sample.key 7, [7])]] none y.next = .ok r := by
  obtain ⟨y, hy⟩ := Sample.reached H
  have hz : Sys.run H (([] : List Version).map .purge) y = .ok y := rfl
  obtain ⟨r, h, -⟩ := C64_compute_batch_while_pruning hy hz (R' := y.store.reader)
    ⟨fun k => ⟨0, y, rfl, rfl⟩, fun v k => ⟨0, y, rfl, rfl⟩⟩ [[(Sample.key 7, [7])]] (by decide) (by decide)
  exact ⟨y, r, hy, h⟩

/-- C67: the restoration of version 1 of the sample history on another backend. -/
example (w : Version) : ∃ y root, ∃ r : Restore, ∃ R b R', Reached Sample.T Sample.ops y ∧ getRootHash Sample.T y.store.reader 1 = .ok root ∧
    r.lastBatch Sample.T = .ok b ∧ Spec.Written b R' R ∧ SameQueries Sample.T R' y.store.reader w 1 := by
  obtain ⟨y, root, r, R, b, R', hy, h1, h2, h3, h4, -⟩ := Sample.restoredOn w
  obtain ⟨b', h5, h6⟩ := C67_finish hy Sample.bound Sample.readable1 Sample.sorted1 h1 Sample.noPlaceholder1 (by decide) h2 (by decide)
  obtain rfl : b = b' := by rw [h3] at h5; exact Except.ok.inj h5
  exact ⟨y, root, r, R, b, R', hy, h1, h3, h4, h6 R' h4⟩

/-- C68: the nodes written by a commit on the sample history have JSON texts. -/
example : ∃ y hs b, Reached H Sample.ops y ∧ putValueSets H y.store.reader [[(Sample.key 7, some [7])]] y.next = .ok (hs, b) ∧
    ∀ k nd, b.nodeBatch.nodes.get? k = some nd → ∃ t, Serde.node.toText nd = some t ∧ Serde.node.fromText t = some nd := by
  obtain ⟨y, hy⟩ := Sample.reached H
  obtain ⟨hs, b, s', h, -⟩ := hy.commit [[(Sample.key 7, some [7])]] (by decide)
  exact ⟨y, hs, b, hy, h, fun k nd hk => (C68_update_has_texts hy _ (by decide) (by decide) h k nd hk).2⟩

/-- C49: the range proof served for a pair of version 1 of the sample history has an encoding. -/
example : ∃ y P bs, Reached H Sample.ops y ∧ getRangeProof H y.store.reader (Sample.key 0x10) 1 = .ok P ∧
    Borsh.rangeProof.enc P = some bs ∧ Borsh.rangeProof.fromSlice bs = some P := by
  obtain ⟨y, hy⟩ := Sample.reached H
  obtain ⟨P, root, n, h, -⟩ := C22_range_complete hy Sample.bound Sample.readable1 (hy.readAt Sample.bound Sample.readable1).lists (k := Sample.key 0x10)
    (x := [4]) (by decide) false
  obtain ⟨bs, h1, h2⟩ := C49_served_range_proofs hy Sample.bound Sample.readable1 h
  exact ⟨y, P, bs, hy, h, h1, h2⟩

/-- C56: iteration at version 2 after pruning up to version 3. -/
example : ∃ y, Reached H (Sample.ops ++ [.purge 3]) y ∧ ∃ items : List (KeyHash × Value),
    SortedPairs (mapAt (Sample.ops ++ [.purge 3]) 2) items ∧ ∀ it, Iter.newByIndex y.store.reader 2 0 = .ok it → ∀ n, ∃ outs it' later,
      Iter.calls (List.replicate n y.store.reader) it = .ok (outs, it') ∧ items = Spec.served outs ++ later := by
  obtain ⟨y, hy⟩ := C13_history_never_fails H (Sample.ops ++ [.purge 3]) (by decide) (by decide)
  obtain ⟨items, h1, h2⟩ := (C56_pruned_iteration hy (by decide) (v := 2) (by decide)).2
  refine ⟨y, hy, items, h1, fun it hit n => ?_⟩
  obtain ⟨outs, it', later, h3, h4, -⟩ := h2 0 it hit n
  exact ⟨outs, it', later, h3, h4⟩

end Jmt
