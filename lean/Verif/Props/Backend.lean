import Verif.Proofs.Backend
import Verif.Props.Core
/-!
# Property C47: every backend that keeps the writer contract

The other theorems speak of histories on the mock store.  Here the store is any backend of which only the reader is known,
and of which the writer's promises hold.
-/
namespace Jmt
open Spec (PartlyWritten Written)

variable {H : Hasher} {ops : List Op} {R : Reader} {n : Version} {st : List StaleNodeIndex}

/-- C47, writes: on every backend the next commit succeeds, with or without proofs; it returns what the same history on the
mock store returns - the same root hashes, the same update batch, the same proofs - and the root hashes are those of the
maps. -/
theorem C47_backend_commit (h : BackendRun H ops R n st) (sets : List ValueSet)
    (hb : (setsOf ops).length + sets.length < 2 ^ 64) :
    ∃ y hs b r, Reached H ops y ∧ y.next = n ∧
      putValueSets H R sets n = .ok (hs, b) ∧ putValueSets H y.store.reader sets n = .ok (hs, b) ∧
      putValueSetsWithProof H R sets n = .ok r ∧ putValueSetsWithProof H y.store.reader sets n = .ok r ∧
      hs.length = sets.length ∧
      ∀ j, j < sets.length → ∀ es, Spec.Lists H (mapAt (ops ++ [.commit sets]) (n + j)) es →
        hs[j]? = some (Spec.root H es) := by
  obtain ⟨hn, y, hr, ht⟩ := h.tracks (by omega)
  obtain ⟨hy, hi⟩ := hr.inv (by omega)
  obtain ⟨hs, b, s', a1, -, -, a4, -⟩ := hr.commit sets hb
  rw [hn] at ht
  obtain ⟨⟨r, e1, e2⟩, ⟨r', f1, f2⟩⟩ := ht.put hi sets (by unfold preGenesisVersion u64Size; omega)
  rw [hy, e2] at a1
  cases a1
  refine ⟨y, hs, b, r', hr, hy.trans hn.symm, hn ▸ e1, hn ▸ e2, hn ▸ f1, hn ▸ f2, a4.hash_get.1, fun j hj es hes => ?_⟩
  rw [a4.hash_get.2 j hj, ← root_eq_sh]
  congr 1
  have hl := lists_entriesAfter H (setsOf (ops ++ [.commit sets])) (n + j + 1)
  rw [setsOf_commit, hn] at hl
  unfold mapAt at hes
  rw [setsOf_commit, hn] at hes
  exact root_perm (lists_perm hl hes)

/-- C47, the batch API. -/
theorem C47_backend_batch (h : BackendRun H ops R n st) (sets : List (List (KeyHash × Value))) (hne : ∀ s ∈ sets, s ≠ [])
    (hb : (setsOf ops).length + sets.length < 2 ^ 64) :
    ∃ y r, Reached H ops y ∧ y.next = n ∧
      batchPutValueSets H R sets none n = .ok r ∧ batchPutValueSets H y.store.reader sets none n = .ok r := by
  obtain ⟨hn, y, hr, ht⟩ := h.tracks (by omega)
  obtain ⟨hy, hi⟩ := hr.inv (by omega)
  rw [hn] at ht
  obtain ⟨r, e1, e2⟩ := ht.putBatch hi sets hne (by unfold preGenesisVersion u64Size; omega)
  exact ⟨y, r, hr, hy.trans hn.symm, hn ▸ e1, hn ▸ e2⟩

/-- C47, reads: on every backend each readable version answers every query as the mock store does after the same history,
whatever of the stale nodes has been deleted. -/
theorem C47_backend_queries (h : BackendRun H ops R n st) (hb : (setsOf ops).length < 2 ^ 64) {y : Sys}
    (hr : Reached H ops y) {v : Version} (hv : Readable ops v) : SameQueries H R y.store.reader v v := by
  obtain ⟨-, y', hr', ht⟩ := h.tracks hb
  exact (ht.readAt hr' hb hv).sameQueries (hr.readAt hb hv)

/-- C47, spelled out: `get`, `get_with_proof` and the root hash are those of the map of that version, and the proof verifies
against that root hash. -/
theorem C47_backend_reads (h : BackendRun H ops R n st) (hb : (setsOf ops).length < 2 ^ 64) {v : Version}
    (hv : Readable ops v) : n = (setsOf ops).length ∧
    ∀ es, Spec.Lists H (mapAt ops v) es → getRootHash H R v = .ok (Spec.root H es) ∧
      ∀ k, get R k v = .ok (mapAt ops v k) ∧
        ∃ p, getWithProof H R k v = .ok (mapAt ops v k, p) ∧ p.verify H (Spec.root H es) k (mapAt ops v k) = .ok () := by
  obtain ⟨hn, y, hr, ht⟩ := h.tracks hb
  have r := ht.readAt hr hb hv
  refine ⟨hn, fun es hes => ?_⟩
  have hroot : getRootHash H R v = .ok (Spec.root H es) := by
    rw [r.rootHash, root_perm (lists_perm r.lists hes)]
  refine ⟨hroot, fun k => ⟨?_, ?_⟩⟩
  · unfold Jmt.get; exact r.value k
  · refine ⟨_, r.gwp k, ?_⟩
    have he : Spec.root H es = sh H (entriesAfter H (setsOf ops) (v + 1)) [] := by
      rw [← root_eq_sh, root_perm (lists_perm r.lists hes)]
    rw [he]
    cases hk : mapAt ops v k with
    | some x => exact specProof_verifies_existence r.nodup ((r.lists.mem k _).2 ⟨x, hk, rfl⟩)
    | none =>
      refine specProof_verifies_nonexistence r.nodup fun vh hc => ?_
      obtain ⟨x, h, -⟩ := (r.lists.mem k _).1 hc
      rw [hk] at h
      cases h

/-- The mock store is such a backend. -/
theorem C47_mock_is_backend {y : Sys} (hr : Reached H ops y) (hb : (setsOf ops).length < 2 ^ 64) :
    ∃ st, BackendRun H ops y.store.reader y.next st ∧ ∀ x ∈ y.store.stale, x ∈ st := by
  induction ops using list_snoc_ind generalizing y with
  | h0 =>
    obtain ⟨ow, hr⟩ := hr
    cases hr
    exact ⟨[], .start (fun _ => rfl) (fun _ _ => rfl), fun x hx => by cases hx⟩
  | h1 ops op ih =>
    obtain ⟨z, hz, hstep⟩ := hr.run_inv
    have hlen := length_setsOf_append ops [op]
    obtain ⟨st, hrun, hst⟩ := ih hz (by omega)
    obtain ⟨hn, hi⟩ := hz.inv (by omega)
    obtain ⟨y', hstep, he⟩ := bind_ok_inv (show (z.step H op >>= fun z => Sys.run H [] z) = .ok y from hstep)
    cases he
    have hrefl : ∀ b, PartlyWritten b z.store.reader z.store.reader := fun b => ⟨fun _ => .inl rfl, fun _ _ _ => rfl⟩
    cases op with
    | commit sets =>
      have hl : (setsOf [Op.commit sets]).length = sets.length := by simp [setsOf]
      obtain ⟨hs, b, s', a1, a2, a3, a4, -⟩ := hz.commit sets (by omega)
      unfold Sys.step at hstep
      simp only [a3, ok_bind] at hstep
      cases hstep
      refine ⟨_, .commit hrun a1 (hrefl _) (a4.written hi), fun x hx => ?_⟩
      rw [show x ∈ s'.stale ↔ _ from by rw [a4.stale]] at hx
      rcases List.mem_append.1 hx with hx | hx
      · exact List.mem_append_left _ (hst x hx)
      · exact List.mem_append_right _ hx
    | batch sets =>
      have hl : (setsOf [Op.batch sets]).length = sets.length := by simp [setsOf]
      obtain ⟨hs, b, s', a1, a2, a4⟩ := hi.batch sets none (hr.allowed (.batch sets) (by simp)) (cachesFor_none _ _)
        (by unfold preGenesisVersion u64Size; omega)
      rw [← hn] at a1
      unfold Sys.step Store.commitBatch at hstep
      simp only [a1, a2, ok_bind] at hstep
      cases hstep
      refine ⟨_, .batch hrun a1 (hrefl _) (a4.written hi), fun x hx => ?_⟩
      rw [show x ∈ s'.stale ↔ _ from by rw [a4.stale]] at hx
      rcases List.mem_append.1 hx with hx | hx
      · exact List.mem_append_left _ (hst x hx)
      · exact List.mem_append_right _ hx
    | purge r =>
      obtain ⟨s', a1, -, a3, a4, -, a5⟩ := hi.purge r
      unfold Sys.step at hstep
      simp only [a1, ok_bind] at hstep
      cases hstep
      refine ⟨_, .purge hrun ⟨fun k hk => ?_, fun v k => ?_⟩, fun x hx => hst x ?_⟩
      · show Except.ok (s'.nodes.get? k) = Except.ok (z.store.nodes.get? k)
        rw [a5, if_neg]
        rintro ⟨x, h1, h2, h3⟩
        have := hk x (hst x h1) h3
        omega
      · show Except.ok (s'.getValueOption v k) = Except.ok (z.store.getValueOption v k)
        unfold Store.getValueOption
        rw [a3]
      · have hx' : x ∈ s'.stale := hx
        rw [a4] at hx'
        exact (List.mem_filter.1 hx').1

/-! ### The hypotheses are met -/

namespace Sample

/-- A backend on which pruning does not delete but makes every node it is allowed to delete unreadable. -/
def failing (st : List StaleNodeIndex) (r : Version) (R : Reader) : Reader :=
  { R with getNodeOption := fun k =>
      if ∃ x ∈ st, x.nodeKey = k ∧ x.staleSince ≤ r then .error (.io "pruned") else R.getNodeOption k }

theorem failing_pruned (st r) (R : Reader) : Spec.Pruned st r (failing st r R) R where
  node k hk := by
    refine if_neg ?_
    rintro ⟨x, h1, h2, h3⟩
    have := hk x h1 h2
    omega
  value _ _ := rfl

/-- The sample history on it, pruned once more: version 4 can be read, and the next commit goes through. -/
example : ∃ R st, BackendRun H (Sample.ops ++ [.purge 4]) R 5 st ∧ get R (key 0x81) 4 = .ok (some [7]) ∧
    ∃ r, putValueSets H R [[(key 0x81, none)]] 5 = .ok r := by
  obtain ⟨y, hy⟩ := Sample.reached H
  obtain ⟨st, h, -⟩ := C47_mock_is_backend hy (by decide)
  have h' := BackendRun.purge h (failing_pruned st 4 _)
  have hn : y.next = 5 := (hy.inv (by decide)).1
  rw [hn] at h'
  refine ⟨_, _, h', ?_, ?_⟩
  · have := (C47_backend_reads h' (by decide) (v := 4) (by constructor <;> decide)).2 _ (lists_entriesAfter H _ _)
    rw [(this.2 (key 0x81)).1]
    exact congrArg Except.ok (by decide)
  · obtain ⟨-, hs, b, -, -, -, h1, -⟩ := C47_backend_commit h' [[(key 0x81, none)]] (by decide)
    exact ⟨_, h1⟩

end Sample
end Jmt
