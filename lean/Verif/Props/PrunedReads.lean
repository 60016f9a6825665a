import Verif.Proofs.PrunedReads
import Verif.Props.RootRetire
import Verif.Props.IterResume
import Verif.Props.Queries
/-!
# Property C56: queries about pruned versions fail or tell the truth
-/
namespace Jmt
open Spec (AnyFault Entry withoutPurges)

variable {H : Hasher} {ops : List Op} {y : Sys}

/-- A version that was once committed, seen through the store that was never pruned. -/
theorem Reached.behind (hr : Reached H ops y) (hb : (setsOf ops).length < 2 ^ 64) :
    ∃ (y0 : Sys) (R : Reader), Reached H (withoutPurges ops) y0 ∧
      Spec.FaultyView (fun _ => True) (fun _ _ => False) y.store.reader R ∧ (∀ v k, y.store.reader.getValueOption v k = R.getValueOption v k) ∧
      ∀ v, v < (setsOf ops).length → SameQueries H R y0.store.reader v v ∧
        ReadAt H R v (mapAt ops v) (entriesAfter H (setsOf ops) (v + 1)) := by
  obtain ⟨y0, hr0, hf⟩ := hr.pruned_view hb
  refine ⟨y0, _, hr0, hf, fun v k => ?_, fun v hv => ?_⟩
  · rcases hf.value v k with h | ⟨e, h⟩ | ⟨h, -⟩
    · exact h
    · cases h
    · exact h.elim
  · have r := hr0.readAt (by rw [setsOf_withoutPurges]; exact hb) (readable_withoutPurges hv)
    rw [mapAt_withoutPurges, setsOf_withoutPurges] at r
    have r' : ReadAt H { y0.store.reader with getRightmostLeaf := y.store.reader.getRightmostLeaf } v (mapAt ops v)
        (entriesAfter H (setsOf ops) (v + 1)) := .of r.nodup r.tree r.lists r.value r.leaves
    exact ⟨r'.sameQueries r, r'⟩

theorem Spec.FaultyView.any {P Q} {R' R : Reader} (h : Spec.FaultyView P Q R' R) : AnyFault R' R where
  node k := (h.node k).imp_right (Or.imp_right fun h => ⟨trivial, h.2⟩)
  value v k := (h.value v k).imp_right (Or.imp_right fun h => ⟨trivial, h.2⟩)
  rightmost := h.rightmost

/-- C56, values, roots, counts and proofs: after any history with purges, for every version `v` ever committed, pruned or not,
`get` returns the value in the map of `v`; and when `get_root_hash`, `get_root_hash_option`, `get_leaf_count` or `get_with_proof`
succeeds, it returns the root hash of that map, its number of keys, the value in it and a proof that verifies against that root
hash. -/
theorem C56_pruned_reads_fail_or_tell (hr : Reached H ops y) (hb : (setsOf ops).length < 2 ^ 64) {v : Version}
    (hv : v < (setsOf ops).length) {es : List Entry} (hes : Spec.Lists H (mapAt ops v) es) :
    (∀ k, get y.store.reader k v = .ok (mapAt ops v k)) ∧
    (∀ d, getRootHash H y.store.reader v = .ok d → d = Spec.root H es) ∧
    (∀ d, getRootHashOption H y.store.reader v = .ok (some d) → d = Spec.root H es) ∧
    (∀ n, getLeafCount y.store.reader v = .ok n → n = es.length) ∧
    (∀ k x P, getWithProof H y.store.reader k v = .ok (x, P) → x = mapAt ops v k ∧ P.verify H (Spec.root H es) k x = .ok ()) := by
  obtain ⟨y0, R, hr0, hf, hval, hq⟩ := hr.behind hb
  obtain ⟨-, r⟩ := hq v hv
  have hp := lists_perm r.lists hes
  have hroot : ∀ d, getRootHash H y.store.reader v = .ok d → d = Spec.root H es := by
    intro d hd
    have := (C38_roots_fail_or_agree (H := H) hf.any v).1 d hd
    rw [r.rootHash, root_perm hp] at this
    exact (Except.ok.inj this).symm
  refine ⟨fun k => ?_, hroot, fun d hd => ?_, fun n hn => ?_, fun k x P hP => ?_⟩
  · unfold Jmt.get; rw [hval]; exact r.value k
  · refine hroot d ?_
    unfold getRootHashOption at hd
    unfold getRootHash getRootNode
    obtain ⟨n, h1, h2⟩ := bind_ok_inv hd
    cases n with
    | none => cases h2
    | some n =>
      obtain ⟨h, h3, h4⟩ := bind_ok_inv h2
      cases h4
      simp only [h1, ok_bind, h3]
  · have := (C38_roots_fail_or_agree (H := H) hf.any v).2 n hn
    rw [r.leafCount] at this
    rw [← Except.ok.inj this, hp.length_eq]
  · have := (C38_proofs_fail_or_agree (H := H) hf.any v).1 k _ hP
    rw [r.gwp] at this
    cases this
    refine ⟨rfl, ?_⟩
    have he : Spec.root H es = sh H (entriesAfter H (setsOf ops) (v + 1)) [] := by
      rw [← root_eq_sh, root_perm hp]
    rw [he]
    cases hk : mapAt ops v k with
    | some x => exact specProof_verifies_existence r.nodup ((r.lists.mem k _).2 ⟨x, hk, rfl⟩)
    | none =>
      refine specProof_verifies_nonexistence r.nodup fun vh hc => ?_
      obtain ⟨x, h, -⟩ := (r.lists.mem k _).1 hc
      rw [hk] at h
      cases h

/-- C56, all proofs: whatever proof is returned for a version ever committed, it is the one returned after the same history
without its purges. -/
theorem C56_pruned_proofs_fail_or_agree (hr : Reached H ops y) (hb : (setsOf ops).length < 2 ^ 64) :
    ∃ y0, Reached H (withoutPurges ops) y0 ∧ ∀ v, v < (setsOf ops).length → ∀ k,
      (∀ r, getWithProof H y.store.reader k v = .ok r → getWithProof H y0.store.reader k v = .ok r) ∧
      (∀ r, getRangeProof H y.store.reader k v = .ok r → getRangeProof H y0.store.reader k v = .ok r) ∧
      (∀ r, getWithExclusionProof H y.store.reader k v = .ok r → getWithExclusionProof H y0.store.reader k v = .ok r) ∧
      (∀ checked pre key r, getWithIcs23Proof H checked y.store.reader pre key v = .ok r →
        getWithIcs23Proof H checked y0.store.reader pre key v = .ok r) := by
  obtain ⟨y0, R, hr0, hf, -, hq⟩ := hr.behind hb
  refine ⟨y0, hr0, fun v hv k => ?_⟩
  obtain ⟨q, -⟩ := hq v hv
  have c := C38_proofs_fail_or_agree (H := H) hf.any v
  refine ⟨fun r h => ?_, fun r h => ?_, fun r h => ?_, fun checked pre key r h => ?_⟩
  · rw [← q.getWithProof]; exact c.1 k r h
  · rw [← q.range]; exact c.2.1 k r h
  · rw [← q.exclusion]; exact c.2.2.1 k r h
  · rw [← q.ics23]; exact c.2.2.2 checked pre pre key r (fun _ => .inl rfl) h

/-- C56, iteration: an iterator that could be started on a version ever committed, called any number of times, returns pairs
of the map in ascending order without leaving any out, possibly with errors in between, and ends only after the last. -/
theorem C56_pruned_iteration (hr : Reached H ops y) (hb : (setsOf ops).length < 2 ^ 64) {v : Version}
    (hv : v < (setsOf ops).length) :
    (∀ start it, Iter.new y.store.reader v start = .ok it → ∃ items : List (KeyHash × Value),
      items.Pairwise (fun a b => a.1.val < b.1.val) ∧ (∀ k x, (k, x) ∈ items ↔ mapAt ops v k = some x ∧ start.val ≤ k.val) ∧
      ∀ n, ∃ outs it' later, Iter.calls (List.replicate n y.store.reader) it = .ok (outs, it') ∧
        items = Spec.served outs ++ later ∧ (none ∈ outs → later = [])) ∧
    (∃ items, SortedPairs (mapAt ops v) items ∧ ∀ i it, Iter.newByIndex y.store.reader v i = .ok it →
      ∀ n, ∃ outs it' later, Iter.calls (List.replicate n y.store.reader) it = .ok (outs, it') ∧
        items.drop i = Spec.served outs ++ later ∧ (none ∈ outs → later = [])) := by
  obtain ⟨y0, R, hr0, hf, hval, hq⟩ := hr.behind hb
  obtain ⟨-, r⟩ := hq v hv
  have c := C38_iteration_fails_or_agrees hf.any v
  have main : ∀ it items, it.version = v → it.Yields R items → ∀ n, ∃ outs it' later,
      Iter.calls (List.replicate n y.store.reader) it = .ok (outs, it') ∧ items = Spec.served outs ++ later ∧ (none ∈ outs → later = []) := by
    intro it items hver hy n
    obtain ⟨outs, it', later, a1, -, a2, -, a4⟩ := calls_resume (v := v) (R := R) (List.replicate n y.store.reader)
      (fun R' hR' => by rw [(List.mem_replicate.1 hR').2]; exact hf.any)
      (fun R' hR' l _ => by
        rw [(List.mem_replicate.1 hR').2]
        unfold Reader.getValue
        rw [hval]) hver hy
    exact ⟨outs, it', later, a1, a2, a4⟩
  constructor
  · intro start it hit
    obtain ⟨it', items, h1, h2, h3, h4⟩ := r.iter start
    have := c.1 start it hit
    rw [h1] at this
    cases this
    exact ⟨items, h3, h4, main it items (newLoop_version hit) h2⟩
  · obtain ⟨items, h1, h2⟩ := r.iterByIndex
    refine ⟨items, h1, fun i it hit => ?_⟩
    obtain ⟨it', h3, h4⟩ := h2 i
    have := c.2.1 i it hit
    rw [h3] at this
    cases this
    exact main it _ (newByIndex_version hit) h4

/-- C56, the error: `get_with_proof` reports a version ever committed as missing exactly when its root has been purged. -/
theorem C56_missing_reported_iff (hr : Reached H ops y) (hb : (setsOf ops).length < 2 ^ 64) {v : Version}
    (hv : v < (setsOf ops).length) (k : KeyHash) :
    getWithProof H y.store.reader k v = .error (.missingRoot v) ↔ Spec.RootPurged ops v := by
  have hs := C12_stored_roots_exactly hr hb v
  constructor
  · intro h
    apply Classical.byContradiction
    intro hn
    exact notMissing_getWithProofLoop y.store k v _ 0 _ _ _ (fun _ => hs.2 ⟨hv, hn⟩) v h
  · intro h
    refine (C32_missing_root _ _ _ ?_).1
    show Except.ok (y.store.nodes.get? ⟨v, []⟩) = _
    cases hg : y.store.nodes.get? ⟨v, []⟩ with
    | none => rfl
    | some n => exact absurd h (hs.1 (by rw [hg]; simp)).2

namespace Sample

/-- Two keys, a set without effect, one key overwritten, a purge. -/
def leakOps : List Op :=
  [.commit [[(key 0x10, some [1])]], .commit [[(key 0x80, some [2])]], .commit [[]], .commit [[(key 0x80, some [3])]], .purge 3]

/-- What the error handling does not cover: the root of version 1 is not deleted, although the leaf of a key below it is, and
`get_with_proof` for the other key at version 1 panics instead of reporting the version as missing. For the key whose leaf is gone it
returns an error about a missing node. -/
theorem _root_.Jmt.C56_pruned_read_panics : ∃ y, Reached T Sample.leakOps y ∧ ¬ Readable Sample.leakOps 1 ∧
    (∃ m, getWithProof T y.store.reader (key 0x10) 1 = .error (.panic m)) ∧
    (∃ nk, getWithProof T y.store.reader (key 0x80) 1 = .error (.missingNode nk)) ∧
    ∃ d, getRootHash T y.store.reader 1 = .ok d := by
  obtain ⟨y, hy, h⟩ := Sample.of_check (ops := Sample.leakOps)
    (p := fun s => (match getWithProof T s.reader (key 0x10) 1 with | .error (.panic _) => true | _ => false) &&
      ((match getWithProof T s.reader (key 0x80) 1 with | .error (.missingNode _) => true | _ => false) &&
      (match getRootHash T s.reader 1 with | .ok _ => true | _ => false))) (by decide +kernel)
  simp only [Bool.and_eq_true] at h
  obtain ⟨h1, h2, h3⟩ := h
  refine ⟨y, hy, fun h => absurd h.1 (by decide), ?_, ?_, ?_⟩
  · split at h1
    · exact ⟨_, by assumption⟩
    · cases h1
  · split at h2
    · exact ⟨_, by assumption⟩
    · cases h2
  · split at h3
    · exact ⟨_, by assumption⟩
    · cases h3

/-- The hypotheses of the theorems above are met with results other than errors: at the pruned version 1 the iterator can be started,
returns the first pair and then an error, while version 3 has its root and version 2 is reported missing. -/
example : ∃ y, Reached T Sample.leakOps y ∧ ¬ Readable Sample.leakOps 1 ∧
    (∃ it, Iter.new y.store.reader 1 (key 0) = .ok it ∧
      ∃ it' e, Iter.calls [y.store.reader, y.store.reader] it = .ok ([some (.ok (key 0x10, [1])), some (.error e)], it')) ∧
    Spec.RootPurged Sample.leakOps 2 ∧ ¬ Spec.RootPurged Sample.leakOps 1 := by
  obtain ⟨y, hy, h⟩ := Sample.of_check (ops := Sample.leakOps)
    (p := fun s => (match Iter.new s.reader 1 (key 0) with
      | .ok it => (match Iter.calls [s.reader, s.reader] it with
        | .ok ([some (.ok kv), some (.error _)], _) => decide (kv = (key 0x10, [1]))
        | _ => false)
      | _ => false) && ((s.nodes.get? ⟨2, []⟩).isNone && (s.nodes.get? ⟨1, []⟩).isSome)) (by decide +kernel)
  simp only [Bool.and_eq_true, Option.isNone_iff_eq_none] at h
  obtain ⟨h1, h2, h3⟩ := h
  refine ⟨y, hy, fun h => absurd h.1 (by decide), ?_, ?_, ?_⟩
  · split at h1
    · next it hit =>
      split at h1
      · next kv e it' hc =>
        have := of_decide_eq_true h1
        subst this
        exact ⟨it, hit, it', e, hc⟩
      · cases h1
    · cases h1
  · exact Classical.byContradiction fun hc => (C12_stored_roots_exactly hy (by decide) 2).2 ⟨by decide, hc⟩ h2
  · exact ((C12_stored_roots_exactly hy (by decide) 1).1 (by intro hc; rw [hc] at h3; cases h3)).2

end Sample
end Jmt
