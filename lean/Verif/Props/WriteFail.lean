import Verif.Proofs.MockFail
import Verif.Props.Writers
/-!
# C65: what a failing write leaves

A user would expect a write that is refused to have no effect.  The in-memory store inserts each node before it asserts that
there was none, and its lock is not poisoned by the panic: a late write that is refused has replaced the root of the version the
others committed.  Nothing else changes; in general a failing write leaves some of its entries, and no version before its
first one is affected.
-/
namespace Jmt
open Spec (PartlyWritten)

section
variable {H : Hasher} {ops ops' : List Op} {y z : Sys} {b : TreeUpdateBatch} {hs : List Digest}

/-- The model of the call used everywhere else and the one that also says what a failing call leaves agree: on success about the
store, and about whether there is an error. -/
theorem C65_models_agree (hr : Reached H ops y) (hb : (setsOf ops).length < 2 ^ 64)
    (hp : PreparedUpdate H y.store.reader y.next hs b) (s : Store) :
    (∀ s', s.writeTreeUpdateBatch b = .ok s' → (s.writeUntil b).2 = none ∧ SameStore (s.writeUntil b).1 s') ∧
    (∀ e, s.writeTreeUpdateBatch b = .error e → (s.writeUntil b).2 ≠ none) := by
  obtain ⟨-, -, -, -, -, hn⟩ := prepared_res hr hb hp
  refine ⟨fun s' h => ?_, fun e h => writeUntil_error hn h⟩
  have := writeUntil_ok hn h
  exact ⟨this.1, this.2.1⟩

/-- The same for pruning: after any history, visiting the stale entries in B-tree order leaves the same store. -/
theorem C65_purge_models_agree (hr : Reached H ops y) (hb : (setsOf ops).length < 2 ^ 64) (r : Version) :
    ∃ s' left, y.store.purgeStaleNodes r = .ok s' ∧ y.store.purgeUntil r = (left, none) ∧ SameStore left s' :=
  (hr.inv hb).2.purgeUntil r

/-- C65: a write that fails, for whatever reason, has written some of its entries and nothing else. -/
theorem C65_failed_write_leaves_part (hr : Reached H ops y) (hb : (setsOf ops).length < 2 ^ 64)
    (hp : PreparedUpdate H y.store.reader y.next hs b) (s : Store) :
    PartlyWritten b.nodeBatch (s.writeUntil b).1.reader s.reader := by
  obtain ⟨-, -, -, -, -, hn⟩ := prepared_res hr hb hp
  exact writeUntil_partly s b hn

/-- C65: whether it fails or not, the write of an update prepared for some version does not affect what is read at the versions
before it, whatever others have done to the store since the update was prepared. -/
theorem C65_failed_write_keeps_older_partial (hr : Reached H ops y) (hz : Sys.run H ops' y = .ok z)
    (hb : (setsOf (ops ++ ops')).length < 2 ^ 64) (hp : PreparedUpdate H y.store.reader y.next hs b) {v : Version}
    (hv : Readable (ops ++ ops') v) (hlt : v < y.next) :
    SameQueries H (z.store.writeUntil b).1.reader z.store.reader v v := by
  have hb0 : (setsOf ops).length < 2 ^ 64 := by rw [length_setsOf_append] at hb; omega
  obtain ⟨hn, -⟩ := hr.inv hb0
  obtain ⟨sets, s', -, -, hc, -⟩ := prepared_res hr hb0 hp
  have hpart := C65_failed_write_leaves_part hr hb0 hp z.store
  have hR := (hr.run hz).readAt hb hv
  refine (readAt_older (hr.run hz) hb hv (fun k hk n hg => ?_) (fun w k hw => ?_)).sameQueries hR
  · rcases hpart.node k with h | ⟨m, h1, h2⟩
    · rw [h]; exact hg
    · have := (hc.nodeVer k m h1).1; omega
  · refine hpart.value w k (fun u x hu => ?_)
    rw [hc.values] at hu
    split at hu
    · omega
    · cases hu

/-- C65: what a late write that is refused leaves. The root of the version has been replaced: `get_root_hash` now answers what
the late writer had computed. Every other retained version reads as before, and so does `get` at this one. -/
theorem C65_refused_write_replaces_root (hr : Reached H ops y) (hz : Sys.run H ops' y = .ok z)
    (hb : (setsOf (ops ++ ops')).length < 2 ^ 64) (how : y.store.allowOverwrite = false)
    (hp : PreparedUpdate H y.store.reader y.next hs b) (hv : Readable (ops ++ ops') y.next) :
    ∃ left msg h, z.store.writeUntil b = (left, some (.panic msg)) ∧
      hs[0]? = some h ∧ getRootHash H left.reader y.next = .ok h ∧
      (∀ k, get left.reader k y.next = .ok (mapAt (ops ++ ops') y.next k)) ∧
      ∀ v, Readable (ops ++ ops') v → v ≠ y.next → SameQueries H left.reader z.store.reader v v := by
  have hb0 : (setsOf ops).length < 2 ^ 64 := by rw [length_setsOf_append] at hb; omega
  obtain ⟨hn, hi⟩ := hr.inv hb0
  obtain ⟨sets, s', hne, hbs, hc, hnd⟩ := prepared_res hr hb0 hp
  have hpos := List.length_pos_iff.2 hne
  obtain ⟨n, hroot⟩ := prepared_root hr hb0 hp
  have hrz := hr.run hz
  obtain ⟨-, hiz⟩ := hrz.inv hb
  have htaken : (z.store.nodes.get? ⟨y.next, []⟩).isSome := by
    obtain ⟨ver, t⟩ := (hrz.readAt hb hv).tree
    have hz' : z.store.nodes.get? ⟨y.next, []⟩ = some _ := Except.ok.inj t.root
    rw [hz']; rfl
  obtain ⟨msg, hleft⟩ := writeUntil_root_taken (by rw [Sys.run_flag ops' hz]; exact how) hnd hroot
    (fun k m hk => by rw [hn]; exact (hc.nodeVer k m hk).1) htaken
  have hnode : ∀ k : NodeKey, k ≠ ⟨y.next, []⟩ →
      ({ z.store with nodes := z.store.nodes.insert ⟨y.next, []⟩ n } : Store).reader.getNodeOption k = z.store.reader.getNodeOption k := by
    intro k hk
    show Except.ok (AMap.get? (z.store.nodes.insert _ _) k) = Except.ok _
    rw [AMap.get?_insert, if_neg (fun h => hk h.symm)]
  -- the root of the update
  have hnew : n.hash H = .ok (sh H (entriesAfter H (setsOf ops ++ sets) ((setsOf ops).length + 1)) []) := by
    obtain ⟨⟨M, W, hI, -, hM, -⟩, -⟩ := hc.inv
    have hlt : (setsOf ops).length < (setsOf ops ++ sets).length := by rw [List.length_append]; omega
    have ht := hI.tree (setsOf ops).length (by
      obtain ⟨⟨M0, W0, hI0, -⟩, -⟩ := hi
      have := hI0.lowle; omega) hlt
    rw [hM _ hlt] at ht
    have hroot' : s'.nodes.get? ⟨(setsOf ops).length, []⟩ = some _ := Except.ok.inj ht.root
    rw [hn] at hroot
    rw [hc.nodes, hroot] at hroot'
    rw [Option.some.inj hroot']
    exact canonNode_hash (entriesAfter_nodup ..)
  refine ⟨{ z.store with nodes := z.store.nodes.insert ⟨y.next, []⟩ n }, msg,
    sh H (entriesAfter H (setsOf ops ++ sets) ((setsOf ops).length + 1)) [], hleft, ?_, ?_, fun k => ?_, fun v hv' hne' => ?_⟩
  · rw [hc.hashes, List.getElem?_map, List.getElem?_range hpos]; rfl
  · unfold getRootHash getRootNode getRootNodeOption
    show ((Except.ok (AMap.get? (z.store.nodes.insert _ _) _) >>= _) >>= _) = _
    rw [show NodeKey.root y.next = ⟨y.next, []⟩ from rfl, AMap.get?_insert, if_pos rfl]
    exact hnew
  · exact C01_get_is_versioned_map (y := z) hrz hb k y.next
  · have hR := hrz.readAt hb hv'
    obtain ⟨ver, t, hl⟩ := hR.leaves
    have t' : TreeAt H ({ z.store with nodes := z.store.nodes.insert ⟨y.next, []⟩ n } : Store).reader.getNodeOption v
        (entriesAfter H (setsOf (ops ++ ops')) (v + 1)) ver := by
      refine ⟨?_, fun q h1 h2 => ?_⟩
      · rw [hnode _ (by intro h; exact hne' (congrArg NodeKey.version h))]; exact t.root
      · rw [hnode _ (by intro h; exact h1 (congrArg NodeKey.path h))]; exact t.node q h1 h2
    have hR' : ReadAt H ({ z.store with nodes := z.store.nodes.insert ⟨y.next, []⟩ n } : Store).reader v
        (mapAt (ops ++ ops') v) (entriesAfter H (setsOf (ops ++ ops')) (v + 1)) :=
      .of hR.nodup ⟨ver, t'⟩ hR.lists hR.value ⟨ver, t', hl⟩
    exact hR'.sameQueries hR

end

namespace Sample

/-- Two writers of the first version of an empty store: the one that comes second is refused. -/
def secondWriter : Except Err (Sys × TreeUpdateBatch) := do
  let late ← putValueSets T (Store.new false).reader [[(key 0x80, some [2])]] 0
  let z ← Sys.run T [.commit [[(key 0x10, some [1])]]] ⟨Store.new false, 0⟩
  .ok (z, late.2)

/-- C65, finding: after the refused write the tree has only what was refused, and `get_with_proof` proves the absence of the key
that was committed (`get` still returns its value), and fails for the key that was refused (its value is missing); the next commit builds on that and succeeds, so the committed key stays
missing from the trees of all later versions. -/
theorem _root_.Jmt.C65_refused_write_loses_committed_key :
    okAnd secondWriter (fun r =>
      let left := (r.1.store.writeUntil r.2).1
      (r.1.store.writeUntil r.2).2.isSome &&
      got (getWithProof T r.1.store.reader (key 0x10) 0) (some [1]) &&
      got (getWithProof T left.reader (key 0x10) 0) none &&
      !okAnd (getWithProof T left.reader (key 0x80) 0) (fun _ => true) &&
      okAnd (get left.reader (key 0x10) 0) (· == some [1]) &&
      okAnd (left.commit T [[(key 0x33, some [3])]] 1) (fun c =>
        got (getWithProof T c.2.reader (key 0x10) 1) none)) = true := by decide +kernel

variable {H : Hasher}

/-- A refused late write over the sample history. -/
example : ∃ y z hs b left msg, Reached H Sample.ops y ∧ PreparedUpdate H y.store.reader y.next hs b ∧
    Sys.run H [.commit [[(key 0x10, none)]]] y = .ok z ∧ z.store.writeUntil b = (left, some (.panic msg)) ∧
    SameQueries H left.reader z.store.reader 3 3 := by
  obtain ⟨y, hrun, hn, -⟩ := Sys.run_ok H false Sample.ops Sample.allowed (by decide)
  have hy : Reached H Sample.ops y := ⟨false, hrun⟩
  obtain ⟨hs, b, s', a1, a2, a3, a4, a5⟩ := hy.commit [[(key 0x33, some [9])]] (by decide)
  obtain ⟨hs2, b2, s2, c1, c2, c3, c4, c5⟩ := hy.commit [[(key 0x10, none)]] (by decide)
  have hz : Sys.run H [.commit [[(key 0x10, none)]]] y = .ok ⟨s2, y.next + 1⟩ := by
    show (y.step H (.commit [[(key 0x10, none)]]) >>= _) = _
    unfold Sys.step
    simp only [c3, ok_bind]
    rfl
  have hp : PreparedUpdate H y.store.reader y.next hs b :=
    .inl ⟨[[(key 0x33, some [9])]], by simp, by rw [hn]; decide, a1⟩
  obtain ⟨left, msg, h, h1, -, -, -, h2⟩ := C65_refused_write_replaces_root hy hz (by decide) (Sys.run_flag Sample.ops hrun) hp
    (by rw [hn]; unfold Readable; decide)
  exact ⟨y, _, hs, b, left, msg, hy, hp, hz, h1, h2 3 (by unfold Readable; decide) (by rw [hn]; decide)⟩

end Sample
end Jmt
