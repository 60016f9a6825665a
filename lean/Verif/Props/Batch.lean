import Verif.Proofs.BatchSame
import Verif.Props.Stale
/-!
# Property C15: the batch API agrees with the sequential API

`someSet` turns a set of the batch API (which has no deletions) into the corresponding value set.  The sets need not be
sorted and may write a key several times; the last write wins in both APIs.
-/
namespace Jmt
open Spec (Lists)

variable {H : Hasher} {ops : List Op} {y : Sys}

/-- C15: from every reachable state, for non-empty sets, `batch_put_value_sets` and `put_value_sets` both succeed, return
the same root hashes and equal update batches (same nodes, values, stale entries, statistics). -/
theorem C15_batch_same_batches (hr : Reached H ops y) (sets : List (List (KeyHash × Value))) (hne : ∀ s ∈ sets, s ≠ [])
    (hb : (setsOf ops).length + sets.length < 2 ^ 64) :
    ∃ hs b b', batchPutValueSets H y.store.reader sets none y.next = .ok (hs, b) ∧
      putValueSets H y.store.reader (sets.map someSet) y.next = .ok (hs, b') ∧ b.Same b' := by
  obtain ⟨hn, hi⟩ := hr.inv (by omega)
  rw [hn]
  exact hi.batch_same sets none hne (cachesFor_none _ _) (by unfold preGenesisVersion u64Size; omega)

/-- C15 with precomputed node hashes: as long as every given hash that is used is right, nothing changes. -/
theorem C15_batch_with_hashes (hr : Reached H ops y) (sets : List (List (KeyHash × Value))) (hne : ∀ s ∈ sets, s ≠ [])
    (hb : (setsOf ops).length + sets.length < 2 ^ 64) (cs : List (List Nibble → Option Digest))
    (hl : cs.length = sets.length)
    (hc : ∀ j set c, sets[j]? = some set → cs[j]? = some c →
      HashesFor H (mapAt (ops ++ [.batch sets]) (y.next + j)) set c) :
    ∃ hs b b', batchPutValueSets H y.store.reader sets (some cs) y.next = .ok (hs, b) ∧
      putValueSets H y.store.reader (sets.map someSet) y.next = .ok (hs, b') ∧ b.Same b' := by
  obtain ⟨hn, hi⟩ := hr.inv (by omega)
  rw [hn] at hc ⊢
  refine hi.batch_same sets (some cs) hne (cachesFor_of sets cs (setsOf ops) hl ?_) (by unfold preGenesisVersion u64Size; omega)
  intro j set c h1 h2
  have := hc j set c h1 h2
  unfold mapAt at this
  rwa [setsOf_append, show setsOf [Op.batch sets] = sets.map someSet by simp [setsOf]] at this

/-- C15, after writing back: the two stores hold the same nodes, values and stale entries, and answer every read of
every readable version alike; the returned root hashes are the canonical ones. -/
theorem C15_batch_same_store (hr : Reached H ops y) (sets : List (List (KeyHash × Value))) (hne : ∀ s ∈ sets, s ≠ [])
    (hb : (setsOf ops).length + sets.length < 2 ^ 64) :
    ∃ hs s1 s2, y.store.commitBatch H sets none y.next = .ok (hs, s1) ∧
      y.store.commit H (sets.map someSet) y.next = .ok (hs, s2) ∧
      (∀ k, s1.nodes.get? k = s2.nodes.get? k) ∧ (∀ k v, get s1.reader k v = get s2.reader k v) ∧
      (∀ x, x ∈ s1.stale ↔ x ∈ s2.stale) ∧
      ∀ v, Readable (ops ++ [.batch sets]) v → SameReads H s1.reader s2.reader v v ∧
        ∀ es, Lists H (mapAt (ops ++ [.batch sets]) v) es → getRootHash H s1.reader v = .ok (Spec.root H es) := by
  obtain ⟨hs, b, b', e1, e2, e3⟩ := C15_batch_same_batches hr sets hne hb
  obtain ⟨hn, hi⟩ := hr.inv (by omega)
  obtain ⟨hs1, b1, s1, f1, f2, f3⟩ := hi.batch sets none hne (cachesFor_none _ _) (by unfold preGenesisVersion u64Size; omega)
  obtain ⟨hs2, b2, s2, g1, g2, g3, g4, g5⟩ := hr.commit (sets.map someSet) (by simpa using hb)
  rw [← hn, e1] at f1; cases f1
  rw [e2] at g1; cases g1
  have hc1 : y.store.commitBatch H sets none y.next = .ok (hs, s1) := by
    unfold Store.commitBatch; simp only [e1, ok_bind, f2]
  have hset : setsOf (ops ++ [.batch sets]) = setsOf ops ++ sets.map someSet := by
    rw [setsOf_append]; simp [setsOf]
  have hr1 : Reached H (ops ++ [.batch sets]) ⟨s1, y.next + sets.length⟩ := by
    obtain ⟨ow, h⟩ := hr
    refine ⟨ow, ?_⟩
    rw [Sys.run_snoc, h, ok_bind]
    unfold Sys.step
    simp only [hc1, ok_bind]
  have hb1 : (setsOf (ops ++ [.batch sets])).length < 2 ^ 64 := by rw [hset]; simpa using hb
  have hb2 : (setsOf (ops ++ [.commit (sets.map someSet)])).length < 2 ^ 64 := by
    rw [setsOf_commit]; simpa using hb
  have hmap : ∀ v, mapAt (ops ++ [.commit (sets.map someSet)]) v = mapAt (ops ++ [.batch sets]) v := by
    intro v; unfold mapAt; rw [hset, setsOf_commit]
  refine ⟨hs, s1, s2, hc1, g3, fun k => ?_, fun k v => ?_, fun x => ?_, fun v hv => ?_⟩
  · rw [f3.nodes, g4.nodes, e3.nodes]
  · have h1 := C01_get_is_versioned_map hr1 hb1 k v
    have h2 := C01_get_is_versioned_map g5 hb2 k v
    rw [hmap] at h2
    exact h1.trans h2.symm
  · rw [f3.stale, g4.stale, List.mem_append, List.mem_append, e3.stale]
  · have r1 := hr1.readAt hb1 hv
    have hv2 : Readable (ops ++ [.commit (sets.map someSet)]) v := by
      unfold Readable at *
      rw [horizon_snoc_batch, hset] at hv
      rw [horizon_snoc_commit, setsOf_commit]
      exact hv
    have r2 := g5.readAt hb2 hv2
    rw [hmap] at r2
    exact ⟨r1.same r2, fun es hes => (C03_root_hash_canonical hr1 hb1 hv hes).1⟩

/-- C15 with precomputed node hashes, after writing back: with hashes that are right the store gets the same nodes, values
and stale entries, and the call returns the same root hashes, as without them. -/
theorem C15_hashes_same_store (hr : Reached H ops y) (sets : List (List (KeyHash × Value))) (hne : ∀ s ∈ sets, s ≠ [])
    (hb : (setsOf ops).length + sets.length < 2 ^ 64) (cs : List (List Nibble → Option Digest))
    (hl : cs.length = sets.length)
    (hc : ∀ j set c, sets[j]? = some set → cs[j]? = some c →
      HashesFor H (mapAt (ops ++ [.batch sets]) (y.next + j)) set c) :
    ∃ hs s1 s2, y.store.commitBatch H sets (some cs) y.next = .ok (hs, s1) ∧
      y.store.commitBatch H sets none y.next = .ok (hs, s2) ∧
      (∀ k, s1.nodes.get? k = s2.nodes.get? k) ∧ (∀ k v, get s1.reader k v = get s2.reader k v) ∧
      (∀ x, x ∈ s1.stale ↔ x ∈ s2.stale) := by
  obtain ⟨hs, b, b0, e1, e2, e3⟩ := C15_batch_with_hashes hr sets hne hb cs hl hc
  obtain ⟨hs', b', b0', d1, d2, d3⟩ := C15_batch_same_batches hr sets hne hb
  rw [e2] at d2; cases d2
  obtain ⟨hn, hi⟩ := hr.inv (by omega)
  have hcs : CachesFor H (entriesAfter H (setsOf ops) (setsOf ops).length) sets (cachesOf sets (some cs)) := by
    refine cachesFor_of sets cs (setsOf ops) hl ?_
    intro j set c h1 h2
    rw [hn] at hc
    have := hc j set c h1 h2
    unfold mapAt at this
    rwa [setsOf_append, show setsOf [Op.batch sets] = sets.map someSet by simp [setsOf]] at this
  obtain ⟨hs1, b1, s1, f1, f2, f3⟩ := hi.batch sets (some cs) hne hcs (by unfold preGenesisVersion u64Size; omega)
  obtain ⟨hs2, b2, s2, g1, g2, g3⟩ := hi.batch sets none hne (cachesFor_none _ _) (by unfold preGenesisVersion u64Size; omega)
  rw [← hn, e1] at f1; cases f1
  rw [← hn, d1] at g1; cases g1
  refine ⟨hs, s1, s2, ?_, ?_, fun k => ?_, fun k v => ?_, fun x => ?_⟩
  · unfold Store.commitBatch; simp only [e1, ok_bind, f2]
  · unfold Store.commitBatch; simp only [d1, ok_bind, g2]
  · rw [f3.nodes, g3.nodes, e3.nodes, d3.nodes]
  · show Except.ok _ = Except.ok _
    rw [f3.inv.vals.get, g3.inv.vals.get]
  · rw [f3.stale, g3.stale, List.mem_append, List.mem_append, e3.stale, d3.stale]

/-! ### Differences between the two APIs -/

/-- The batch API fails on an empty set, which `put_value_sets` accepts. -/
theorem C15_empty_set_fails (R : Reader) (sets : List (List (KeyHash × Value))) (nodeHashes) (first : Version)
    (h : [] ∈ sets) : ∀ r, batchPutValueSets H R sets nodeHashes first ≠ .ok r :=
  fun _ hr => batch_nonempty hr [] h rfl

/-- As many hash caches as sets are needed. -/
theorem C15_cache_count_mismatch_fails (R : Reader) (sets : List (List (KeyHash × Value)))
    (cs : List (List Nibble → Option Digest)) (first : Version) (h : cs.length ≠ sets.length) :
    ∀ r, batchPutValueSets H R sets (some cs) first ≠ .ok r := by
  have : ∀ (sets : List (List (KeyHash × Value))) (cs : List HashCache) (V : Nat) (tc tc' : TreeCache),
      batchSets H V sets cs tc = .ok tc' → cs.length = sets.length := by
    intro sets
    induction sets with
    | nil => intro cs V tc tc' h; cases cs with
      | nil => rfl
      | cons => cases h
    | cons s sets ih =>
      intro cs V tc tc' h
      cases cs with
      | nil => cases h
      | cons c cs =>
        unfold batchSets at h
        obtain ⟨tc1, -, h2⟩ := bind_ok_inv h
        simp [ih cs _ _ _ h2]
  intro r hr
  unfold batchPutValueSets at hr
  obtain ⟨tc, -, hr⟩ := bind_ok_inv hr
  obtain ⟨tc', hr, -⟩ := bind_ok_inv hr
  have := this _ _ _ _ _ hr
  simp at this
  exact h this

/-- When the previous version's root is not in the store the batch API fails ... -/
theorem C15_missing_previous_root_fails (R : Reader) (set : List (KeyHash × Value)) (rest) (first : Version)
    (h0 : 0 < first) (hne : set ≠ []) (hm : R.getNodeOption ⟨first - 1, []⟩ = .ok none) :
    batchPutValueSets H R (set :: rest) none first = .error (.missingNode ⟨first - 1, []⟩) := by
  have hk : (dedupSorted set).map (fun kv => (kv.1, H.hash kv.2)) ≠ [] := kvsOf_ne hne
  unfold batchPutValueSets TreeCache.new
  rw [if_neg (by omega)]
  simp only [ok_bind, List.map_cons, batchSets, batchSet, if_neg hne]
  unfold batchInsertAt
  rw [if_neg hk]
  simp only [putValues_spec]
  have : TreeCache.getNode ⟨NodeKey.root (first - 1), first, [], valAll first [] (someSet (dedupSorted set)), 0, [], 0,
      Frozen.empty, R⟩ (NodeKey.root (first - 1)) = .error (.missingNode ⟨first - 1, []⟩) := by
    unfold TreeCache.getNode TreeCache.getNodeOption TreeCache.base
    simp only [AMap.get?_nil, Frozen.empty, NodeKey.root, hm]
  simp only [this]
  rfl

namespace Sample

/-- Run a computation on the toy hasher and test its result. -/
def okAnd {α : Type} (x : Except Err α) (p : α → Bool) : Bool :=
  match x with
  | .ok a => p a
  | .error _ => false

/-- ... whereas `put_value_sets` takes the missing tree for an empty one and succeeds (here: version 5 on an empty store;
the root it returns is that of the single written entry). -/
theorem _root_.Jmt.C15_missing_previous_root_put_succeeds :
    okAnd (putValueSets T (Store.new false).reader [[(key 0x10, some [1])]] 5)
      (fun r => decide (r.1 = [Spec.root T [(key 0x10, T.hash [1])]])) = true := by decide +kernel

/-- A wrong precomputed hash is trusted: the batch API then returns a root that is not the root of the map. -/
theorem _root_.Jmt.C15_wrong_hash_trusted :
    okAnd (batchPutValueSets T (Store.new false).reader [[(key 0x10, [1]), (key 0x80, [2])]]
        (some [fun _ => some placeholder]) 0)
      (fun r => decide (r.1 ≠ [Spec.root T [(key 0x10, T.hash [1]), (key 0x80, T.hash [2])]])) = true := by
  decide +kernel

/-- A missing precomputed hash is a panic, and so is committing with it. -/
theorem _root_.Jmt.C15_missing_hash_panics :
    (match batchPutValueSets T (Store.new false).reader [[(key 0x10, [1]), (key 0x80, [2])]] (some [fun _ => none]) 0 with
      | .error (.panic _) => true
      | _ => false) = true ∧
    (match (Store.new false).commitBatch T [[(key 0x10, [1]), (key 0x80, [2])]] (some [fun _ => none]) 0 with
      | .error (.panic _) => true
      | _ => false) = true := by
  constructor <;> decide +kernel

/-- The hypotheses of C15 are met by the sample history and an unsorted set with duplicates. -/
example (H : Hasher) : ∃ y hs b b', Reached H Sample.ops y ∧
    batchPutValueSets H y.store.reader [[(key 0x90, [1]), (key 0x10, [2]), (key 0x90, [3])]] none y.next = .ok (hs, b) ∧
    putValueSets H y.store.reader ([[(key 0x90, [1]), (key 0x10, [2]), (key 0x90, [3])]].map someSet) y.next = .ok (hs, b') ∧
    b.Same b' := by
  obtain ⟨y, hy⟩ := reached H
  obtain ⟨hs, b, b', h⟩ := C15_batch_same_batches hy [[(key 0x90, [1]), (key 0x10, [2]), (key 0x90, [3])]]
    (by decide) (by decide)
  exact ⟨y, hs, b, b', hy, h⟩

/-- ... and the hypotheses of the theorem about precomputed hashes by the hashes of the map the set leaves. -/
example (H : Hasher) : ∃ y hs s1 s2, Reached H Sample.ops y ∧ ∃ cs,
    y.store.commitBatch H [[(key 0x90, [1]), (key 0x10, [2])]] (some cs) y.next = .ok (hs, s1) ∧
    y.store.commitBatch H [[(key 0x90, [1]), (key 0x10, [2])]] none y.next = .ok (hs, s2) ∧
    ∀ k, s1.nodes.get? k = s2.nodes.get? k := by
  obtain ⟨y, hy⟩ := reached H
  obtain ⟨es, hes⟩ := C03_listing_exists H (Sample.ops ++ [.batch [[(key 0x90, [1]), (key 0x10, [2])]]]) (y.next + 0)
  obtain ⟨hs, s1, s2, h1, h2, h3, -⟩ := C15_hashes_same_store hy [[(key 0x90, [1]), (key 0x10, [2])]] (by decide) (by decide)
    [fun q => some (Spec.hashUnder H es q)] rfl (fun j set c hj hc => by
      cases j with
      | succ j => cases hj
      | zero =>
        cases hc
        intro es' h' kv _ q _ _ _
        show some (Spec.hashUnder H es q) = _
        rw [hashUnder_eq, hashUnder_eq, sh_perm' (lists_perm hes h')])
  exact ⟨y, hs, s1, s2, hy, _, h1, h2, h3⟩

/-- Correct caches exist for every set. -/
example (H : Hasher) (s : Spec.Map) (set : List (KeyHash × Value)) (es) (h : Lists H s es) :
    HashesFor H s set (fun q => some (Spec.hashUnder H es q)) := by
  intro es' h' kv _ q _ _ _
  have hp := lists_perm h h'
  show some (Spec.hashUnder H es q) = _
  rw [hashUnder_eq, hashUnder_eq, sh_perm' hp]

end Sample
end Jmt
