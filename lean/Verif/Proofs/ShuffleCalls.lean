import Verif.Proofs.Shuffle
/-!
# Update calls and stores in processes with different hash-table orders
-/
namespace Jmt
open Spec (SameLookups Reorders SameBatch SameUpdate SameRecords Tables)

variable {H : Hasher}

theorem freezeDrain_shuf {t t' : TreeCache} (h : TSim t t') : Alike TSim t.freezeDrain t'.freezeDrain := by
  unfold TreeCache.freezeDrain
  rw [h.next]
  split
  · refine Alike.ok
      { root := h.root, next := rfl, newLeaves := rfl, staleLeaves := rfl, nodes := SameMap.nil, values := SameMap.nil
        stale := ⟨List.nodup_nil, List.nodup_nil, fun _ => Iff.rfl⟩
        fnodes := h.fnodes.extend h.nodes, fvalues := h.fvalues.extend h.values
        fstale := h.fstale.append_new ?_, stats := ?_, hashes := h.hashes, look := h.look }
    · refine ⟨?_, ?_, fun x => ?_⟩
      · exact List.Pairwise.map _ (fun a b hab e => hab (by cases e; rfl)) h.stale.left
      · exact List.Pairwise.map _ (fun a b hab e => hab (by cases e; rfl)) h.stale.right
      · simp only [List.mem_map, h.stale.mem]
    · simp only [h.stats, h.nodes.perm.length_eq, h.stale.perm.length_eq, h.newLeaves, h.staleLeaves]
  · exact Alike.err

theorem freeze_shuf {t t' : TreeCache} (h : TSim t t') : Alike TSim (t.freeze H) (t'.freeze H) := by
  unfold TreeCache.freeze
  refine Alike.bind (Q := PSim) ?_ ?_
  · unfold TreeCache.freezeRoot
    rw [h.root, h.getNodeOption]
    refine Alike.same fun o => ?_
    cases o with
    | some n => exact Alike.ok ⟨rfl, h⟩
    | none => exact (h.putNode _ _).bind fun _ _ h => Alike.ok ⟨rfl, h⟩
  · rintro ⟨a, t⟩ ⟨a', t'⟩ ⟨h1, h⟩
    cases h1
    have h : TSim t t' := h
    refine Alike.same fun d => ?_
    have h' : TSim { t with frozen := { t.frozen with rootHashes := t.frozen.rootHashes ++ [d] } }
        { t' with frozen := { t'.frozen with rootHashes := t'.frozen.rootHashes ++ [d] } } :=
      { h with hashes := by simp only [h.hashes] }
    revert h'
    generalize ({ t with frozen := { t.frozen with rootHashes := t.frozen.rootHashes ++ [d] } } : TreeCache) = u
    generalize ({ t' with frozen := { t'.frozen with rootHashes := t'.frozen.rootHashes ++ [d] } } : TreeCache) = u'
    intro h
    refine Alike.bind (Q := TSim) ?_ fun t t' h => freezeDrain_shuf h
    unfold TreeCache.freezeCopy
    rw [h.next, h.root, h.getNode]
    have hc : (u.nextVersion > 0 ∧ u.nodeCache = [] ∧ u.stale = []) ↔ (u.nextVersion > 0 ∧ u'.nodeCache = [] ∧ u'.stale = []) := by
      rw [h.nodes.nil_iff, h.stale.nil_iff]
    by_cases hq : u.nextVersion > 0 ∧ u.nodeCache = [] ∧ u.stale = []
    · rw [if_pos hq, if_pos (hc.1 hq)]
      exact Alike.same fun n => h.putNode _ _
    · rw [if_neg hq, if_neg (fun hn => hq (hc.2 hn))]
      exact Alike.ok h

/-- Putting the tables into some order. -/
theorem TSim.reorder {σ σ' : TreeCache → TreeCache} (hσ : Reorders σ) (hσ' : Reorders σ') {t t' : TreeCache} (h : TSim t t') :
    TSim (σ t) (σ' t') := by
  have h1 := SameMap.of_perm h.nodes.left (hσ.nodes t)
  have h1' := SameMap.of_perm h.nodes.right (hσ'.nodes t')
  have h2 := SameMap.of_perm h.values.left (hσ.values t)
  have h2' := SameMap.of_perm h.values.right (hσ'.values t')
  have h3 := SameSet.of_perm h.stale.left (hσ.stale t)
  have h3' := SameSet.of_perm h.stale.right (hσ'.stale t')
  rw [hσ.rest t, hσ'.rest t']
  exact { h with
    nodes := (h1.trans h.nodes).trans h1'.symm
    values := (h2.trans h.values).trans h2'.symm
    stale := (h3.trans h.stale).trans h3'.symm }

variable {σ σ' : TreeCache → TreeCache} {R R' : Reader}

theorem putSets_shuf (hσ : Reorders σ) (hσ' : Reorders σ') (wp : Bool) : ∀ (sets : List ValueSet) (version : Nat)
    {t t' : TreeCache}, TSim t t' → Alike PSim (putSetsBy σ H wp version sets t) (putSetsBy σ' H wp version sets t') := by
  intro sets
  induction sets with
  | nil => intro version t t' h; exact Alike.ok ⟨rfl, h⟩
  | cons vs sets ih =>
    intro version t t' h
    unfold putSetsBy
    refine (putAll_shuf version wp vs h).bind ?_
    rintro ⟨a, t⟩ ⟨a', t'⟩ ⟨h1, h⟩
    cases h1
    refine (freeze_shuf (h.reorder hσ hσ')).bind fun t t' h => (ih _ h).bind ?_
    rintro ⟨a, t⟩ ⟨a', t'⟩ ⟨h1, h⟩
    cases h1
    exact Alike.ok ⟨rfl, h⟩

/-- What makes a batch a pair of B-trees. -/
structure BatchTables (b : TreeUpdateBatch) : Prop where
  nodes : b.nodeBatch.nodes.NodupKeys
  values : b.nodeBatch.values.NodupKeys

/-- The same update, and it is made of tables. -/
def SameTables {α : Type} (x y : α × TreeUpdateBatch) : Prop := SameUpdate x y ∧ BatchTables x.2

theorem TSim.finish {t t' : TreeCache} (h : TSim t t') : SameTables t.finish t'.finish :=
  ⟨⟨h.hashes.symm, h.fnodes.perm, h.fvalues.perm, h.fstale.perm, h.stats.symm⟩, h.fnodes.left, h.fvalues.left⟩

theorem sim_fresh {R R' : Reader} (hl : ∀ k, R.getNodeOption k = R'.getNodeOption k) (root : NodeKey) (v : Nat)
    {m : AMap NodeKey Node} (hm : m.NodupKeys) :
    TSim ⟨root, v, m, [], 0, [], 0, Frozen.empty, R⟩ ⟨root, v, m, [], 0, [], 0, Frozen.empty, R'⟩ where
  root := rfl
  next := rfl
  newLeaves := rfl
  staleLeaves := rfl
  nodes := ⟨hm, hm, fun _ => rfl⟩
  values := SameMap.nil
  stale := ⟨List.nodup_nil, List.nodup_nil, fun _ => Iff.rfl⟩
  fnodes := SameMap.nil
  fvalues := SameMap.nil
  fstale := ⟨List.nodup_nil, List.nodup_nil, fun _ => Iff.rfl⟩
  stats := rfl
  hashes := rfl
  look := hl

theorem new_shuf {R R' : Reader} (hl : ∀ k, R.getNodeOption k = R'.getNodeOption k) (first : Nat) :
    Alike TSim (TreeCache.new R first) (TreeCache.new R' first) := by
  unfold TreeCache.new
  split
  · rw [hl]
    refine Alike.same fun o => ?_
    cases o with
    | some n => exact Alike.ok (sim_fresh hl _ _ AMap.nodupKeys_nil)
    | none => exact Alike.ok (sim_fresh hl _ _ (AMap.nodupKeys_nil.insert _ _))
  · exact Alike.ok (sim_fresh hl _ _ AMap.nodupKeys_nil)

theorem putValueSets_shuf (hl : ∀ k, R.getNodeOption k = R'.getNodeOption k) (hσ : Reorders σ) (hσ' : Reorders σ')
    (sets : List ValueSet) (first : Nat) :
    Alike SameTables (putValueSetsBy σ H R sets first) (putValueSetsBy σ' H R' sets first) := by
  unfold putValueSetsBy
  refine (new_shuf hl first).bind fun t t' h => (putSets_shuf hσ hσ' false sets first h).bind ?_
  rintro ⟨a, t⟩ ⟨a', t'⟩ ⟨h1, h⟩
  exact Alike.ok h.finish

theorem putValueSetsWithProof_shuf (hl : ∀ k, R.getNodeOption k = R'.getNodeOption k) (hσ : Reorders σ) (hσ' : Reorders σ')
    (sets : List ValueSet) (first : Nat) :
    Alike SameTables (putValueSetsWithProofBy σ H R sets first) (putValueSetsWithProofBy σ' H R' sets first) := by
  unfold putValueSetsWithProofBy
  refine (new_shuf hl first).bind fun t t' h => (putSets_shuf hσ hσ' true sets first h).bind ?_
  rintro ⟨a, t⟩ ⟨a', t'⟩ ⟨h1, h⟩
  cases h1
  refine Alike.ok ⟨⟨?_, h.finish.1.2⟩, h.finish.2⟩
  show t.finish.1.zip a = t'.finish.1.zip a
  rw [h.finish.1.1]

theorem appendValueSet_shuf (hl : ∀ k, R.getNodeOption k = R'.getNodeOption k)
    (hrm : R.getRightmostLeaf = R'.getRightmostLeaf) (hσ : Reorders σ) (hσ' : Reorders σ') (vs : ValueSet) (v : Nat) :
    Alike SameTables (appendValueSetBy σ H R vs v) (appendValueSetBy σ' H R' vs v) := by
  unfold appendValueSetBy
  refine Alike.bind (Q := TSim) ?_ fun t t' h => (putAll_shuf v false vs h).bind ?_
  · unfold TreeCache.newOverwrite
    rw [hrm]
    refine Alike.same fun o => ?_
    cases o with
    | none => exact Alike.err
    | some y =>
      simp only
      split
      · exact Alike.ok (sim_fresh hl _ _ AMap.nodupKeys_nil)
      · exact Alike.err
  · rintro ⟨a, t⟩ ⟨a', t'⟩ ⟨h1, h⟩
    refine (freeze_shuf (h.reorder hσ hσ')).bind fun t t' h => ?_
    have h1 := h.finish
    revert h1
    generalize t.finish = x
    generalize t'.finish = y
    obtain ⟨hs, b⟩ := x
    obtain ⟨hs', b'⟩ := y
    rintro ⟨⟨h1, h2⟩, h3⟩
    simp only at h1 h2
    subst h1
    simp only
    split
    · exact Alike.ok ⟨⟨rfl, h2⟩, h3⟩
    · exact Alike.err

theorem batchPutValueSets_shuf (hl : ∀ k, R.getNodeOption k = R'.getNodeOption k) (hσ : Reorders σ) (hσ' : Reorders σ')
    (sets : List (List (KeyHash × Value))) (nodeHashes : Option (List (List Nibble → Option Digest))) (first : Nat) :
    Alike SameTables (batchPutValueSetsBy σ H R sets nodeHashes first) (batchPutValueSetsBy σ' H R' sets nodeHashes first) := by
  have hset : ∀ (version : Nat) (set : List (KeyHash × Value)) (cache : HashCache) {t t' : TreeCache}, TSim t t' →
      Alike TSim (batchSetBy σ H version set cache t) (batchSetBy σ' H version set cache t') := by
    intro version set cache t t' h
    unfold batchSetBy
    split
    · exact Alike.err
    · have hv : ∀ (kvs : List (KeyHash × Value)) {t t' : TreeCache}, TSim t t' →
          TSim (kvs.foldl (fun tc kv => tc.putValue version kv.1 (some kv.2)) t)
            (kvs.foldl (fun tc kv => tc.putValue version kv.1 (some kv.2)) t') := by
        intro kvs
        induction kvs with
        | nil => intro t t' h; exact h
        | cons kv kvs ih => intro t t' h; exact ih (h.putValue _ _ _)
      have h := hv (dedupSorted set) h
      simp only
      rw [h.root]
      refine (batchInsertAt_shuf cache version 64 _ _ 0 h).bind ?_
      rintro ⟨a, b, u⟩ ⟨a', b', u'⟩ ⟨h1, h2, h3⟩
      cases h1; cases h2
      exact freeze_shuf (TSim.reorder hσ hσ' (h3.setRoot _))
  have hsets : ∀ (sets : List (List (KeyHash × Value))) (version : Nat) (caches : List HashCache) {t t' : TreeCache},
      TSim t t' → Alike TSim (batchSetsBy σ H version sets caches t) (batchSetsBy σ' H version sets caches t') := by
    intro sets
    induction sets with
    | nil =>
      intro version caches t t' h
      cases caches with
      | nil => exact Alike.ok h
      | cons c cs => exact Alike.err
    | cons s sets ih =>
      intro version caches t t' h
      cases caches with
      | nil => exact Alike.err
      | cons c cs => exact (hset version s c h).bind fun _ _ h => ih _ _ h
  unfold batchPutValueSetsBy
  exact (new_shuf hl first).bind fun t t' h => (hsets _ _ _ h).bind fun t t' h => Alike.ok h.finish

/-! ### The order of a single process -/

theorem reorders_id : Reorders id := ⟨fun _ => .refl _, fun _ => .refl _, fun _ => .refl _, fun _ => rfl⟩

theorem putSetsBy_id (H : Hasher) (wp : Bool) : ∀ (sets : List ValueSet) (version : Nat) (t : TreeCache),
    putSetsBy id H wp version sets t = putSets H wp version sets t := by
  intro sets
  induction sets with
  | nil => intro version t; rfl
  | cons vs sets ih =>
    intro version t
    unfold putSetsBy putSets
    simp only [ih, id]

theorem putValueSetsBy_id (H : Hasher) (R : Reader) (sets : List ValueSet) (first : Nat) :
    putValueSetsBy id H R sets first = putValueSets H R sets first := by
  unfold putValueSetsBy putValueSets
  simp only [putSetsBy_id]

theorem putValueSetsWithProofBy_id (H : Hasher) (R : Reader) (sets : List ValueSet) (first : Nat) :
    putValueSetsWithProofBy id H R sets first = putValueSetsWithProof H R sets first := by
  unfold putValueSetsWithProofBy putValueSetsWithProof
  simp only [putSetsBy_id]

theorem appendValueSetBy_id (H : Hasher) (R : Reader) (vs : ValueSet) (v : Nat) :
    appendValueSetBy id H R vs v = appendValueSet H R vs v := rfl

theorem batchSetsBy_id (H : Hasher) : ∀ (sets : List (List (KeyHash × Value))) (version : Nat) (caches : List HashCache)
    (t : TreeCache), batchSetsBy id H version sets caches t = batchSets H version sets caches t := by
  intro sets
  induction sets with
  | nil => intro version caches t; cases caches <;> rfl
  | cons s sets ih =>
    intro version caches t
    cases caches with
    | nil => rfl
    | cons c cs =>
      unfold batchSetsBy batchSets
      simp only [ih]
      rfl

theorem batchPutValueSetsBy_id (H : Hasher) (R : Reader) (sets : List (List (KeyHash × Value)))
    (nodeHashes : Option (List (List Nibble → Option Digest))) (first : Nat) :
    batchPutValueSetsBy id H R sets nodeHashes first = batchPutValueSets H R sets nodeHashes first := by
  unfold batchPutValueSetsBy batchPutValueSets
  simp only [batchSetsBy_id]
  cases nodeHashes <;> rfl

end Jmt
