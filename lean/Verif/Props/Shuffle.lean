import Verif.Proofs.ShuffleStore
import Verif.Proofs.Lookups
import Verif.Props.Crash
import Verif.Props.Overwrite
import Verif.Props.Restore
/-!
# C66: results do not depend on the iteration order of hash tables
-/
namespace Jmt
open Spec (SameLookups Reorders SameBatch SameUpdate SameRecords Tables EqualQueries)

variable {H : Hasher} {ops : List Op} {y y' : Sys} {ow : Bool} {σ σ' : TreeCache → TreeCache}

/-- C66: two processes whose stores hold the same records, in tables of any order, and that drain the tables of their caches in any order,
get the same from every update call: equal root hashes and proofs, the same batch with equal statistics, or the same error. -/
theorem C66_update_calls {s s' : Store} (hs : SameRecords s s') (ht : Tables s') (hσ : Reorders σ) (hσ' : Reorders σ') :
    (∀ sets v, Alike SameUpdate (putValueSetsBy σ H s.reader sets v) (putValueSetsBy σ' H s'.reader sets v)) ∧
    (∀ sets v, Alike SameUpdate (putValueSetsWithProofBy σ H s.reader sets v) (putValueSetsWithProofBy σ' H s'.reader sets v)) ∧
    (∀ sets hashes v, Alike SameUpdate (batchPutValueSetsBy σ H s.reader sets hashes v)
      (batchPutValueSetsBy σ' H s'.reader sets hashes v)) ∧
    (s.getRightmostLeaf = s'.getRightmostLeaf →
      ∀ vs v, Alike SameUpdate (appendValueSetBy σ H s.reader vs v) (appendValueSetBy σ' H s'.reader vs v)) := by
  have hl := (SSim.of hs ht).look.node
  refine ⟨fun sets v => ?_, fun sets v => ?_, fun sets hashes v => ?_, fun hr vs v => ?_⟩
  · exact (putValueSets_shuf hl hσ hσ' sets v).mono fun _ _ h => h.1
  · exact (putValueSetsWithProof_shuf hl hσ hσ' sets v).mono fun _ _ h => h.1
  · exact (batchPutValueSets_shuf hl hσ hσ' sets hashes v).mono fun _ _ h => h.1
  · exact (appendValueSet_shuf hl (congrArg Except.ok hr) hσ hσ' vs v).mono fun _ _ h => h.1

/-- C66: the functions of the other theorems are the process that drains its tables in the order in which they are listed. -/
theorem C66_one_process (H : Hasher) (R : Reader) :
    (∀ sets v, putValueSetsBy id H R sets v = putValueSets H R sets v) ∧
    (∀ sets v, putValueSetsWithProofBy id H R sets v = putValueSetsWithProof H R sets v) ∧
    (∀ sets hashes v, batchPutValueSetsBy id H R sets hashes v = batchPutValueSets H R sets hashes v) ∧
    (∀ vs v, appendValueSetBy id H R vs v = appendValueSet H R vs v) ∧ Reorders id :=
  ⟨putValueSetsBy_id H R, putValueSetsWithProofBy_id H R, batchPutValueSetsBy_id H R, appendValueSetBy_id H R, reorders_id⟩

/-- C66: every query of any version gives the same answer or the same error on the two stores. -/
theorem C66_queries {s s' : Store} (hs : SameRecords s s') (ht : Tables s') : EqualQueries H s.reader s'.reader :=
  (SSim.of hs ht).look.queries

/-- C66: writing the same batch, or pruning, ends alike, and the stores again hold the same records. -/
theorem C66_writes {s s' : Store} (hs : SameRecords s s') (ht : Tables s') :
    (∀ b b', SameBatch b b' → b.nodeBatch.nodes.NodupKeys → b.nodeBatch.values.NodupKeys →
      Alike SameRecords (s.writeTreeUpdateBatch b) (s'.writeTreeUpdateBatch b')) ∧
    ∀ r, Alike SameRecords (s.purgeStaleNodes r) (s'.purgeStaleNodes r) :=
  ⟨fun _ _ hb hn hv => (write_shuf (SSim.of hs ht) hb ⟨hn, hv⟩).mono fun _ _ h => h.records,
    fun r => (purge_shuf (SSim.of hs ht) r).mono fun _ _ h => h.records⟩

/-- A process with shuffled tables does what the process of the other theorems does. -/
theorem ShuffledRun.sim (h : ShuffledRun H ow ops y) :
    ∃ y0, Sys.run H ops ⟨Store.new ow, 0⟩ = .ok y0 ∧ y.next = y0.next ∧ SSim y.store y0.store := by
  induction h with
  | start => exact ⟨_, rfl, rfl, SSim.new ow⟩
  | @commit ops y σ sets hs b s' s'' _ hσ hput hwrite hre ih =>
    obtain ⟨y0, h1, h2, h3⟩ := ih
    obtain ⟨⟨hs0, b0⟩, h4, h5⟩ := (putValueSets_shuf h3.look.node hσ reorders_id sets y.next).left hput
    rw [putValueSetsBy_id, h2] at h4
    obtain ⟨s0, h6, h7⟩ := (write_shuf h3 h5.1.2 h5.2).left hwrite
    refine ⟨⟨s0, y0.next + sets.length⟩, ?_, by rw [h2], (SSim.of hre h7.tables).trans h7⟩
    have h6 : y0.store.writeTreeUpdateBatch b0 = .ok s0 := h6
    have h8 : y0.store.commit H sets y0.next = .ok (hs0, s0) := by
      unfold Store.commit
      rw [h4]
      show (y0.store.writeTreeUpdateBatch b0 >>= _) = _
      rw [h6]
      rfl
    rw [Sys.run_append, h1, ok_bind]
    show ((y0.store.commit H sets y0.next >>= _) >>= _) = _
    rw [h8]
    rfl
  | @batch ops y σ sets hs b s' s'' _ hσ hput hwrite hre ih =>
    obtain ⟨y0, h1, h2, h3⟩ := ih
    obtain ⟨⟨hs0, b0⟩, h4, h5⟩ := (batchPutValueSets_shuf h3.look.node hσ reorders_id sets none y.next).left hput
    rw [batchPutValueSetsBy_id, h2] at h4
    obtain ⟨s0, h6, h7⟩ := (write_shuf h3 h5.1.2 h5.2).left hwrite
    refine ⟨⟨s0, y0.next + sets.length⟩, ?_, by rw [h2], (SSim.of hre h7.tables).trans h7⟩
    have h6 : y0.store.writeTreeUpdateBatch b0 = .ok s0 := h6
    have h8 : y0.store.commitBatch H sets none y0.next = .ok (hs0, s0) := by
      unfold Store.commitBatch
      rw [h4]
      show (y0.store.writeTreeUpdateBatch b0 >>= _) = _
      rw [h6]
      rfl
    rw [Sys.run_append, h1, ok_bind]
    show ((y0.store.commitBatch H sets none y0.next >>= _) >>= _) = _
    rw [h8]
    rfl
  | @purge ops y r s' s'' _ hp hre ih =>
    obtain ⟨y0, h1, h2, h3⟩ := ih
    obtain ⟨s0, h6, h7⟩ := (purge_shuf h3 r).left hp
    refine ⟨⟨s0, y0.next⟩, ?_, h2, (SSim.of hre h7.tables).trans h7⟩
    rw [Sys.run_append, h1, ok_bind]
    show ((y0.store.purgeStaleNodes r >>= _) >>= _) = _
    rw [h6]
    rfl

/-- Every history of the other theorems is one of a shuffled process, with the tables listed in any order at the end. -/
theorem ShuffledRun.of_run : ∀ (ops : List Op) {y0 : Sys} {s : Store}, Sys.run H ops ⟨Store.new ow, 0⟩ = .ok y0 → SameRecords s y0.store →
    ShuffledRun H ow ops ⟨s, y0.next⟩ := by
  intro ops
  induction ops using list_snoc_ind with
  | h0 =>
    intro y0 s h hs
    cases h
    obtain ⟨n, v, t, p, o⟩ := s
    have h1 := hs.nodes.eq_nil
    have h2 := hs.values.eq_nil
    have h3 := hs.stale.eq_nil
    have h4 := hs.preimages.eq_nil
    have h5 := hs.allow
    dsimp only at h1 h2 h3 h4 h5
    subst h1 h2 h3 h4 h5
    exact .start
  | h1 ops op ih =>
    intro y0 s h hs
    rw [Sys.run_append] at h
    obtain ⟨y1, h1, h2⟩ := bind_ok_inv h
    obtain ⟨y2, h3, h4⟩ := bind_ok_inv h2
    cases h4
    have hq : SameRecords y1.store y1.store := ⟨.refl _, .refl _, .refl _, .refl _, rfl⟩
    cases op with
    | commit sets =>
      unfold Sys.step Store.commit at h3
      obtain ⟨⟨hs1, s1⟩, h5, h6⟩ := bind_ok_inv h3
      obtain ⟨⟨hs0, b0⟩, h7, h8⟩ := bind_ok_inv h5
      obtain ⟨s2, h9, h10⟩ := bind_ok_inv h8
      cases h10
      cases h6
      exact .commit (ih h1 hq) reorders_id (by rw [putValueSetsBy_id]; exact h7) h9 hs
    | batch sets =>
      unfold Sys.step Store.commitBatch at h3
      obtain ⟨⟨hs1, s1⟩, h5, h6⟩ := bind_ok_inv h3
      obtain ⟨⟨hs0, b0⟩, h7, h8⟩ := bind_ok_inv h5
      obtain ⟨s2, h9, h10⟩ := bind_ok_inv h8
      cases h10
      cases h6
      exact .batch (ih h1 hq) reorders_id (by rw [batchPutValueSetsBy_id]; exact h7) h9 hs
    | purge r =>
      unfold Sys.step at h3
      obtain ⟨s1, h5, h6⟩ := bind_ok_inv h3
      cases h6
      exact .purge (y := ⟨y1.store, y1.next⟩) (ih h1 hq) h5 hs

/-- C66: two processes that performed the same operations, each with its own table orders, hold the same records and answer
every query alike; and so does the process of the other theorems, so that whatever is proved of it holds of both. -/
theorem C66_histories (h : ShuffledRun H ow ops y) (h' : ShuffledRun H ow ops y') :
    y.next = y'.next ∧ SameRecords y.store y'.store ∧ EqualQueries H y.store.reader y'.store.reader ∧
    ∃ y0, Reached H ops y0 ∧ y.next = y0.next ∧ SameRecords y.store y0.store ∧ Tables y0.store ∧
      EqualQueries H y.store.reader y0.store.reader := by
  obtain ⟨y0, h1, h2, h3⟩ := h.sim
  obtain ⟨y1, h4, h5, h6⟩ := h'.sim
  rw [h1] at h4
  cases h4
  have h7 := h3.trans h6.symm
  exact ⟨h2.trans h5.symm, h7.records, h7.look.queries, y0, ⟨ow, h1⟩, h2, h3.records, h3.symm.tables, h3.look.queries⟩

theorem tables_of_run {y0 : Sys} (h : Sys.run H ops ⟨Store.new ow, 0⟩ = .ok y0) : Tables y0.store := by
  obtain ⟨y1, h1, -, h2⟩ := (ShuffledRun.of_run ops h ⟨.refl _, .refl _, .refl _, .refl _, rfl⟩).sim
  exact h2.tables

/-- A shuffled process never gets stuck: what the process of the other theorems can do, it can do. -/
theorem shuffled_commit (h : ShuffledRun H ow ops y) (hσ : Reorders σ) (sets : List ValueSet) {y1 : Sys}
    (h1 : Sys.run H (ops ++ [.commit sets]) ⟨Store.new ow, 0⟩ = .ok y1) :
    ∃ y0 hs b0 b s', Sys.run H ops ⟨Store.new ow, 0⟩ = .ok y0 ∧ putValueSets H y0.store.reader sets y0.next = .ok (hs, b0) ∧
      putValueSetsBy σ H y.store.reader sets y.next = .ok (hs, b) ∧ SameBatch b b0 ∧ y.store.writeTreeUpdateBatch b = .ok s' := by
  obtain ⟨y0, g1, g2, g3⟩ := h.sim
  rw [Sys.run_append, g1, ok_bind] at h1
  obtain ⟨z, h2, -⟩ := bind_ok_inv h1
  unfold Sys.step Store.commit at h2
  obtain ⟨⟨hs, s0⟩, h3, -⟩ := bind_ok_inv h2
  obtain ⟨⟨hs0, b0⟩, h4, h5⟩ := bind_ok_inv h3
  obtain ⟨s1, h6, h7⟩ := bind_ok_inv h5
  have h4' : putValueSetsBy id H y0.store.reader sets y.next = .ok (hs0, b0) := by rw [putValueSetsBy_id, g2]; exact h4
  obtain ⟨⟨hs', b⟩, k1, k2⟩ := (putValueSets_shuf g3.look.node hσ reorders_id sets y.next).right h4'
  obtain ⟨s', k3, -⟩ := (write_shuf g3 k2.1.2 k2.2).right h6
  have e : hs' = hs0 := k2.1.1
  subst e
  exact ⟨y0, hs', b0, b, s', g1, h4, k1, k2.1.2, k3⟩

/-- C66: after any history the next commit succeeds in every process, whatever its table order, and returns the root hashes and the batch
that the process of the other theorems gets from `put_value_sets`. -/
theorem C66_next_commit (h : ShuffledRun H ow ops y) (hok : ∀ op ∈ ops, op.Allowed) (hσ : Reorders σ) (sets : List ValueSet)
    (hb : (setsOf ops).length + sets.length < 2 ^ 64 - 1) :
    ∃ y0 hs b0 b s', Reached H ops y0 ∧ putValueSets H y0.store.reader sets y0.next = .ok (hs, b0) ∧
      putValueSetsBy σ H y.store.reader sets y.next = .ok (hs, b) ∧ SameBatch b b0 ∧ y.store.writeTreeUpdateBatch b = .ok s' ∧
      ∀ s'', SameRecords s'' s' → ShuffledRun H ow (ops ++ [.commit sets]) ⟨s'', y.next + sets.length⟩ := by
  obtain ⟨y1, h1, -⟩ := Sys.run_ok H ow (ops ++ [.commit sets]) (by
    intro op hop
    rcases List.mem_append.1 hop with hop | hop
    · exact hok op hop
    · rw [List.mem_singleton] at hop; subst hop; trivial) (by
    rw [setsOf_commit, List.length_append]; unfold preGenesisVersion u64Size; omega)
  obtain ⟨y0, hs, b0, b, s', g1, g2, g3, g4, g5⟩ := shuffled_commit h hσ sets h1
  exact ⟨y0, hs, b0, b, s', ⟨ow, g1⟩, g2, g3, g4, g5, fun s'' hre => .commit h hσ g3 g5 hre⟩

/-! ### `get_rightmost_leaf` -/

/-- `r` is a leaf with the greatest key among the entries `L`. -/
def IsRightmostLeaf (L : List (NodeKey × Node)) : Option (NodeKey × LeafNode) → Prop
  | none => ∀ k l, (k, Node.leaf l) ∉ L
  | some (k, l) => (k, Node.leaf l) ∈ L ∧ ∀ k' l', (k', Node.leaf l') ∈ L → ¬ l.keyHash.val < l'.keyHash.val

/-- One step of the search. -/
def rmStep (acc : Option (NodeKey × LeafNode)) (e : NodeKey × Node) : Option (NodeKey × LeafNode) :=
  match e.2 with
  | .leaf l =>
    match acc with
    | none => some (e.1, l)
    | some (_, best) => if best.keyHash.val < l.keyHash.val then some (e.1, l) else acc
  | _ => acc

theorem rmFold : ∀ (L pre : List (NodeKey × Node)) (acc : Option (NodeKey × LeafNode)), IsRightmostLeaf pre acc →
    IsRightmostLeaf (pre ++ L) (L.foldl rmStep acc) := by
  intro L
  induction L with
  | nil => intro pre acc h; rw [List.append_nil]; exact h
  | cons e L ih =>
    intro pre acc h
    rw [show pre ++ e :: L = (pre ++ [e]) ++ L by simp]
    refine ih _ _ ?_
    obtain ⟨k, n⟩ := e
    unfold rmStep
    cases n with
    | null =>
      cases acc with
      | none => intro k' l' hm; rcases List.mem_append.1 hm with hm | hm; · exact h k' l' hm
                · cases List.mem_singleton.1 hm
      | some a =>
        refine ⟨List.mem_append_left _ h.1, fun k' l' hm => ?_⟩
        rcases List.mem_append.1 hm with hm | hm
        · exact h.2 k' l' hm
        · cases List.mem_singleton.1 hm
    | internal n =>
      cases acc with
      | none => intro k' l' hm; rcases List.mem_append.1 hm with hm | hm; · exact h k' l' hm
                · cases List.mem_singleton.1 hm
      | some a =>
        refine ⟨List.mem_append_left _ h.1, fun k' l' hm => ?_⟩
        rcases List.mem_append.1 hm with hm | hm
        · exact h.2 k' l' hm
        · cases List.mem_singleton.1 hm
    | leaf l =>
      cases acc with
      | none =>
        refine ⟨List.mem_append_right _ (List.mem_singleton.2 rfl), fun k' l' hm => ?_⟩
        rcases List.mem_append.1 hm with hm | hm
        · exact absurd hm (h k' l')
        · cases List.mem_singleton.1 hm; exact List.lt_irrefl _
      | some a =>
        obtain ⟨ka, la⟩ := a
        simp only
        split
        · next hlt =>
          refine ⟨List.mem_append_right _ (List.mem_singleton.2 rfl), fun k' l' hm hl => ?_⟩
          rcases List.mem_append.1 hm with hm | hm
          · exact h.2 k' l' hm (List.lt_trans hlt hl)
          · cases List.mem_singleton.1 hm; exact List.lt_irrefl _ hl
        · next hlt =>
          refine ⟨List.mem_append_left _ h.1, fun k' l' hm => ?_⟩
          rcases List.mem_append.1 hm with hm | hm
          · exact h.2 k' l' hm
          · cases List.mem_singleton.1 hm; exact hlt

theorem rmSpec (s : Store) : IsRightmostLeaf s.nodes s.getRightmostLeaf := by
  have := rmFold s.nodes [] none (fun _ _ h => by cases h)
  rw [List.nil_append] at this
  exact this

/-- C66: as long as no two stored leaf nodes have the same key - in particular if only one version is stored - `get_rightmost_leaf` does not depend on the
order either; so `JellyfishMerkleRestore::new` recovers the same state in every process. -/
theorem C66_rightmost_leaf {s s' : Store} (hs : SameRecords s s') (ht : Tables s')
    (hd : ∀ k l k' l', s'.nodes.get? k = some (.leaf l) → s'.nodes.get? k' = some (.leaf l') → l.keyHash = l'.keyHash → k = k') :
    s.getRightmostLeaf = s'.getRightmostLeaf ∧
    ∀ v root, Restore.new H s.reader v root = Restore.new H s'.reader v root := by
  have hsim := SSim.of hs ht
  have hr : s.getRightmostLeaf = s'.getRightmostLeaf := by
    have h1 := rmSpec s
    have h2 := rmSpec s'
    cases hx : s.getRightmostLeaf with
    | none =>
      rw [hx] at h1
      cases hy : s'.getRightmostLeaf with
      | none => rfl
      | some b =>
        rw [hy] at h2
        exact absurd (hs.nodes.mem_iff.2 h2.1) (h1 _ _)
    | some a =>
      rw [hx] at h1
      have m1 := hs.nodes.mem_iff.1 h1.1
      cases hy : s'.getRightmostLeaf with
      | none =>
        rw [hy] at h2
        exact absurd m1 (h2 _ _)
      | some b =>
        rw [hy] at h2
        obtain ⟨ka, la⟩ := a
        obtain ⟨kb, lb⟩ := b
        have e : la.keyHash = lb.keyHash := Subtype.ext (List.le_antisymm (h2.2 _ _ m1) (h1.2 _ _ (hs.nodes.mem_iff.2 h2.1)))
        have ga := AMap.get?_of_mem ht.nodes m1
        have gb := AMap.get?_of_mem ht.nodes h2.1
        have ek := hd _ _ _ _ ga gb e
        subst ek
        rw [ga] at gb
        cases gb
        rfl
  refine ⟨hr, fun v root => ?_⟩
  have he : s'.reader = s.reader := by
    rw [sameLookups_eq hsim.look]
    show ({ s.reader with getRightmostLeaf := Except.ok s'.getRightmostLeaf } : Reader) = s.reader
    rw [← hr]
    rfl
  rw [he]

/-- No two leaf nodes of the store of a restoration have the same key. -/
theorem durable_leaves {Ms : List Spec.Entry} {E p0 : List (KeyHash × Value)} {w : Version} {s : Store} (hd : Durable H Ms E w s p0)
    {k k' : NodeKey} {l l' : LeafNode} (h1 : s.nodes.get? k = some (.leaf l)) (h2 : s.nodes.get? k' = some (.leaf l'))
    (he : l.keyHash = l'.keyHash) : k = k' := by
  have key : ∃ m' : List Spec.Entry, ∀ (k : NodeKey) (l : LeafNode), s.nodes.get? k = some (.leaf l) →
      k.version = w ∧ (∃ vh : ValueHash, under k.path m' = [(l.keyHash, vh)]) ∧ 2 ≤ (under k.path.dropLast m').length ∧
      k.path <+: l.keyHash.nibbles := by
    rcases List.eq_nil_or_concat (entriesOf H p0) with hc | ⟨m, L, hc⟩
    · exact ⟨[], fun k l h => by rw [hd.store.nil (by rw [hc]; simp) k] at h; cases h⟩
    rcases List.eq_nil_or_concat m with hc' | ⟨m1, x, hc'⟩
    · exact ⟨[], fun k l h => by rw [hd.store.nil (by rw [hc, hc']; simp) k] at h; cases h⟩
    obtain ⟨d, hg⟩ := hd.store.last m x.1 x.2 L (by rw [hc, List.concat_eq_append]) (by rw [hc']; simp)
    refine ⟨m ++ [L], fun k l h => ?_⟩
    have hp : k.version = w ∧ pending (m ++ [L]) L.1 k.path := by
      apply Classical.byContradiction
      intro hn
      rw [(hg.ok.no k hn).1] at h
      cases h
    have hcan : canonNode H (m ++ [L]) (fun _ => w) k.path = .leaf l := by
      rcases hg.ok.yes _ hp.2 with h' | h'
      · have := h'.1
        rw [← hp.1] at this
        rw [h] at this
        rw [← hp.1]
        exact (Option.some.inj this).symm
      · exfalso
        have := h'.1
        rw [← hp.1] at this
        rw [h] at this
        cases this
    refine ⟨hp.1, ?_⟩
    rcases len_cases (under k.path (m ++ [L])) with h3 | ⟨a, h3⟩ | h3
    · exact absurd h3 hp.2.2.1.2.1
    · rw [canonNode_one h3] at hcan
      cases hcan
      refine ⟨⟨a.2, h3⟩, ?_, (mem_under.1 (by rw [h3]; simp : a ∈ under k.path (m ++ [L]))).2⟩
      rcases hp.2.2.1.2.2 with h4 | h4
      · exact absurd h4 hp.2.1
      · exact h4
    · rw [canonNode_two h3] at hcan
      cases hcan
  obtain ⟨m', key⟩ := key
  obtain ⟨v1, ⟨e1, u1⟩, t1, p1⟩ := key k l h1
  obtain ⟨v2, ⟨e2, u2⟩, t2, p2⟩ := key k' l' h2
  rw [← he] at p2 u2
  obtain ⟨a1, a2⟩ := prefix_nib_iff.1 p1
  obtain ⟨b1, b2⟩ := prefix_nib_iff.1 p2
  have hlen : k.path.length = k'.path.length := by
    rcases Nat.lt_trichotomy k.path.length k'.path.length with h | h | h
    · exfalso
      rw [b2, dropLast_take b1] at t2
      rw [a2] at u1
      rw [single_take u1 (show k.path.length ≤ k'.path.length - 1 by omega)] at t2
      simp at t2
    · exact h
    · exfalso
      rw [a2, dropLast_take a1] at t1
      rw [b2] at u2
      rw [single_take u2 (show k'.path.length ≤ k.path.length - 1 by omega)] at t1
      simp at t1
  obtain ⟨kv, kp⟩ := k
  obtain ⟨kv', kp'⟩ := k'
  simp only at v1 v2 a2 b2 hlen
  rw [v1, v2, a2, b2, hlen]

/-- C66: however a restoration was fed and interrupted before, restarting it recovers the same state in every process. -/
theorem C66_restart {mp : Spec.Map} {es : List Spec.Entry} {w : Version} {checked : Bool} {evs : List RecvEvent} {s : Store}
    (hl : Spec.Lists H mp es)
    (hnc : Spec.NoCollision H (Spec.treeStrings H es ++ ((Recv.start ow).run H checked w (Spec.root H es) evs).strings))
    (hs : SameRecords s ((Recv.start ow).run H checked w (Spec.root H es) evs).store)
    (ht : Tables ((Recv.start ow).run H checked w (Spec.root H es) evs).store) (v : Version) (root : Digest) :
    Restore.new H s.reader v root = Restore.new H ((Recv.start ow).run H checked w (Spec.root H es) evs).store.reader v root :=
  (C66_rightmost_leaf hs ht fun _ _ _ _ h1 h2 he => durable_leaves (run_inv hl hnc).durable h1 h2 he).2 v root

/-! ### Where the order matters -/

namespace Sample

/-- The same store with the node table listed backwards. -/
def backwards (s : Store) : Store := { s with nodes := s.nodes.reverse }

theorem backwards_same (s : Store) : SameRecords (backwards s) s :=
  ⟨List.reverse_perm _, .refl _, .refl _, .refl _, rfl⟩

/-- Two versions of one key. -/
def twice : List Op := [.commit [[(key 0x10, some [1])]], .commit [[(key 0x10, some [2])]]]

/-- Independence of the order fails for `append_value_set` on the in-memory store, which asks `get_rightmost_leaf` whether a version may
be overwritten: after two commits of one key, two stored leaf nodes have the greatest key, and which of them is found is decided by the
order of the hash table.  In the same store, appending at version 1 (the latest version) is accepted with the table in one order and
refused in the other, and for version 0 it is the other way around. -/
theorem _root_.Jmt.C66_append_depends_on_order : ∃ y s' h b m h' b' m', Reached T twice y ∧ SameRecords s' y.store ∧ Tables y.store ∧
    appendValueSet T y.store.reader [(key 0x10, some [5])] 1 = .ok (h, b) ∧
    appendValueSet T s'.reader [(key 0x10, some [5])] 1 = .error (.bail m) ∧
    appendValueSet T s'.reader [(key 0x10, some [5])] 0 = .ok (h', b') ∧
    appendValueSet T y.store.reader [(key 0x10, some [5])] 0 = .error (.bail m') := by
  have hk : okAnd (owStore [(key 0x10, some [1]), (key 0x10, some [2])]) (fun y =>
      okAnd (appendValueSet T y.store.reader [(Sample.key 0x10, some [5])] 1) (fun _ => true) &&
      bailed (appendValueSet T (backwards y.store).reader [(Sample.key 0x10, some [5])] 1) &&
      (okAnd (appendValueSet T (backwards y.store).reader [(Sample.key 0x10, some [5])] 0) (fun _ => true) &&
      bailed (appendValueSet T y.store.reader [(Sample.key 0x10, some [5])] 0))) = true := by decide +kernel
  obtain ⟨y, hy, hk⟩ := of_okAnd hk
  simp only [Bool.and_eq_true] at hk
  obtain ⟨⟨k1, k2⟩, k3, k4⟩ := hk
  obtain ⟨r, hr, -⟩ := of_okAnd k1
  obtain ⟨m, hm⟩ := of_bailed k2
  obtain ⟨r', hr', -⟩ := of_okAnd k3
  obtain ⟨m', hm'⟩ := of_bailed k4
  exact ⟨y, _, r.1, r.2, m, r'.1, r'.2, m', ⟨true, hy⟩, backwards_same _, tables_of_run hy, hr, hm, hr', hm'⟩

/-- A process that drains its tables backwards. -/
def rev (t : TreeCache) : TreeCache :=
  { t with nodeCache := t.nodeCache.reverse, valueCache := t.valueCache.reverse, stale := t.stale.reverse }

theorem rev_reorders : Reorders rev :=
  ⟨fun _ => List.reverse_perm _, fun _ => List.reverse_perm _, fun _ => List.reverse_perm _, fun _ => rfl⟩

/-- The hypotheses of the theorems are met by the five versions of the sample history with the node table listed backwards; a process that drains
its tables backwards commits two more versions there. -/
theorem _root_.Jmt.C66_example (H : Hasher) : ∃ y s hs b s', Reached H Sample.ops y ∧ s = backwards y.store ∧
    ShuffledRun H false Sample.ops ⟨s, y.next⟩ ∧ SameRecords s y.store ∧ Tables y.store ∧
    putValueSetsBy rev H s.reader [[(key 0x10, some [9]), (key 0x44, some [8])], [(key 0x10, none)]] y.next = .ok (hs, b) ∧
    s.writeTreeUpdateBatch b = .ok s' ∧
    ShuffledRun H false (Sample.ops ++ [.commit [[(key 0x10, some [9]), (key 0x44, some [8])], [(key 0x10, none)]]])
      ⟨backwards s', y.next + 2⟩ := by
  obtain ⟨y, hy, -⟩ := Sys.run_ok H false Sample.ops allowed (by decide +kernel)
  have hrun := ShuffledRun.of_run Sample.ops hy (backwards_same y.store)
  obtain ⟨y0, hs, b0, b, s', -, -, h1, -, h2, h3⟩ := C66_next_commit hrun allowed rev_reorders
    [[(key 0x10, some [9]), (key 0x44, some [8])], [(key 0x10, none)]] (by decide +kernel)
  exact ⟨y, _, hs, b, s', ⟨false, hy⟩, rfl, hrun, backwards_same _, tables_of_run hy, h1, h2, h3 _ (backwards_same s')⟩

end Sample

end Jmt
