import Verif.Spec.PrunedReads
import Verif.Proofs.Backend
import Verif.Proofs.IterResume
/-!
# A pruned store and the store that was never pruned
-/
namespace Jmt
open Spec (AnyFault withoutPurges PartlyWritten)

variable {H : Hasher}

theorem withoutPurges_append (a b : List Op) : withoutPurges (a ++ b) = withoutPurges a ++ withoutPurges b := by
  unfold withoutPurges; rw [List.filter_append]

theorem setsOf_withoutPurges (ops : List Op) : setsOf (withoutPurges ops) = setsOf ops := by
  induction ops with
  | nil => rfl
  | cons op ops ih =>
    cases op with
    | commit sets =>
      show setsOf (.commit sets :: withoutPurges ops) = _
      rw [show Op.commit sets :: withoutPurges ops = [.commit sets] ++ withoutPurges ops from rfl, setsOf_append, ih,
        ← setsOf_append]; rfl
    | batch sets =>
      show setsOf (.batch sets :: withoutPurges ops) = _
      rw [show Op.batch sets :: withoutPurges ops = [.batch sets] ++ withoutPurges ops from rfl, setsOf_append, ih,
        ← setsOf_append]; rfl
    | purge r =>
      show setsOf (withoutPurges ops) = _
      rw [ih, show Op.purge r :: ops = [.purge r] ++ ops from rfl, setsOf_append]; rfl

theorem horizon_withoutPurges (ops : List Op) : (horizon (withoutPurges ops)).2 = 0 := by
  induction ops using list_snoc_ind with
  | h0 => rfl
  | h1 ops op ih =>
    rw [withoutPurges_append]
    cases op with
    | commit sets => rw [show withoutPurges [.commit sets] = [.commit sets] from rfl, horizon_snoc_commit, ih]
    | batch sets => rw [show withoutPurges [.batch sets] = [.batch sets] from rfl, horizon_snoc_batch, ih]
    | purge r => rw [show withoutPurges [.purge r] = [] from rfl, List.append_nil, ih]

theorem readable_withoutPurges {ops : List Op} {v : Version} (hv : v < (setsOf ops).length) : Readable (withoutPurges ops) v := by
  unfold Readable
  rw [horizon_withoutPurges, setsOf_withoutPurges]
  exact ⟨Nat.zero_le _, hv⟩

theorem mapAt_withoutPurges (ops : List Op) (v : Version) : mapAt (withoutPurges ops) v = mapAt ops v := by
  unfold mapAt; rw [setsOf_withoutPurges]

/-- The store that was never pruned shows all that the pruned store shows. -/
theorem Reached.unpruned : ∀ {ops : List Op} {y : Sys}, Reached H ops y → (setsOf ops).length < 2 ^ 64 →
    ∃ y0 st, Reached H (withoutPurges ops) y0 ∧ (∀ x ∈ y.store.stale, x ∈ st) ∧ Tracks True y0.store.reader st y.store y.next := by
  intro ops
  induction ops using list_snoc_ind with
  | h0 =>
    intro y hr _
    exact ⟨y, y.store.stale, hr, fun _ h => h, by
      obtain ⟨ow, h⟩ := hr
      cases h
      exact tracks_self _⟩
  | h1 ops op ih =>
    intro z hz hb
    obtain ⟨y, hr, hstep⟩ := hz.run_inv
    have hlen := length_setsOf_append ops [op]
    obtain ⟨y0, st, hr0, hst, ht⟩ := ih hr (by omega)
    obtain ⟨hn, hi⟩ := hr.inv (by omega)
    have hb0 : (setsOf (withoutPurges ops)).length < 2 ^ 64 := by rw [setsOf_withoutPurges]; omega
    obtain ⟨hn0, hi0⟩ := hr0.inv hb0
    have hy0 : y0.next = y.next := by rw [hn0, hn, setsOf_withoutPurges]
    obtain ⟨z', hstep, he⟩ := bind_ok_inv (show (y.step H op >>= fun z => Sys.run H [] z) = .ok z from hstep)
    cases he
    have hrefl : ∀ b, PartlyWritten b y0.store.reader y0.store.reader := fun b => ⟨fun _ => .inl rfl, fun _ _ _ => rfl⟩
    rw [withoutPurges_append]
    cases op with
    | commit sets =>
      have hl : (setsOf [Op.commit sets]).length = sets.length := by simp [setsOf]
      obtain ⟨hs, b, s', a1, a2, a3, a4, -⟩ := hr.commit sets (by omega)
      obtain ⟨hs0, b0, s0, c1, c2, c3, c4, c5⟩ := hr0.commit sets (by rw [setsOf_withoutPurges]; omega)
      unfold Sys.step at hstep
      simp only [a3, ok_bind] at hstep
      cases hstep
      rw [hn] at ht
      obtain ⟨⟨r, e1, e2⟩, -⟩ := ht.put hi sets (by unfold preGenesisVersion u64Size; omega)
      rw [hn, e2] at a1
      cases a1
      rw [hy0, hn, e1] at c1
      cases c1
      refine ⟨_, st ++ b.staleNodeIndexBatch, c5, fun x hx => ?_, ?_⟩
      · rw [show x ∈ s'.stale ↔ _ from by rw [a4.stale]] at hx
        rcases List.mem_append.1 hx with hx | hx
        · exact List.mem_append_left _ (hst x hx)
        · exact List.mem_append_right _ hx
      · show Tracks True s0.reader _ s' (y.next + sets.length)
        rw [hn]
        exact ht.write hi a4 (hrefl _) (c4.written hi0)
    | batch sets =>
      have hl : (setsOf [Op.batch sets]).length = sets.length := by simp [setsOf]
      have hne := hz.allowed (.batch sets) (by simp)
      obtain ⟨hs, b, s', a1, a2, a4⟩ := hi.batch sets none hne (cachesFor_none _ _)
        (by unfold preGenesisVersion u64Size; omega)
      obtain ⟨hs0, b0, s0, c1, c2, c4⟩ := hi0.batch sets none hne (cachesFor_none _ _)
        (by rw [setsOf_withoutPurges]; unfold preGenesisVersion u64Size; omega)
      rw [← hn] at a1
      unfold Sys.step Store.commitBatch at hstep
      simp only [a1, a2, ok_bind] at hstep
      cases hstep
      rw [hn] at ht a1
      obtain ⟨r, e1, e2⟩ := ht.putBatch hi sets hne (by unfold preGenesisVersion u64Size; omega)
      rw [e2] at a1
      cases a1
      rw [setsOf_withoutPurges, e1] at c1
      cases c1
      refine ⟨⟨s0, y0.next + sets.length⟩, st ++ b.staleNodeIndexBatch, hr0.run ?_, fun x hx => ?_, ?_⟩
      · show (y0.step H (.batch sets) >>= fun z => Sys.run H [] z) = _
        unfold Sys.step Store.commitBatch
        simp only [hy0, hn, e1, c2, ok_bind]
        rfl
      · rw [show x ∈ s'.stale ↔ _ from by rw [a4.stale]] at hx
        rcases List.mem_append.1 hx with hx | hx
        · exact List.mem_append_left _ (hst x hx)
        · exact List.mem_append_right _ hx
      · show Tracks True s0.reader _ s' (y.next + sets.length)
        rw [hn]
        have := ht.write hi a4 (hrefl _) (c4.written hi0)
        rwa [List.length_map] at this
    | purge r =>
      obtain ⟨s', a1, -, a3, a4, -, a5⟩ := hi.purge r
      unfold Sys.step at hstep
      simp only [a1, ok_bind] at hstep
      cases hstep
      rw [show withoutPurges [.purge r] = [] from rfl, List.append_nil]
      refine ⟨y0, st, hr0, fun x hx => hst x ?_, ht.prune a4 a3 a5 ?_ ⟨fun _ _ => rfl, fun _ _ => rfl⟩⟩
      · have hx' : x ∈ s'.stale := hx
        rw [a4] at hx'
        exact (List.mem_filter.1 hx').1
      · obtain ⟨⟨M, W, hI, -⟩, -⟩ := hi
        intro k nd hk
        have := hI.lt _ _ hk
        omega

/-- A pruned store is a faulty view of the one that was never pruned: nodes are missing, values are not. -/
theorem Reached.pruned_view {ops : List Op} {y : Sys} (hr : Reached H ops y) (hb : (setsOf ops).length < 2 ^ 64) :
    ∃ y0, Reached H (withoutPurges ops) y0 ∧
      Spec.FaultyView (fun _ => True) (fun _ _ => False) y.store.reader
        { y0.store.reader with getRightmostLeaf := y.store.reader.getRightmostLeaf } := by
  obtain ⟨y0, st, hr0, -, ht⟩ := hr.unpruned hb
  refine ⟨y0, hr0, fun k => ?_, fun v k => .inl ?_, .inl rfl⟩
  · show Except.ok (y.store.nodes.get? k) = _ ∨ _ ∨ _
    cases hk : y.store.nodes.get? k with
    | none => exact .inr (.inr ⟨trivial, by show Except.ok _ = _; rw [hk]⟩)
    | some nd => exact .inl (ht.node k nd hk).symm
  · exact (ht.values v k).symm

/-- Never the error for a missing root. -/
def NotMissing {α : Type} (x : Except Err α) : Prop := ∀ v, x ≠ .error (.missingRoot v)

theorem NotMissing.bind {α β : Type} {x : Except Err α} {f : α → Except Err β} (hx : NotMissing x) (hf : ∀ a, NotMissing (f a)) :
    NotMissing (x >>= f) := by
  intro v h
  cases x with
  | error e =>
    have h' : (Except.error e : Except Err β) = .error (.missingRoot v) := h
    cases h'
    exact hx v rfl
  | ok a => exact hf a v h

theorem notMissing_rangeBitmaps (a b bm) : NotMissing (rangeBitmaps a b bm) := by
  intro v h
  unfold rangeBitmaps at h
  split at h
  · cases h
  · split at h <;> cases h

theorem notMissing_childAtIdx (n : InternalNode) (i : Nat) : NotMissing (n.childAtIdx i) := by
  intro v h
  unfold InternalNode.childAtIdx at h
  split at h
  · cases h
  · split at h <;> cases h

theorem notMissing_genChild (k : NodeKey) (w : Version) (i : Nibble) : NotMissing (k.genChild w i) := by
  intro v h
  unfold NodeKey.genChild at h
  repeat' split at h
  all_goals cases h

theorem notMissing_generateBitmaps (n : InternalNode) : NotMissing n.generateBitmaps := by
  intro v h
  unfold InternalNode.generateBitmaps at h
  dsimp only at h
  split at h <;> cases h

theorem notMissing_ok {α : Type} (a : α) : NotMissing (.ok a : Except Err α) := by intro v h; cases h

theorem notMissing_merkleHash (n : InternalNode) : ∀ (h start : Nat) (bm), NotMissing (n.merkleHash H h start bm) := by
  intro h
  induction h with
  | zero =>
    intro start bm
    unfold InternalNode.merkleHash
    refine (notMissing_rangeBitmaps _ _ _).bind fun r => ?_
    split
    · exact notMissing_ok _
    · split
      · exact (notMissing_childAtIdx _ _).bind fun _ => notMissing_ok _
      · intro v h; cases h
  | succ h ih =>
    intro start bm
    unfold InternalNode.merkleHash
    refine (notMissing_rangeBitmaps _ _ _).bind fun r => ?_
    split
    · exact notMissing_ok _
    · split
      · exact (notMissing_childAtIdx _ _).bind fun _ => notMissing_ok _
      · exact (ih _ _).bind fun _ => (ih _ _).bind fun _ => notMissing_ok _

theorem notMissing_unwrapNode (x : Except Err Node) : NotMissing (InternalNode.unwrapNode x) := by
  intro v h
  cases x <;> cases h

theorem notMissing_buildSibling (g : NodeKey → Except Err Node) (n : InternalNode) (nk : NodeKey) (start h : Nat) (bm) :
    NotMissing (n.buildSibling H g nk start h bm) := by
  unfold InternalNode.buildSibling
  refine (notMissing_rangeBitmaps _ _ _).bind fun r => ?_
  split
  · exact notMissing_ok _
  · split
    · refine (notMissing_childAtIdx _ _).bind fun c => ?_
      refine (notMissing_genChild _ _ _).bind fun ck => ?_
      refine (notMissing_unwrapNode _).bind fun cn => ?_
      split
      · unfold InternalNode.toSM
        exact (notMissing_generateBitmaps _).bind fun _ => (notMissing_merkleHash _ _ _ _).bind fun _ =>
          (notMissing_merkleHash _ _ _ _).bind fun _ => notMissing_ok _
      · exact notMissing_ok _
      · intro v h; cases h
    · split
      · intro v h; cases h
      · exact (notMissing_merkleHash _ _ _ _).bind fun _ => (notMissing_merkleHash _ _ _ _).bind fun _ => notMissing_ok _

theorem notMissing_getChildWithSiblings (g : NodeKey → Except Err Node) (n : InternalNode) (nk : NodeKey) (i : Nibble) (oc : Bool) :
    NotMissing (n.getChildWithSiblings H g nk i oc) := by
  unfold InternalNode.getChildWithSiblings
  refine (notMissing_generateBitmaps _).bind fun bm => ?_
  suffices ∀ h acc, NotMissing (n.getChildWithSiblingsLoop H g nk i oc bm h acc) from this 4 []
  intro h
  induction h with
  | zero => intro acc v h; cases h
  | succ h ih =>
    intro acc
    unfold InternalNode.getChildWithSiblingsLoop
    refine (notMissing_buildSibling _ _ _ _ _ _).bind fun sib => ?_
    refine (notMissing_rangeBitmaps _ _ _).bind fun r => ?_
    split
    · exact notMissing_ok _
    · split
      · exact (notMissing_childAtIdx _ _).bind fun _ => (notMissing_genChild _ _ _).bind fun _ => notMissing_ok _
      · split
        · exact (notMissing_childAtIdx _ _).bind fun _ => (notMissing_genChild _ _ _).bind fun _ => notMissing_ok _
        · exact ih _

theorem notMissing_getWithProofLoop (s : Store) (key : KeyHash) (version : Version) : ∀ (fuel depth : Nat) (nk : NodeKey)
    (rem : List Nibble) (sibs : List SMNode), (depth = 0 → s.nodes.get? nk ≠ none) →
    NotMissing (getWithProofLoop H s.reader key version fuel depth nk rem sibs) := by
  intro fuel
  induction fuel with
  | zero => intro depth nk rem sibs _ v h; cases h
  | succ fuel ih =>
    intro depth nk rem sibs hd
    unfold getWithProofLoop
    have hg : s.reader.getNode nk = match s.nodes.get? nk with | none => .error (.missingNode nk) | some n => .ok n := by
      unfold Reader.getNode
      have : s.reader.getNodeOption nk = .ok (s.nodes.get? nk) := rfl
      rw [this]
      cases s.nodes.get? nk <;> rfl
    rw [hg]
    cases hk : s.nodes.get? nk with
    | none =>
      have h0 : depth ≠ 0 := fun h => hd h hk
      simp only [h0, if_false]
      intro v h; cases h
    | some node =>
      simp only [ok_bind]
      cases node with
      | internal inode =>
        dsimp only
        cases rem with
        | nil => intro v h; cases h
        | cons idx rem' =>
          refine (notMissing_getChildWithSiblings _ _ _ _ _).bind fun r => ?_
          obtain ⟨ck, sibs'⟩ := r
          cases ck with
          | some ck => exact ih _ _ _ _ (fun h => by omega)
          | none => exact notMissing_ok _
      | leaf l =>
        dsimp only
        refine NotMissing.bind ?_ fun _ => notMissing_ok _
        split
        · refine NotMissing.bind ?_ fun _ => notMissing_ok _
          intro v h
          unfold Reader.getValue at h
          repeat' split at h
          all_goals cases h
          next h1 => exact absurd (show Except.ok (s.getValueOption version l.keyHash) = _ from h1) (by intro h; cases h)
        · exact notMissing_ok _
      | null =>
        dsimp only
        split
        · exact notMissing_ok _
        · intro v h; cases h

end Jmt
