import Verif.Proofs.ShuffleCalls
import Verif.Proofs.MockFail
/-!
# The mock store in processes with different hash-table orders
-/
namespace Jmt
open Spec (SameLookups Reorders SameBatch SameUpdate SameRecords Tables)
open Store

variable {H : Hasher}

/-- The same store, its tables in any order. -/
structure SSim (s s' : Store) : Prop where
  nodes : SameMap s.nodes s'.nodes
  values : SameMap s.values s'.values
  stale : SameSet s.stale s'.stale
  preimages : SameMap s.preimages s'.preimages
  allow : s.allowOverwrite = s'.allowOverwrite

theorem SSim.of {s s' : Store} (h : SameRecords s s') (ht : Tables s') : SSim s s' where
  nodes := .of_perm ht.nodes h.nodes
  values := .of_perm ht.values h.values
  stale := .of_perm ht.stale h.stale
  preimages := .of_perm ht.preimages h.preimages
  allow := h.allow

theorem SSim.symm {s s' : Store} (h : SSim s s') : SSim s' s :=
  ⟨h.nodes.symm, h.values.symm, h.stale.symm, h.preimages.symm, h.allow.symm⟩

theorem SSim.trans {s s' s'' : Store} (h : SSim s s') (h' : SSim s' s'') : SSim s s'' :=
  ⟨h.nodes.trans h'.nodes, h.values.trans h'.values, h.stale.trans h'.stale, h.preimages.trans h'.preimages, h.allow.trans h'.allow⟩

theorem SSim.records {s s' : Store} (h : SSim s s') : SameRecords s s' :=
  ⟨h.nodes.perm, h.values.perm, h.stale.perm, h.preimages.perm, h.allow⟩

theorem SSim.tables {s s' : Store} (h : SSim s s') : Tables s :=
  ⟨h.nodes.left, h.values.left, h.stale.left, h.preimages.left⟩

theorem SSim.look {s s' : Store} (h : SSim s s') : SameLookups s.reader s'.reader where
  node k := by show Except.ok _ = Except.ok _; rw [h.nodes.get]
  value v k := by
    show Except.ok (s.getValueOption v k) = Except.ok (s'.getValueOption v k)
    unfold Store.getValueOption
    rw [h.values.get]

theorem SSim.new (ow : Bool) : SSim (Store.new ow) (Store.new ow) :=
  ⟨.nil, .nil, ⟨List.nodup_nil, List.nodup_nil, fun _ => Iff.rfl⟩, .nil, rfl⟩

theorem insertNodes_err (ow : Bool) : ∀ (L : List (NodeKey × Node)) (m : AMap NodeKey Node) (e : Err),
    insertNodes ow L m = .error e → e = .panic "assert_eq!(replaced, None)" := by
  intro L
  induction L with
  | nil => intro m e h; cases h
  | cons x L ih =>
    obtain ⟨k, n⟩ := x
    intro m e h
    unfold insertNodes at h
    split at h
    · cases h; rfl
    · exact ih _ _ h

theorem insertStale_err : ∀ (L st : List StaleNodeIndex) (e : Err),
    insertStale L st = .error e → e = .bail "Duplicated retire log." := by
  intro L
  induction L with
  | nil => intro st e h; cases h
  | cons x L ih =>
    intro st e h
    unfold insertStale at h
    split at h
    · cases h; rfl
    · exact ih _ _ h

theorem purgeLoop_err : ∀ (L : List StaleNodeIndex) (s : Store) (e : Err),
    purgeLoop L s = .error e → e = .bail "Stale node index refers to non-existent node." := by
  intro L
  induction L with
  | nil => intro st e h; cases h
  | cons x L ih =>
    intro s e h
    unfold purgeLoop at h
    split at h
    · cases h; rfl
    · exact ih _ _ h

/-- Two calls end alike if success of one gives success of the other, and there is only one error. -/
theorem Alike.of_one {α β : Type} {Q : α → β → Prop} {a : Except Err α} {b : Except Err β} {e : Err}
    (ha : ∀ e', a = .error e' → e' = e) (hb : ∀ e', b = .error e' → e' = e)
    (h1 : ∀ x, a = .ok x → ∃ y, b = .ok y ∧ Q x y) (h2 : ∀ y, b = .ok y → ∃ x, a = .ok x) : Alike Q a b := by
  cases a with
  | ok x =>
    obtain ⟨y, rfl, h⟩ := h1 x rfl
    exact h
  | error e' =>
    cases b with
    | ok y => obtain ⟨x, hx⟩ := h2 y rfl; cases hx
    | error e'' => exact (ha e' rfl).trans (hb e'' rfl).symm

theorem insertNodes_first {ow : Bool} {L L' : List (NodeKey × Node)} {m m' : AMap NodeKey Node} (hL : SameMap L L') (hm : SameMap m m')
    {x : AMap NodeKey Node} (h : insertNodes ow L m = .ok x) : ∃ y, insertNodes ow L' m' = .ok y ∧ SameMap x y := by
  obtain ⟨x', h1, -⟩ := insertNodes_order hL.perm hL.left h
  have hx := insertNodes_inv ow L m x h
  have h2 : insertNodes ow L' m' = .ok (AMap.extend m' L') := by
    cases ow with
    | true => exact insertNodes_ow L' m'
    | false =>
      refine insertNodes_ok false L' m' hL.right (fun e he => ?_)
      rw [← hm.get]
      exact insertNodes_free L' m x' h1 e he
  exact ⟨_, h2, hx ▸ hm.extend hL⟩

theorem insertNodes_shuf {ow : Bool} {L L' : List (NodeKey × Node)} {m m' : AMap NodeKey Node} (hL : SameMap L L') (hm : SameMap m m') :
    Alike SameMap (insertNodes ow L m) (insertNodes ow L' m') := by
  refine Alike.of_one (insertNodes_err ow L m) (insertNodes_err ow L' m') (fun x h => insertNodes_first hL hm h) ?_
  intro y h
  obtain ⟨x, h1, -⟩ := insertNodes_first hL.symm hm.symm h
  exact ⟨x, h1⟩

theorem putValue_shuf {vh vh' : AMap KeyHash (List (Version × Option Value))} (h : SameMap vh vh') (v : Nat) (k : KeyHash)
    (x : Option Value) : Alike SameMap (putValue vh v k x) (putValue vh' v k x) := by
  unfold putValue
  rw [← h.get]
  split
  · split
    · split
      · exact Alike.err
      · split
        · exact Alike.ok (h.insert _ _)
        · exact Alike.ok (h.insert _ _)
    · exact Alike.ok (h.insert _ _)
  · exact Alike.ok (h.insert _ _)

theorem insertValues_shuf : ∀ (L : List ((Version × KeyHash) × Option Value))
    {vh vh' : AMap KeyHash (List (Version × Option Value))}, SameMap vh vh' →
    Alike SameMap (insertValues L vh) (insertValues L vh') := by
  intro L
  induction L with
  | nil => intro vh vh' h; exact Alike.ok h
  | cons e L ih =>
    obtain ⟨⟨v, k⟩, x⟩ := e
    intro vh vh' h
    unfold insertValues
    exact (putValue_shuf h v k x).bind fun _ _ h => ih h

theorem valueSort_eq {L L' : AMap (Version × KeyHash) (Option Value)} (h : SameMap L L') :
    L.mergeSort valueKeyLe = L'.mergeSort valueKeyLe := by
  have p := List.mergeSort_perm L valueKeyLe
  have p' := List.mergeSort_perm L' valueKeyLe
  refine List.Perm.eq_of_pairwise (le := fun a b => valueKeyLe a b = true) ?_
    (List.pairwise_mergeSort valueKeyLe_trans valueKeyLe_total L) (List.pairwise_mergeSort valueKeyLe_trans valueKeyLe_total L')
    ((p.trans h.perm).trans p'.symm)
  intro a b ha hb h1 h2
  have e1 : a.1.1 = b.1.1 ∧ a.1.2.val = b.1.2.val := by
    simp only [valueKeyLe, Bool.or_eq_true, Bool.and_eq_true, decide_eq_true_eq] at h1 h2
    rcases h1 with h1 | ⟨h1, h3⟩
    · rcases h2 with h2 | ⟨h2, -⟩ <;> omega
    · rcases h2 with h2 | ⟨-, h4⟩
      · omega
      · exact ⟨h1, List.le_antisymm h3 h4⟩
  have e2 : a.1 = b.1 := Prod.ext e1.1 (Subtype.ext e1.2)
  have g1 := AMap.get?_of_mem h.left (k := a.1) (v := a.2) (p.mem_iff.1 ha)
  have g2 := AMap.get?_of_mem h.right (k := b.1) (v := b.2) (p'.mem_iff.1 hb)
  rw [h.get, e2, g2] at g1
  exact Prod.ext e2 (Option.some.inj g1).symm

theorem insertStale_first {L L' st st' x : List StaleNodeIndex} (hL : L.Perm L') (hs : SameSet st st')
    (h : insertStale L st = .ok x) : ∃ y, insertStale L' st' = .ok y ∧ SameSet x y := by
  have hx := insertStale_inv L st x h
  subst hx
  obtain ⟨h1, h2⟩ := (insertStale_iff L st).1 h
  have n' : L'.Nodup := hL.nodup_iff.1 h1
  have f' : ∀ i ∈ L', i ∉ st' := fun i hi hc => h2 i (hL.mem_iff.2 hi) ((hs.mem i).2 hc)
  refine ⟨st' ++ L', (insertStale_iff L' st').2 ⟨n', f'⟩, ?_, ?_, ?_⟩
  · exact List.nodup_append.2 ⟨hs.left, h1, fun a ha b hb e => h2 b hb (e ▸ ha)⟩
  · exact List.nodup_append.2 ⟨hs.right, n', fun a ha b hb e => f' b hb (e ▸ ha)⟩
  · intro i
    simp only [List.mem_append, hs.mem i, hL.mem_iff]

theorem insertStale_shuf {L L' st st' : List StaleNodeIndex} (hL : L.Perm L') (hs : SameSet st st') :
    Alike SameSet (insertStale L st) (insertStale L' st') := by
  refine Alike.of_one (insertStale_err L st) (insertStale_err L' st') (fun x h => insertStale_first hL hs h) ?_
  intro y h
  obtain ⟨x, h1, -⟩ := insertStale_first hL.symm hs.symm h
  exact ⟨x, h1⟩

theorem write_shuf {s s' : Store} {b b' : TreeUpdateBatch} (h : SSim s s') (hb : SameBatch b b') (ht : BatchTables b) :
    Alike SSim (s.writeTreeUpdateBatch b) (s'.writeTreeUpdateBatch b') := by
  have hn : SameMap b.nodeBatch.nodes b'.nodeBatch.nodes := (SameMap.of_perm ht.nodes hb.nodes.symm).symm
  have hv : SameMap b.nodeBatch.values b'.nodeBatch.values := (SameMap.of_perm ht.values hb.values.symm).symm
  unfold writeTreeUpdateBatch writeNodeBatch
  rw [← h.allow, valueSort_eq hv]
  refine Alike.bind (Q := SSim) ?_ fun u u' h => ?_
  · refine (insertNodes_shuf hn h.nodes).bind fun m m' h1 => (insertValues_shuf _ h.values).bind fun v v' h2 => ?_
    exact Alike.ok { h with nodes := h1, values := h2, allow := rfl }
  · refine (insertStale_shuf hb.stale h.stale).bind fun t t' h3 => ?_
    exact Alike.ok { h with stale := h3 }

/-- When the pruning loop succeeds, its entries name distinct stored nodes. -/
theorem purgeLoop_inv : ∀ (L : List StaleNodeIndex) (s s' : Store), purgeLoop L s = .ok s' →
    (L.map StaleNodeIndex.nodeKey).Nodup ∧ ∀ i ∈ L, ∃ nd, s.nodes.get? i.nodeKey = some nd := by
  intro L
  induction L with
  | nil => intro s s' _; exact ⟨List.nodup_nil, fun i hi => by cases hi⟩
  | cons i L ih =>
    intro s s' h
    unfold purgeLoop at h
    cases hg : s.nodes.get? i.nodeKey with
    | none => rw [hg] at h; cases h
    | some n =>
      rw [hg] at h
      obtain ⟨h1, h2⟩ := ih _ _ h
      have hne : ∀ j ∈ L, i.nodeKey ≠ j.nodeKey := by
        intro j hj e
        obtain ⟨nd, hnd⟩ := h2 j hj
        simp only [AMap.get?_erase, if_pos e] at hnd
        cases hnd
      refine ⟨?_, ?_⟩
      · rw [List.map_cons, List.nodup_cons]
        refine ⟨fun hm => ?_, h1⟩
        obtain ⟨j, hj, e⟩ := List.mem_map.1 hm
        exact hne j hj e.symm
      · intro j hj
        rcases List.mem_cons.1 hj with rfl | hj
        · exact ⟨n, hg⟩
        · obtain ⟨nd, hnd⟩ := h2 j hj
          simp only [AMap.get?_erase, if_neg (hne j hj)] at hnd
          exact ⟨nd, hnd⟩

theorem purgeLoop_first {L L' : List StaleNodeIndex} {s s' x : Store} (hL : L.Perm L') (h : SSim s s') (hx : purgeLoop L s = .ok x) :
    ∃ y, purgeLoop L' s' = .ok y ∧ SSim x y := by
  obtain ⟨h1, h2⟩ := purgeLoop_inv L s x hx
  obtain ⟨x', a1, a2, a3, a4, a5, a6, a7⟩ := purgeLoop_ok L s h1 h2
  rw [hx] at a1
  cases a1
  obtain ⟨y, b1, b2, b3, b4, b5, b6, b7⟩ := purgeLoop_ok L' s' ((hL.map _).nodup_iff.1 h1) (fun i hi => by
    rw [← h.nodes.get]; exact h2 i (hL.mem_iff.2 hi))
  refine ⟨y, b1, ⟨a6 h.nodes.left, b6 h.nodes.right, fun k => ?_⟩, ?_, ?_, ?_, ?_⟩
  · rw [a7, b7, h.nodes.get]
    have : (∃ x ∈ L, x.nodeKey = k) ↔ ∃ x ∈ L', x.nodeKey = k :=
      exists_congr fun z => and_congr_left fun _ => hL.mem_iff
    by_cases hk : ∃ x ∈ L, x.nodeKey = k
    · rw [if_pos hk, if_pos (this.1 hk)]
    · rw [if_neg hk, if_neg (fun hn => hk (this.2 hn))]
  · rw [a2, b2]; exact h.values
  · rw [a5, b5]
    refine ⟨h.stale.left.sublist List.filter_sublist, h.stale.right.sublist List.filter_sublist, fun i => ?_⟩
    simp only [List.mem_filter, h.stale.mem i, decide_eq_true_eq, hL.mem_iff]
  · rw [a3, b3]; exact h.preimages
  · rw [a4, b4]; exact h.allow

theorem purge_shuf {s s' : Store} (h : SSim s s') (r : Nat) : Alike SSim (s.purgeStaleNodes r) (s'.purgeStaleNodes r) := by
  unfold purgeStaleNodes
  have hp := h.stale.perm.filter (fun i => decide (i.staleSince ≤ r))
  refine Alike.of_one (purgeLoop_err _ s) (purgeLoop_err _ s') (fun x hx => purgeLoop_first hp h hx) ?_
  intro y hy
  obtain ⟨x, h1, -⟩ := purgeLoop_first hp.symm h.symm hy
  exact ⟨x, h1⟩

end Jmt
