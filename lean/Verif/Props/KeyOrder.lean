import Verif.Spec.KeyOrder
import Verif.Model.PurgeScan
import Verif.Props.UpdateBytes
/-!
# Property C71: the order of keys
-/
namespace Jmt
open Borsh
open Spec (PathBefore KeyBefore StaleBefore ValueBefore StrictOrder)

variable {H : Hasher} {ops : List Op} {y : Sys}

/-- C71: the derived order of packed paths is the order by length and then nibble by nibble. -/
theorem C71_path_order (p q : List Nibble) : pathLt (.ofList p) (.ofList q) = true ↔ PathBefore p q := by
  unfold pathLt PathBefore NibblePath.ofList
  simp only [Bool.or_eq_true, Bool.and_eq_true, decide_eq_true_eq]
  refine or_congr Iff.rfl ⟨fun h => ⟨h.1, (pack_lt h.1).1 h.2⟩, fun h => ⟨h.1, (pack_lt h.1).2 h.2⟩⟩

/-- C71: the derived order of node keys. -/
theorem C71_key_order (a b : NodeKey) : keyLt a.packed b.packed = true ↔ KeyBefore a b := by
  unfold keyLt KeyBefore NodeKey.packed
  rw [Bool.or_eq_true, Bool.and_eq_true, decide_eq_true_iff, decide_eq_true_iff, C71_path_order]

/-- C71: the derived order of stale-node entries. -/
theorem C71_stale_order (a b : StaleNodeIndex) :
    staleLt (a.staleSince, a.nodeKey.packed) (b.staleSince, b.nodeKey.packed) = true ↔ StaleBefore a b := by
  unfold staleLt StaleBefore
  simp only [Bool.or_eq_true, Bool.and_eq_true, decide_eq_true_eq, C71_key_order]

/-- C71: the derived order of the keys of values. -/
theorem C71_value_order (a b : Version × KeyHash) : valueLt a b = true ↔ ValueBefore a b := by
  unfold valueLt ValueBefore
  simp only [Bool.or_eq_true, Bool.and_eq_true, decide_eq_true_eq]

theorem strictOrder_of {α κ : Type} {lt : κ → κ → Bool} (h : Strict lt) {key : α → κ} {before : α → α → Prop}
    (hk : ∀ a b, lt (key a) (key b) = true ↔ before a b) (hi : ∀ a b, key a = key b → a = b) : StrictOrder before where
  irrefl a hc := by
    rw [← hk, h.irrefl] at hc; cases hc
  trans a b c h1 h2 := (hk _ _).1 (h.trans _ _ _ ((hk _ _).2 h1) ((hk _ _).2 h2))
  total a b hne := (h.total _ _ (fun hc => hne (hi _ _ hc))).imp (hk _ _).1 (hk _ _).1

/-- C71: these are strict total orders. -/
theorem C71_orders_are_strict : StrictOrder KeyBefore ∧ StrictOrder StaleBefore ∧ StrictOrder ValueBefore :=
  ⟨strictOrder_of keyLt_strict C71_key_order fun _ _ => packed_injective,
    strictOrder_of staleLt_strict C71_stale_order fun a b h => by
      obtain ⟨s, k⟩ := a
      obtain ⟨s', k'⟩ := b
      simp only [Prod.mk.injEq] at h
      rw [h.1, packed_injective h.2],
    strictOrder_of (key := id) valueLt_strict C71_value_order fun _ _ h => h⟩

/-- C71: all keys of a version come before all keys of later ones; the ancestors of a node come before the node. -/
theorem C71_versions_and_ancestors_first (a b : NodeKey) :
    (a.version < b.version → KeyBefore a b) ∧
    (a.version = b.version → a.path <+: b.path → a.path ≠ b.path → KeyBefore a b) := by
  refine ⟨.inl, fun h hp hne => .inr ⟨h, .inl ?_⟩⟩
  rcases Nat.lt_or_ge a.path.length b.path.length with h1 | h1
  · exact h1
  · exact absurd (hp.eq_of_length_le h1) hne

/-- C71: keys of the map are ordered like their nibbles, so the leaves of a tree from left to right. -/
theorem C71_key_hash_order (k k' : KeyHash) : k.val < k'.val ↔ k.nibbles < k'.nibbles := by
  have h := pack_lt (l := k.nibbles) (l' := k'.nibbles) (by simp)
  rw [show k.nibbles = k.val.flatMap byteNibbles from rfl, show k'.nibbles = k'.val.flatMap byteNibbles from rfl] at h ⊢
  rw [pack_flatMap, pack_flatMap] at h
  exact h

/-- C71, the borsh bytes of keys are not ordered like the keys (integers are little endian): a database must not rely on the order of the
encoded keys. -/
theorem C71_bytes_are_not_ordered : ∃ a b : NodeKey, KeyBefore a b ∧ ∃ ka kb, nodeKey.enc a.packed = some ka ∧ nodeKey.enc b.packed = some kb ∧
    kb < ka :=
  ⟨⟨1, []⟩, ⟨256, []⟩, .inl (by decide), _, _, rfl, rfl, by decide⟩

/-! ### Pruning in key order -/

theorem takeWhile_sorted {r : Version} : ∀ {l : List StaleNodeIndex}, l.Pairwise StaleBefore →
    l.takeWhile (fun i => decide (i.staleSince ≤ r)) = l.filter (fun i => decide (i.staleSince ≤ r)) := by
  intro l
  induction l with
  | nil => intro _; rfl
  | cons a l ih =>
    intro h
    obtain ⟨h1, h2⟩ := List.pairwise_cons.1 h
    by_cases ha : a.staleSince ≤ r
    · rw [List.takeWhile_cons_of_pos (by simpa using ha), List.filter_cons_of_pos (by simpa using ha), ih h2]
    · rw [List.takeWhile_cons_of_neg (by simpa using ha), List.filter_cons_of_neg (by simpa using ha)]
      symm
      rw [List.filter_eq_nil_iff]
      intro b hb
      have h3 : a.staleSince ≤ b.staleSince := by
        rcases h1 b hb with h | ⟨h, -⟩
        · exact Nat.le_of_lt h
        · exact Nat.le_of_eq h
      simp only [decide_eq_true_eq]
      omega

/-- The pruning loop over entries whose nodes exist. -/
theorem purgeLoop_all : ∀ (L : List StaleNodeIndex) (s : Store), (L.map StaleNodeIndex.nodeKey).Nodup →
    (∀ i ∈ L, ∃ nd, s.nodes.get? i.nodeKey = some nd) →
    Store.purgeLoop L s = .ok { s with nodes := s.nodes.filter (fun e => decide (∀ i ∈ L, e.1 ≠ i.nodeKey)), stale := s.stale.filter (fun j => decide (j ∉ L)) } := by
  intro L
  induction L with
  | nil =>
    intro s _ _
    unfold Store.purgeLoop
    have h1 : s.nodes.filter (fun e => decide (∀ i ∈ ([] : List StaleNodeIndex), e.1 ≠ i.nodeKey)) = s.nodes :=
      List.filter_eq_self.2 (by simp)
    have h2 : s.stale.filter (fun j => decide (j ∉ ([] : List StaleNodeIndex))) = s.stale := List.filter_eq_self.2 (by simp)
    rw [h1, h2]
  | cons i L ih =>
    intro s hn hs
    rw [List.map_cons, List.nodup_cons] at hn
    obtain ⟨nd, hnd⟩ := hs i List.mem_cons_self
    unfold Store.purgeLoop
    rw [hnd]
    simp only
    rw [ih _ hn.2]
    · simp only [AMap.erase, List.filter_filter, List.mem_cons, not_or, forall_eq_or_imp, Bool.decide_and]
      congr 2
      · apply List.filter_congr; intro e _; rw [Bool.and_comm]
      · apply List.filter_congr; intro e _; rw [Bool.and_comm]
    · intro j hj
      obtain ⟨nd', h'⟩ := hs j (List.mem_cons_of_mem _ hj)
      refine ⟨nd', ?_⟩
      rw [AMap.get?_erase, if_neg ?_, h']
      intro hc
      exact hn.1 (List.mem_map.2 ⟨j, hj, hc.symm⟩)

/-- C71, pruning: on every store a history reaches, the scan of the index in ascending order up to the first later entry selects exactly the
entries that are due, and the pruning leaves the same store; so it does with the due entries in any other order. -/
theorem C71_prune_scan (hr : Reached H ops y) (hb : (setsOf ops).length < 2 ^ 64) {iter : List StaleNodeIndex}
    (hp : iter.Perm y.store.stale) (hs : iter.Pairwise StaleBefore) (r : Version) :
    (∀ i, i ∈ iter.takeWhile (fun i => decide (i.staleSince ≤ r)) ↔ i ∈ y.store.stale ∧ i.staleSince ≤ r) ∧
    y.store.purgeScan iter r = y.store.purgeStaleNodes r ∧
    ∀ due : List StaleNodeIndex, due.Perm (iter.takeWhile (fun i => decide (i.staleSince ≤ r))) →
      Store.purgeLoop due y.store = y.store.purgeStaleNodes r := by
  obtain ⟨-, hi⟩ := hr.inv hb
  obtain ⟨M, W, ht, -⟩ := hi.tree
  rw [takeWhile_sorted hs]
  have hord : ∀ due : List StaleNodeIndex, due.Perm (iter.filter (fun i => decide (i.staleSince ≤ r))) →
      Store.purgeLoop due y.store = y.store.purgeStaleNodes r := by
    intro due hdue
    have hp2 : due.Perm (y.store.stale.filter (fun i => decide (i.staleSince ≤ r))) := hdue.trans (hp.filter _)
    have hsub : ((y.store.stale.filter (fun i => decide (i.staleSince ≤ r))).map StaleNodeIndex.nodeKey).Nodup :=
      List.Nodup.sublist (List.Sublist.map _ List.filter_sublist) ht.staleNodup
    unfold Store.purgeStaleNodes
    rw [purgeLoop_all _ _ ((hp2.map _).nodup_iff.2 hsub) fun i hi => (ht.stale i (List.mem_filter.1 (hp2.mem_iff.1 hi)).1).2.2.1,
      purgeLoop_all _ _ hsub fun i hi => (ht.stale i (List.mem_filter.1 hi).1).2.2.1]
    simp only [hp2.mem_iff]
  refine ⟨fun i => ?_, ?_, hord⟩
  · rw [List.mem_filter, hp.mem_iff, decide_eq_true_eq]
  · unfold Store.purgeScan
    rw [takeWhile_sorted hs]
    exact hord _ (List.Perm.refl _)

/-- C71: there is exactly one ascending listing of the index, so the above says what the mock store does. -/
theorem C71_one_listing (hr : Reached H ops y) (hb : (setsOf ops).length < 2 ^ 64) :
    ∃ iter : List StaleNodeIndex, (iter.Perm y.store.stale ∧ iter.Pairwise StaleBefore) ∧
      ∀ iter', iter'.Perm y.store.stale ∧ iter'.Pairwise StaleBefore → iter' = iter := by
  obtain ⟨-, hi⟩ := hr.inv hb
  obtain ⟨M, W, ht, -⟩ := hi.tree
  have hn : (y.store.stale.map (fun i => (i.staleSince, i.nodeKey.packed))).Nodup := by
    have h := ht.staleNodup
    rw [List.nodup_iff_pairwise_ne, List.pairwise_map] at *
    exact h.imp fun hne hc => hne (packed_injective (Prod.mk.inj hc).2)
  obtain ⟨l, h1, h2⟩ := sort_exists staleLt_strict y.store.stale hn
  have hcv : ∀ l' : List StaleNodeIndex, l'.Pairwise StaleBefore ↔
      l'.Pairwise (fun a b => staleLt (a.staleSince, a.nodeKey.packed) (b.staleSince, b.nodeKey.packed) = true) := fun l' =>
    ⟨fun h => h.imp (C71_stale_order _ _).2, fun h => h.imp (C71_stale_order _ _).1⟩
  refine ⟨l, ⟨h1.symm, (hcv l).2 h2⟩, fun l' h' => ?_⟩
  exact sort_unique staleLt_strict _ _ (h'.1.trans h1) ((hcv l').1 h'.2) h2

/-- The sample history has such a listing. -/
example (H : Hasher) : ∃ y iter, Reached H Sample.ops y ∧ iter.Perm y.store.stale ∧ y.store.purgeScan iter 4 = y.store.purgeStaleNodes 4 := by
  obtain ⟨y, hy⟩ := Sample.reached H
  obtain ⟨iter, ⟨h1, h2⟩, -⟩ := C71_one_listing hy Sample.bound
  exact ⟨y, iter, hy, h1, (C71_prune_scan hy Sample.bound h1 h2 4).2.1⟩

/-- A node key before another one. -/
example : KeyBefore ⟨3, [1, 15]⟩ ⟨3, [2, 0]⟩ ∧ ¬ KeyBefore ⟨3, [2, 0]⟩ ⟨3, [15]⟩ ∧ KeyBefore ⟨2, [15, 15]⟩ ⟨3, []⟩ := by
  unfold KeyBefore PathBefore; decide

end Jmt
