import Verif.Props.Layout
import Verif.Props.Work
import Verif.Props.Small
import Verif.Props.RootRetire
/-!
# C63: how large the store gets
-/
namespace Jmt
open Spec (IsNode LastRenewed RenewedAt writesIn)

variable {H : Hasher} {ops : List Op} {y : Sys}

theorem nodup_sub_length {α : Type} [DecidableEq α] : ∀ {l l' : List α}, l.Nodup → (∀ a ∈ l, a ∈ l') → l.length ≤ l'.length
  | [], _, _, _ => Nat.zero_le _
  | a :: l, l', hn, hs => by
    rw [List.nodup_cons] at hn
    have ha := hs a (by simp)
    have := nodup_sub_length (l := l) (l' := l'.erase a) hn.2 (fun b hb => by
      refine (List.mem_erase_of_ne ?_).2 (hs b (by simp [hb]))
      rintro rfl; exact hn.1 hb)
    rw [List.length_erase_of_mem ha] at this
    have := List.length_pos_of_mem ha
    rw [List.length_cons]; omega

/-- The same sets committed in one call on an empty store, without pruning. -/
theorem one_call (H : Hasher) (hist : List ValueSet) (hb : hist.length < 2 ^ 64) :
    ∃ hs b s, putValueSets H (Store.new false).reader hist 0 = .ok (hs, b) ∧
      (Store.new false).writeTreeUpdateBatch b = .ok s ∧ Reached H [.commit hist] ⟨s, hist.length⟩ ∧
      (∀ k, s.nodes.get? k = b.nodeBatch.nodes.get? k) ∧ s.stale = b.staleNodeIndexBatch := by
  have h0 : Reached H [] ⟨Store.new false, 0⟩ := ⟨false, rfl⟩
  obtain ⟨hs, b, s, a1, a2, -, a4, a5⟩ := h0.commit hist (by simpa [setsOf] using hb)
  refine ⟨hs, b, s, a1, a2, by simpa using a5, fun k => ?_, by rw [a4.stale]; rfl⟩
  rw [a4.nodes]
  cases b.nodeBatch.nodes.get? k <;> rfl

theorem setsOf_one (hist : List ValueSet) : setsOf [.commit hist] = hist := by simp [setsOf]

/-- What is stored is stored without pruning too. -/
theorem Reached.stored_one (hr : Reached H ops y) (hb : (setsOf ops).length < 2 ^ 64) {s : Store}
    (h1 : Reached H [.commit (setsOf ops)] ⟨s, (setsOf ops).length⟩) {k : NodeKey} {n : Node}
    (hk : y.store.nodes.get? k = some n) : ∃ n', s.nodes.get? k = some n' := by
  have hb1 : (setsOf [.commit (setsOf ops)]).length < 2 ^ 64 := by rw [setsOf_one]; exact hb
  have hread : ∀ v, v < (setsOf ops).length → Readable [.commit (setsOf ops)] v := fun v hv =>
    ⟨by simp [horizon, horizonStep], by rw [setsOf_one]; exact hv⟩
  obtain ⟨w, q⟩ := k
  by_cases hq : q = []
  · subst hq
    have hw := ((C12_stored_roots_exactly hr hb w).1 (by rw [hk]; simp)).1
    obtain ⟨M, W, hI, -⟩ := h1.layout hb1
    have := (hI.tree w (hread w hw).1 (by rw [setsOf_one]; exact hw)).root
    unfold nb at this
    exact ⟨_, Except.ok.inj this⟩
  · obtain ⟨v, h2, h3, h4, h5⟩ := (C59_stored_nodes_exactly hr hb hq n).1 hk
    refine ⟨n, (C59_stored_nodes_exactly h1 hb1 hq n).2 ⟨v, hread v h2.2, ?_, ?_, ?_⟩⟩
    · simpa only [mapAt, setsOf_one] using h3
    · simpa only [setsOf_one] using h4
    · simpa only [mapAt, setsOf_one] using h5

/-- C63: of the nodes of one version, at most 66 per write of its set and one more are ever stored. -/
theorem C63_nodes_of_version (hr : Reached H ops y) (hb : (setsOf ops).length < 2 ^ 64) {w : Version} {ws : ValueSet}
    (hw : (setsOf ops)[w]? = some ws) :
    y.store.nodes.countP (fun e => e.1.version == w) ≤ 66 * ws.length + 1 := by
  obtain ⟨hs, b, s, a1, a2, a3, a4, -⟩ := one_call H (setsOf ops) hb
  have h0 : Reached H [] ⟨Store.new false, 0⟩ := ⟨false, rfl⟩
  have hlt := (List.getElem?_eq_some_iff.1 hw).1
  have hst := (C29_node_stats_exact h0 (setsOf ops) (by simpa [setsOf] using hb) a1 a2).2 w hlt
  have hle := ((C57_writes_bounded _ _ _ a1).each w ws _ hw hst).1
  simp only [Nat.zero_add] at hle
  refine Nat.le_trans ?_ hle
  obtain ⟨-, hi⟩ := hr.inv hb
  rw [List.countP_eq_length_filter, List.countP_eq_length_filter]
  rw [← List.length_map (f := Prod.fst), ← List.length_map (f := Prod.fst) (as := b.nodeBatch.nodes.filter _)]
  refine nodup_sub_length (hi.nodup.sublist (List.filter_sublist.map _)) ?_
  intro k hk
  obtain ⟨⟨k', n⟩, h1, rfl⟩ := List.mem_map.1 hk
  obtain ⟨h1, h2⟩ := List.mem_filter.1 h1
  obtain ⟨n', h3⟩ := hr.stored_one hb a3 (AMap.get?_of_mem hi.nodup h1)
  rw [a4] at h3
  exact List.mem_map.2 ⟨(k', n'), List.mem_filter.2 ⟨AMap.mem_of_get? h3, h2⟩, rfl⟩

theorem sum_upto {α : Type} (f : α → Nat) (l : List α) (hist : List ValueSet) (c d : Nat)
    (h : ∀ w ws, hist[w]? = some ws → l.countP (fun a => f a == w) ≤ c * ws.length + d) :
    ∀ lo, l.countP (fun a => decide (lo ≤ f a) && decide (f a < hist.length)) ≤
      c * writesIn (hist.drop lo) + d * (hist.length - lo) := by
  intro lo
  induction hn : hist.length - lo generalizing lo with
  | zero =>
    rw [List.countP_eq_zero.2]
    · exact Nat.zero_le _
    · intro a _ h
      simp only [Bool.and_eq_true, decide_eq_true_eq] at h
      omega
  | succ n ih =>
    have hlt : lo < hist.length := by omega
    have h1 := ih (lo + 1) (by omega)
    have h2 := h lo _ (List.getElem?_eq_getElem hlt)
    have h3 : l.countP (fun a => decide (lo ≤ f a) && decide (f a < hist.length)) ≤
        l.countP (fun a => f a == lo) + l.countP (fun a => decide (lo + 1 ≤ f a) && decide (f a < hist.length)) := by
      clear h1 h2 h ih
      induction l with
      | nil => simp
      | cons a l ih =>
        simp only [List.countP_cons, Bool.and_eq_true, decide_eq_true_eq, beq_iff_eq]
        split <;> split <;> split <;> omega
    rw [List.drop_eq_getElem_cons hlt]
    have h4 : writesIn (hist[lo] :: hist.drop (lo + 1)) = hist[lo].length + writesIn (hist.drop (lo + 1)) := by
      unfold writesIn; rw [List.map_cons, List.sum_cons]
    rw [h4, Nat.mul_add, Nat.mul_add, Nat.mul_one]
    omega

theorem Reached.version_lt (hr : Reached H ops y) (hb : (setsOf ops).length < 2 ^ 64) {e : NodeKey × Node}
    (he : e ∈ y.store.nodes) : e.1.version < (setsOf ops).length := by
  obtain ⟨-, hi⟩ := hr.inv hb
  have h := AMap.get?_of_mem hi.nodup he
  obtain ⟨M, W, hI, -⟩ := hr.layout hb
  exact hI.lt _ _ h

/-- C63: a store holds at most 66 nodes per write it has ever received and one per version. -/
theorem C63_nodes_total (hr : Reached H ops y) (hb : (setsOf ops).length < 2 ^ 64) :
    y.store.numNodes ≤ 66 * writesIn (setsOf ops) + (setsOf ops).length := by
  have h := sum_upto (fun e : NodeKey × Node => e.1.version) y.store.nodes (setsOf ops) 66 1
    (fun w ws hw => C63_nodes_of_version hr hb hw) 0
  rw [List.countP_eq_length.2] at h
  · simpa [Store.numNodes] using h
  · intro e he
    have := hr.version_lt hb he
    simpa using this

/-- All non-empty paths that lead to one of the keys. -/
def pathsOf (ks : List KeyHash) : List (List Nibble) :=
  ks.flatMap fun k => (List.range 64).map fun i => k.nibbles.take (i + 1)

theorem length_pathsOf (ks : List KeyHash) : (pathsOf ks).length = 64 * ks.length := by
  unfold pathsOf
  induction ks with
  | nil => rfl
  | cons k ks ih => rw [List.flatMap_cons, List.length_append, ih]; simp; omega

theorem nodes_upto (hr : Reached H ops y) (hb : (setsOf ops).length < 2 ^ 64) (ks : List KeyHash)
    (hks : ∀ k, mapAt ops (horizon ops).2 k ≠ none → k ∈ ks) :
    y.store.nodes.countP (fun e => decide (e.1.version ≤ (horizon ops).2) && decide (e.1.path ≠ [])) ≤ 64 * ks.length := by
  obtain ⟨-, hi⟩ := hr.inv hb
  obtain ⟨M, W, hI, hp, -⟩ := hr.layout hb
  have key : ∀ e ∈ y.store.nodes, e.1.version ≤ (horizon ops).2 → e.1.path ≠ [] →
      (horizon ops).2 < (setsOf ops).length ∧ pres (M (horizon ops).2) [] e.1.path ∧ W (horizon ops).2 e.1.path = e.1.version := by
    intro e he hv hq
    obtain ⟨j, h1, h2, h3, h4⟩ := hI.keep e.1 e.2 (AMap.get?_of_mem hi.nodup he) hq
    refine ⟨by omega, ?_⟩
    generalize (horizon ops).2 = h at hv h1 ⊢
    obtain ⟨d, rfl⟩ : ∃ d, j = h + d := ⟨j - h, by omega⟩
    induction d with
    | zero => exact ⟨h3, h4⟩
    | succ d ih =>
      obtain ⟨g1, g2⟩ := hI.older (h + d) _ hq h2 h3 (by rw [show h + d + 1 = h + (d + 1) from rfl, h4]; omega)
      exact ih (by omega) g1 (g2.trans h4) (by omega)
  rw [List.countP_eq_length_filter]
  rw [← List.length_map (f := fun e : NodeKey × Node => e.1.path), ← length_pathsOf ks]
  apply nodup_sub_length
  · rw [List.nodup_iff_pairwise_ne, List.pairwise_map]
    have hnd : (y.store.nodes.map Prod.fst).Nodup := hi.nodup
    rw [List.nodup_iff_pairwise_ne, List.pairwise_map] at hnd
    refine List.Pairwise.imp_of_mem ?_ (hnd.sublist List.filter_sublist)
    intro e e' he he' hne hpath
    simp only [List.mem_filter, Bool.and_eq_true, decide_eq_true_eq] at he he'
    obtain ⟨-, -, g1⟩ := key e he.1 he.2.1 he.2.2
    obtain ⟨-, -, g2⟩ := key e' he'.1 he'.2.1 he'.2.2
    rw [hpath, g2] at g1
    apply hne
    obtain ⟨⟨v, p⟩, n⟩ := e
    obtain ⟨⟨v', p'⟩, n'⟩ := e'
    simp only at g1 hpath ⊢
    rw [g1, hpath]
  · intro q hq
    obtain ⟨e, he, rfl⟩ := List.mem_map.1 hq
    simp only [List.mem_filter, Bool.and_eq_true, decide_eq_true_eq] at he
    obtain ⟨g0, g1, -⟩ := key e he.1 he.2.1 he.2.2
    obtain ⟨⟨k, g2, g3⟩, -⟩ := (hp _ g0 _).1 g1
    refine List.mem_flatMap.2 ⟨k, hks k g2, List.mem_map.2 ⟨e.1.path.length - 1, ?_, ?_⟩⟩
    · have := g3.length_le
      rw [nibbles_length] at this
      rw [List.mem_range]
      have := List.length_pos_iff.2 he.2.2
      omega
    · have := List.length_pos_iff.2 he.2.2
      rw [show e.1.path.length - 1 + 1 = e.1.path.length by omega]
      exact (List.prefix_iff_eq_take.1 g3).symm

theorem split_count (l : List (NodeKey × Node)) (h n : Nat) (hlt : ∀ e ∈ l, e.1.version < n) :
    l.length = l.countP (fun e => decide (e.1.version ≤ h) && decide (e.1.path ≠ [])) +
      l.countP (fun e => decide (e.1.version ≤ h) && decide (e.1.path = [])) +
      l.countP (fun e => decide (h + 1 ≤ e.1.version) && decide (e.1.version < n)) := by
  induction l with
  | nil => rfl
  | cons e l ih =>
    have h1 := hlt e (by simp)
    have h2 := ih (fun e he => hlt e (by simp [he]))
    rw [List.countP_cons, List.countP_cons, List.countP_cons, List.length_cons, h2]
    simp only [Bool.and_eq_true, decide_eq_true_eq]
    by_cases hv : e.1.version ≤ h <;> by_cases hp : e.1.path = []
    · rw [if_neg (fun c => c.2 hp), if_pos ⟨hv, hp⟩, if_neg (by omega)]; omega
    · rw [if_pos ⟨hv, hp⟩, if_neg (fun c => hp c.2), if_neg (by omega)]; omega
    · rw [if_neg (by omega), if_neg (by omega), if_pos (by omega)]; omega
    · rw [if_neg (by omega), if_neg (by omega), if_pos (by omega)]; omega

/-- The roots kept of versions up to the horizon. -/
theorem roots_upto (hr : Reached H ops y) (hb : (setsOf ops).length < 2 ^ 64) (h : Nat) (rs : List Version)
    (hrs : ∀ w, w ≤ h → y.store.nodes.get? ⟨w, []⟩ ≠ none → w ∈ rs) :
    y.store.nodes.countP (fun e => decide (e.1.version ≤ h) && decide (e.1.path = [])) ≤ rs.length := by
  obtain ⟨-, hi⟩ := hr.inv hb
  rw [List.countP_eq_length_filter]
  rw [← List.length_map (f := fun e : NodeKey × Node => e.1.version)]
  apply nodup_sub_length
  · rw [List.nodup_iff_pairwise_ne, List.pairwise_map]
    have hnd : (y.store.nodes.map Prod.fst).Nodup := hi.nodup
    rw [List.nodup_iff_pairwise_ne, List.pairwise_map] at hnd
    refine List.Pairwise.imp_of_mem ?_ (hnd.sublist List.filter_sublist)
    intro e e' he he' hne hv
    simp only [List.mem_filter, Bool.and_eq_true, decide_eq_true_eq] at he he'
    apply hne
    obtain ⟨⟨v, p⟩, n⟩ := e
    obtain ⟨⟨v', p'⟩, n'⟩ := e'
    simp only at he he' hv ⊢
    rw [hv, he.2.2, he'.2.2]
  · intro w hw
    obtain ⟨⟨⟨v, p⟩, n⟩, he, rfl⟩ := List.mem_map.1 hw
    simp only [List.mem_filter, Bool.and_eq_true, decide_eq_true_eq] at he
    obtain ⟨he, h1, rfl⟩ := he
    exact hrs v h1 (by rw [AMap.get?_of_mem hi.nodup he]; simp)

theorem nodes_bound (hr : Reached H ops y) (hb : (setsOf ops).length < 2 ^ 64) (ks : List KeyHash)
    (hks : ∀ k, mapAt ops (horizon ops).2 k ≠ none → k ∈ ks) (rs : List Version)
    (hrs : ∀ w, w ≤ (horizon ops).2 → y.store.nodes.get? ⟨w, []⟩ ≠ none → w ∈ rs) :
    y.store.numNodes ≤ 64 * ks.length + 66 * writesIn ((setsOf ops).drop ((horizon ops).2 + 1)) +
      (rs.length + ((setsOf ops).length - ((horizon ops).2 + 1))) := by
  have h1 := nodes_upto hr hb ks hks
  have h2 := sum_upto (fun e : NodeKey × Node => e.1.version) y.store.nodes (setsOf ops) 66 1
    (fun w ws hw => C63_nodes_of_version hr hb hw) ((horizon ops).2 + 1)
  have h3 := roots_upto hr hb (horizon ops).2 rs hrs
  have h4 := split_count y.store.nodes (horizon ops).2 (setsOf ops).length (fun e he => hr.version_lt hb he)
  unfold Store.numNodes
  omega

/-- C63: pruning bounds the store by what is retained: at most 64 nodes per key of the oldest retained version, 66 per write
since, and one root per version ever committed. -/
theorem C63_nodes_after_pruning (hr : Reached H ops y) (hb : (setsOf ops).length < 2 ^ 64) (ks : List KeyHash)
    (hks : ∀ k, mapAt ops (horizon ops).2 k ≠ none → k ∈ ks) :
    y.store.numNodes ≤ 64 * ks.length + 66 * writesIn ((setsOf ops).drop ((horizon ops).2 + 1)) + (setsOf ops).length := by
  by_cases h0 : (setsOf ops).length = 0
  · have := C63_nodes_total hr hb
    rw [List.length_eq_zero_iff.1 h0] at this ⊢
    simp [writesIn] at this ⊢
    omega
  · have h1 := nodes_bound hr hb ks hks (List.range ((horizon ops).2 + 1))
      (fun w hw _ => List.mem_range.2 (by omega))
    have h2 := horizon_le hr hb
    rw [List.length_range] at h1
    omega

theorem op_of_version {t : Nat} : ∀ {ops : List Op}, t < (setsOf ops).length → ∃ pre op post, ops = pre ++ op :: post ∧
    (setsOf pre).length ≤ t ∧ t < (setsOf (pre ++ [op])).length := by
  intro ops
  induction ops using list_snoc_ind with
  | h0 => intro h; cases h
  | h1 ops op ih =>
    intro h
    by_cases ht : t < (setsOf ops).length
    · obtain ⟨pre, o, post, rfl, h1, h2⟩ := ih ht
      exact ⟨pre, o, post ++ [op], by simp, h1, h2⟩
    · exact ⟨ops, op, [], rfl, by omega, h⟩

theorem op_then_purge {t : Nat} (h0 : 0 < t) : ∀ {ops : List Op}, t ≤ (horizon ops).2 → ∃ pre op post r, ops = pre ++ op :: post ∧
    (setsOf pre).length ≤ t ∧ t < (setsOf (pre ++ [op])).length ∧ Op.purge r ∈ post ∧ t ≤ r := by
  intro ops
  induction ops using list_snoc_ind with
  | h0 => intro h; simp [horizon] at h; omega
  | h1 ops op ih =>
    intro h
    by_cases ht : t ≤ (horizon ops).2
    · obtain ⟨pre, o, post, r, rfl, h1, h2, h3, h4⟩ := ih ht
      exact ⟨pre, o, post ++ [op], r, by simp, h1, h2, List.mem_append_left _ h3, h4⟩
    · cases op with
      | commit sets => rw [horizon_snoc_commit] at h; exact absurd h ht
      | batch sets => rw [horizon_snoc_batch] at h; exact absurd h ht
      | purge r =>
        rw [horizon_snoc_purge] at h
        obtain ⟨pre, o, post, rfl, h1, h2⟩ := op_of_version (t := t) (ops := ops) (by omega)
        exact ⟨pre, o, post ++ [.purge r], r, by simp, h1, h2, by simp, by omega⟩

/-- If every version up to the horizon changes something and none is empty, no root before the horizon is left. -/
theorem tidy_roots (hr : Reached H ops y) (hb : (setsOf ops).length < 2 ^ 64)
    (ht : ∀ t, t ≤ (horizon ops).2 → Spec.Effect (setsOf ops) t ∧ mapAt ops t ≠ Spec.Map.empty) {w : Version}
    (hw : w < (horizon ops).2) : y.store.nodes.get? ⟨w, []⟩ = none := by
  apply Classical.byContradiction
  intro hne
  refine ((C12_stored_roots_exactly hr hb w).1 hne).2 ?_
  obtain ⟨pre, op, post, r, rfl, h1, h2, h3, h4⟩ := op_then_purge (t := w + 1) (by omega) hw
  refine ⟨pre, op, post, w + 1, r, rfl, ?_, h3, h4⟩
  have hs : setsOf (pre ++ op :: post) = setsOf (pre ++ [op]) ++ setsOf post := by
    rw [← setsOf_append]; simp
  have hst : ∀ t, t < (setsOf (pre ++ [op])).length → Spec.stateAfter Spec.Map.empty (setsOf (pre ++ op :: post)) t =
      Spec.stateAfter Spec.Map.empty (setsOf (pre ++ [op])) t := by
    intro t h
    rw [hs]
    unfold Spec.stateAfter
    rw [List.take_append_of_le_length (by omega)]
  have heff : ∀ t, t ≤ w + 1 → Spec.Effect (setsOf (pre ++ [op])) t := by
    intro t h
    obtain ⟨⟨ws, g1, x, g2, g3⟩, -⟩ := ht t (by omega)
    rw [hs, List.getElem?_append_left (by omega)] at g1
    rw [hst t (by omega)] at g3
    exact ⟨ws, g1, x, g2, g3⟩
  unfold Spec.RetiredBy
  rw [← setsOf_append]
  refine ⟨h1, ?_, heff _ (Nat.le_refl _), by omega, ?_, fun u _ _ _ => by omega⟩
  · have := (ht w (by omega)).2
    unfold mapAt at this
    rwa [hst _ (by omega)] at this
  · by_cases h : w + 1 = (setsOf pre).length
    · exact .inl h
    · exact .inr ⟨by omega, heff w (by omega)⟩

/-- C63: when moreover every version up to the oldest retained one changed something and none was empty, the roots of the
versions given up are gone as well. -/
theorem C63_nodes_after_pruning_tidy (hr : Reached H ops y) (hb : (setsOf ops).length < 2 ^ 64) (ks : List KeyHash)
    (hks : ∀ k, mapAt ops (horizon ops).2 k ≠ none → k ∈ ks)
    (ht : ∀ t, t ≤ (horizon ops).2 → Spec.Effect (setsOf ops) t ∧ mapAt ops t ≠ Spec.Map.empty) :
    y.store.numNodes ≤ 64 * ks.length + 66 * writesIn ((setsOf ops).drop ((horizon ops).2 + 1)) +
      ((setsOf ops).length - (horizon ops).2) := by
  have h1 := nodes_bound hr hb ks hks [(horizon ops).2] (fun w hw hne => by
    rcases Nat.lt_or_ge w (horizon ops).2 with h | h
    · exact absurd (tidy_roots hr hb ht h) hne
    · simp; omega)
  obtain ⟨⟨ws, g, -⟩, -⟩ := ht _ (Nat.le_refl _)
  have := (List.getElem?_eq_some_iff.1 g).1
  rw [List.length_singleton] at h1
  omega

/-- C63: the stale index names distinct stored nodes, and as long as a version is committed not all of them. -/
theorem C63_stale_fewer_than_nodes (hr : Reached H ops y) (hb : (setsOf ops).length < 2 ^ 64) (hpos : 0 < (setsOf ops).length) :
    y.store.stale.length < y.store.numNodes := by
  obtain ⟨-, hi⟩ := hr.inv hb
  obtain ⟨M, W, hI, -⟩ := hr.layout hb
  obtain ⟨nk, hnk, hnot⟩ : ∃ nk, (∃ n, y.store.nodes.get? nk = some n) ∧ nk ∉ y.store.stale.map StaleNodeIndex.nodeKey := by
    refine ⟨⟨(setsOf ops).length - 1, []⟩, ?_, ?_⟩
    · have := (hI.tree ((setsOf ops).length - 1) hI.lowle (by omega)).root
      unfold nb at this
      exact ⟨_, Except.ok.inj this⟩
    · intro h
      obtain ⟨x, h1, h2⟩ := List.mem_map.1 h
      obtain ⟨g1, g2, -⟩ := hI.stale x h1
      rw [h2] at g2
      simp only at g2
      omega
  have h : (nk :: y.store.stale.map StaleNodeIndex.nodeKey).length ≤ (y.store.nodes.map Prod.fst).length := by
    refine nodup_sub_length (List.nodup_cons.2 ⟨hnot, hI.staleNodup⟩) ?_
    intro k hk
    rcases List.mem_cons.1 hk with rfl | hk
    · exact mem_keys.2 hnk
    · obtain ⟨x, h1, rfl⟩ := List.mem_map.1 hk
      exact mem_keys.2 (hI.stale x h1).2.2.1
  simp only [List.length_cons, List.length_map] at h
  exact h

/-- The call that committed version `t` is determined. -/
theorem same_op {t : Nat} {pre pre' post post' : List Op} {op op' : Op} (h : pre ++ op :: post = pre' ++ op' :: post')
    (h1 : (setsOf pre).length ≤ t) (h2 : t < (setsOf (pre ++ [op])).length)
    (h1' : (setsOf pre').length ≤ t) (h2' : t < (setsOf (pre' ++ [op'])).length) :
    pre = pre' ∧ op = op' ∧ post = post' := by
  have mono : ∀ {a b : List Op} {o o' : Op} {c d}, a ++ o :: c = b ++ o' :: d → a.length < b.length →
      (setsOf (a ++ [o])).length ≤ (setsOf b).length := by
    intro a b o o' c d h hl
    have : a ++ [o] <+: b := by
      rw [List.prefix_iff_eq_take]
      have := congrArg (List.take (a.length + 1)) h
      rw [List.take_append_of_le_length (l₁ := b) (by omega), List.take_append] at this
      simpa [List.take_of_length_le] using this
    obtain ⟨e, rfl⟩ := this
    rw [length_setsOf_append (a ++ [o]) e]; omega
  have hl : pre.length = pre'.length := by
    rcases Nat.lt_trichotomy pre.length pre'.length with hl | hl | hl
    · have := mono h hl; omega
    · exact hl
    · have := mono h.symm hl; omega
  obtain ⟨rfl, h'⟩ := List.append_inj h hl
  cases h'
  exact ⟨rfl, rfl, rfl⟩

theorem retired_range {pre : List Op} {op : Op} {w t : Nat} (h : Spec.RetiredBy pre op w t) :
    (setsOf pre).length ≤ t ∧ t < (setsOf (pre ++ [op])).length := by
  obtain ⟨h1, -, ⟨ws, g, -⟩, -⟩ := h
  rw [← setsOf_append] at g
  exact ⟨h1, (List.getElem?_eq_some_iff.1 g).1⟩

theorem workingRoot_unique {hist : List (List Spec.Write)} {n t w w' : Nat} (h : Spec.WorkingRoot hist n t w)
    (h' : Spec.WorkingRoot hist n t w') : w = w' := by
  obtain ⟨a1, a2, a3⟩ := h
  obtain ⟨b1, b2, b3⟩ := h'
  rcases Nat.lt_trichotomy w w' with hl | hl | hl
  · rcases b2 with b2 | b2
    · rcases a2 with a2 | a2 <;> omega
    · exact absurd b2.2 (a3 w' b2.1 hl b1)
  · exact hl
  · rcases a2 with a2 | a2
    · rcases b2 with b2 | b2 <;> omega
    · exact absurd a2.2 (b3 w a2.1 hl a1)

theorem rootWaits_unique {w w' t : Nat} (h : Spec.RootWaits ops w t) (h' : Spec.RootWaits ops w' t) : w = w' := by
  obtain ⟨pre, op, post, e, g, -⟩ := h
  obtain ⟨pre', op', post', e', g', -⟩ := h'
  obtain ⟨a1, a2⟩ := retired_range g
  obtain ⟨b1, b2⟩ := retired_range g'
  obtain ⟨rfl, rfl, rfl⟩ := same_op (e.symm.trans e') a1 a2 b1 b2
  exact workingRoot_unique g.2.2.2 g'.2.2.2

theorem rootWaits_after {w t : Nat} (h : Spec.RootWaits ops w t) : (horizon ops).2 < t := by
  obtain ⟨pre, op, post, e, g, g3⟩ := h
  apply Classical.byContradiction
  intro hc
  have ht : 0 < t := by
    have := g.2.2.2.1; omega
  obtain ⟨a1, a2⟩ := retired_range g
  obtain ⟨pre', op', post', r, e', b1, b2, b3, b4⟩ := op_then_purge ht (by omega : t ≤ (horizon ops).2)
  obtain ⟨rfl, rfl, rfl⟩ := same_op (e.symm.trans e') a1 a2 b1 b2
  exact g3 r b3 b4

/-- A version that retires a root retires one too when all is committed in one call. -/
theorem rootWaits_one {w t : Nat} (h : Spec.RootWaits ops w t) :
    ∃ w0, Spec.RootWaits [.commit (setsOf ops)] w0 t := by
  obtain ⟨pre, op, post, rfl, ⟨h1, h2, h3, -⟩, -⟩ := h
  have hs : setsOf (pre ++ op :: post) = (setsOf pre ++ setsOf [op]) ++ setsOf post := by
    rw [← setsOf_append, ← setsOf_append]; simp
  rw [hs]
  generalize setsOf pre ++ setsOf [op] = a at h2 h3
  generalize setsOf post = c
  obtain ⟨ws, g1, x, g2, g3⟩ := h3
  have hlt := (List.getElem?_eq_some_iff.1 g1).1
  have hst : ∀ u, u ≤ a.length → Spec.stateAfter Spec.Map.empty (a ++ c) u = Spec.stateAfter Spec.Map.empty a u := by
    intro u hu
    unfold Spec.stateAfter
    rw [List.take_append_of_le_length hu]
  have hex : ∃ w0, w0 < t ∧ Spec.Effect (a ++ c) w0 ∧ ∀ u, w0 < u → u < t → ¬ Spec.Effect (a ++ c) u := by
    have : ∃ w0, w0 < t ∧ Spec.Effect (a ++ c) w0 := by
      apply Classical.byContradiction
      intro hno
      apply h2
      rw [← hst t (by omega), stateAfter_no_effect (Nat.zero_le t) (fun u _ hu he => hno ⟨u, hu, he⟩)]
      rfl
    clear g1 g2 g3 hlt h2 h1
    induction t with
    | zero => obtain ⟨w0, h, -⟩ := this; omega
    | succ t ih =>
      by_cases he : Spec.Effect (a ++ c) t
      · exact ⟨t, by omega, he, fun u _ _ => by omega⟩
      · obtain ⟨w0, k1, k2⟩ := this
        have hne : w0 ≠ t := by rintro rfl; exact he k2
        obtain ⟨w1, m1, m2, m3⟩ := ih ⟨w0, by omega, k2⟩
        refine ⟨w1, by omega, m2, fun u n1 n2 => ?_⟩
        by_cases hu : u = t
        · rw [hu]; exact he
        · exact m3 u n1 (by omega)
  obtain ⟨w0, k1, k2, k3⟩ := hex
  refine ⟨w0, [], .commit (a ++ c), [], rfl, ?_, fun r hr => by cases hr⟩
  have e : setsOf [] ++ setsOf [Op.commit (a ++ c)] = a ++ c := by rw [setsOf_one]; rfl
  unfold Spec.RetiredBy
  rw [e]
  refine ⟨Nat.zero_le _, by rw [hst t (by omega)]; exact h2, ⟨ws, ?_, x, g2, ?_⟩, k1, .inr ⟨Nat.zero_le _, k2⟩, fun u _ => k3 u⟩
  · rw [List.getElem?_append_left hlt]; exact g1
  · rw [hst t (by omega)]; exact g3

/-- C63: at most 66 stale entries per write are made for one version. -/
theorem C63_stale_of_version (hr : Reached H ops y) (hb : (setsOf ops).length < 2 ^ 64) {t : Version} {ws : ValueSet}
    (ht : (setsOf ops)[t]? = some ws) :
    y.store.stale.countP (fun x => x.staleSince == t) ≤ 66 * ws.length := by
  obtain ⟨hs, b, s, a1, a2, a3, -, a5⟩ := one_call H (setsOf ops) hb
  have hb1 : (setsOf [.commit (setsOf ops)]).length < 2 ^ 64 := by rw [setsOf_one]; exact hb
  have h0 : Reached H [] ⟨Store.new false, 0⟩ := ⟨false, rfl⟩
  have hlt := (List.getElem?_eq_some_iff.1 ht).1
  have hst := (C29_node_stats_exact h0 (setsOf ops) (by simpa [setsOf] using hb) a1 a2).2 t hlt
  have hle := ((C57_writes_bounded _ _ _ a1).each t ws _ ht hst).2
  simp only [Nat.zero_add] at hle
  refine Nat.le_trans ?_ hle
  rw [← a5, List.countP_eq_length_filter, List.countP_eq_length_filter]
  obtain ⟨M, W, hI, -⟩ := hr.layout hb
  have hnd : y.store.stale.Nodup := List.Pairwise.of_map _ (fun a b h h' => h (by rw [h'])) hI.staleNodup
  have hsub : ∀ x ∈ y.store.stale, x.nodeKey.path ≠ [] → x ∈ s.stale := by
    rintro ⟨u, ⟨w, q⟩⟩ hx hq
    obtain ⟨g1, g2, g3, g4, g5⟩ := (C59_stale_entries_exactly hr hb hq).1 hx
    refine (C59_stale_entries_exactly a3 hb1 hq).2 ⟨?_, ?_, ?_, ?_, ?_⟩
    · simp [horizon, horizonStep]; omega
    · rw [setsOf_one]; exact g2
    · simpa only [mapAt, setsOf_one] using g3
    · simpa only [setsOf_one] using g4
    · simpa only [mapAt, setsOf_one] using g5
  by_cases hroot : ∃ w, (⟨t, ⟨w, []⟩⟩ : StaleNodeIndex) ∈ y.store.stale
  · obtain ⟨w, hw⟩ := hroot
    have hw' := (C12_root_entries_exactly hr hb t w).1 hw
    obtain ⟨w0, h1⟩ := rootWaits_one hw'
    have h2 := (C12_root_entries_exactly a3 hb1 t w0).2 h1
    let f : StaleNodeIndex → StaleNodeIndex := fun x => if x.nodeKey.path = [] then ⟨t, ⟨w0, []⟩⟩ else x
    rw [← List.length_map (f := f)]
    apply nodup_sub_length
    · rw [List.nodup_iff_pairwise_ne, List.pairwise_map]
      rw [List.nodup_iff_pairwise_ne] at hnd
      refine List.Pairwise.imp_of_mem ?_ (hnd.sublist List.filter_sublist)
      rintro ⟨u, ⟨v, q⟩⟩ ⟨u', ⟨v', q'⟩⟩ hx hx' hne heq
      simp only [List.mem_filter, beq_iff_eq] at hx hx'
      obtain ⟨hx, rfl⟩ := hx
      obtain ⟨hx', rfl⟩ := hx'
      apply hne
      simp only [f] at heq
      split at heq <;> split at heq
      · rename_i e1 e2
        subst e1; subst e2
        rw [rootWaits_unique ((C12_root_entries_exactly hr hb _ _).1 hx) ((C12_root_entries_exactly hr hb _ _).1 hx')]
      · rename_i e1 e2; cases heq; exact absurd rfl e2
      · rename_i e1 e2; cases heq; exact absurd rfl e1
      · exact heq
    · intro x' hx'
      obtain ⟨x, hx, rfl⟩ := List.mem_map.1 hx'
      simp only [List.mem_filter, beq_iff_eq] at hx ⊢
      simp only [f]
      split
      · exact ⟨h2, rfl⟩
      · rename_i e; exact ⟨hsub x hx.1 e, hx.2⟩
  · refine nodup_sub_length (hnd.sublist List.filter_sublist) ?_
    rintro ⟨u, ⟨v, q⟩⟩ hx
    simp only [List.mem_filter, beq_iff_eq] at hx ⊢
    obtain ⟨hx, rfl⟩ := hx
    refine ⟨hsub _ hx ?_, rfl⟩
    rintro h
    simp only at h
    subst h
    exact hroot ⟨v, hx⟩

/-- C63: at most 66 stale entries per write since the oldest retained version wait to be pruned. -/
theorem C63_stale_waiting (hr : Reached H ops y) (hb : (setsOf ops).length < 2 ^ 64) :
    y.store.stale.length ≤ 66 * writesIn ((setsOf ops).drop ((horizon ops).2 + 1)) := by
  have h := sum_upto StaleNodeIndex.staleSince y.store.stale (setsOf ops) 66 0
    (fun w ws hw => C63_stale_of_version hr hb hw) ((horizon ops).2 + 1)
  rw [List.countP_eq_length.2] at h
  · simpa using h
  · rintro ⟨t, ⟨w, q⟩⟩ hx
    obtain ⟨M, W, hI, -⟩ := hr.layout hb
    have h1 := (hI.stale _ hx).1
    simp only [Bool.and_eq_true, decide_eq_true_eq]
    refine ⟨?_, h1⟩
    by_cases hq : q = []
    · subst hq
      exact rootWaits_after ((C12_root_entries_exactly hr hb t w).1 hx)
    · exact ((C59_stale_entries_exactly hr hb hq).1 hx).1

/-- Every write with its version. -/
def writeList (hist : List ValueSet) : List (KeyHash × Version) :=
  hist.zipIdx.flatMap fun x => x.1.map fun w => (w.1, x.2)

theorem length_writeList (hist : List ValueSet) : (writeList hist).length = writesIn hist := by
  unfold writeList writesIn
  rw [List.length_flatMap]
  congr 1
  rw [show (fun x : ValueSet × Nat => (x.1.map fun w => (w.1, x.2)).length) = List.length ∘ Prod.fst from by
    funext x; simp, ← List.map_map, List.zipIdx_map_fst]

/-- C63: at most one value entry per write is kept; pruning removes none of them. -/
theorem C63_values (hr : Reached H ops y) (hb : (setsOf ops).length < 2 ^ 64) (es : List (KeyHash × Version × Option Value))
    (hn : es.Nodup) (hes : ∀ e ∈ es, e.2 ∈ (y.store.values.get? e.1).getD []) :
    es.length ≤ writesIn (setsOf ops) := by
  rw [← length_writeList, ← List.length_map (f := fun e : KeyHash × Version × Option Value => (e.1, e.2.1))]
  apply nodup_sub_length
  · rw [List.nodup_iff_pairwise_ne, List.pairwise_map]
    rw [List.nodup_iff_pairwise_ne] at hn
    refine List.Pairwise.imp_of_mem ?_ hn
    rintro ⟨k, v, x⟩ ⟨k', v', x'⟩ h h' hne heq
    simp only [Prod.mk.injEq] at heq
    obtain ⟨rfl, rfl⟩ := heq
    apply hne
    have h1 := hes _ h
    have h2 := hes _ h'
    simp only at h1 h2
    obtain ⟨-, hs⟩ := C59_value_history_exactly hr hb k
    have : ∀ {l : List (Version × Option Value)}, l.Pairwise (fun a b => a.1 < b.1) → (v, x) ∈ l → (v, x') ∈ l → x = x' := by
      intro l hl
      induction hl with
      | nil => intro h; cases h
      | cons ha _ ih =>
        intro g1 g2
        rcases List.mem_cons.1 g1 with g1 | g1 <;> rcases List.mem_cons.1 g2 with g2 | g2
        · rw [← g1] at g2; cases g2; rfl
        · rw [← g1] at ha; exact absurd (ha _ g2) (Nat.lt_irrefl _)
        · rw [← g2] at ha; exact absurd (ha _ g1) (Nat.lt_irrefl _)
        · exact ih g1 g2
    rw [this hs h1 h2]
  · intro p hp
    obtain ⟨⟨k, v, x⟩, he, rfl⟩ := List.mem_map.1 hp
    obtain ⟨before, after, g1, -⟩ := ((C59_value_history_exactly hr hb k).1 v x).1 (hes _ he)
    refine List.mem_flatMap.2 ⟨(before ++ (k, x) :: after, v), ?_, ?_⟩
    · exact List.mem_zipIdx_iff_getElem?.2 g1
    · exact List.mem_map.2 ⟨(k, x), by simp, rfl⟩

/-- C63, why the roots count: pruning never removes the roots of empty versions. After any number `n` of empty versions,
pruned to the latest, the store holds `n` nodes although no key was ever stored. -/
theorem C63_empty_versions_accumulate (n : Nat) (hn : n < 2 ^ 64) (r : Version) :
    ∃ y, Reached H [.commit (List.replicate n []), .purge r] y ∧ n ≤ y.store.numNodes := by
  have hs : setsOf [.commit (List.replicate n []), .purge r] = List.replicate n [] := by simp [setsOf]
  have hb : (setsOf [.commit (List.replicate n []), .purge r]).length < 2 ^ 64 := by rw [hs]; simpa using hn
  obtain ⟨y, hr⟩ := C13_history_never_fails H [.commit (List.replicate n []), .purge r]
    (fun op h => by
      simp only [List.mem_cons, List.not_mem_nil, or_false] at h
      rcases h with rfl | rfl <;> trivial) hb
  refine ⟨y, hr, ?_⟩
  obtain ⟨ks, h1, h2, h3⟩ := C29_num_nodes hr hb
  rw [h3]
  have hm : ∀ v, v < n → y.store.nodes.get? ⟨v, []⟩ ≠ none := by
    intro v hv
    refine C12_empty_root_never_deleted hr hb (by rw [hs]; simpa using hv) ?_
    unfold mapAt
    rw [hs, stateAfter_no_effect (Nat.zero_le _)]
    · rfl
    · rintro u - - ⟨ws, g1, x, g2, -⟩
      obtain rfl := List.eq_of_mem_replicate (List.mem_of_getElem? g1)
      cases g2
  have hsub := nodup_sub_length (l := (List.range n).map fun v => (⟨v, []⟩ : NodeKey)) (l' := ks) (by
    rw [List.nodup_iff_pairwise_ne, List.pairwise_map]
    refine List.Pairwise.imp ?_ (List.nodup_iff_pairwise_ne.1 List.nodup_range)
    intro a b hne heq
    cases heq; exact hne rfl) (by
    intro k hk
    obtain ⟨v, hv, rfl⟩ := List.mem_map.1 hk
    rw [h2]
    cases hg : y.store.nodes.get? ⟨v, []⟩ with
    | none => exact absurd hg (hm v (List.mem_range.1 hv))
    | some n => exact ⟨n, congrArg Except.ok hg⟩)
  simpa using hsub

def Sample.pruned2 : List Op :=
  [.commit [[(Sample.key 0x10, some [1])]], .batch [[(Sample.key 0x20, [2])]], .commit [[(Sample.key 0x10, some [3])]], .purge 2]

/-- C63 on a history with pruning: two keys are left, version 2 is the oldest retained one and the latest, each version
changed something. -/
example : ∃ y, Reached H Sample.pruned2 y ∧ y.store.numNodes ≤ 64 * 2 + 1 ∧ y.store.stale.length = 0 := by
  have hok : ∀ op ∈ Sample.pruned2, op.Allowed := by
    intro op h
    unfold Sample.pruned2 at h
    simp only [List.mem_cons, List.not_mem_nil, or_false] at h
    rcases h with rfl | rfl | rfl | rfl
    · trivial
    · intro s hs
      simp only [List.mem_cons, List.not_mem_nil, or_false] at hs
      subst hs; simp
    · trivial
    · trivial
  obtain ⟨y, hr⟩ := C13_history_never_fails H _ hok (by decide)
  refine ⟨y, hr, ?_, ?_⟩
  · refine C63_nodes_after_pruning_tidy hr (by decide) [Sample.key 0x10, Sample.key 0x20] ?_ ?_
    · intro k hk
      apply Classical.byContradiction
      intro hno
      apply hk
      simp only [List.mem_cons, List.not_mem_nil, or_false, not_or] at hno
      simp [Sample.pruned2, mapAt, setsOf, horizon, horizonStep, Spec.stateAfter, Spec.Map.writes, Spec.Map.write, hno, Spec.Map.empty, someSet]
    · intro t ht
      have hne : ∀ {v : Version} {x : Value}, mapAt Sample.pruned2 v (Sample.key 0x10) = some x → mapAt Sample.pruned2 v ≠ Spec.Map.empty := by
        intro v x h hc
        rw [hc] at h; cases h
      have ht' : t ≤ 2 := ht
      match t, ht' with
      | 0, _ => exact ⟨⟨_, rfl, _, List.mem_singleton.2 rfl, .inl (by simp)⟩, hne (x := [1]) (by decide)⟩
      | 1, _ => exact ⟨⟨_, rfl, _, List.mem_singleton.2 rfl, .inl (by simp)⟩, hne (x := [1]) (by decide)⟩
      | 2, _ => exact ⟨⟨_, rfl, _, List.mem_singleton.2 rfl, .inl (by simp)⟩, hne (x := [3]) (by decide)⟩
  · have := C63_stale_waiting hr (by decide)
    have e : writesIn ((setsOf Sample.pruned2).drop (2 + 1)) = 0 := by decide
    have e2 : (horizon Sample.pruned2).2 = 2 := by decide
    rw [e2, e] at this
    omega

end Jmt
