import Verif.Spec.UpdateBytes
import Verif.Proofs.SortedBytes
import Verif.Props.Borsh
import Verif.Props.Small
import Verif.Props.Batch
import Verif.Props.Faults
/-!
# C49: a whole `TreeUpdateBatch` as bytes
-/
namespace Jmt
open Borsh

variable {H : Hasher} {ops : List Op} {y : Sys}

/-- The maps of an update have unique keys. -/
theorem update_nodup (hr : Reached H ops y) (sets : List ValueSet) (hb : (setsOf ops).length + sets.length < 2 ^ 64) {hs b}
    (hp : putValueSets H y.store.reader sets y.next = .ok (hs, b)) :
    b.nodeBatch.nodes.NodupKeys ∧ b.nodeBatch.values.NodupKeys := by
  obtain ⟨hn, hi⟩ := hr.inv (by omega)
  have hle : (setsOf ops).length + sets.length ≤ preGenesisVersion := by unfold preGenesisVersion u64Size; omega
  obtain ⟨ver, hready, -⟩ := hi.commitRun (H := H) sets
  obtain ⟨tc, pss, tc', infos, b0, b1, -, b3, b4, -⟩ := putSets_ready (R := y.store.reader) hready false sets hle
  have hbe : b = tc'.finish.2 := by
    unfold putValueSets at hp
    rw [hn, b0, ok_bind, b1] at hp
    cases hp; rfl
  rw [hbe]
  show tc'.frozen.nodeBatch.nodes.NodupKeys ∧ tc'.frozen.nodeBatch.values.NodupKeys
  rw [b4]
  exact ⟨(pushAll_nodes b3.nodup).2 List.nodup_nil, (pushAll_values b3).2 List.nodup_nil⟩

/-- The same for `batch_put_value_sets`. -/
theorem batch_nodup (hr : Reached H ops y) (sets : List (List (KeyHash × Value))) (hb : (setsOf ops).length + sets.length < 2 ^ 64) {hs b}
    (hp : batchPutValueSets H y.store.reader sets none y.next = .ok (hs, b)) :
    b.nodeBatch.nodes.NodupKeys ∧ b.nodeBatch.values.NodupKeys := by
  obtain ⟨hn, hi⟩ := hr.inv (by omega)
  have hle : (setsOf ops).length + sets.length ≤ preGenesisVersion := by unfold preGenesisVersion u64Size; omega
  obtain ⟨ver, hready, -⟩ := hi.commitRun (H := H) (sets.map someSet)
  obtain ⟨tc, tc', infos, b0, b1, -, b3, b4⟩ := batchSets_ready (R := y.store.reader) hready sets none
    (batch_nonempty hp) (cachesFor_none _ _) hle
  have hbe : (hs, b) = tc'.finish := by
    unfold batchPutValueSets at hp
    rw [hn, b0, ok_bind] at hp
    have hp' : (batchSets H (setsOf ops).length sets (cachesOf sets none) tc >>= fun tc => Except.ok tc.finish) =
      .ok (hs, b) := hp
    rw [b1] at hp'
    cases hp'; rfl
  have hbe : b = tc'.finish.2 := by rw [← hbe]
  rw [hbe]
  show tc'.frozen.nodeBatch.nodes.NodupKeys ∧ tc'.frozen.nodeBatch.values.NodupKeys
  rw [b4]
  exact ⟨(pushAll_nodes b3.nodup).2 List.nodup_nil, (pushAll_values b3).2 List.nodup_nil⟩

theorem packed_injective {k k' : NodeKey} (h : k.packed = k'.packed) : k = k' := by
  obtain ⟨v, p⟩ := k
  obtain ⟨v', p'⟩ := k'
  unfold NodeKey.packed at h
  simp only [PackedKey.mk.injEq] at h
  rw [h.1, ofList_inj h.2]

theorem nodup_packed {α : Type} {l : List α} {f : α → NodeKey} (h : (l.map f).Nodup) : (l.map (fun a => (f a).packed)).Nodup := by
  rw [List.nodup_iff_pairwise_ne, List.pairwise_map] at *
  exact h.imp (fun hne hc => hne (packed_injective hc))

theorem sorted_enc {α κ : Type} {lt : κ → κ → Bool} {key : α → κ} {c : Codec α} (hs : Strict lt) {l : List α}
    (hp : l.Pairwise (fun a b => lt (key a) (key b) = true)) (hl : l.length < 2 ^ 32) (h : ∀ a ∈ l, ∃ bs, c.enc a = some bs) :
    ∃ bs, (sorted (fun a b => lt (key a) (key b)) c).enc l = some bs := by
  obtain ⟨bs, hbs⟩ := vec_enc hl h
  exact ⟨bs, (if_pos ((ascending_iff hs l).2 hp)).trans hbs⟩

/-- What is needed to write a whole update. -/
theorem packed_exists {sets : List ValueSet} {b : TreeUpdateBatch} (he : Spec.Encodable sets b) (hn : b.nodeBatch.nodes.NodupKeys)
    (hv : b.nodeBatch.values.NodupKeys) (hst : (b.staleNodeIndexBatch.map StaleNodeIndex.nodeKey).Nodup)
    (hnodes : ∀ e ∈ b.nodeBatch.nodes, ∃ kb nb, nodeKey.enc e.1.packed = some kb ∧ node.enc e.2 = some nb)
    (hvals : ∀ e ∈ b.nodeBatch.values, e.1.1 < 2 ^ 64 ∧ ∀ x : Value, e.2 = some x → x.length < 2 ^ 32)
    (hstale : ∀ x ∈ b.staleNodeIndexBatch, x.staleSince < 2 ^ 64 ∧ ∃ kb, nodeKey.enc x.nodeKey.packed = some kb)
    (hsl : b.nodeStats.length < 2 ^ 32)
    (hstats : ∀ s ∈ b.nodeStats, s.newNodes < 2 ^ 64 ∧ s.newLeaves < 2 ^ 64 ∧ s.staleNodes < 2 ^ 64 ∧ s.staleLeaves < 2 ^ 64) :
    ∃ pb bs, Spec.PackedAs b pb ∧ treeUpdateBatch.enc pb = some bs := by
  obtain ⟨l1, p1, q1⟩ := sort_exists (key := Prod.fst) keyLt_strict (b.nodeBatch.nodes.map (fun e => (e.1.packed, e.2))) (by
    rw [List.map_map]
    exact nodup_packed (f := Prod.fst) hn)
  obtain ⟨l2, p2, q2⟩ := sort_exists (key := Prod.fst) valueLt_strict b.nodeBatch.values hv
  obtain ⟨l3, p3, q3⟩ := sort_exists (key := id) staleLt_strict (b.staleNodeIndexBatch.map (fun x => (x.staleSince, x.nodeKey.packed))) (by
    rw [List.map_map]
    have h1 := nodup_packed (f := StaleNodeIndex.nodeKey) hst
    rw [List.nodup_iff_pairwise_ne, List.pairwise_map] at h1 ⊢
    exact h1.imp (fun hne hc => hne (congrArg Prod.snd hc)))
  refine ⟨((l1, l2), l3, b.nodeStats), ?_⟩
  have e1 : ∃ bs, (sorted (fun a b => keyLt a.1 b.1) (pair nodeKey node)).enc l1 = some bs := by
    refine sorted_enc (key := Prod.fst) keyLt_strict q1 (by rw [← p1.length_eq, List.length_map]; exact he.nodes) (fun a ha => ?_)
    obtain ⟨e, h1, rfl⟩ := List.mem_map.1 (p1.mem_iff.2 ha)
    obtain ⟨kb, nb, h2, h3⟩ := hnodes e h1
    exact pair_enc ⟨_, h2⟩ ⟨_, h3⟩
  have e2 : ∃ bs, (sorted (fun a b => valueLt a.1 b.1) (pair (pair version Borsh.hash) (option (vec u8)))).enc l2 = some bs := by
    refine sorted_enc (key := Prod.fst) valueLt_strict q2 (by rw [← p2.length_eq]; exact he.values) (fun a ha => ?_)
    obtain ⟨h1, h2⟩ := hvals a (p2.mem_iff.2 ha)
    obtain ⟨⟨v, k⟩, x⟩ := a
    exact pair_enc (pair_enc (uint8_enc h1) ⟨_, rfl⟩) (option_enc (fun x hx => vec_enc (h2 x hx) (fun c _ => ⟨_, rfl⟩)))
  have e3 : ∃ bs, (sorted staleLt staleNodeIndex).enc l3 = some bs := by
    refine sorted_enc (key := id) staleLt_strict q3 (by rw [← p3.length_eq, List.length_map]; exact he.stale) (fun a ha => ?_)
    obtain ⟨x, h1, rfl⟩ := List.mem_map.1 (p3.mem_iff.2 ha)
    obtain ⟨h2, h3⟩ := hstale x h1
    exact pair_enc (uint8_enc h2) h3
  have e4 : ∃ bs, (vec nodeStats).enc b.nodeStats = some bs := by
    refine vec_enc hsl (fun s hs => ?_)
    obtain ⟨h1, h2, h3, h4⟩ := hstats s hs
    exact pair_enc (uint8_enc h1) (pair_enc (uint8_enc h2) (pair_enc (uint8_enc h3) (uint8_enc h4)))
  obtain ⟨bs, hbs⟩ := pair_enc (pair_enc e1 e2) (pair_enc e3 e4)
  exact ⟨bs, ⟨p1, p2, p3, rfl⟩, hbs⟩

theorem sorted_inv {α : Type} {lt : α → α → Bool} {c : Codec α} {l : List α} {bs} (h : (sorted lt c).enc l = some bs) :
    ascending lt l = true := by
  have h : (if ascending lt l = true then (vec c).enc l else none) = some bs := h
  split at h
  · next hc => exact hc
  · cases h

theorem pair_enc_inv {α β : Type} {c : Codec α} {d : Codec β} {p : α × β} {bs} (h : (pair c d).enc p = some bs) :
    ∃ x y, c.enc p.1 = some x ∧ d.enc p.2 = some y := by
  obtain ⟨x, hx, h⟩ := Option.bind_eq_some_iff.1 (show (c.enc p.1).bind (fun a => (d.enc p.2).bind (fun b => some (a ++ b))) = some bs from h)
  obtain ⟨y, hy, -⟩ := Option.bind_eq_some_iff.1 h
  exact ⟨x, y, hx, hy⟩

/-- The content determines what is written. -/
theorem packed_unique {b : TreeUpdateBatch} {pb pb'} {bs bs' : List UInt8} (h : Spec.PackedAs b pb) (h' : Spec.PackedAs b pb')
    (e : treeUpdateBatch.enc pb = some bs) (e' : treeUpdateBatch.enc pb' = some bs') : pb = pb' := by
  obtain ⟨⟨n1, v1⟩, s1, t1⟩ := pb
  obtain ⟨⟨n2, v2⟩, s2, t2⟩ := pb'
  obtain ⟨_, _, a1, a2⟩ := pair_enc_inv e
  obtain ⟨_, _, a3, a4⟩ := pair_enc_inv a1
  obtain ⟨_, _, a5, -⟩ := pair_enc_inv a2
  obtain ⟨_, _, b1, b2⟩ := pair_enc_inv e'
  obtain ⟨_, _, b3, b4⟩ := pair_enc_inv b1
  obtain ⟨_, _, b5, -⟩ := pair_enc_inv b2
  have c1 : n1 = n2 := sort_unique (key := Prod.fst) keyLt_strict n1 n2 (h.nodes.symm.trans h'.nodes)
    ((ascending_iff keyLt_strict n1).1 (sorted_inv a3)) ((ascending_iff keyLt_strict n2).1 (sorted_inv b3))
  have c2 : v1 = v2 := sort_unique (key := Prod.fst) valueLt_strict v1 v2 (h.values.symm.trans h'.values)
    ((ascending_iff valueLt_strict v1).1 (sorted_inv a4)) ((ascending_iff valueLt_strict v2).1 (sorted_inv b4))
  have c3 : s1 = s2 := sort_unique (key := id) staleLt_strict s1 s2 (h.stale.symm.trans h'.stale)
    ((ascending_iff (key := id) staleLt_strict s1).1 (sorted_inv a5)) ((ascending_iff (key := id) staleLt_strict s2).1 (sorted_inv b5))
  have c4 : t1 = t2 := h.stats.symm.trans h'.stats
  rw [c1, c2, c3, c4]

/-- C49, a whole update: what `put_value_sets` returns can be written, is read back as it was, and its content determines the bytes. -/
theorem C49_tree_update_roundtrip (hr : Reached H ops y) (sets : List ValueSet)
    (hb : (setsOf ops).length + sets.length < 2 ^ 64) (hw : numWrites (ops ++ [.commit sets]) < 2 ^ 64) {hs b}
    (hp : putValueSets H y.store.reader sets y.next = .ok (hs, b)) (he : Spec.Encodable sets b) :
    ∃ pb bs, Spec.PackedAs b pb ∧ treeUpdateBatch.enc pb = some bs ∧ treeUpdateBatch.fromSlice bs = some pb ∧
      ∀ pb' bs', Spec.PackedAs b pb' → treeUpdateBatch.enc pb' = some bs' → pb' = pb ∧ bs' = bs := by
  obtain ⟨hn, hi⟩ := hr.inv (by omega)
  obtain ⟨hs', b', s', a1, a2, -, a4, a5⟩ := hr.commit sets hb
  rw [hp] at a1
  cases a1
  have hu := C48_update_contents hr sets hb hp a2
  obtain ⟨d1, d2⟩ := update_nodup hr sets hb hp
  obtain ⟨hl, hst⟩ := C29_node_stats_exact hr sets hb hp a2
  have henc := C49_update_encodes hr sets hb hw hp
  have hbound : ∀ {α : Type} (p : α → Bool) (l : List α), l.length < 2 ^ 32 → l.countP p < 2 ^ 64 := fun p l h => by
    have := List.countP_le_length (p := p) (l := l)
    omega
  obtain ⟨pb, bs, h1, h2⟩ := packed_exists he d1 d2
    (by
      have := hu.staleOnce
      rw [List.map_append, List.nodup_append] at this
      exact this.2.1)
    (fun e hm => henc e.1 e.2 (AMap.get?_of_mem d1 hm))
    (fun e hm => by
      obtain ⟨⟨v, k⟩, x⟩ := e
      obtain ⟨j, ws, pre, post, e1, e2, e3, -⟩ := (hu.values v k x).1 (AMap.get?_of_mem d2 hm)
      have hj := (List.getElem?_eq_some_iff.1 e2).1
      refine ⟨by show v < _; omega, fun x' hx => he.bytes ws (List.mem_of_getElem? e2) (k, x) (by rw [e3]; simp) x' hx⟩)
    (fun x hx => by
      obtain ⟨e1, e2, e3, e4⟩ := hu.stale x hx
      refine ⟨by omega, ?_⟩
      rcases e4 with ⟨nd, e4⟩ | ⟨nd, e4⟩
      · refine nodeKey_enc (by omega) ?_
        obtain ⟨⟨M, W, hI, -⟩, -, -⟩ := hi
        by_cases hpath : x.nodeKey.path = []
        · rw [hpath]; simp
        · obtain ⟨j, -, -, hj, -⟩ := hI.keep _ _ e4 hpath
          obtain ⟨e, he⟩ := List.exists_mem_of_ne_nil _ hj.2.1
          exact (prefix_nib_iff.1 (mem_under.1 he).2).1
      · obtain ⟨kb, -, h, -⟩ := henc _ _ e4
        exact ⟨kb, h⟩)
    (by rw [hl]; exact he.versions)
    (fun s hs => by
      obtain ⟨j, hj⟩ := List.mem_iff_getElem?.1 hs
      have hjl := (List.getElem?_eq_some_iff.1 hj).1
      rw [hst j (by omega)] at hj
      cases hj
      exact ⟨hbound _ _ he.nodes, hbound _ _ he.nodes, hbound _ _ he.stale, hbound _ _ he.stale⟩)
  refine ⟨pb, bs, h1, h2, (treeUpdateBatch_lawful.fromSlice _ _).2 h2, fun pb' bs' h3 h4 => ?_⟩
  obtain rfl := packed_unique h3 h1 h4 h2
  rw [h2] at h4
  cases h4
  exact ⟨rfl, rfl⟩

theorem perm_of_same {α β : Type} [DecidableEq α] {m m' : AMap α β} (h : m.NodupKeys) (h' : m'.NodupKeys) (hg : ∀ k, m.get? k = m'.get? k) :
    List.Perm m m' := AMap.perm_of_get? h h' hg

/-- C49 and C15: the update of `batch_put_value_sets` is written with the very bytes of that of `put_value_sets`. -/
theorem C49_batch_update_same_bytes (hr : Reached H ops y) (sets : List (List (KeyHash × Value))) (hne : ∀ s ∈ sets, s ≠ [])
    (hb : (setsOf ops).length + sets.length < 2 ^ 64) :
    ∃ hs b b', batchPutValueSets H y.store.reader sets none y.next = .ok (hs, b) ∧
      putValueSets H y.store.reader (sets.map someSet) y.next = .ok (hs, b') ∧ ∀ pb, Spec.PackedAs b pb ↔ Spec.PackedAs b' pb := by
  obtain ⟨hs, b, b', h1, h2, h3⟩ := C15_batch_same_batches hr sets hne hb
  have hb' : (setsOf ops).length + (sets.map someSet).length < 2 ^ 64 := by rw [List.length_map]; exact hb
  obtain ⟨n1, v1⟩ := batch_nodup hr sets hb h1
  obtain ⟨n2, v2⟩ := update_nodup hr (sets.map someSet) hb' h2
  have pn := perm_of_same n1 n2 h3.nodes
  have pv := perm_of_same v1 v2 (fun k => h3.values k.1 k.2)
  have hnd : ∀ {b hs s'} {l : List ValueSet}, Spec.UpdateOf H y.store s' y.next l hs b → b.staleNodeIndexBatch.Nodup := by
    intro b hs s' l hu
    have := hu.staleOnce
    rw [List.map_append, List.nodup_append] at this
    have h := this.2.1
    rw [List.nodup_iff_pairwise_ne, List.pairwise_map] at h
    exact h.imp (fun hne hc => hne (congrArg _ hc))
  have ps : b.staleNodeIndexBatch.Perm b'.staleNodeIndexBatch := by
    obtain ⟨hn, hi⟩ := hr.inv (by omega)
    obtain ⟨hs1, b1, s1, f1, f2, -⟩ := hi.batch sets none hne (cachesFor_none _ _) (by unfold preGenesisVersion u64Size; omega)
    rw [← hn, h1] at f1
    cases f1
    obtain ⟨hs2, b2, s2, g1, g2, -⟩ := hr.commit (sets.map someSet) hb'
    rw [h2] at g1
    cases g1
    exact (List.perm_ext_iff_of_nodup (hnd (C48_batch_update_contents hr sets hb h1 f2)) (hnd (C48_update_contents hr _ hb' h2 g2))).2 h3.stale
  exact ⟨hs, b, b', h1, h2, fun pb =>
    ⟨fun h => ⟨(pn.symm.map _).trans h.nodes, pv.symm.trans h.values, (ps.symm.map _).trans h.stale, h3.stats.symm.trans h.stats⟩,
     fun h => ⟨(pn.map _).trans h.nodes, pv.trans h.values, (ps.map _).trans h.stale, h3.stats.trans h.stats⟩⟩⟩

/-- Two versions that each add a key. -/
def Sample.twoCommits : List Op := [.commit [[(Sample.key 0x10, some [4])]], .commit [[(Sample.key 0x80, some [3])]]]

/-- The update of a commit of two sets, one of them a deletion, after a history of two versions. -/
example : ∃ y hs b pb bs, Reached Sample.T Sample.twoCommits y ∧
    putValueSets Sample.T y.store.reader [[(Sample.key 0x10, none)], [(Sample.key 0x1f, some [7])]] y.next = .ok (hs, b) ∧
    b.staleNodeIndexBatch ≠ [] ∧
    Spec.PackedAs b pb ∧ treeUpdateBatch.enc pb = some bs ∧ treeUpdateBatch.fromSlice bs = some pb := by
  have h : Sample.check Sample.twoCommits (fun s =>
      Sample.okAnd (putValueSets Sample.T s.reader [[(Sample.key 0x10, none)], [(Sample.key 0x1f, some [7])]] 2) (fun r =>
        decide (r.2.nodeBatch.nodes.length < 2 ^ 32) && decide (r.2.nodeBatch.values.length < 2 ^ 32) &&
        decide (r.2.staleNodeIndexBatch.length < 2 ^ 32) && decide (r.2.staleNodeIndexBatch ≠ []))) = true := by decide +kernel
  obtain ⟨y, hy, h⟩ := Sample.of_check h
  obtain ⟨⟨hs, b⟩, h1, h⟩ := Sample.of_okAnd h
  simp only [Bool.and_eq_true, decide_eq_true_eq] at h
  obtain ⟨⟨⟨l1, l2⟩, l3⟩, l4⟩ := h
  have hn : y.next = 2 := (hy.inv (by decide)).1
  rw [← hn] at h1
  obtain ⟨pb, bs, h2, h3, h4, -⟩ := C49_tree_update_roundtrip hy _ (by decide) (by decide) h1 ⟨l1, l2, l3, by decide, by decide⟩
  exact ⟨y, hs, b, pb, bs, hy, h1, l4, h2, h3, h4⟩

end Jmt
