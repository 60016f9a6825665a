import Verif.Props.UpdateBatch
/-!
# Small operations: node batches (C48), `put_leaf` (C40), `num_nodes` (C29)
-/
namespace Jmt

variable {H : Hasher} {ops : List Op} {y : Sys}

/-! ### `NodeBatch` -/

/-- C48, the operations of `NodeBatch` are those of a pair of finite maps: `clear` empties both, `is_empty` says that both
are empty, `insert_node` returns the node it replaces and changes that key only, `insert_value` stores the value at that
version and key and changes nothing else, and `extend` lets its arguments win. -/
theorem C48_node_batch_ops (b : NodeBatch) :
    ((∀ k, b.clear.getNode k = none) ∧ (∀ e, b.clear.values.get? e = none)) ∧
    (b.isEmpty = true ↔ (∀ k, b.getNode k = none) ∧ ∀ e, b.values.get? e = none) ∧
    (∀ k n, (b.insertNode k n).2 = b.getNode k ∧ (b.insertNode k n).1.getNode k = some n ∧
      (∀ k', k' ≠ k → (b.insertNode k n).1.getNode k' = b.getNode k') ∧ (b.insertNode k n).1.values = b.values) ∧
    (∀ v k x, (b.insertValue v k x).values.get? (v, k) = some (some x) ∧
      (∀ e, e ≠ (v, k) → (b.insertValue v k x).values.get? e = b.values.get? e) ∧
      ∀ k', (b.insertValue v k x).getNode k' = b.getNode k') ∧
    (∀ ns vs, AMap.NodupKeys ns → AMap.NodupKeys vs →
      (∀ k n, (k, n) ∈ ns → (b.extend ns vs).getNode k = some n) ∧
      (∀ k, (∀ n, (k, n) ∉ ns) → (b.extend ns vs).getNode k = b.getNode k) ∧
      (∀ e x, (e, x) ∈ vs → (b.extend ns vs).values.get? e = some x) ∧
      (∀ e, (∀ x, (e, x) ∉ vs) → (b.extend ns vs).values.get? e = b.values.get? e)) := by
  refine ⟨⟨fun _ => rfl, fun _ => rfl⟩, ?_, fun k n => ⟨rfl, ?_, fun k' hk => ?_, rfl⟩, fun v k x => ⟨?_, fun e he => ?_, fun _ => rfl⟩,
    fun ns vs hn hv => ⟨fun k n hk => ?_, fun k hk => ?_, fun e x he => ?_, fun e he => ?_⟩⟩
  · unfold NodeBatch.isEmpty NodeBatch.getNode
    rw [Bool.and_eq_true, List.isEmpty_iff, List.isEmpty_iff, AMap.eq_nil_iff, AMap.eq_nil_iff]
  · show AMap.get? (AMap.insert b.nodes k n) k = _
    rw [AMap.get?_insert, if_pos rfl]
  · show AMap.get? (AMap.insert b.nodes k n) k' = _
    rw [AMap.get?_insert, if_neg (Ne.symm hk)]; rfl
  · show AMap.get? (AMap.insert b.values (v, k) (some x)) (v, k) = _
    rw [AMap.get?_insert, if_pos rfl]
  · show AMap.get? (AMap.insert b.values (v, k) (some x)) e = _
    rw [AMap.get?_insert, if_neg (Ne.symm he)]
  · show AMap.get? (AMap.extend b.nodes ns) k = _
    rw [AMap.get?_extend _ hn, AMap.get?_of_mem hn hk]
  · show AMap.get? (AMap.extend b.nodes ns) k = _
    rw [AMap.get?_extend _ hn]
    cases h : AMap.get? ns k with
    | some n => exact absurd (AMap.mem_of_get? h) (hk n)
    | none => rfl
  · show AMap.get? (AMap.extend b.values vs) e = _
    rw [AMap.get?_extend _ hv, AMap.get?_of_mem hv he]
  · show AMap.get? (AMap.extend b.values vs) e = _
    rw [AMap.get?_extend _ hv]
    cases h : AMap.get? vs e with
    | some x => exact absurd (AMap.mem_of_get? h) (he x)
    | none => rfl

/-- What `get_node` shows of a batch is what the store shows once the batch is written. -/
theorem C48_get_node_is_written {b : NodeBatch} {R' R : Reader} (h : Spec.Written b R' R) (k : NodeKey) :
    R'.getNodeOption k = match b.getNode k with | some n => .ok (some n) | none => R.getNodeOption k := by
  cases hk : b.getNode k with
  | some n => exact h.new k n hk
  | none => exact h.old k hk

/-- Inserting twice: the first node comes back. -/
example : let b : NodeBatch := { nodes := [], values := [] }
    let r1 := b.insertNode ⟨3, [1]⟩ .null
    let r2 := r1.1.insertNode ⟨3, [1]⟩ (.leaf ⟨Sample.key 0x10, Sample.key 0x20⟩)
    r1.2 = none ∧ r2.2 = some .null ∧ r2.1.getNode ⟨3, [1]⟩ = some (.leaf ⟨Sample.key 0x10, Sample.key 0x20⟩) ∧
      r2.1.isEmpty = false ∧ r2.1.clear.isEmpty = true ∧ (b.insertValue 3 (Sample.key 0x10) [1]).isEmpty = false :=
  ⟨rfl, rfl, rfl, rfl, rfl, rfl⟩

/-! ### `put_leaf` -/

/-- C40, `put_leaf`: an existing node is not replaced; otherwise the leaf is stored under its key and the value under the
leaf's key hash, at the version of the node key, and nothing else changes.  (At versions not before the next one, so that
the value history stays in order.) -/
theorem C40_put_leaf (hr : Reached H ops y) (hb : (setsOf ops).length < 2 ^ 64) (k : NodeKey) (l : LeafNode) (x : Value) :
    ((∃ n, y.store.reader.getNodeOption k = .ok (some n)) → ∃ msg, y.store.putLeaf k l x = .error (.bail msg)) ∧
    (y.store.reader.getNodeOption k = .ok none → y.next ≤ k.version →
      ∃ s', y.store.putLeaf k l x = .ok s' ∧ s'.reader.getNodeOption k = .ok (some (.leaf l)) ∧
        (∀ k', k' ≠ k → s'.reader.getNodeOption k' = y.store.reader.getNodeOption k') ∧
        (∀ v, k.version ≤ v → s'.reader.getValueOption v l.keyHash = .ok (some x)) ∧
        (∀ v, v < k.version → s'.reader.getValueOption v l.keyHash = y.store.reader.getValueOption v l.keyHash) ∧
        ∀ v kh, kh ≠ l.keyHash → s'.reader.getValueOption v kh = y.store.reader.getValueOption v kh) := by
  obtain ⟨hn, hi⟩ := hr.inv hb
  constructor
  · rintro ⟨n, hk⟩
    have hk : y.store.nodes.get? k = some n := Except.ok.inj hk
    unfold Store.putLeaf
    rw [hk]
    exact ⟨_, rfl⟩
  · intro hk hv
    have hk : y.store.nodes.get? k = none := Except.ok.inj hk
    have hlt : ∀ e ∈ Store.histOf y.store.values l.keyHash, e.1 < k.version := by
      rintro ⟨v, z⟩ he
      have h1 := (hi.vals.mem _ _ _).1 he
      obtain ⟨ws, h2, -⟩ := Option.bind_eq_some_iff.1 h1
      have h3 := (List.getElem?_eq_some_iff.1 h2).1
      show v < k.version
      omega
    obtain ⟨vh', e1, e2⟩ := Store.putValue_ok (x := some x) hlt
    have hget : ∀ (s : Store) v kh, s.getValueOption v kh =
        match (Store.histOf s.values kh).reverse.find? (fun e => decide (e.1 ≤ v)) with
        | some e => e.2
        | none => none := by
      intro s v kh
      unfold Store.getValueOption Store.histOf
      cases s.values.get? kh <;> rfl
    refine ⟨{ y.store with nodes := y.store.nodes.insert k (.leaf l), values := vh' }, ?_, ?_, fun k' hk' => ?_, fun v hle => ?_, fun v hlt => ?_, fun v kh hne => ?_⟩
    · unfold Store.putLeaf
      rw [hk]
      show (Store.putValue y.store.values k.version l.keyHash (some x) >>= _) = _
      rw [e1]
      rfl
    · show Except.ok (AMap.get? (AMap.insert y.store.nodes k (.leaf l)) k) = _
      rw [AMap.get?_insert, if_pos rfl]
    · show Except.ok (AMap.get? (AMap.insert y.store.nodes k (.leaf l)) k') = Except.ok _
      rw [AMap.get?_insert, if_neg (Ne.symm hk')]
    · show Except.ok (Store.getValueOption _ v l.keyHash) = _
      rw [hget]
      show Except.ok (match (Store.histOf vh' l.keyHash).reverse.find? (fun e => decide (e.1 ≤ v)) with | some e => e.2 | none => none) = _
      rw [e2, if_pos rfl, List.reverse_append, List.reverse_singleton, List.singleton_append, List.find?_cons_of_pos]
      exact decide_eq_true hle
    · show Except.ok (Store.getValueOption _ v l.keyHash) = Except.ok (Store.getValueOption _ v l.keyHash)
      rw [hget, hget y.store]
      show Except.ok (match (Store.histOf vh' l.keyHash).reverse.find? (fun e => decide (e.1 ≤ v)) with | some e => e.2 | none => none) = _
      rw [e2, if_pos rfl, List.reverse_append, List.reverse_singleton, List.singleton_append, List.find?_cons_of_neg]
      simp only [decide_eq_true_eq]
      omega
    · show Except.ok (Store.getValueOption _ v kh) = Except.ok (Store.getValueOption _ v kh)
      rw [hget, hget y.store]
      show Except.ok (match (Store.histOf vh' kh).reverse.find? (fun e => decide (e.1 ≤ v)) with | some e => e.2 | none => none) = _
      rw [e2, if_neg hne]

/-- `put_leaf` on the sample history: the leaf can be read, a second one at the same key is refused. -/
example : ∃ y s', Reached H Sample.ops y ∧
    y.store.putLeaf ⟨7, [1]⟩ ⟨Sample.key 0x10, Sample.key 0x20⟩ [9] = .ok s' ∧
    s'.reader.getValueOption 8 (Sample.key 0x10) = .ok (some [9]) ∧
    s'.reader.getNodeOption ⟨7, [1]⟩ = .ok (some (.leaf ⟨Sample.key 0x10, Sample.key 0x20⟩)) := by
  obtain ⟨y, hy⟩ := Sample.reached H
  obtain ⟨hn, hi⟩ := hy.inv (by decide)
  have hn : y.next = 5 := hn
  obtain ⟨M, W, hI, -⟩ := hi.tree
  have hnone : y.store.nodes.get? ⟨7, [1]⟩ = none := by
    cases h : y.store.nodes.get? ⟨7, [1]⟩ with
    | none => rfl
    | some n => exact absurd (hI.lt _ _ h) (by decide)
  obtain ⟨s', h1, h2, -, h3, -⟩ := (C40_put_leaf hy (by decide) ⟨7, [1]⟩ ⟨Sample.key 0x10, Sample.key 0x20⟩ [9]).2
    (congrArg Except.ok hnone) (by rw [hn]; decide)
  exact ⟨y, s', hy, h1, h3 8 (by decide), h2⟩

/-! ### `num_nodes` -/

/-- C29, `num_nodes` counts the nodes that can be read. -/
theorem C29_num_nodes (hr : Reached H ops y) (hb : (setsOf ops).length < 2 ^ 64) :
    ∃ ks : List NodeKey, ks.Nodup ∧ (∀ k, k ∈ ks ↔ ∃ n, y.store.reader.getNodeOption k = .ok (some n)) ∧
      y.store.numNodes = ks.length := by
  obtain ⟨-, hi⟩ := hr.inv hb
  refine ⟨y.store.nodes.map Prod.fst, hi.nodup, fun k => ?_, by simp [Store.numNodes]⟩
  constructor
  · intro hk
    cases h : y.store.nodes.get? k with
    | none => exact absurd hk ((AMap.get?_eq_none_iff _ _).1 h)
    | some n => exact ⟨n, congrArg Except.ok h⟩
  · rintro ⟨n, hn⟩
    have hn : y.store.nodes.get? k = some n := Except.ok.inj hn
    exact List.mem_map.2 ⟨_, AMap.mem_of_get? hn, rfl⟩

theorem mem_keys {α β : Type} [DecidableEq α] {m : AMap α β} {k : α} : k ∈ m.map Prod.fst ↔ ∃ n, m.get? k = some n := by
  constructor
  · intro hk
    cases h : m.get? k with
    | none => exact absurd hk ((AMap.get?_eq_none_iff _ _).1 h)
    | some n => exact ⟨n, rfl⟩
  · rintro ⟨n, hn⟩
    exact List.mem_map.2 ⟨_, AMap.mem_of_get? hn, rfl⟩

theorem countP_split {α : Type} (f : α → Nat) (n : Nat) (l : List α) : ∀ len,
    l.countP (fun a => decide (n ≤ f a) && decide (f a < n + len)) =
      ((List.range len).map (fun j => l.countP (fun a => f a == n + j))).sum := by
  intro len
  induction len with
  | zero =>
    rw [List.countP_eq_zero.2]
    · rfl
    · intro a _ h
      simp only [Bool.and_eq_true, decide_eq_true_eq] at h
      omega
  | succ len ih =>
    rw [List.range_succ, List.map_append, List.sum_append, ← ih]
    simp only [List.map_cons, List.map_nil, List.sum_cons, List.sum_nil, Nat.add_zero]
    clear ih
    induction l with
    | nil => rfl
    | cons a l ih =>
      simp only [List.countP_cons, ih, Bool.and_eq_true, decide_eq_true_eq, beq_iff_eq]
      split <;> split <;> split <;> omega

theorem stats_sum {b : TreeUpdateBatch} {n len : Nat} {g : NodeStats → Nat} {α : Type} {f : α → Nat} {l : List α}
    (hlen : b.nodeStats.length = len) (hst : ∀ j, j < len → (b.nodeStats[j]?).map g = some (l.countP (fun a => f a == n + j)))
    (hall : ∀ a ∈ l, n ≤ f a ∧ f a < n + len) : (b.nodeStats.map g).sum = l.length := by
  have h1 : b.nodeStats.map g = (List.range len).map (fun j => l.countP (fun a => f a == n + j)) := by
    apply List.ext_getElem?
    intro j
    rw [List.getElem?_map, List.getElem?_map]
    by_cases hj : j < len
    · rw [hst j hj, List.getElem?_range hj]; rfl
    · rw [List.getElem?_eq_none (by omega), List.getElem?_eq_none (by simpa using hj)]; rfl
  rw [h1, ← countP_split]
  rw [List.countP_eq_length]
  intro a ha
  simpa using hall a ha

/-- C29, `num_nodes` and the statistics: a commit adds as many nodes as its statistics count as new, and records as many
stale ones as they count as stale. -/
theorem C29_num_nodes_commit (hr : Reached H ops y) (sets : List ValueSet)
    (hb : (setsOf ops).length + sets.length < 2 ^ 64) {hs b s'}
    (hp : putValueSets H y.store.reader sets y.next = .ok (hs, b)) (hw : y.store.writeTreeUpdateBatch b = .ok s') :
    s'.numNodes = y.store.numNodes + (b.nodeStats.map NodeStats.newNodes).sum ∧
    s'.stale.length = y.store.stale.length + (b.nodeStats.map NodeStats.staleNodes).sum := by
  obtain ⟨hs', b', s'', a1, a2, -, a4, a5⟩ := hr.commit sets hb
  rw [hp] at a1
  cases a1
  rw [hw] at a2
  cases a2
  obtain ⟨hl, hst⟩ := C29_node_stats_exact hr sets hb hp hw
  have hu := C48_update_contents hr sets hb hp hw
  have hnd : b.nodeBatch.nodes.NodupKeys := by
    obtain ⟨hn, hi⟩ := hr.inv (by omega)
    obtain ⟨tc, pss, tc', -, infos, c0, c1, -, -, -, -, -, -, c7, -⟩ :=
      hi.commit' false sets (by unfold preGenesisVersion u64Size; omega)
    have hb' : b = tc'.finish.2 := by
      unfold putValueSets at hp
      rw [hn, c0, ok_bind, c1] at hp
      cases hp; rfl
    rw [hb']; exact c7
  obtain ⟨-, hi⟩ := hr.inv (by omega)
  have hperm : (s'.nodes.map Prod.fst).Perm (b.nodeBatch.nodes.map Prod.fst ++ y.store.nodes.map Prod.fst) := by
    rw [List.perm_ext_iff_of_nodup a4.inv.nodup]
    · intro k
      rw [List.mem_append, mem_keys, mem_keys, mem_keys, a4.nodes]
      cases b.nodeBatch.nodes.get? k <;> simp
    · rw [List.nodup_append]
      refine ⟨hnd, hi.nodup, ?_⟩
      rintro k hk k' hk' rfl
      rw [mem_keys] at hk hk'
      obtain ⟨n, hk⟩ := hk
      obtain ⟨n', hk'⟩ := hk'
      rw [(a4.nodeVer k n hk).2] at hk'
      cases hk'
  constructor
  · rw [stats_sum (f := fun e => e.1.version) (l := b.nodeBatch.nodes) (n := y.next) hl (fun j hj => by rw [hst j hj]; rfl)]
    · have := hperm.length_eq
      simp only [List.length_append, List.length_map] at this
      unfold Store.numNodes
      omega
    · rintro ⟨k, n⟩ hk
      obtain ⟨h1, h2, -⟩ := hu.nodes k n (AMap.get?_of_mem hnd hk)
      exact ⟨h1, h2⟩
  · rw [stats_sum (f := StaleNodeIndex.staleSince) (l := b.staleNodeIndexBatch) (n := y.next) hl (fun j hj => by rw [hst j hj]; rfl)]
    · rw [a4.stale, List.length_append]
    · intro x hx
      obtain ⟨h1, h2, -⟩ := hu.stale x hx
      exact ⟨h1, h2⟩

/-- C29, `num_nodes` and pruning: every stale entry up to the given version takes one node with it. -/
theorem C29_num_nodes_purge (hr : Reached H ops y) (hb : (setsOf ops).length < 2 ^ 64) (r : Version) {s'}
    (hp : y.store.purgeStaleNodes r = .ok s') :
    s'.numNodes + y.store.stale.countP (fun x => decide (x.staleSince ≤ r)) = y.store.numNodes ∧
    s'.stale.length + y.store.stale.countP (fun x => decide (x.staleSince ≤ r)) = y.store.stale.length := by
  obtain ⟨hn, hi⟩ := hr.inv hb
  obtain ⟨s'', a1, a2, a3, a4, a5, a6⟩ := hi.purge r
  rw [hp] at a1
  cases a1
  constructor
  · have hperm : (y.store.nodes.map Prod.fst).Perm (s'.nodes.map Prod.fst ++
        (y.store.stale.filter (fun x => decide (x.staleSince ≤ r))).map StaleNodeIndex.nodeKey) := by
      obtain ⟨⟨M, W, hI, -⟩, hnd, -⟩ := hi
      have hmem : ∀ k, k ∈ (y.store.stale.filter (fun x => decide (x.staleSince ≤ r))).map StaleNodeIndex.nodeKey ↔
          ∃ x ∈ y.store.stale, x.staleSince ≤ r ∧ x.nodeKey = k := by
        intro k
        simp only [List.mem_map, List.mem_filter, decide_eq_true_eq]
        constructor
        · rintro ⟨x, ⟨h1, h2⟩, h3⟩; exact ⟨x, h1, h2, h3⟩
        · rintro ⟨x, h1, h2, h3⟩; exact ⟨x, ⟨h1, h2⟩, h3⟩
      rw [List.perm_ext_iff_of_nodup hnd]
      · intro k
        rw [List.mem_append, hmem, mem_keys, mem_keys, a6]
        by_cases h : ∃ x ∈ y.store.stale, x.staleSince ≤ r ∧ x.nodeKey = k
        · rw [if_pos h]
          refine ⟨fun _ => .inr h, fun _ => ?_⟩
          obtain ⟨x, h1, -, rfl⟩ := h
          exact (hI.stale x h1).2.2.1
        · rw [if_neg h]
          exact ⟨fun h' => .inl h', fun h' => h'.resolve_right h⟩
      · rw [List.nodup_append]
        refine ⟨a2.nodup, hI.staleNodup.sublist (List.filter_sublist.map _), ?_⟩
        rintro k hk k' hk' rfl
        obtain ⟨n, hk⟩ := mem_keys.1 hk
        rw [a6, if_pos ((hmem k).1 hk')] at hk
        cases hk
    have := hperm.length_eq
    simp only [List.length_append, List.length_map] at this
    rw [List.countP_eq_length_filter]
    unfold Store.numNodes
    omega
  · rw [a4, List.countP_eq_length_filter]
    induction y.store.stale with
    | nil => rfl
    | cons x l ih =>
      simp only [List.filter_cons, decide_not, Bool.not_eq_true', decide_eq_true_eq, decide_eq_false_iff_not] at ih ⊢
      by_cases hx : x.staleSince ≤ r
      · rw [if_neg (by omega), if_pos hx]; simp only [List.length_cons]; omega
      · rw [if_pos (by omega), if_neg hx]; simp only [List.length_cons]; omega

/-- The sample history: three nodes go with the last purge. -/
example : ∃ y, Reached Sample.T [.commit [[(Sample.key 0x10, some [1])]], .commit [[(Sample.key 0x1f, some [2])]], .purge 1] y ∧
    y.store.numNodes = 4 := by
  obtain ⟨y, hy, h⟩ := Sample.of_check (ops := [.commit [[(Sample.key 0x10, some [1])]], .commit [[(Sample.key 0x1f, some [2])]], .purge 1])
    (p := fun s => s.numNodes == 4) (by decide +kernel)
  exact ⟨y, hy, by simpa using h⟩

/-! ### `put_value_set`, `put_value_set_with_proof` -/

/-- C14, C16: the convenience functions for one value set are the general ones for a list of one: the same root, batch and
proofs; the root is the canonical one and `verify_update` accepts the proofs. -/
theorem C16_put_value_set (hr : Reached H ops y) (vs : ValueSet) (hb : (setsOf ops).length + 1 < 2 ^ 64) (checked : Bool) :
    ∃ h proofs b, putValueSets H y.store.reader [vs] y.next = .ok ([h], b) ∧ putValueSet H y.store.reader vs y.next = .ok (h, b) ∧
      putValueSetsWithProof H y.store.reader [vs] y.next = .ok ([(h, proofs)], b) ∧
      putValueSetWithProof H y.store.reader vs y.next = .ok (h, proofs, b) ∧
      ∀ es es', Spec.Lists H (latestMap (setsOf ops)) es → Spec.Lists H ((latestMap (setsOf ops)).writes vs) es' →
        h = Spec.root H es' ∧ SMProof.verifyUpdate H checked proofs (Spec.root H es) h vs = .ok () := by
  obtain ⟨res, b, h1, h2, h3, h4⟩ := C16_update_proofs_complete hr [vs] (by simpa using hb) checked
  obtain ⟨hn, -⟩ := hr.inv (by omega)
  match res, h2 with
  | [(h, proofs)], _ =>
    have h3 : putValueSets H y.store.reader [vs] y.next = .ok ([h], b) := h3
    refine ⟨h, proofs, b, h3, ?_, h1, ?_, fun es es' hes hes' => h4 0 vs h proofs rfl rfl es es' ?_ ?_⟩
    · unfold putValueSet; rw [h3]; rfl
    · unfold putValueSetWithProof; rw [h1]; rfl
    · rw [hn]
      simpa [Spec.stateAfter, latestMap] using hes
    · rw [hn]
      have e : (setsOf ops ++ [vs]).take ((setsOf ops).length + 0 + 1) = setsOf ops ++ [vs] := List.take_of_length_le (by simp)
      unfold Spec.stateAfter
      rw [e]
      simpa [Spec.stateAfter, latestMap] using hes'

example : ∃ y h proofs b, Reached H Sample.ops y ∧
    putValueSetWithProof H y.store.reader [(Sample.key 0x80, none), (Sample.key 0x33, some [9])] y.next = .ok (h, proofs, b) := by
  obtain ⟨y, hy⟩ := Sample.reached H
  obtain ⟨h, proofs, b, -, -, -, h1, -⟩ := C16_put_value_set hy [(Sample.key 0x80, none), (Sample.key 0x33, some [9])] (by decide) true
  exact ⟨y, h, proofs, b, hy, h1⟩

end Jmt
