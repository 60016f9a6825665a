import Verif.Props.Sample
/-!
# Properties C01-C05, C09, C10, C13, C14, C18, C19, C30, C31, C32: the versioned map

Throughout: `Reached H ops y` says that the client started on an empty store, performed the operations
`ops` (commits of lists of value sets, and purges, in any order) and is now in state `y`; `setsOf ops` are
the committed value sets, number `i` being version `i`; `mapAt ops v` is the map after the sets `0..v`;
`Readable ops v` says that `v` is committed and not given up by a purge.  The only bound is that the
number of versions stays below 2^64.
-/
namespace Jmt
open Spec (Lists)

variable {H : Hasher} {ops : List Op} {y : Sys}

/-- C01: `get` returns the value of the last write at a version `≤ v`, for every key and every version
number whatsoever. -/
theorem C01_get_is_versioned_map (hr : Reached H ops y) (hb : (setsOf ops).length < 2 ^ 64)
    (k : KeyHash) (v : Version) : get y.store.reader k v = .ok (mapAt ops v k) := by
  obtain ⟨-, -, -, hval⟩ := hr.inv hb
  show Except.ok _ = _
  rw [hval.get]; rfl

/-- C01, the map spelled out: if the last set among `0..v` that writes `k` is set `i` and `x` is the last
write to `k` in it, then `get` returns `x`; if no such set writes `k`, it returns `None`. -/
theorem C01_last_write (hr : Reached H ops y) (hb : (setsOf ops).length < 2 ^ 64) (k : KeyHash) (v : Version) :
    (∀ i ws before after x, i ≤ v → (setsOf ops)[i]? = some ws → ws = before ++ (k, x) :: after →
      (∀ w ∈ after, w.1 ≠ k) →
      (∀ j ws', i < j → j ≤ v → (setsOf ops)[j]? = some ws' → ∀ w ∈ ws', w.1 ≠ k) →
      get y.store.reader k v = .ok x) ∧
    ((∀ j ws', j ≤ v → (setsOf ops)[j]? = some ws' → ∀ w ∈ ws', w.1 ≠ k) →
      get y.store.reader k v = .ok none) := by
  rw [C01_get_is_versioned_map hr hb]
  have hnone : ∀ ws : ValueSet, (∀ w ∈ ws, w.1 ≠ k) → ∀ s : Spec.Map, s.writes ws k = s k := by
    intro ws
    induction ws with
    | nil => intro _ s; rfl
    | cons w ws ih =>
      intro h s
      show Spec.Map.writes (s.write w) ws k = _
      rw [ih (fun w hw => h w (by simp [hw]))]
      unfold Spec.Map.write
      rw [if_neg (fun hc => h w (by simp) hc.symm)]
  have hstep : ∀ n, Spec.stateAfter Spec.Map.empty (setsOf ops) (n + 1) =
      match (setsOf ops)[n]? with
      | some ws => (Spec.stateAfter Spec.Map.empty (setsOf ops) n).writes ws
      | none => Spec.stateAfter Spec.Map.empty (setsOf ops) n := by
    intro n
    unfold Spec.stateAfter
    rw [List.take_add_one, List.foldl_append]
    cases (setsOf ops)[n]? <;> rfl
  have hkeep : ∀ i d, (∀ j ws', i < j → j ≤ i + d → (setsOf ops)[j]? = some ws' → ∀ w ∈ ws', w.1 ≠ k) →
      mapAt ops (i + d) k = mapAt ops i k := by
    intro i d
    induction d with
    | zero => intro _; rfl
    | succ d ih =>
      intro h
      rw [← ih (fun j ws' h1 h2 => h j ws' h1 (by omega))]
      show Spec.stateAfter _ _ (i + d + 1 + 1) k = _
      rw [hstep]
      cases hg : (setsOf ops)[i + d + 1]? with
      | none => rfl
      | some ws => exact hnone ws (h _ ws (by omega) (by omega) hg) _
  constructor
  · intro i ws before after x hi hws he hafter hlater
    obtain ⟨d, rfl⟩ : ∃ d, v = i + d := ⟨v - i, by omega⟩
    rw [hkeep i d hlater]
    show Except.ok (Spec.stateAfter _ _ (i + 1) k) = _
    rw [hstep, hws]
    subst he
    simp only
    unfold Spec.Map.writes
    rw [List.foldl_append, List.foldl_cons]
    have := hnone after hafter ((List.foldl Spec.Map.write (Spec.stateAfter Spec.Map.empty (setsOf ops) i) before).write (k, x))
    unfold Spec.Map.writes at this
    rw [this]
    simp [Spec.Map.write]
  · intro h
    have h0 : ∀ n, n ≤ v + 1 → Spec.stateAfter Spec.Map.empty (setsOf ops) n k = none := by
      intro n
      induction n with
      | zero => intro _; rfl
      | succ n ih =>
        intro hn
        rw [hstep]
        cases hg : (setsOf ops)[n]? with
        | none => exact ih (by omega)
        | some ws => rw [← ih (by omega)]; exact hnone ws (h n ws (by omega) hg) _
    show Except.ok (Spec.stateAfter _ _ (v + 1) k) = _
    rw [h0 _ (Nat.le_refl _)]

example : ∃ y, Reached H Sample.ops y ∧ get y.store.reader (Sample.key 0x10) 3 = .ok (some [4]) := by
  obtain ⟨y, hy⟩ := Sample.reached H
  refine ⟨y, hy, ?_⟩
  rw [C01_get_is_versioned_map hy Sample.bound]
  exact congrArg Except.ok (by decide)

/-- C02: at a readable version `get_with_proof` succeeds and returns the map's value. -/
theorem C02_get_with_proof_agrees (hr : Reached H ops y) (hb : (setsOf ops).length < 2 ^ 64)
    {v : Version} (hv : Readable ops v) (k : KeyHash) :
    ∃ P, getWithProof H y.store.reader k v = .ok (mapAt ops v k, P) :=
  ⟨_, (hr.readAt hb hv).gwp k⟩

example : ∃ y, Reached H Sample.ops y ∧ ∃ P, getWithProof H y.store.reader (Sample.key 0x1f) 1 = .ok (some [2], P) := by
  obtain ⟨y, hy⟩ := Sample.reached H
  exact ⟨y, hy, C02_get_with_proof_agrees hy Sample.bound Sample.readable1 (Sample.key 0x1f)⟩

/-- Every map of a history can be listed, so the hypotheses `Lists ..` below can be met. -/
theorem C03_listing_exists (H : Hasher) (ops : List Op) (v : Version) : ∃ es, Lists H (mapAt ops v) es :=
  ⟨_, lists_entriesAfter H _ _⟩

/-- C03: `get_root_hash` of a readable version is the canonical root of the map at that version. -/
theorem C03_root_hash_canonical (hr : Reached H ops y) (hb : (setsOf ops).length < 2 ^ 64)
    {v : Version} (hv : Readable ops v) {es} (hes : Lists H (mapAt ops v) es) :
    getRootHash H y.store.reader v = .ok (Spec.root H es) ∧
    getRootHashOption H y.store.reader v = .ok (some (Spec.root H es)) := by
  have r := hr.readAt hb hv
  rw [r.rootHash, r.rootHashOption, root_perm (lists_perm r.lists hes)]
  exact ⟨rfl, rfl⟩

/-- C03: the root hashes returned by `put_value_sets` are the canonical roots of the successive maps. -/
theorem C03_commit_returns_canonical_roots (hr : Reached H ops y) (sets : List ValueSet)
    (hb : (setsOf ops).length + sets.length < 2 ^ 64) {hs b}
    (hc : putValueSets H y.store.reader sets y.next = .ok (hs, b)) :
    hs.length = sets.length ∧ ∀ j, j < sets.length →
      ∀ es, Lists H (mapAt (ops ++ [.commit sets]) (y.next + j)) es → hs[j]? = some (Spec.root H es) := by
  obtain ⟨hs', b', s', a1, -, -, a4, -⟩ := hr.commit sets hb
  rw [hc] at a1; cases a1
  obtain ⟨h1, h2⟩ := a4.hash_get
  refine ⟨h1, fun j hj es hes => ?_⟩
  rw [h2 j hj, ← root_eq_sh]
  have hn := (hr.inv (by omega)).1
  congr 1
  apply root_perm
  have hl := lists_entriesAfter H (setsOf ops ++ sets) ((setsOf ops).length + j + 1)
  unfold mapAt at hes
  rw [setsOf_commit, hn] at hes
  exact lists_perm hl hes

/-- C03, history independence: two histories whose maps coincide (at versions `v` and `v'`) have the same
root hash, whatever the order and batching of their writes. -/
theorem C03_history_independence {ops' : List Op} {y' : Sys} (hr : Reached H ops y)
    (hr' : Reached H ops' y') (hb : (setsOf ops).length < 2 ^ 64) (hb' : (setsOf ops').length < 2 ^ 64)
    {v v' : Version} (hv : Readable ops v) (hv' : Readable ops' v') (heq : mapAt ops v = mapAt ops' v') :
    ∃ r, getRootHash H y.store.reader v = .ok r ∧ getRootHash H y'.store.reader v' = .ok r := by
  obtain ⟨es, hes⟩ := C03_listing_exists H ops v
  refine ⟨_, (C03_root_hash_canonical hr hb hv hes).1, (C03_root_hash_canonical hr' hb' hv' ?_).1⟩
  rwa [← heq]

/-- The same two keys written in two orders, in one set or in two. -/
example : ∃ y y', Reached H [.commit [[(Sample.key 1, some [1]), (Sample.key 2, some [2])]]] y ∧
    Reached H [.commit [[(Sample.key 2, some [2])], [(Sample.key 1, some [9])]],
      .commit [[(Sample.key 1, some [1])]]] y' ∧
    ∃ r, getRootHash H y.store.reader 0 = .ok r ∧ getRootHash H y'.store.reader 2 = .ok r := by
  obtain ⟨y, h1, -⟩ := Sys.run_ok H false [.commit [[(Sample.key 1, some [1]), (Sample.key 2, some [2])]]] (by decide) (by decide)
  obtain ⟨y', h2, -⟩ := Sys.run_ok H false [.commit [[(Sample.key 2, some [2])], [(Sample.key 1, some [9])]],
      .commit [[(Sample.key 1, some [1])]]] (by decide) (by decide)
  refine ⟨y, y', ⟨_, h1⟩, ⟨_, h2⟩, C03_history_independence ⟨_, h1⟩ ⟨_, h2⟩ (by decide) (by decide)
    ⟨by decide, by decide⟩ ⟨by decide, by decide⟩ ?_⟩
  funext k
  unfold mapAt
  simp only [setsOf, Spec.stateAfter, List.take, List.foldl, Spec.Map.writes, List.append_nil, List.cons_append,
    List.nil_append]
  unfold Spec.Map.write
  dsimp only
  by_cases h1 : k = Sample.key 1 <;> by_cases h2 : k = Sample.key 2 <;> simp [h1, h2] <;> decide

/-- C04: the proof of a present key verifies against the version's root hash. -/
theorem C04_existence_complete (hr : Reached H ops y) (hb : (setsOf ops).length < 2 ^ 64)
    {v : Version} (hv : Readable ops v) {k : KeyHash} {x : Value} (hx : mapAt ops v k = some x) :
    ∃ P r, getWithProof H y.store.reader k v = .ok (some x, P) ∧ getRootHash H y.store.reader v = .ok r ∧
      P.verifyExistence H r k x = .ok () := by
  have ra := hr.readAt hb hv
  refine ⟨_, _, by rw [ra.gwp, hx], ra.rootHash, ?_⟩
  rw [root_eq_sh]
  exact specProof_verifies_existence ra.nodup ((ra.lists.mem k _).2 ⟨x, hx, rfl⟩)

example : ∃ y P r, Reached H Sample.ops y ∧
    getWithProof H y.store.reader (Sample.key 0x10) 3 = .ok (some [4], P) ∧
    P.verifyExistence H r (Sample.key 0x10) [4] = .ok () := by
  obtain ⟨y, hy⟩ := Sample.reached H
  obtain ⟨P, r, h1, -, h3⟩ := C04_existence_complete (k := Sample.key 0x10) (x := [4]) hy Sample.bound
    Sample.readable3 (by decide)
  exact ⟨y, P, r, hy, h1, h3⟩

/-- C05: the proof of an absent key verifies against the version's root hash. -/
theorem C05_nonexistence_complete (hr : Reached H ops y) (hb : (setsOf ops).length < 2 ^ 64)
    {v : Version} (hv : Readable ops v) {k : KeyHash} (hx : mapAt ops v k = none) :
    ∃ P r, getWithProof H y.store.reader k v = .ok (none, P) ∧ getRootHash H y.store.reader v = .ok r ∧
      P.verifyNonexistence H r k = .ok () := by
  have ra := hr.readAt hb hv
  refine ⟨_, _, by rw [ra.gwp, hx], ra.rootHash, ?_⟩
  rw [root_eq_sh]
  refine specProof_verifies_nonexistence ra.nodup fun vh hc => ?_
  obtain ⟨x, h, -⟩ := (ra.lists.mem k _).1 hc
  rw [hx] at h; cases h

example : ∃ y P r, Reached H Sample.ops y ∧
    getWithProof H y.store.reader (Sample.key 0x1f) 3 = .ok (none, P) ∧
    P.verifyNonexistence H r (Sample.key 0x1f) = .ok () := by
  obtain ⟨y, hy⟩ := Sample.reached H
  obtain ⟨P, r, h1, -, h3⟩ := C05_nonexistence_complete (k := Sample.key 0x1f) hy Sample.bound
    Sample.readable3 (by decide)
  exact ⟨y, P, r, hy, h1, h3⟩

/-- C09: a commit changes nothing at the versions readable before it, and overwrites no stored
node. -/
theorem C09_commit_keeps_versions (hr : Reached H ops y) (sets : List ValueSet)
    (hb : (setsOf ops).length + sets.length < 2 ^ 64) {hs s'}
    (hc : y.store.commit H sets y.next = .ok (hs, s')) :
    (∀ v, Readable ops v → SameReads H y.store.reader s'.reader v v) ∧
    (∀ k n, y.store.nodes.get? k = some n → s'.nodes.get? k = some n) := by
  obtain ⟨hs', b', s'', -, -, a3, a4, a5⟩ := hr.commit sets hb
  rw [hc] at a3; cases a3
  refine ⟨fun v hv => ?_, fun k n hk => ?_⟩
  · have r1 := hr.readAt (by omega) hv
    have r2 := a5.readAt (by rw [setsOf_commit, List.length_append]; omega) (hv.commit sets)
    rw [mapAt_commit hv.2] at r2
    exact r1.same r2
  · rw [a4.nodes]
    cases hg : b'.nodeBatch.nodes.get? k with
    | none => exact hk
    | some nd => have := (a4.nodeVer k nd hg).2; rw [hk] at this; cases this

example : ∃ y hs s', Reached H Sample.ops y ∧ y.store.commit H [[(Sample.key 7, some [7])]] y.next = .ok (hs, s') ∧
    SameReads H y.store.reader s'.reader 1 1 := by
  obtain ⟨y, hy⟩ := Sample.reached H
  obtain ⟨hs, b, s', -, -, h, -⟩ := hy.commit [[(Sample.key 7, some [7])]] (by decide)
  exact ⟨y, hs, s', hy, h, (C09_commit_keeps_versions hy _ (by decide) h).1 1 Sample.readable1⟩

/-- C10: a purge succeeds and keeps every committed version `≥ r` (and always the latest one) as it was, and the tree
remains usable for further commits. -/
theorem C10_purge_safe (hr : Reached H ops y) (hb : (setsOf ops).length < 2 ^ 64) (r : Version) :
    ∃ s', y.store.purgeStaleNodes r = .ok s' ∧
      (∀ v, Readable ops v → r ≤ v ∨ v + 1 = (setsOf ops).length →
        SameReads H y.store.reader s'.reader v v) ∧
      (∀ v k, get s'.reader k v = get y.store.reader k v) ∧
      (∀ sets : List ValueSet, (setsOf ops).length + sets.length < 2 ^ 64 →
        ∃ hs s1 s2, y.store.commit H sets y.next = .ok (hs, s1) ∧ s'.commit H sets y.next = .ok (hs, s2)) := by
  obtain ⟨s', a1, a2⟩ := hr.purge r hb
  have hb' : (setsOf (ops ++ [.purge r])).length < 2 ^ 64 := by rw [setsOf_purge]; exact hb
  refine ⟨s', a1, fun v hv hrv => ?_, fun v k => ?_, fun sets hlen => ?_⟩
  · have r1 := hr.readAt hb hv
    have hv2 : Readable (ops ++ [.purge r]) v := by
      unfold Readable at *
      rw [horizon_snoc_purge, setsOf_purge]
      have := horizon_le hr hb
      omega
    have r2 := a2.readAt hb' hv2
    rw [mapAt_purge] at r2
    exact r1.same r2
  · have h1 := C01_get_is_versioned_map a2 hb' k v
    have h2 := C01_get_is_versioned_map hr hb k v
    rw [mapAt_purge] at h1
    exact h1.trans h2.symm
  · obtain ⟨hs1, b1, s1, -, -, c1, d1, -⟩ := hr.commit sets hlen
    obtain ⟨hs2, b2, s2, -, -, c2, d2, -⟩ := a2.commit sets (by rw [setsOf_purge]; exact hlen)
    have : hs1 = hs2 := by rw [d1.hashes, d2.hashes, setsOf_purge]
    subst this
    exact ⟨hs1, s1, s2, c1, c2⟩

example : ∃ y s', Reached H Sample.ops y ∧ y.store.purgeStaleNodes 3 = .ok s' ∧
    SameReads H y.store.reader s'.reader 3 3 := by
  obtain ⟨y, hy⟩ := Sample.reached H
  obtain ⟨s', h1, h2, -⟩ := C10_purge_safe hy Sample.bound 3
  exact ⟨y, s', hy, h1, h2 3 Sample.readable3 (.inl (Nat.le_refl _))⟩

/-- C13: on a store produced by any history `put_value_sets` (with and without proofs) and the write of its batch
succeed, for every list of value sets; so does every history (of commits, batch commits without empty sets, purges). -/
theorem C13_commit_never_fails (hr : Reached H ops y) (sets : List ValueSet)
    (hb : (setsOf ops).length + sets.length < 2 ^ 64) :
    (∃ hs b s', putValueSets H y.store.reader sets y.next = .ok (hs, b) ∧
      y.store.writeTreeUpdateBatch b = .ok s') ∧
    (∃ hps b s', putValueSetsWithProof H y.store.reader sets y.next = .ok (hps, b) ∧
      y.store.writeTreeUpdateBatch b = .ok s') := by
  obtain ⟨hn, hi⟩ := hr.inv (by omega)
  obtain ⟨hs, b, s', a1, a2, -⟩ := hr.commit sets hb
  refine ⟨⟨hs, b, s', a1, a2⟩, ?_⟩
  obtain ⟨tc, pss, tc', s'', infos, b1, b2, b3, -⟩ := hi.commit' true sets (by unfold preGenesisVersion u64Size; omega)
  refine ⟨tc'.finish.1.zip pss, _, s'', ?_, b3⟩
  unfold putValueSetsWithProof
  rw [hn, b1, ok_bind, b2]; rfl

theorem C13_history_never_fails (H : Hasher) (ops : List Op) (hok : ∀ op ∈ ops, op.Allowed) (hb : (setsOf ops).length < 2 ^ 64) :
    ∃ y, Reached H ops y := by
  obtain ⟨y, h, -⟩ := Sys.run_ok H false ops hok (by unfold preGenesisVersion u64Size; omega)
  exact ⟨y, false, h⟩

/-- C14: one call with several sets and consecutive calls with one set each return the same root hashes and
leave stores that answer every read of every readable version alike. -/
theorem C14_multi_set_is_consecutive (hr : Reached H ops y) (sets : List ValueSet)
    (hb : (setsOf ops).length + sets.length < 2 ^ 64) :
    ∃ y1 y2, Reached H (ops ++ [.commit sets]) y1 ∧ Reached H (ops ++ sets.map (fun s => .commit [s])) y2 ∧
      y1.next = y2.next ∧
      (∀ v, Readable (ops ++ [.commit sets]) v ↔ Readable (ops ++ sets.map (fun s => .commit [s])) v) ∧
      (∀ v, Readable (ops ++ [.commit sets]) v → SameReads H y1.store.reader y2.store.reader v v) := by
  have hsets : ∀ sets : List ValueSet, setsOf (sets.map (fun s => Op.commit [s])) = sets := by
    intro sets
    induction sets with
    | nil => rfl
    | cons s sets ih => simp [setsOf, ih]
  have hS : setsOf (ops ++ [.commit sets]) = setsOf (ops ++ sets.map (fun s => .commit [s])) := by
    rw [setsOf_commit, setsOf_append, hsets]
  have hH : (horizon (ops ++ [.commit sets])).2 = (horizon (ops ++ sets.map (fun s => .commit [s]))).2 := by
    rw [horizon_snoc_commit]
    induction sets using list_snoc_ind with
    | h0 => simp
    | h1 l a ih =>
      rw [List.map_append, ← List.append_assoc]
      show _ = (horizon (_ ++ [Op.commit [a]])).2
      rw [horizon_snoc_commit]
      exact ih (by simp at hb; omega) (by rw [setsOf_commit, setsOf_append, hsets])
  have hb1 : (setsOf (ops ++ [.commit sets])).length < 2 ^ 64 := by rw [setsOf_commit, List.length_append]; exact hb
  obtain ⟨y1, h1⟩ := C13_history_never_fails H (ops ++ [.commit sets]) (by
    intro op hop
    rcases List.mem_append.1 hop with hop | hop
    · exact hr.allowed op hop
    · rw [List.mem_singleton.1 hop]; trivial) hb1
  obtain ⟨y2, h2⟩ := C13_history_never_fails H (ops ++ sets.map (fun s => .commit [s])) (by
    intro op hop
    rcases List.mem_append.1 hop with hop | hop
    · exact hr.allowed op hop
    · obtain ⟨s, -, rfl⟩ := List.mem_map.1 hop; trivial) (by rw [← hS]; exact hb1)
  have hR : ∀ v, Readable (ops ++ [.commit sets]) v ↔ Readable (ops ++ sets.map (fun s => .commit [s])) v := by
    intro v; unfold Readable; rw [hS, hH]
  refine ⟨y1, y2, h1, h2, ?_, hR, fun v hv => ?_⟩
  · rw [(h1.inv hb1).1, (h2.inv (by rw [← hS]; exact hb1)).1, hS]
  · have r1 := h1.readAt hb1 hv
    have r2 := h2.readAt (by rw [← hS]; exact hb1) ((hR v).1 hv)
    have : mapAt (ops ++ [.commit sets]) v = mapAt (ops ++ sets.map (fun s => .commit [s])) v := by
      unfold mapAt; rw [hS]
    rw [this] at r1
    exact r1.same r2

/-- The root hashes returned by consecutive single-set calls. -/
def commitEach (H : Hasher) : List ValueSet → Sys → Except Err (List Digest × Sys)
  | [], y => .ok ([], y)
  | ws :: rest, y => do
    let (hs, s') ← y.store.commit H [ws] y.next
    let (hs', y') ← commitEach H rest ⟨s', y.next + 1⟩
    .ok (hs ++ hs', y')

/-- C14, the returned root hashes: one call returns the list that the consecutive calls return one by one. -/
theorem C14_multi_set_same_hashes (hr : Reached H ops y) (sets : List ValueSet)
    (hb : (setsOf ops).length + sets.length < 2 ^ 64) :
    ∃ hs s' y2, y.store.commit H sets y.next = .ok (hs, s') ∧ commitEach H sets y = .ok (hs, y2) := by
  have key : ∀ (sets : List ValueSet) (ops : List Op) (y : Sys), Reached H ops y →
      (setsOf ops).length + sets.length < 2 ^ 64 →
      ∃ y2, commitEach H sets y = .ok ((List.range sets.length).map
        (fun j => sh H (entriesAfter H (setsOf ops ++ sets) ((setsOf ops).length + j + 1)) []), y2) := by
    intro sets
    induction sets with
    | nil => intro ops y _ _; exact ⟨y, rfl⟩
    | cons ws rest ih =>
      intro ops y hr hb
      simp only [List.length_cons] at hb
      obtain ⟨hs, b, s', -, -, c1, c2, c3⟩ := hr.commit [ws] (by simp; omega)
      obtain ⟨y2, d⟩ := ih _ _ c3 (by rw [setsOf_commit]; simp; omega)
      refine ⟨y2, ?_⟩
      unfold commitEach
      simp only [c1, ok_bind]
      have d' : commitEach H rest ⟨s', y.next + 1⟩ = _ := d
      simp only [d', ok_bind]
      rw [c2.hashes, setsOf_commit]
      congr 2
      simp only [List.length_cons, List.length_nil, List.range_one, List.map_cons, List.map_nil,
        List.range_succ_eq_map, List.map_map, List.length_append]
      simp only [List.cons_append, List.nil_append]
      congr 1
      · have e1 : entriesAfter H (setsOf ops ++ [ws]) ((setsOf ops).length + 0 + 1)
            = entriesAfter H (setsOf ops ++ ws :: rest) ((setsOf ops).length + 0 + 1) := by
          unfold entriesAfter
          rw [show setsOf ops ++ ws :: rest = (setsOf ops ++ [ws]) ++ rest by simp,
            List.take_append_of_le_length (l₂ := rest) (by simp)]
        rw [e1]
      · apply List.map_congr_left
        intro j _
        simp only [Function.comp]
        rw [List.append_assoc]
        simp only [List.cons_append, List.nil_append]
        congr 2
        omega
  obtain ⟨hs, b, s', -, -, c1, c2, -⟩ := hr.commit sets hb
  obtain ⟨y2, h2⟩ := key sets ops y hr hb
  refine ⟨hs, s', y2, c1, ?_⟩
  rw [h2, c2.hashes]

example : ∃ y, Reached H Sample.ops y ∧ (setsOf Sample.ops).length + 2 < 2 ^ 64 := by
  obtain ⟨y, hy⟩ := Sample.reached H
  exact ⟨y, hy, by decide⟩

/-- C18: a set that leaves the map unchanged keeps the root hash, and the new version answers every read
(except that it exists) like the previous one. -/
theorem C18_noop_set (hr : Reached H ops y) (ws : ValueSet) (hb : (setsOf ops).length + 1 < 2 ^ 64)
    {v : Version} (hlast : (setsOf ops).length = v + 1)
    (hnoop : (mapAt ops v).writes ws = mapAt ops v) :
    ∃ h s', y.store.commit H [ws] y.next = .ok ([h], s') ∧ y.next = v + 1 ∧
      getRootHash H y.store.reader v = .ok h ∧
      SameReads H y.store.reader s'.reader v (v + 1) := by
  obtain ⟨hs, b, s', -, -, c1, c2, c3⟩ := hr.commit [ws] (by simpa using hb)
  have hb' : (setsOf (ops ++ [.commit [ws]])).length < 2 ^ 64 := by rw [setsOf_commit]; simp; omega
  have hle := horizon_le hr (by omega)
  have hv : Readable ops v := ⟨by omega, by omega⟩
  have hv' : Readable (ops ++ [.commit [ws]]) (v + 1) := by
    unfold Readable; rw [horizon_snoc_commit, setsOf_commit]; simp; omega
  have hmap : mapAt (ops ++ [.commit [ws]]) (v + 1) = mapAt ops v := by
    rw [← hnoop]
    unfold mapAt Spec.stateAfter
    rw [setsOf_commit, List.take_append, List.take_of_length_le (i := v + 1 + 1) (by omega),
      List.take_of_length_le (i := v + 1) (by omega), hlast]
    simp
  have r1 := hr.readAt (by omega) hv
  have r2 := c3.readAt hb' hv'
  rw [hmap] at r2
  refine ⟨_, s', by rw [c1, c2.hashes]; rfl, by rw [(hr.inv (by omega)).1, hlast], ?_, r1.same r2⟩
  rw [r1.rootHash]
  refine congrArg Except.ok ?_
  dsimp only
  rw [← root_eq_sh]
  rw [setsOf_commit] at r2
  rw [show (setsOf ops).length + 0 + 1 = v + 1 + 1 by omega]
  exact root_perm (lists_perm r1.lists r2.lists)

/-- C18 for the empty set and for deletes of absent keys (the English no-op sets). -/
theorem C18_noop_meets (s : Spec.Map) (ws : ValueSet) (h : ∀ w ∈ ws, w.2 = none ∧ s w.1 = none) : s.writes ws = s := by
  induction ws with
  | nil => rfl
  | cons w ws ih =>
    have hw : s.write w = s := by
      funext k
      unfold Spec.Map.write
      obtain ⟨h1, h2⟩ := h w (by simp)
      split
      · next hk => rw [h1, hk, h2]
      · rfl
    show Spec.Map.writes (s.write w) ws = s
    rw [hw]
    exact ih (fun w hw => h w (by simp [hw]))

/-- C18 on an empty store: a first set that writes nothing creates version 0 with the placeholder root. -/
theorem C18_noop_first (hr : Reached H ops y) (h0 : setsOf ops = []) (ws : ValueSet) (hws : ∀ w ∈ ws, w.2 = none) :
    ∃ s', y.store.commit H [ws] 0 = .ok ([placeholder], s') ∧ getRootHash H s'.reader 0 = .ok placeholder := by
  obtain ⟨hs, b, s', -, -, c1, c2, c3⟩ := hr.commit [ws] (by rw [h0]; simp)
  have hn := (hr.inv (by rw [h0]; decide)).1
  rw [hn, h0] at c1
  have hlist : Lists H Spec.Map.empty [] := ⟨by simp, by simp [Spec.Map.empty]⟩
  have hmap : Spec.Map.writes Spec.Map.empty ws = Spec.Map.empty :=
    C18_noop_meets _ ws (fun w hw => ⟨hws w hw, rfl⟩)
  have hl := lists_entriesAfter H (setsOf ops ++ [ws]) 1
  have hst : Spec.stateAfter Spec.Map.empty (setsOf ops ++ [ws]) 1 = Spec.Map.empty := by
    rw [h0]
    simp [Spec.stateAfter, hmap]
  rw [hst] at hl
  have hroot : Spec.root H (entriesAfter H (setsOf ops ++ [ws]) 1) = placeholder := by
    rw [root_perm (lists_perm hl hlist)]; unfold Spec.root Spec.subtree; rfl
  refine ⟨s', ?_, ?_⟩
  · rw [show (0 : Nat) = ([] : List ValueSet).length from rfl, c1, c2.hashes]
    refine congrArg (fun h => Except.ok ([h], s')) (?_ : sh H (entriesAfter H (setsOf ops ++ [ws]) ((setsOf ops).length + 0 + 1)) [] = _)
    rw [← root_eq_sh, ← hroot, h0]; rfl
  · have hle := horizon_le hr (by rw [h0]; decide)
    have hle' : (horizon ops).2 ≤ 0 := by rw [h0] at hle; simpa using hle
    have r2 := c3.readAt (v := 0) (by rw [setsOf_commit, h0]; simp) (by
      unfold Readable; rw [horizon_snoc_commit, setsOf_commit, h0]
      exact ⟨hle', Nat.zero_lt_one⟩)
    rw [setsOf_commit] at r2
    have := r2.rootHash
    rw [hroot] at this
    exact this

example : ∃ y h s', Reached H Sample.ops y ∧
    y.store.commit H [[(Sample.key 0x55, none), (Sample.key 0x10, some [6])]] y.next = .ok ([h], s') ∧
    getRootHash H y.store.reader 4 = .ok h := by
  obtain ⟨y, hy⟩ := Sample.reached H
  obtain ⟨h, s', a, -, b, -⟩ := C18_noop_set (v := 4) hy [(Sample.key 0x55, none), (Sample.key 0x10, some [6])]
    (by decide) (by decide) (by
      funext k
      simp only [Spec.Map.writes, List.foldl, Spec.Map.write]
      by_cases h1 : k = Sample.key 0x10
      · subst h1; decide
      · by_cases h2 : k = Sample.key 0x55
        · subst h2; decide
        · simp [h1, h2])
  exact ⟨y, h, s', hy, a, b⟩

/-- C19: `get_leaf_count` is the number of keys present. -/
theorem C19_leaf_count_exact (hr : Reached H ops y) (hb : (setsOf ops).length < 2 ^ 64)
    {v : Version} (hv : Readable ops v) {es} (hes : Lists H (mapAt ops v) es) :
    getLeafCount y.store.reader v = .ok es.length := by
  have r := hr.readAt hb hv
  rw [r.leafCount, (lists_perm r.lists hes).length_eq]

example : ∃ y, Reached H Sample.ops y ∧ getLeafCount y.store.reader 3 = .ok 2 := by
  obtain ⟨y, hy⟩ := Sample.reached H
  refine ⟨y, hy, C19_leaf_count_exact (es := [(Sample.key 0x10, H.hash [4]), (Sample.key 0x80, H.hash [3])])
    hy Sample.bound Sample.readable3 ⟨by show [Sample.key 0x10, Sample.key 0x80].Nodup; decide, ?_⟩⟩
  intro k vh
  unfold mapAt
  simp only [Sample.ops, setsOf, Spec.stateAfter, List.take, List.foldl, Spec.Map.writes, List.append_nil, List.cons_append,
    List.nil_append]
  unfold Spec.Map.write
  dsimp only
  have e1 : Sample.key 0x10 ≠ Sample.key 0x1f := by decide
  have e2 : Sample.key 0x10 ≠ Sample.key 0x80 := by decide
  have e3 : Sample.key 0x80 ≠ Sample.key 0x1f := by decide
  by_cases h1 : k = Sample.key 0x10
  · subst h1; simp [e1, e2, eq_comm]
  · by_cases h2 : k = Sample.key 0x80
    · subst h2; simp only [e2.symm, e3, List.mem_cons, Prod.mk.injEq, false_and, true_and, false_or, List.not_mem_nil, or_false, if_false, if_true, Option.some.injEq, exists_eq_left']
    · by_cases h3 : k = Sample.key 0x1f
      · subst h3; simp [e1.symm, e3.symm]
      · simp [h1, h2, h3, Spec.Map.empty]

/-- Only the last write to each key of a set matters for the map. -/
theorem C30_keepLast_map (s : Spec.Map) (ws : ValueSet) : s.writes (Spec.keepLast ws) = s.writes ws := by
  have hk : ∀ ws : ValueSet, ∀ k, k ∈ (Spec.keepLast ws).map Prod.fst ↔ k ∈ ws.map Prod.fst := by
    intro ws
    induction ws with
    | nil => intro k; rfl
    | cons w ws ih =>
      intro k
      show k ∈ (if w.1 ∈ (Spec.keepLast ws).map Prod.fst then Spec.keepLast ws else w :: Spec.keepLast ws).map Prod.fst ↔ _
      split
      · next h =>
        rw [ih, List.map_cons, List.mem_cons]
        constructor
        · exact .inr
        · rintro (rfl | h')
          · exact (ih _).1 h
          · exact h'
      · rw [List.map_cons, List.map_cons, List.mem_cons, List.mem_cons, ih]
  have hover : ∀ (ws : ValueSet) (s : Spec.Map) (w : Spec.Write), w.1 ∈ ws.map Prod.fst →
      Spec.Map.writes (s.write w) ws = Spec.Map.writes s ws := by
    intro ws
    induction ws with
    | nil => intro s w h; simp at h
    | cons a ws ih =>
      intro s w h
      show Spec.Map.writes ((s.write w).write a) ws = Spec.Map.writes (s.write a) ws
      by_cases ha : w.1 = a.1
      · congr 1
        funext k
        unfold Spec.Map.write
        split
        · rfl
        · next hne => rw [if_neg (by rw [ha]; exact hne)]
      · have hin : w.1 ∈ ws.map Prod.fst := by
          rw [List.map_cons, List.mem_cons] at h
          exact h.resolve_left ha
        rw [← ih (s.write a) w hin]
        congr 1
        funext k
        unfold Spec.Map.write
        by_cases h1 : k = a.1
        · simp [h1, Ne.symm ha]
        · simp [h1]
  induction ws generalizing s with
  | nil => rfl
  | cons w ws ih =>
    show Spec.Map.writes s (if w.1 ∈ (Spec.keepLast ws).map Prod.fst then Spec.keepLast ws else w :: Spec.keepLast ws)
      = Spec.Map.writes (s.write w) ws
    split
    · next h => rw [ih, hover ws s w ((hk ws w.1).1 h)]
    · exact ih _

/-- C30: committing value sets with repeated keys and committing them with only the last write of each key kept
return the same root hashes and leave stores that answer every read alike. -/
theorem C30_last_write_wins (hr : Reached H ops y) (sets : List ValueSet)
    (hb : (setsOf ops).length + sets.length < 2 ^ 64) :
    ∃ hs s1 s2, y.store.commit H sets y.next = .ok (hs, s1) ∧
      y.store.commit H (sets.map Spec.keepLast) y.next = .ok (hs, s2) ∧
      ∀ v, Readable (ops ++ [.commit sets]) v → SameReads H s1.reader s2.reader v v := by
  obtain ⟨hs1, b1, s1, -, -, c1, d1, e1⟩ := hr.commit sets hb
  obtain ⟨hs2, b2, s2, -, -, c2, d2, e2⟩ := hr.commit (sets.map Spec.keepLast) (by simpa using hb)
  have hst : ∀ n, Spec.stateAfter Spec.Map.empty (setsOf ops ++ sets) n
      = Spec.stateAfter Spec.Map.empty (setsOf ops ++ sets.map Spec.keepLast) n := by
    intro n
    unfold Spec.stateAfter
    rw [List.take_append, List.take_append, List.foldl_append, List.foldl_append, ← List.map_take]
    generalize List.foldl Spec.Map.writes Spec.Map.empty (List.take n (setsOf ops)) = s0
    generalize List.take (n - (setsOf ops).length) sets = l
    induction l generalizing s0 with
    | nil => rfl
    | cons a l ih => simp only [List.map_cons, List.foldl_cons, C30_keepLast_map]; exact ih _
  have hhs : hs1 = hs2 := by
    rw [d1.hashes, d2.hashes, List.length_map]
    apply List.map_congr_left
    intro j _
    rw [← root_eq_sh, ← root_eq_sh]
    apply root_perm
    have l1 := lists_entriesAfter H (setsOf ops ++ sets) ((setsOf ops).length + j + 1)
    have l2 := lists_entriesAfter H (setsOf ops ++ sets.map Spec.keepLast) ((setsOf ops).length + j + 1)
    rw [← hst] at l2
    exact lists_perm l1 l2
  subst hhs
  refine ⟨hs1, s1, s2, c1, c2, fun v hv => ?_⟩
  have r1 := e1.readAt (by rw [setsOf_commit, List.length_append]; exact hb) hv
  have hv2 : Readable (ops ++ [.commit (sets.map Spec.keepLast)]) v := by
    unfold Readable at *
    rw [horizon_snoc_commit, setsOf_commit, List.length_append] at *
    simpa using hv
  have r2 := e2.readAt (by rw [setsOf_commit, List.length_append]; simpa using hb) hv2
  have hm : mapAt (ops ++ [.commit (sets.map Spec.keepLast)]) v = mapAt (ops ++ [.commit sets]) v := by
    unfold mapAt; rw [setsOf_commit, setsOf_commit, hst]
  rw [hm] at r2
  exact r1.same r2

example : Spec.keepLast [(Sample.key 1, some [1]), (Sample.key 2, none), (Sample.key 1, none)]
    = [(Sample.key 2, none), (Sample.key 1, none)] := by decide

/-- C31: proofs have at most 256 siblings and the lowest sibling is never the placeholder. -/
theorem C31_proof_size (hr : Reached H ops y) (hb : (setsOf ops).length < 2 ^ 64)
    {v : Version} (hv : Readable ops v) (k : KeyHash) {x : Option Value} {P : SMProof}
    (hg : getWithProof H y.store.reader k v = .ok (x, P)) :
    P.siblings.length ≤ 256 ∧ P.siblings.head? ≠ some .null := by
  have ra := hr.readAt hb hv
  rw [ra.gwp] at hg
  cases hg
  refine ⟨specProof_len _ _ _, ?_⟩
  exact specProof_head ra.nodup k

example : ∃ y P, Reached H Sample.ops y ∧
    getWithProof H y.store.reader (Sample.key 0x10) 3 = .ok (some [4], P) ∧ P.siblings.length ≤ 256 := by
  obtain ⟨y, hy⟩ := Sample.reached H
  obtain ⟨P, h⟩ := C02_get_with_proof_agrees hy Sample.bound Sample.readable3 (Sample.key 0x10)
  exact ⟨y, P, hy, h, (C31_proof_size hy Sample.bound Sample.readable3 _ h).1⟩

/-- C32 (first half; the other queries are in `C32_missing_root_others`): for every reader that does not have the
root node of version `v`. -/
theorem C32_missing_root (R : Reader) (k : KeyHash) (v : Version) (h : R.getNodeOption (NodeKey.root v) = .ok none) :
    getWithProof H R k v = .error (.missingRoot v) ∧ getRootHash H R v = .error (.missingRoot v) ∧
    getRootHashOption H R v = .ok none ∧ getLeafCount R v = .error (.missingRoot v) := by
  refine ⟨?_, ?_, ?_, ?_⟩
  · unfold getWithProof rootNibbleHeight getWithProofLoop Reader.getNode
    rw [h]; rfl
  · unfold getRootHash getRootNode getRootNodeOption; rw [h]; rfl
  · unfold getRootHashOption getRootNodeOption; rw [h]; rfl
  · unfold getLeafCount getRootNode getRootNodeOption; rw [h]; rfl

/-- C32: a version that was never committed has no root: every query about it reports it missing. -/
theorem C32_uncommitted (hr : Reached H ops y) (hb : (setsOf ops).length < 2 ^ 64) {v : Version}
    (hv : (setsOf ops).length ≤ v) : y.store.reader.getNodeOption (NodeKey.root v) = .ok none := by
  obtain ⟨-, ⟨M, W, hI, -⟩, -⟩ := hr.inv hb
  show Except.ok (y.store.nodes.get? _) = _
  cases hg : y.store.nodes.get? (NodeKey.root v) with
  | none => rfl
  | some nd => have := hI.lt _ _ hg; exact absurd this (Nat.not_lt.2 hv)

example : ∃ y, Reached H Sample.ops y ∧
    getWithProof H y.store.reader (Sample.key 0) 9 = .error (.missingRoot 9) := by
  obtain ⟨y, hy⟩ := Sample.reached H
  exact ⟨y, hy, (C32_missing_root _ _ _ (C32_uncommitted hy Sample.bound (by decide))).1⟩

end Jmt
