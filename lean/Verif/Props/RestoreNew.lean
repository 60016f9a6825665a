import Verif.Props.RestoreOver
/-!
# C70: `JellyfishMerkleRestore::new` over a store that holds a tree
-/
namespace Jmt
open Spec (Entry)
open Store

section
variable {H : Hasher} {G : Nodes} {st : List StaleNodeIndex} {n low : Nat} {M : Nat → List Entry} {W : Nat → List Nibble → Version}
  {ops : List Op} {y : Sys}

/-- A node of the tree of a version is one of every earlier tree back to the version it was written at. -/
theorem HistInv.back (h : HistInv H G st n low M W) {q : List Nibble} (hq : q ≠ []) {w : Version} : ∀ d, w + d < n →
    pres (M (w + d)) [] q → W (w + d) q = w → pres (M w) [] q ∧ W w q = w := by
  intro d
  induction d with
  | zero => intro _ h1 h2; exact ⟨h1, h2⟩
  | succ d ih =>
    intro hd h1 h2
    obtain ⟨h3, h4⟩ := h.older (w + d) q hq hd h1 (by rw [show w + d + 1 = w + (d + 1) from rfl, h2]; omega)
    exact ih (by omega) h3 (h4.trans h2)

theorem pres_parent {m : List Entry} {q : List Nibble} (hq : q ≠ []) (h : pres m [] q) : pres m [] q.dropLast := by
  have h2 : 2 ≤ (under q.dropLast m).length := (pres_nil_iff.1 h).2.resolve_left hq
  refine pres_nil_iff.2 ⟨fun hc => by rw [hc] at h2; simp at h2, .inr ?_⟩
  exact Nat.le_trans h2 (length_under_le (List.dropLast_prefix _) m)

/-- A node written at a version has its parent written at that version. -/
theorem HistInv.parent (h : HistInv H G st n low M W) {w : Version} (hw : w < n) (hl : w = 0 ∧ low = 0 ∨ low < w) {q : List Nibble}
    (hp : pres (M w) [] q) (hv : W w q = w) (hd : q.dropLast ≠ []) : W w q.dropLast = w := by
  have hq : q ≠ [] := by rintro rfl; exact hd rfl
  have hpp := pres_parent hq hp
  rcases hl with ⟨rfl, -⟩ | hl
  · exact Nat.le_zero.1 (h.wle 0 hw _ hpp)
  obtain ⟨j, rfl⟩ : ∃ j, w = j + 1 := ⟨w - 1, by omega⟩
  apply Decidable.byContradiction
  intro hne
  obtain ⟨h1, h2⟩ := h.older j _ hd (by omega) hpp hne
  have t1 := (h.tree j (by omega) (by omega)).node _ hd h1
  have t2 := (h.tree (j + 1) (by omega) hw).node _ hd hpp
  rw [h2, t2] at t1
  have he : canonNode H (M (j + 1)) (W (j + 1)) q.dropLast = canonNode H (M j) (W j) q.dropLast := Option.some.inj (Except.ok.inj t1)
  have hq' : q.dropLast ++ [q.getLast hq] = q := List.dropLast_concat_getLast hq
  have l2 : 2 ≤ (under q.dropLast (M (j + 1))).length := (pres_nil_iff.1 hp).2.resolve_left hq
  have l1 : 2 ≤ (under q.dropLast (M j)).length := by
    have := congrArg Node.leafCount he
    rw [canonNode_leafCount, canonNode_leafCount] at this
    omega
  rw [canonNode_two l2, canonNode_two l1] at he
  have hs := congrFun (congrArg (fun nd : InternalNode => nd.children.slots) (Node.internal.inj he)) (q.getLast hq)
  have hs : canonChild H (M (j + 1)) (W (j + 1)) (q.dropLast ++ [q.getLast hq]) = canonChild H (M j) (W j) (q.dropLast ++ [q.getLast hq]) := hs
  rw [hq'] at hs
  obtain ⟨t, -, h3⟩ := canonNode_nodeType (H := H) (ver := W (j + 1)) (pres_nil_iff.1 hp).1
  have hu : under q (M j) ≠ [] := by
    intro hc
    rw [canonChild_nil hc, h3] at hs
    cases hs
  obtain ⟨t', -, h4⟩ := canonNode_nodeType (H := H) (ver := W j) hu
  rw [h3, h4] at hs
  have hv' : W (j + 1) q = W j q := congrArg Child.version (Option.some.inj hs)
  have := h.wle j (by omega) q (pres_nil_iff.2 ⟨hu, .inr l1⟩)
  omega

/-- All ancestors of a node are stored with its version. -/
theorem HistInv.ancestors (h : HistInv H G st n low M W) {w : Version} (hw : w < n) (hl : w = 0 ∧ low = 0 ∨ low < w) : ∀ len (q : List Nibble),
    q.length = len → pres (M w) [] q → W w q = w → ∀ p, p <+: q → ∃ nd, G ⟨w, p⟩ = some nd := by
  have hlow : low ≤ w := by
    omega
  have ht := h.tree w hlow hw
  intro len
  induction len with
  | zero =>
    intro q hq _ _ p hp
    rw [List.length_eq_zero_iff.1 hq] at hp
    rw [List.prefix_nil.1 hp]
    exact ⟨_, Except.ok.inj ht.root⟩
  | succ len ih =>
    intro q hq hpr hv p hp
    have hq0 : q ≠ [] := by rintro rfl; simp at hq
    by_cases hpq : p = q
    · subst hpq
      have := Except.ok.inj (ht.node p hq0 hpr)
      rw [hv] at this
      exact ⟨_, this⟩
    · have hpd : p <+: q.dropLast := by
        rw [← List.dropLast_concat_getLast hq0, List.prefix_concat_iff, List.dropLast_concat_getLast hq0] at hp
        exact hp.resolve_left hpq
      by_cases hd : q.dropLast = []
      · rw [hd] at hpd
        rw [List.prefix_nil.1 hpd]
        exact ⟨_, Except.ok.inj ht.root⟩
      · exact ih q.dropLast (by simp [hq]) (pres_parent hq0 hpr) (h.parent hw hl hpr hv hd) p hpd

/-- Climbing over stored nodes ends in a panic at the root. -/
theorem climb_panics {R : Reader} {w : Version} : ∀ fuel (q : List Nibble), (∀ p, p <+: q → ∃ nd, R.getNodeOption ⟨w, p⟩ = .ok (some nd)) →
    ∃ m, Restore.climb R fuel ⟨w, q⟩ = .error (.panic m) := by
  intro fuel
  induction fuel with
  | zero =>
    intro q hq
    obtain ⟨nd, hnd⟩ := hq q (List.prefix_refl q)
    cases q with
    | nil => exact ⟨_, by unfold Restore.climb; rw [hnd]; rfl⟩
    | cons i q => exact ⟨_, by unfold Restore.climb; rw [hnd]; rfl⟩
  | succ fuel ih =>
    intro q hq
    obtain ⟨nd, hnd⟩ := hq q (List.prefix_refl q)
    cases q with
    | nil => exact ⟨_, by unfold Restore.climb; rw [hnd]; rfl⟩
    | cons i q =>
      obtain ⟨m, hm⟩ := ih (i :: q).dropLast fun p hp => hq p (hp.trans (List.dropLast_prefix _))
      exact ⟨m, by unfold Restore.climb; rw [hnd]; exact hm⟩

/-- C70, `new` over a store that holds a tree: whatever leaf of the store is reported as the rightmost one - say of a version whose
predecessor (or which itself, if it is version 0) is not given up - `new` fails: with an error if the leaf is a whole tree, and otherwise with a panic. -/
theorem C70_new_fails (hr : Reached H ops y) (hb : (setsOf ops).length < 2 ^ 64) {R : Reader}
    (hR : ∀ k, R.getNodeOption k = .ok (y.store.nodes.get? k)) {k : NodeKey} {l : LeafNode} (hm : R.getRightmostLeaf = .ok (some (k, l)))
    (hs : y.store.nodes.get? k = some (.leaf l)) (hk : Readable ops (k.version - 1)) (version : Version) (root : Digest) :
    ∃ m, Restore.new H R version root = .error (if k.path = [] then .bail m else .panic m) := by
  obtain ⟨-, hi⟩ := hr.inv hb
  obtain ⟨M, W, ht, -⟩ := hi.tree
  obtain ⟨w, q⟩ := k
  by_cases hq : q = []
  · subst hq
    exact ⟨_, by unfold Restore.new Restore.recoverPartialNodes; rw [hm]; rfl⟩
  · obtain ⟨j, h1, h2, h3, h4⟩ := ht.keep _ _ hs hq
    have hwj : w ≤ j := by
      have h7 := ht.wle j h2 q h3
      rwa [show W j q = w from h4] at h7
    obtain ⟨h5, h6⟩ := ht.back hq (w := w) (j - w) (by omega) (by rw [show w + (j - w) = j by omega]; exact h3)
      (by rw [show w + (j - w) = j by omega]; exact h4)
    have hl : w = 0 ∧ (horizon ops).2 = 0 ∨ (horizon ops).2 < w := by
      have h : (horizon ops).2 ≤ w - 1 := hk.1
      omega
    obtain ⟨m, hc⟩ := climb_panics (R := R) (w := w) q.dropLast.length q.dropLast fun p hp => by
      obtain ⟨nd, hnd⟩ := ht.ancestors (by omega) hl q.length q rfl h5 h6 p (hp.trans (List.dropLast_prefix _))
      exact ⟨nd, by rw [hR, hnd]⟩
    refine ⟨m, ?_⟩
    rw [if_neg hq]
    have hgp : Restore.genParent ⟨w, q⟩ = .ok ⟨w, q.dropLast⟩ := by
      cases q with
      | nil => exact absurd rfl hq
      | cons => rfl
    unfold Restore.new Restore.recoverPartialNodes
    rw [hm, ok_bind]
    simp only [if_neg hq, hgp, ok_bind, hc]
    rfl

theorem rightmost_stored {s : Store} (hn : s.nodes.NodupKeys) {k : NodeKey} {l : LeafNode} (h : s.getRightmostLeaf = some (k, l)) :
    s.nodes.get? k = some (.leaf l) := by
  unfold Store.getRightmostLeaf at h
  have : ∀ (N : List (NodeKey × Node)) (acc : Option (NodeKey × LeafNode)), N.foldl (fun acc e =>
      match e.2 with
      | .leaf l =>
        match acc with
        | none => some (e.1, l)
        | some (_, best) => if best.keyHash.val < l.keyHash.val then some (e.1, l) else acc
      | _ => acc) acc = some (k, l) → acc = some (k, l) ∨ (k, Node.leaf l) ∈ N := by
    intro N
    induction N with
    | nil => intro acc h; exact .inl h
    | cons e N ih =>
      intro acc h
      obtain ⟨ek, nd⟩ := e
      rcases ih _ h with h1 | h1
      · cases nd with
        | leaf l' =>
          have he : some (ek, l') = some (k, l) → (k, Node.leaf l) ∈ (ek, Node.leaf l') :: N := by
            intro h2; cases h2; exact List.mem_cons_self
          cases acc with
          | none => exact .inr (he h1)
          | some b =>
            simp only at h1
            split at h1
            · exact .inr (he h1)
            · exact .inl h1
        | null => exact .inl h1
        | internal => exact .inl h1
      · exact .inr (List.mem_cons_of_mem _ h1)
  exact (AMap.mem_iff_get? hn).1 ((this _ _ h).resolve_left (by simp))

theorem rightmost_exists {s : Store} {k : NodeKey} {l : LeafNode} (h : (k, Node.leaf l) ∈ s.nodes) :
    ∃ k' l', s.getRightmostLeaf = some (k', l') := by
  unfold Store.getRightmostLeaf
  have hsome : ∀ (N : List (NodeKey × Node)) (acc : Option (NodeKey × LeafNode)), acc.isSome ∨ (k, Node.leaf l) ∈ N →
      (N.foldl (fun acc e =>
        match e.2 with
        | .leaf l =>
          match acc with
          | none => some (e.1, l)
          | some (_, best) => if best.keyHash.val < l.keyHash.val then some (e.1, l) else acc
        | _ => acc) acc).isSome := by
    intro N
    induction N with
    | nil => intro acc h; exact h.resolve_right (by simp)
    | cons e N ih =>
      intro acc h
      refine ih _ ?_
      obtain ⟨ek, nd⟩ := e
      rcases h with h | h
      · left
        cases acc with
        | none => cases h
        | some b =>
          cases nd with
          | leaf l' => show Option.isSome (if _ then _ else _) = true; split <;> rfl
          | null => rfl
          | internal => rfl
      · rcases List.mem_cons.1 h with h | h
        · left
          cases h
          cases acc with
          | none => rfl
          | some b => show Option.isSome (if _ then _ else _) = true; split <;> rfl
        · exact .inr h
  obtain ⟨⟨k', l'⟩, he⟩ := Option.isSome_iff_exists.1 (hsome s.nodes none (.inr h))
  exact ⟨k', l', he⟩

/-- C70, `new` over the mock store of a history nothing of which was given up and which ever wrote something: it always fails. -/
theorem C70_new_over_a_history_fails (hr : Reached H ops y) (hb : (setsOf ops).length < 2 ^ 64)
    (hall : ∀ v, v < (setsOf ops).length → Readable ops v) {v : Version} (hv : v < (setsOf ops).length) {key : KeyHash}
    (hkey : mapAt ops v key ≠ none) (version : Version) (root : Digest) :
    ∃ m, Restore.new H y.store.reader version root = .error (.bail m) ∨ Restore.new H y.store.reader version root = .error (.panic m) := by
  obtain ⟨-, hi⟩ := hr.inv hb
  obtain ⟨M, W, ht, -, hM, -⟩ := hi.tree
  obtain ⟨x, hx⟩ := Option.ne_none_iff_exists'.1 hkey
  have hmem : (key, H.hash x) ∈ M v := by
    rw [hM v hv]
    exact ((lists_entriesAfter H (setsOf ops) (v + 1)).mem _ _).2 ⟨x, hx, rfl⟩
  have htv := ht.tree v (hall v hv).1 hv
  have hleaf : ∃ k l, y.store.nodes.get? k = some (.leaf l) := by
    rcases len_cases (M v) with h | ⟨e, h⟩ | h
    · rw [h] at hmem; cases hmem
    · refine ⟨_, _, (Except.ok.inj htv.root).trans (congrArg some (canonNode_one (e := e) ?_))⟩
      unfold under; simp [h]
    · obtain ⟨i, h1, h2, h3, h4⟩ := leaf_level (ht.nodup v hv) hmem h
      have hlen : key.nibbles.length = 64 := by simp
      have hne : key.nibbles.take i ≠ [] := by
        intro hc
        have := congrArg List.length hc
        rw [List.length_take, hlen, List.length_nil] at this
        omega
      have hd : (key.nibbles.take i).dropLast = key.nibbles.take (i - 1) := by
        rw [List.dropLast_eq_take, List.length_take, hlen, List.take_take]
        congr 1; omega
      have hp : pres (M v) [] (key.nibbles.take i) :=
        pres_nil_iff.2 ⟨by rw [h3]; simp, .inr (by rw [hd]; exact h4 _ (by omega))⟩
      exact ⟨_, _, (Except.ok.inj (htv.node _ hne hp)).trans (congrArg some (canonNode_one h3))⟩
  obtain ⟨k0, l0, h0⟩ := hleaf
  obtain ⟨k, l, hkl⟩ := rightmost_exists ((AMap.mem_iff_get? hi.nodup).2 h0)
  have hs := rightmost_stored hi.nodup hkl
  have hk := ht.lt _ _ hs
  obtain ⟨m, hm⟩ := C70_new_fails (R := y.store.reader) hr hb (fun _ => rfl) (congrArg Except.ok hkl) hs (hall _ (by omega)) version root
  refine ⟨m, ?_⟩
  split at hm
  · exact .inl hm
  · exact .inr hm

/-- A restoration that knows a leaf refuses every chunk that begins at or below it, and writes nothing. -/
theorem addChunk_below {r : Restore} {l : LeafNode} (hl : r.previousLeaf = some l) {k : KeyHash} (hk : k.val ≤ l.keyHash.val) (x : Value)
    (rest : List (KeyHash × Value)) (checked : Bool) (s : Store) (proof : RangeProof) :
    r.addChunk H checked s ((k, x) :: rest) proof = (r, s, .error (.bail "Account keys must come in increasing order.")) := by
  have h : Restore.addKeys H ((k, x) :: rest) r = (r, .error (.bail "Account keys must come in increasing order.")) := by
    unfold Restore.addKeys
    rw [if_pos]
    rw [hl]
    simp only [Option.any_some, Bool.not_eq_true', decide_eq_false_iff_not]
    exact List.not_lt.2 hk
  unfold Restore.addChunk
  rw [if_neg (by simp), h]

end

/-- C70, `new` over a store of which something was pruned: it may succeed, because the ancestors of the rightmost leaf are gone, as after an
interrupted restoration.  Then the old leaf counts as the last key received: here every chunk beginning at or below the key 0x80.. is
refused, whatever map is to be restored. -/
theorem C70_new_over_a_pruned_tree : ∃ ops y r, Reached Sample.T ops y ∧ Restore.new Sample.T y.store.reader 7 placeholder = .ok r ∧
    ∀ k x rest checked proof, k.val ≤ (Sample.key 0x80).val →
      r.addChunk Sample.T checked y.store ((k, x) :: rest) proof =
        (r, y.store, .error (.bail "Account keys must come in increasing order.")) := by
  obtain ⟨y, hy, h⟩ := Sample.of_check (ops := [.commit [[(Sample.key 0x10, some [1])]], .commit [[(Sample.key 0x80, some [2])]],
      .commit [[(Sample.key 0x10, some [3])]], .purge 2])
    (p := fun s => Sample.okAnd (Restore.new Sample.T s.reader 7 placeholder)
      fun r => decide (r.previousLeaf = some ⟨Sample.key 0x80, Sample.T.hash [2]⟩)) (by decide +kernel)
  obtain ⟨r, hr, hp⟩ := Sample.of_okAnd h
  exact ⟨_, y, r, hy, hr, fun k x rest checked proof hk => addChunk_below (of_decide_eq_true hp) hk x rest checked y.store proof⟩

/-- A history to which the theorem applies: two versions, nothing given up. -/
example (H : Hasher) : ∃ y, Reached H [.commit [[(Sample.key 0x10, some [1])]], .commit [[(Sample.key 0x80, some [2])]]] y ∧
    ∀ version root, ∃ m, Restore.new H y.store.reader version root = .error (.bail m) ∨
      Restore.new H y.store.reader version root = .error (.panic m) := by
  obtain ⟨y, hy⟩ := C13_history_never_fails H [.commit [[(Sample.key 0x10, some [1])]], .commit [[(Sample.key 0x80, some [2])]]]
    (by decide) (by decide)
  exact ⟨y, hy, C70_new_over_a_history_fails hy (by decide) (fun v hv => ⟨Nat.zero_le _, hv⟩) (v := 0) (by decide) (key := Sample.key 0x10) (by decide)⟩

end Jmt
