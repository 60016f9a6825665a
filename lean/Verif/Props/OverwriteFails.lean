import Verif.Props.Overwrite
/-!
# C39: how `append_value_set` fails, in general

The counterexamples of Props/Overwrite.lean are not corner cases: after any append that changes the root hash, any pruning of the latest version destroys it,
and no other append that changes the root hash can be written at that version.
-/
namespace Jmt
open Spec (Lists)

variable {H : Hasher} {ops : List Op} {y y' : Sys} {s' : Store} {h h0 : Digest} {vs : ValueSet}

theorem extend_keeps {α β : Type} [DecidableEq α] (N : AMap α β) : ∀ (m : AMap α β) {k : α}, (∃ x, m.get? k = some x) → ∃ x, (AMap.extend m N).get? k = some x := by
  induction N with
  | nil => intro m k h; exact h
  | cons e N ih =>
    intro m k h
    refine ih (m.insert e.1 e.2) ?_
    rw [AMap.get?_insert]
    split
    · exact ⟨_, rfl⟩
    · exact h

theorem insertStale_dup : ∀ {L st st' : List StaleNodeIndex} {x : StaleNodeIndex}, Store.insertStale L st = .ok st' → x ∈ st → x ∈ L → False := by
  intro L
  induction L with
  | nil => intro st st' x _ _ hx; cases hx
  | cons i L ih =>
    intro st st' x h h1 h2
    unfold Store.insertStale at h
    split at h
    · cases h
    · next hi =>
      rcases List.mem_cons.1 h2 with rfl | h2
      · exact hi h1
      · exact ih h (List.mem_append_left _ h1) h2

/-- An append that returns was accepted by the version check. -/
theorem append_accepted {s : Store} {V : Version} {r} (h : s.append H vs V = .ok r) :
    ∃ nk l, s.getRightmostLeaf = some (nk, l) ∧ nk.version = V := by
  unfold Store.append at h
  obtain ⟨⟨r', b⟩, h3, -⟩ := bind_ok_inv h
  unfold appendValueSet at h3
  obtain ⟨tc, h7, -⟩ := bind_ok_inv h3
  unfold TreeCache.newOverwrite at h7
  have h7 : (match s.getRightmostLeaf with
    | none => (.error (.bail "creating an overwrite cache for an empty tree is not supported") : Except Err TreeCache)
    | some (nk, _) => if nk.version = V then
        .ok ⟨NodeKey.root V, V, [], [], 0, [], 0, Frozen.empty, s.reader⟩
      else .error (.bail "the supplied version is not the latest version of the tree")) = .ok tc := h7
  cases hg : s.getRightmostLeaf with
  | none => rw [hg] at h7; cases h7
  | some p =>
    obtain ⟨nk, l⟩ := p
    rw [hg] at h7
    simp only at h7
    split at h7
    · next hv => exact ⟨nk, l, rfl, hv⟩
    · cases h7

theorem root_reset {H : Hasher} {s : Store} {init : List ValueSet} {last : ValueSet} {low : Nat} (h : ReadInv H s (init ++ [last]) low) :
    getRootHash H s.reader init.length = .ok (sh H (entriesAfter H (init ++ [last]) (init.length + 1)) []) := by
  have hle : low ≤ init.length := by
    obtain ⟨⟨M, W, i1, -⟩, -⟩ := h
    have := i1.lowle
    simpa using this
  have := (h.readAt (v := init.length) hle (by simp)).rootHash
  rw [this, ← root_eq_sh]

/-- C39: after any history, if an append at the latest version goes through and changes the root hash - though it may never delete from an empty map -
every pruning of that version or a later one succeeds and deletes the root node just written: the latest version, and with it every version, is lost. -/
theorem C39_any_purge_destroys (hr : Reached H ops y) (hb : (setsOf ops).length < 2 ^ 64) (hsafe : NeverEmptied (latestMap (setsOf ops)) vs)
    (happ : y.store.append H vs (y.next - 1) = .ok (h, s')) (hold : getRootHash H y.store.reader (y.next - 1) = .ok h0) (hch : h ≠ h0)
    {r : Version} (hle : y.next ≤ r + 1) : ∃ s'', s'.purgeStaleNodes r = .ok s'' ∧
      getRootHash H s''.reader (y.next - 1) = .error (.missingRoot (y.next - 1)) ∧
      ∀ k, getWithProof H s''.reader k (y.next - 1) = .error (.missingRoot (y.next - 1)) := by
  obtain ⟨hn, hinv⟩ := hr.inv hb
  have hroot := hinv.reads
  obtain ⟨⟨M, W, i1, i2, i3, i4⟩, -, i6⟩ := hinv
  obtain ⟨nk, l, hacc, hv⟩ := append_accepted happ
  have hne : setsOf ops ≠ [] := by
    intro hc
    obtain ⟨k, x, hx⟩ := hsafe.1
    rw [hc] at hx; cases hx
  obtain ⟨init, last, hs⟩ : ∃ init last, setsOf ops = init ++ [last] := ⟨_, _, (List.dropLast_concat_getLast hne).symm⟩
  rw [hs] at i1 i2 i3 i4 i6 hn hb hsafe hroot
  have hlen : (init ++ [last]).length = init.length + 1 := by simp
  rw [hlen] at hn hb
  have hV : y.next - 1 = init.length := by omega
  rw [hV] at happ hold hv ⊢
  obtain ⟨b, S, c1, c2, c3, c4, c5, c6, c7, -⟩ := appendSet (vs := vs) i1.toT i2 i3 i4.1 i6
    (by unfold preGenesisVersion u64Size; omega) hacc hv hsafe
  unfold Store.append at happ
  rw [c1, ok_bind] at happ
  obtain ⟨s1, w, e⟩ := bind_ok_inv happ
  cases e
  rw [root_reset hroot] at hold
  have hmem : NodeKey.root init.length ∈ S := c7 (by rw [i3 _ (by omega)]; intro hc; exact hch (hc.trans (Except.ok.inj hold)))
  obtain ⟨w1, w2, w3, -⟩ := write_inv w
  have hkeep : ∀ k nd, y.store.nodes.get? k = some nd → ∃ nd', s'.nodes.get? k = some nd' := by
    intro k nd hk
    rw [w1]
    exact extend_keeps _ _ ⟨nd, hk⟩
  have htree := i1.tree init.length (by have := i1.lowle; simpa using this) (by simp)
  have hstale : s'.stale = y.store.stale ++ S.map (fun k => (⟨init.length, k⟩ : StaleNodeIndex)) := by rw [w3, c2]
  have hex : ∀ x ∈ s'.stale, ∃ nd, s'.nodes.get? x.nodeKey = some nd := by
    intro x hx
    rw [hstale] at hx
    rcases List.mem_append.1 hx with hx | hx
    · obtain ⟨nd, hnd⟩ := (i1.stale x hx).2.2.1
      exact hkeep _ nd hnd
    · obtain ⟨⟨w', q⟩, hk, rfl⟩ := List.mem_map.1 hx
      obtain ⟨d1, d2⟩ := c4 w' q hk
      subst d2
      by_cases hq : q = []
      · subst hq
        rw [c5]
        exact hkeep _ _ (Except.ok.inj htree.root)
      · exact hkeep _ _ (Except.ok.inj (htree.node q hq d1))
  have hnd : (s'.stale.map StaleNodeIndex.nodeKey).Nodup := by
    rw [hstale, List.map_append, List.nodup_append]
    refine ⟨i1.staleNodup, by rw [List.map_map]; exact (by simpa [Function.comp_def] using c3), ?_⟩
    rintro a ha k hk rfl
    obtain ⟨x, hx, rfl⟩ := List.mem_map.1 ha
    obtain ⟨x', hx', hxx⟩ := List.mem_map.1 hk
    obtain ⟨k', hk', rfl⟩ := List.mem_map.1 hx'
    have hkS : x.nodeKey ∈ S := by rw [← hxx]; exact hk'
    obtain ⟨d1, d2⟩ := c4 x.nodeKey.version x.nodeKey.path hkS
    obtain ⟨e1, e2, -, e4⟩ := i1.stale x hx
    rw [hlen] at e1
    by_cases hq : x.nodeKey.path = []
    · rw [hq, c5] at d2; omega
    · exact e4 hq init.length (by omega) (by simp) ⟨d1, d2.symm⟩
  have hsub : (s'.stale.filter (fun i => decide (i.staleSince ≤ r))).Sublist s'.stale := List.filter_sublist
  obtain ⟨s'', p1, -, -, -, -, -, p7⟩ := Store.purgeLoop_ok (s'.stale.filter (fun i => decide (i.staleSince ≤ r))) s'
    (hnd.sublist (hsub.map _)) (fun x hx => hex x (hsub.subset hx))
  have hnone : s''.reader.getNodeOption (NodeKey.root init.length) = .ok none := by
    show Except.ok _ = _
    rw [p7, if_pos]
    refine ⟨⟨init.length, NodeKey.root init.length⟩, List.mem_filter.2 ⟨?_, by simp; omega⟩, rfl⟩
    rw [hstale]
    exact List.mem_append_right _ (List.mem_map.2 ⟨_, hmem, rfl⟩)
  refine ⟨s'', p1, (C32_missing_root (H := H) s''.reader ⟨List.replicate 32 0, rfl⟩ _ hnone).2.1, fun k => (C32_missing_root s''.reader k _ hnone).1⟩

/-- C39: and if another append at the same version goes through on the in-memory store, it does not change the root hash: a second effective one cannot be
written. -/
theorem C39_no_second_append (hr : Reached H ops y) (hb : (setsOf ops).length < 2 ^ 64) (hsafe : NeverEmptied (latestMap (setsOf ops)) vs)
    (happ : y.store.append H vs (y.next - 1) = .ok (h, s')) (hold : getRootHash H y.store.reader (y.next - 1) = .ok h0) (hch : h ≠ h0)
    {vs2 : ValueSet} (hsafe2 : NeverEmptied ((latestMap (setsOf ops)).writes vs) vs2) {h2 : Digest} {s2 : Store}
    (happ2 : s'.append H vs2 (y.next - 1) = .ok (h2, s2)) : h2 = h := by
  obtain ⟨hn, hinv⟩ := hr.inv hb
  have hroot := hinv.reads
  have how := hinv.owInv (bar := (setsOf ops).length - 1) (Nat.le_refl _)
  have hne : setsOf ops ≠ [] := by
    intro hc
    obtain ⟨k, x, hx⟩ := hsafe.1
    rw [hc] at hx; cases hx
  obtain ⟨init, last, hs⟩ : ∃ init last, setsOf ops = init ++ [last] := ⟨_, _, (List.dropLast_concat_getLast hne).symm⟩
  rw [hs] at hn hb hsafe hroot how hsafe2
  have hlen : ∀ x : ValueSet, (init ++ [x]).length = init.length + 1 := by simp
  rw [hlen] at hn hb
  have hV : y.next - 1 = init.length := by omega
  rw [hV] at happ hold happ2
  obtain ⟨nk, l, hacc, hv⟩ := append_accepted happ
  obtain ⟨nk2, l2, hacc2, hv2⟩ := append_accepted happ2
  obtain ⟨⟨M, W, i1, i2, i3, i4, i5⟩, i6⟩ := how
  obtain ⟨b, S, c1, c2, c3, c4, c5, c6, c7, c8⟩ := appendSet (vs := vs) i1 i2 i3 i4 i6
    (by unfold preGenesisVersion u64Size; omega) hacc hv hsafe
  unfold Store.append at happ
  rw [c1, ok_bind] at happ
  obtain ⟨s1, w, e⟩ := bind_ok_inv happ
  cases e
  have how2 := c8 s' _ w i5
  rw [root_reset hroot] at hold
  have hmem : NodeKey.root init.length ∈ S := c7 (by rw [i3 _ (by rw [hlen]; omega)]; intro hc; exact hch (hc.trans (Except.ok.inj hold)))
  obtain ⟨w1, w2, w3, -⟩ := write_inv w
  have hin : (⟨init.length, NodeKey.root init.length⟩ : StaleNodeIndex) ∈ s'.stale := by
    rw [w3, c2]
    exact List.mem_append_right _ (List.mem_map.2 ⟨_, hmem, rfl⟩)
  have hsafe2' : NeverEmptied (latestMap (init ++ [last ++ vs])) vs2 := by
    have := stateAfter_extend init last vs
    unfold latestMap at hsafe2 ⊢
    rw [hlen] at hsafe2 ⊢
    rw [this]
    exact hsafe2
  obtain ⟨⟨M', W', j1, j2, j3, j4, j5⟩, j6⟩ := how2
  obtain ⟨b', S', d1, d2, -, -, -, -, d7, -⟩ := appendSet (vs := vs2) j1 j2 j3 j4 j6
    (by unfold preGenesisVersion u64Size; omega) hacc2 hv2 hsafe2'
  unfold Store.append at happ2
  rw [d1, ok_bind] at happ2
  obtain ⟨s3, w', e⟩ := bind_ok_inv happ2
  cases e
  rw [j3 _ (by rw [hlen]; omega)] at d7
  apply Classical.byContradiction
  intro hc
  have hmem2 := d7 hc
  unfold Store.writeTreeUpdateBatch at w'
  obtain ⟨sa, v1, v2⟩ := bind_ok_inv w'
  obtain ⟨st, v3, -⟩ := bind_ok_inv v2
  have hsa : sa.stale = s'.stale := by
    unfold Store.writeNodeBatch at v1
    obtain ⟨_, -, v4⟩ := bind_ok_inv v1
    obtain ⟨_, -, v5⟩ := bind_ok_inv v4
    cases v5; rfl
  rw [hsa] at v3
  exact insertStale_dup v3 hin (by rw [d2]; exact List.mem_map.2 ⟨_, hmem2, rfl⟩)

namespace Sample

/-- One key, its value overwritten at version 0: every pruning then loses the tree; deleting an absent key still goes through and changes nothing. -/
example : ∃ y h s', Reached T [.commit [[(key 0x10, some [1])]]] y ∧ y.store.append T [(key 0x10, some [5])] 0 = .ok (h, s') ∧
    (∀ r, ∃ s'', s'.purgeStaleNodes r = .ok s'' ∧ getRootHash T s''.reader 0 = .error (.missingRoot 0)) ∧
    (∃ h2 s2, s'.append T [(key 0x1f, none)] 0 = .ok (h2, s2)) ∧
    ∀ h2 s2, s'.append T [(key 0x1f, none)] 0 = .ok (h2, s2) → h2 = h := by
  have key : okAnd (owStore [(key 0x10, some [1])]) (fun y => decide (y.next = 1) &&
      okAnd (getRootHash T y.store.reader 0) (fun h0 =>
      okAnd (y.store.append T [(Sample.key 0x10, some [5])] 0) (fun r =>
        decide (r.1 ≠ h0) && okAnd (r.2.append T [(Sample.key 0x1f, none)] 0) (fun _ => true)))) = true := by decide +kernel
  obtain ⟨y, hy, key⟩ := of_okAnd key
  rw [Bool.and_eq_true, decide_eq_true_eq] at key
  obtain ⟨hn, key⟩ := key
  obtain ⟨h0, e0, key⟩ := of_okAnd key
  obtain ⟨r, hr, key⟩ := of_okAnd key
  rw [Bool.and_eq_true, decide_eq_true_eq] at key
  obtain ⟨hne, key⟩ := key
  obtain ⟨r2, hr2, -⟩ := of_okAnd key
  have hreach : Reached T [.commit [[(Sample.key 0x10, some [1])]]] y := ⟨true, hy⟩
  have hsafe : NeverEmptied (latestMap (setsOf [.commit [[(Sample.key 0x10, some [1])]]])) [(Sample.key 0x10, some [5])] :=
    ⟨⟨Sample.key 0x10, [1], by decide⟩, by
      intro pre k post h
      cases pre with
      | nil => simp at h
      | cons a pre => simp at h⟩
  have hsafe2 : NeverEmptied ((latestMap (setsOf [.commit [[(Sample.key 0x10, some [1])]]])).writes [(Sample.key 0x10, some [5])])
      [(Sample.key 0x1f, none)] :=
    ⟨⟨Sample.key 0x10, [5], by decide⟩, by
      intro pre k post h
      cases pre with
      | nil => exact ⟨Sample.key 0x10, [5], by decide⟩
      | cons a pre => simp at h⟩
  have h0' : y.next - 1 = 0 := by omega
  refine ⟨y, r.1, r.2, hreach, hr, fun q => ?_, ⟨r2.1, r2.2, hr2⟩, fun h2 s2 h => ?_⟩
  · obtain ⟨s'', p1, p2, -⟩ := C39_any_purge_destroys (r := q) hreach (by decide) hsafe (by rw [h0']; exact hr) (by rw [h0']; exact e0) hne (by omega)
    rw [h0'] at p2
    exact ⟨s'', p1, p2⟩
  · exact C39_no_second_append hreach (by decide) hsafe (by rw [h0']; exact hr) (by rw [h0']; exact e0) hne hsafe2 (by rw [h0']; exact h)

end Sample

end Jmt
