import Verif.Proofs.OverwriteStep
import Verif.Props.Faults
import Verif.Props.RestoreSample
/-!
# Property C39: writing again at the latest version (`append_value_set`, feature `migration`)

`append_value_set` at the latest version is meant to extend the last value set.  This is false of the code in general
(the counterexamples are below), and true as long as the appended writes never delete from a map that has become empty
and no purge of the versions written in this way follows.
-/
namespace Jmt
open Spec (Lists)

variable {H : Hasher} {ops : List Op} {y y' : Sys}

theorem stateAfter_extend (init : List ValueSet) (last vs : ValueSet) :
    Spec.stateAfter Spec.Map.empty (init ++ [last ++ vs]) (init.length + 1) =
      (Spec.stateAfter Spec.Map.empty (init ++ [last]) (init.length + 1)).writes vs := by
  unfold Spec.stateAfter
  rw [List.take_of_length_le (by simp), List.take_of_length_le (by simp), List.foldl_append, List.foldl_append]
  simp [Spec.Map.writes, List.foldl_append]

theorem setsAfter_snoc (hist : List ValueSet) (aops : List AOp) (op : AOp) :
    setsAfter hist (aops ++ [op]) = AOp.after (setsAfter hist aops) op := by
  unfold setsAfter; rw [List.foldl_append]; rfl

theorem AOp.length_after (hist : List ValueSet) (op : AOp) : hist.length ≤ (op.after hist).length := by
  cases op with
  | commit sets => simp [AOp.after]
  | batch sets => simp [AOp.after]
  | purge r => exact Nat.le_refl _
  | append vs =>
    unfold AOp.after
    cases hl : hist.getLast? with
    | none => exact Nat.le_refl _
    | some last =>
      obtain ⟨i, hi⟩ := List.getLast?_eq_some_iff.1 hl
      simp [hi]

theorem length_setsAfter (aops : List AOp) : ∀ hist : List ValueSet, hist.length ≤ (setsAfter hist aops).length := by
  induction aops with
  | nil => intro hist; exact Nat.le_refl _
  | cons op aops ih => intro hist; exact Nat.le_trans (AOp.length_after hist op) (ih _)

/-- One successful operation of a client that also appends. -/
theorem OwInv.stepA {s : Store} {hist : List ValueSet} {low n bar : Nat} (h : OwInv H s hist low bar) (hn : n = hist.length)
    {op : AOp} {y' : Sys} (hs : Sys.stepA H ⟨s, n⟩ op = .ok y') (hb : (op.after hist).length < 2 ^ 64)
    (hsafe : match op with | .append vs => NeverEmptied (latestMap hist) vs | .commit _ => True | .batch _ => True | .purge r => r < bar) :
    OwInv H y'.store (op.after hist) (lowAfter low [op]) bar ∧ y'.next = (op.after hist).length := by
  subst hn
  cases op with
  | purge r =>
    obtain ⟨s', h1, h2⟩ := h.purge hsafe
    unfold Sys.stepA at hs
    simp only [h1, ok_bind] at hs
    cases hs
    exact ⟨h2, rfl⟩
  | commit sets =>
    unfold Sys.stepA at hs
    obtain ⟨⟨r, s'⟩, h1, h2⟩ := bind_ok_inv hs
    cases h2
    have hb' : hist.length + sets.length < 2 ^ 64 := by simpa [AOp.after] using hb
    exact ⟨h.commit (by unfold preGenesisVersion u64Size; omega) h1, by simp [AOp.after]⟩
  | batch sets =>
    unfold Sys.stepA at hs
    obtain ⟨⟨r, s'⟩, h1, h2⟩ := bind_ok_inv hs
    cases h2
    have hb' : hist.length + sets.length < 2 ^ 64 := by simpa [AOp.after] using hb
    exact ⟨h.batch (by unfold preGenesisVersion u64Size; omega) h1, by simp [AOp.after]⟩
  | append vs =>
    unfold Sys.stepA at hs
    obtain ⟨⟨r, s'⟩, h1, h2⟩ := bind_ok_inv hs
    cases h2
    have hne : ∃ k x, latestMap hist k = some x := hsafe.1
    have hne' : hist ≠ [] := by
      rintro rfl
      obtain ⟨k, x, hx⟩ := hne
      cases hx
    obtain ⟨last, hl⟩ : ∃ last, hist.getLast? = some last := by
      cases hg : hist.getLast? with
      | none => exact absurd (List.getLast?_eq_none_iff.1 hg) hne'
      | some l => exact ⟨l, rfl⟩
    obtain ⟨init, rfl⟩ := List.getLast?_eq_some_iff.1 hl
    have hafter : AOp.after (init ++ [last]) (.append vs) = init ++ [last ++ vs] := by
      simp [AOp.after]
    rw [hafter] at hb ⊢
    simp only [List.length_append, List.length_singleton, Nat.add_sub_cancel] at h1 hb
    unfold Store.append at h1
    obtain ⟨⟨r', b⟩, h3, h4⟩ := bind_ok_inv h1
    obtain ⟨s1, h5, h6⟩ := bind_ok_inv h4
    cases h6
    -- the call was accepted
    obtain ⟨nk, l, ha, hv⟩ : ∃ nk l, s.getRightmostLeaf = some (nk, l) ∧ nk.version = init.length := by
      unfold appendValueSet at h3
      obtain ⟨tc, h7, -⟩ := bind_ok_inv h3
      unfold TreeCache.newOverwrite at h7
      have h7 : (match s.getRightmostLeaf with
        | none => (.error (.bail "creating an overwrite cache for an empty tree is not supported") : Except Err TreeCache)
        | some (nk, _) => if nk.version = init.length then
            .ok ⟨NodeKey.root init.length, init.length, [], [], 0, [], 0, Frozen.empty, s.reader⟩
          else .error (.bail "the supplied version is not the latest version of the tree")) = .ok tc := h7
      cases hg : s.getRightmostLeaf with
      | none => rw [hg] at h7; cases h7
      | some p =>
        obtain ⟨nk, l⟩ := p
        rw [hg] at h7
        simp only at h7
        split at h7
        · next hv => exact ⟨nk, l, rfl, hv⟩
        · cases h7
    obtain ⟨⟨M, W, i1, i2, i3, i4, i6⟩, i5⟩ := h
    obtain ⟨b', S, c1, -, -, -, -, -, -, c9⟩ := appendSet (vs := vs) i1 i2 i3 i4 i5
      (by unfold preGenesisVersion u64Size; omega) ha hv hsafe
    rw [h3] at c1
    cases c1
    exact ⟨c9 s' bar h5 i6, by simp⟩

theorem lowAfter_cons (low : Version) (op : AOp) (aops : List AOp) : lowAfter low (op :: aops) = lowAfter (lowAfter low [op]) aops := by
  cases op <;> rfl

theorem OwInv.runA {bar : Nat} {aops : List AOp} : ∀ {s : Store} {hist : List ValueSet} {low n : Nat}, OwInv H s hist low bar →
    n = hist.length → ∀ {y' : Sys}, Sys.runA H aops ⟨s, n⟩ = .ok y' → (setsAfter hist aops).length < 2 ^ 64 →
    SafeAppends bar hist aops →
    OwInv H y'.store (setsAfter hist aops) (lowAfter low aops) bar ∧ y'.next = (setsAfter hist aops).length := by
  induction aops with
  | nil =>
    intro s hist low n h hn y' hr hb hs
    unfold Sys.runA at hr
    cases hr
    exact ⟨h, hn⟩
  | cons op aops ih =>
    intro s hist low n h hn y' hr hb hs
    unfold Sys.runA at hr
    obtain ⟨y1, h1, h2⟩ := bind_ok_inv hr
    have hb1 : (op.after hist).length < 2 ^ 64 := Nat.lt_of_le_of_lt (length_setsAfter aops _) hb
    obtain ⟨a1, a2⟩ := h.stepA hn h1 hb1 hs.1
    rw [lowAfter_cons]
    exact ih a1 a2 h2 hb hs.2

/-- C39: after any history, followed by any successful commits (through either API), appends and purges (in any order) whose appended writes never delete
from an empty map and whose purges are of versions below the one that was the latest when the appends began, every version still promised
is readable and holds the map of the value sets, where an append counts as part of the last value set.  Missing: appends that delete from an
empty map, and purges of the appended versions (both fail, see below). -/
theorem C39_append_keeps_map_partial (hr : Reached H ops y) {aops : List AOp} (hrun : Sys.runA H aops y = .ok y')
    (hb : (setsAfter (setsOf ops) aops).length < 2 ^ 64) (hsafe : SafeAppends ((setsOf ops).length - 1) (setsOf ops) aops) {v : Version}
    (h1 : lowAfter (horizon ops).2 aops ≤ v) (h2 : v < (setsAfter (setsOf ops) aops).length) {es}
    (hes : Lists H (Spec.stateAfter Spec.Map.empty (setsAfter (setsOf ops) aops) (v + 1)) es) :
    getRootHash H y'.store.reader v = .ok (Spec.root H es) ∧
    getLeafCount y'.store.reader v = .ok es.length ∧
    ∀ k, let x := Spec.stateAfter Spec.Map.empty (setsAfter (setsOf ops) aops) (v + 1) k
      get y'.store.reader k v = .ok x ∧
      ∃ P, getWithProof H y'.store.reader k v = .ok (x, P) ∧
        (∀ z, x = some z → P.verifyExistence H (Spec.root H es) k z = .ok ()) ∧
        (x = none → P.verifyNonexistence H (Spec.root H es) k = .ok ()) := by
  have hb0 : (setsOf ops).length < 2 ^ 64 := Nat.lt_of_le_of_lt (length_setsAfter aops _) hb
  obtain ⟨hn, hi⟩ := hr.inv hb0
  obtain ⟨hR, -⟩ := (hi.owInv (bar := (setsOf ops).length - 1) (Nat.le_refl _)).runA hn (s := y.store) (n := y.next) hrun hb hsafe
  have r := hR.reads.readAt h1 h2
  have hp := lists_perm r.lists hes
  refine ⟨by rw [r.rootHash, root_perm hp], by rw [r.leafCount]; exact congrArg Except.ok hp.length_eq,
    fun k => ⟨?_, _, r.gwp k, fun z hz => ?_, fun hz => ?_⟩⟩
  · exact r.value k
  · rw [← root_perm hp, root_eq_sh]
    exact specProof_verifies_existence r.nodup ((r.lists.mem k _).2 ⟨z, hz, rfl⟩)
  · rw [← root_perm hp, root_eq_sh]
    refine specProof_verifies_nonexistence r.nodup fun vh hc => ?_
    obtain ⟨x, h, -⟩ := (r.lists.mem k _).1 hc
    rw [hz] at h; cases h

/-- C39: in such a history the purges themselves never fail. -/
theorem C39_purge_succeeds_partial (hr : Reached H ops y) {aops : List AOp} (hrun : Sys.runA H aops y = .ok y')
    (hb : (setsAfter (setsOf ops) aops).length < 2 ^ 64) (hsafe : SafeAppends ((setsOf ops).length - 1) (setsOf ops) aops) {r : Version}
    (hlt : r + 1 < (setsOf ops).length) : ∃ s', y'.store.purgeStaleNodes r = .ok s' := by
  have hb0 : (setsOf ops).length < 2 ^ 64 := Nat.lt_of_le_of_lt (length_setsAfter aops _) hb
  obtain ⟨hn, hi⟩ := hr.inv hb0
  obtain ⟨hR, -⟩ := (hi.owInv (bar := (setsOf ops).length - 1) (Nat.le_refl _)).runA hn (s := y.store) (n := y.next) hrun hb hsafe
  obtain ⟨s', h, -⟩ := hR.purge (r := r) (by omega)
  exact ⟨s', h⟩

theorem Store.write_ow {s : Store} (how : s.allowOverwrite = true) {b : TreeUpdateBatch} {vals' : AMap KeyHash (List (Version × Option Value))}
    (hv : Store.insertValues (b.nodeBatch.values.mergeSort Store.valueKeyLe) s.values = .ok vals')
    (hst : (s.stale ++ b.staleNodeIndexBatch).Nodup) : ∃ s', s.writeTreeUpdateBatch b = .ok s' := by
  have h1 : Store.insertNodes s.allowOverwrite b.nodeBatch.nodes s.nodes = .ok (AMap.extend s.nodes b.nodeBatch.nodes) := by
    rw [how]; exact insertNodes_ow _ _
  unfold Store.writeTreeUpdateBatch Store.writeNodeBatch
  rw [h1, ok_bind, hv, ok_bind, ok_bind]
  simp only []
  rw [Store.insertStale_ok _ _ hst, ok_bind]
  exact ⟨_, rfl⟩

theorem HistInv.fresh_stale {G : Nodes} {st : List StaleNodeIndex} {n low : Nat} {M : Nat → List Spec.Entry}
    {W : Nat → List Nibble → Version} (h : HistInv H G st n low M W) (hn : 0 < n) (hW : W (n - 1) [] = n - 1)
    {S : List NodeKey} (hS : S.Nodup)
    (hmem : ∀ w q, (⟨w, q⟩ : NodeKey) ∈ S → pres (M (n - 1)) [] q ∧ w = W (n - 1) q) :
    (st ++ S.map (fun k => (⟨n - 1, k⟩ : StaleNodeIndex))).Nodup := by
  rw [List.nodup_append]
  refine ⟨List.Pairwise.of_map _ (fun a b hab hc => hab (by rw [hc])) h.staleNodup,
    List.Pairwise.map _ (fun a b hab hc => hab (congrArg StaleNodeIndex.nodeKey hc)) hS, ?_⟩
  rintro a ha b hb rfl
  obtain ⟨⟨w, q⟩, hk, rfl⟩ := List.mem_map.1 hb
  obtain ⟨h1, h2⟩ := hmem w q hk
  obtain ⟨-, s2, -, s4⟩ := h.stale _ ha
  simp only at s2 s4
  by_cases hq : q = []
  · subst hq; omega
  · exact s4 hq (n - 1) (Nat.le_refl _) (by omega) ⟨h1, h2.symm⟩

/-- C39: after any history of commits, batches and purges on a store that allows overwriting, if the rightmost leaf that the
store reports belongs to the latest version, `append_value_set` at the latest version and the write of its batch succeed,
and the call returns the root of the updated map.  Missing: deletions from an empty map, a rightmost leaf of an older
version, a second append at the same version (all three fail, see below). -/
theorem C39_append_succeeds_partial (hr : Reached H ops y) (hb : (setsOf ops).length < 2 ^ 64)
    (how : y.store.allowOverwrite = true) {nk : NodeKey} {l : LeafNode}
    (hacc : y.store.reader.getRightmostLeaf = .ok (some (nk, l))) (hv : nk.version + 1 = y.next) {vs : ValueSet}
    (hsafe : NeverEmptied (latestMap (setsOf ops)) vs) {es}
    (hes : Lists H ((latestMap (setsOf ops)).writes vs) es) :
    ∃ s', y.store.append H vs (y.next - 1) = .ok (Spec.root H es, s') := by
  obtain ⟨hn, ⟨M, W, i1, i2, i3, i4⟩, -, i6⟩ := hr.inv hb
  obtain ⟨init, last, hs⟩ : ∃ init last, setsOf ops = init ++ [last] := by
    have : setsOf ops ≠ [] := by intro hc; rw [hc] at hn; simp at hn; omega
    exact ⟨_, _, (List.dropLast_concat_getLast this).symm⟩
  rw [hs] at i1 i2 i3 i4 i6 hn hb hes hsafe
  have hlen : (init ++ [last]).length = init.length + 1 := by simp
  rw [hlen] at hn hb
  have hacc : y.store.getRightmostLeaf = some (nk, l) := Except.ok.inj hacc
  obtain ⟨b, S, c1, c2, c3, c4, c5, c6, -⟩ := appendSet (vs := vs) i1.toT i2 i3 i4.1 i6
    (by unfold preGenesisVersion u64Size; omega) hacc (by omega) hsafe
  have hst := i1.fresh_stale (S := S) (by simp) (by rw [hlen]; exact c5) c3 (by rw [hlen]; exact c4)
  rw [hlen] at hst
  obtain ⟨vals', v1, -⟩ := values_over i6 c6
  have hroot : sh H (entriesAfter H (init ++ [last ++ vs]) (init.length + 1)) [] = Spec.root H es := by
    rw [← root_eq_sh]
    refine root_perm (lists_perm (s := (latestMap (init ++ [last])).writes vs) ?_ hes)
    have hl := lists_entriesAfter H (init ++ [last ++ vs]) (init.length + 1)
    rw [stateAfter_extend] at hl
    unfold latestMap
    rw [hlen]
    exact hl
  obtain ⟨s', hw⟩ := Store.write_ow how v1 (b := b) (by rw [c2]; simpa using hst)
  refine ⟨s', ?_⟩
  unfold Store.append
  rw [show y.next - 1 = init.length by omega, c1, ok_bind, hroot]
  simp only []
  rw [hw, ok_bind]

/-- C39: the call is refused on a store that reports no leaf. -/
theorem C39_append_refuses_empty (R : Reader) (hacc : R.getRightmostLeaf = .ok none) (vs : ValueSet) (v : Version) :
    ∃ e, appendValueSet H R vs v = .error (.bail e) := by
  unfold appendValueSet TreeCache.newOverwrite
  rw [hacc, ok_bind]
  exact ⟨_, rfl⟩

/-- C39: the call is refused at any version other than that of the rightmost leaf the store reports. -/
theorem C39_append_refuses_other_version (R : Reader) {nk : NodeKey} {l : LeafNode}
    (hacc : R.getRightmostLeaf = .ok (some (nk, l))) (vs : ValueSet) {v : Version} (hv : nk.version ≠ v) :
    ∃ e, appendValueSet H R vs v = .error (.bail e) := by
  unfold appendValueSet TreeCache.newOverwrite
  rw [hacc, ok_bind]
  simp only [if_neg hv]
  exact ⟨_, rfl⟩

namespace Sample

def bailed {α : Type} : Except Err α → Bool
  | .error (.bail _) => true
  | _ => false

theorem of_bailed {α : Type} {e : Except Err α} (h : bailed e = true) : ∃ m, e = .error (.bail m) := by
  cases e with
  | ok a => cases h
  | error x => cases x with
    | bail m => exact ⟨m, rfl⟩
    | _ => cases h

/-- The store after committing one write per version, on a store that allows overwriting. -/
def owStore (ws : List (KeyHash × Option Value)) : Except Err Sys :=
  Sys.run T (ws.map (fun w => .commit [[w]])) ⟨Store.new true, 0⟩

/-- C39 is false of the code (1): after `{0x10 ↦ 1}` at version 0, appending the deletions of `0x10` and of the absent key
`0x1f` returns the root of the old map, although the map is now empty. -/
theorem _root_.Jmt.C39_delete_all_then_delete_fails : ∃ y h b, Reached T [.commit [[(key 0x10, some [1])]]] y ∧
    appendValueSet T y.store.reader [(key 0x10, none), (key 0x1f, none)] 0 = .ok (h, b) ∧
    h = Spec.root T [(key 0x10, T.hash [1])] ∧ h ≠ Spec.root T [] := by
  have key : okAnd (owStore [(key 0x10, some [1])]) (fun y =>
      okAnd (appendValueSet T y.store.reader [(Sample.key 0x10, none), (Sample.key 0x1f, none)] 0) (fun r =>
        decide (r.1 = Spec.root T [(Sample.key 0x10, T.hash [1])] ∧ r.1 ≠ Spec.root T []))) = true := by decide +kernel
  obtain ⟨y, hy, key⟩ := of_okAnd key
  obtain ⟨r, hr, key⟩ := of_okAnd key
  obtain ⟨h1, h2⟩ := of_decide_eq_true key
  exact ⟨y, r.1, r.2, ⟨true, hy⟩, hr, h1, h2⟩

/-- C39 is false of the code (2): one deletion more and the call panics. -/
theorem _root_.Jmt.C39_delete_all_twice_panics : ∃ y m, Reached T [.commit [[(key 0x10, some [1])]]] y ∧
    appendValueSet T y.store.reader [(key 0x10, none), (key 0x1f, none), (key 0x10, none)] 0 = .error (.panic m) := by
  have key : okAnd (owStore [(key 0x10, some [1])]) (fun y =>
      panicked (appendValueSet T y.store.reader
        [(Sample.key 0x10, none), (Sample.key 0x1f, none), (Sample.key 0x10, none)] 0)) = true := by decide +kernel
  obtain ⟨y, hy, key⟩ := of_okAnd key
  obtain ⟨m, hm⟩ := of_panicked key
  exact ⟨y, m, ⟨true, hy⟩, hm⟩

/-- C39 is false of the code (3): the stale entries of an append name the nodes it has just rewritten, so pruning at
version 0 makes version 0, the latest one, unreadable. -/
theorem _root_.Jmt.C39_purge_destroys_latest : ∃ y h s' s'', Reached T [.commit [[(key 0x10, some [1])]]] y ∧
    y.store.append T [(key 0x10, some [5])] 0 = .ok (h, s') ∧ s'.purgeStaleNodes 0 = .ok s'' ∧
    getWithProof T s''.reader (key 0x10) 0 = .error (.missingRoot 0) := by
  have key : okAnd (owStore [(key 0x10, some [1])]) (fun y =>
      okAnd (y.store.append T [(Sample.key 0x10, some [5])] 0) (fun r =>
        okAnd (r.2.purgeStaleNodes 0) (fun s => match getWithProof T s.reader (Sample.key 0x10) 0 with
          | .error (.missingRoot 0) => true
          | _ => false))) = true := by decide +kernel
  obtain ⟨y, hy, key⟩ := of_okAnd key
  obtain ⟨r, hr, key⟩ := of_okAnd key
  obtain ⟨s, hs, key⟩ := of_okAnd key
  refine ⟨y, r.1, r.2, s, ⟨true, hy⟩, hr, hs, ?_⟩
  split at key
  · next h => exact h
  · cases key

/-- C39 is false of the code (4): the version check looks at the rightmost leaf of the whole store, which need not have been
written at the latest version: appending at the latest version 2 is refused, appending at version 1 is accepted. -/
theorem _root_.Jmt.C39_latest_refused : ∃ y m h b,
    Reached T [.commit [[(key 0x10, some [1])]], .commit [[(key 0x80, some [3])]], .commit [[(key 0x1f, some [2])]]] y ∧
    y.next = 3 ∧ appendValueSet T y.store.reader [(key 0x10, some [5])] 2 = .error (.bail m) ∧
    appendValueSet T y.store.reader [(key 0x10, some [5])] 1 = .ok (h, b) := by
  have key : okAnd (owStore [(key 0x10, some [1]), (key 0x80, some [3]), (key 0x1f, some [2])]) (fun y =>
      decide (y.next = 3) && bailed (appendValueSet T y.store.reader [(Sample.key 0x10, some [5])] 2) &&
      okAnd (appendValueSet T y.store.reader [(Sample.key 0x10, some [5])] 1) (fun _ => true)) = true := by decide +kernel
  obtain ⟨y, hy, key⟩ := of_okAnd key
  simp only [Bool.and_eq_true, decide_eq_true_eq] at key
  obtain ⟨⟨h1, h2⟩, h3⟩ := key
  obtain ⟨m, hm⟩ := of_bailed h2
  obtain ⟨r, hr, -⟩ := of_okAnd h3
  exact ⟨y, m, r.1, r.2, ⟨true, hy⟩, h1, hm, hr⟩

/-- C39 is false of the code (5): the batch of a second append at the same version cannot be written to the in-memory
store, because it retires the same nodes at the same version again. -/
theorem _root_.Jmt.C39_second_append_fails : ∃ y h s' m, Reached T [.commit [[(key 0x10, some [1])]]] y ∧
    y.store.append T [(key 0x10, some [5])] 0 = .ok (h, s') ∧
    s'.append T [(key 0x10, some [6])] 0 = .error (.bail m) := by
  have key : okAnd (owStore [(key 0x10, some [1])]) (fun y =>
      okAnd (y.store.append T [(Sample.key 0x10, some [5])] 0) (fun r =>
        bailed (r.2.append T [(Sample.key 0x10, some [6])] 0))) = true := by decide +kernel
  obtain ⟨y, hy, key⟩ := of_okAnd key
  obtain ⟨r, hr, key⟩ := of_okAnd key
  obtain ⟨m, hm⟩ := of_bailed key
  exact ⟨y, r.1, r.2, m, ⟨true, hy⟩, hr, hm⟩

/-- The rightmost leaf of a store with one leaf at version 0 and one to its right at version 1. -/
def owOps : List Op := [.commit [[(key 0x10, some [1])]], .commit [[(key 0x80, some [3])]]]

/-- Operations that meet the hypotheses of `C39_append_keeps_map_partial`. -/
def owTail : List AOp := [.append [(key 0x80, some [7])], .batch [[(key 0x1f, [2])]], .purge 0]

theorem safeTail : SafeAppends ((setsOf owOps).length - 1) (setsOf owOps) owTail := by
  refine ⟨⟨⟨key 0x10, [1], by decide⟩, ?_⟩, trivial, by decide, trivial⟩
  intro pre k post h
  cases pre with
  | nil => simp at h
  | cons a pre => simp at h

/-- The hypotheses of `C39_append_keeps_map_partial` are met: two commits, an append and a commit with the batch API, after which version 1
holds the appended value. -/
theorem ow_reached : ∃ y y', Reached T owOps y ∧ Sys.runA T owTail y = .ok y' ∧
    get y'.store.reader (key 0x80) 1 = .ok (some [7]) ∧ get y'.store.reader (key 0x80) 0 = .ok none ∧
    getLeafCount y'.store.reader 1 = .ok 2 ∧ getLeafCount y'.store.reader 2 = .ok 3 := by
  have key : okAnd (owStore [(key 0x10, some [1]), (key 0x80, some [3])]) (fun y => okAnd (Sys.runA T owTail y) (fun _ => true)) = true := by
    decide +kernel
  obtain ⟨y, hy, key⟩ := of_okAnd key
  obtain ⟨y', hy', -⟩ := of_okAnd key
  have hr : Reached T owOps y := ⟨true, hy⟩
  have hb : (setsAfter (setsOf owOps) owTail).length < 2 ^ 64 := by decide
  have h0 := C39_append_keeps_map_partial hr hy' hb safeTail (v := 0) (by decide) (by decide)
    (lists_entriesAfter T _ _)
  have h1 := C39_append_keeps_map_partial hr hy' hb safeTail (v := 1) (by decide) (by decide)
    (lists_entriesAfter T _ _)
  have h2 := C39_append_keeps_map_partial hr hy' hb safeTail (v := 2) (by decide) (by decide)
    (lists_entriesAfter T _ _)
  refine ⟨y, y', hr, hy', (h1.2.2 (Sample.key 0x80)).1, (h0.2.2 (Sample.key 0x80)).1, ?_, ?_⟩
  · rw [h1.2.1]; exact congrArg Except.ok (by decide +kernel)
  · rw [h2.2.1]; exact congrArg Except.ok (by decide +kernel)

/-- A purge among the appends: three commits, an append at version 2, another commit, a purge up to version 1. -/
example : ∃ y y', Reached T (owOps ++ [.commit [[(key 0x90, some [5])]]]) y ∧
    Sys.runA T [.append [(key 0x90, some [7])], .commit [[(key 0x1f, some [2])]], .purge 1] y = .ok y' ∧
    get y'.store.reader (key 0x90) 2 = .ok (some [7]) ∧ getLeafCount y'.store.reader 1 = .ok 2 ∧ getLeafCount y'.store.reader 3 = .ok 4 := by
  have hk : okAnd (owStore [(key 0x10, some [1]), (key 0x80, some [3]), (key 0x90, some [5])]) (fun y =>
      okAnd (Sys.runA T [.append [(key 0x90, some [7])], .commit [[(key 0x1f, some [2])]], .purge 1] y) (fun _ => true)) = true := by
    decide +kernel
  obtain ⟨y, hy, hk⟩ := of_okAnd hk
  obtain ⟨y', hy', -⟩ := of_okAnd hk
  have hr : Reached T (owOps ++ [.commit [[(key 0x90, some [5])]]]) y := ⟨true, hy⟩
  have hs : SafeAppends ((setsOf (owOps ++ [.commit [[(key 0x90, some [5])]]])).length - 1) (setsOf (owOps ++ [.commit [[(key 0x90, some [5])]]]))
      [.append [(key 0x90, some [7])], .commit [[(key 0x1f, some [2])]], .purge 1] := by
    refine ⟨⟨⟨key 0x10, [1], by decide⟩, ?_⟩, trivial, by decide, trivial⟩
    intro pre k post h
    cases pre with
    | nil => simp at h
    | cons a pre => simp at h
  have h1 := C39_append_keeps_map_partial hr hy' (by decide) hs (v := 1) (by decide) (by decide) (lists_entriesAfter T _ _)
  have h2 := C39_append_keeps_map_partial hr hy' (by decide) hs (v := 2) (by decide) (by decide) (lists_entriesAfter T _ _)
  have h3 := C39_append_keeps_map_partial hr hy' (by decide) hs (v := 3) (by decide) (by decide) (lists_entriesAfter T _ _)
  refine ⟨y, y', hr, hy', (h2.2.2 (Sample.key 0x90)).1, ?_, ?_⟩
  · rw [h1.2.1]; exact congrArg Except.ok (by decide +kernel)
  · rw [h3.2.1]; exact congrArg Except.ok (by decide +kernel)

/-- The hypotheses of `C39_append_succeeds_partial` are met. -/
example : ∃ y s', Reached T owOps y ∧
    y.store.append T [(key 0x80, some [7])] 1 = .ok (Spec.root T [(key 0x10, T.hash [1]), (key 0x80, T.hash [7])], s') := by
  have hk : okAnd (owStore [(key 0x10, some [1]), (key 0x80, some [3])]) (fun y =>
      decide (y.next = 2) && y.store.allowOverwrite && (match y.store.getRightmostLeaf with
        | some (nk, _) => decide (nk.version = 1)
        | none => false)) = true := by decide +kernel
  obtain ⟨y, hy, hk⟩ := of_okAnd hk
  have hr : Reached T owOps y := ⟨true, hy⟩
  simp only [Bool.and_eq_true, decide_eq_true_eq] at hk
  obtain ⟨⟨h1, h2⟩, h3⟩ := hk
  cases hg : y.store.getRightmostLeaf with
  | none => rw [hg] at h3; cases h3
  | some p =>
    obtain ⟨nk, l⟩ := p
    rw [hg] at h3
    have hv : nk.version = 1 := of_decide_eq_true h3
    obtain ⟨s', hs⟩ := C39_append_succeeds_partial hr (by decide) h2 (nk := nk) (l := l)
      (by show Except.ok _ = _; rw [hg]) (by omega) safeTail.1
      (lists_entriesAfter T [[(key 0x10, some [1])], [(key 0x80, some [3])], [(key 0x80, some [7])]] 3)
    rw [h1, show Spec.root T (entriesAfter T [[(key 0x10, some [1])], [(key 0x80, some [3])], [(key 0x80, some [7])]] 3) =
      Spec.root T [(key 0x10, T.hash [1]), (key 0x80, T.hash [7])] by decide +kernel] at hs
    exact ⟨y, s', hr, hs⟩

end Sample
end Jmt
