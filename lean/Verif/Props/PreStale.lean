import Verif.Proofs.PreStale
import Verif.Proofs.MockWrite
import Verif.Props.PreGenesis
/-!
# C45: the update over a pre-genesis tree, and pruning after it; C40: what any accepted write shows
-/
namespace Jmt
open Spec (Entry)

section
variable {H : Hasher} {m : List Entry} {mp : Spec.Map}

/-- C40: whatever the in-memory store holds, if it accepts a batch (a B-tree: no key occurs twice), then afterwards every node and value
of the batch is read back and everything else reads as before. -/
theorem C40_accepted_write_is_stored {s s' : Store} {b : TreeUpdateBatch} (hn : b.nodeBatch.nodes.NodupKeys) (hv : b.nodeBatch.values.NodupKeys)
    (h : s.writeTreeUpdateBatch b = .ok s') : Spec.Written b.nodeBatch s'.reader s.reader :=
  mock_written_update hn hv h

/-- The version before version `j` of a history over a pre-genesis tree. -/
def versionBefore : Nat → Version
  | 0 => preGenesisVersion
  | j + 1 => j

/-- The update over a pre-genesis tree, and what pruning leaves. -/
theorem pre_update {s : Store} (hl : Spec.Lists H mp m) (hne : m ≠ [])
    (ht : TreeAt H s.reader.getNodeOption preGenesisVersion m (fun _ => preGenesisVersion))
    (hfresh : ∀ w, w < preGenesisVersion → s.reader.getNodeOption ⟨w, []⟩ = .ok none) (hst : s.stale = [])
    {ws : ValueSet} {rest : List ValueSet} (hL : Spec.TakesEffect mp ws) (hle : rest.length + 1 < preGenesisVersion)
    {hs : List Digest} {b : TreeUpdateBatch} {s1 : Store} (hp : putValueSets H s.reader (ws :: rest) 0 = .ok (hs, b))
    (hw : s.writeTreeUpdateBatch b = .ok s1) :
    (b.nodeStats.length = rest.length + 1 ∧ ∀ j, j < rest.length + 1 → b.nodeStats[j]? = some
      { newNodes := b.nodeBatch.nodes.countP (fun e => e.1.version == j)
        newLeaves := b.nodeBatch.nodes.countP (fun e => e.1.version == j && e.2.isLeaf)
        staleNodes := s1.stale.countP (fun x => x.staleSince == j)
        staleLeaves := s1.stale.countP (fun x => x.staleSince == j &&
          ((s1.nodes.get? x.nodeKey).map Node.isLeaf).getD false) }) ∧
    (∀ j, j < rest.length + 1 → ∀ k : NodeKey, k.path ≠ [] →
      ((⟨j, k⟩ : StaleNodeIndex) ∈ s1.stale ↔ ReachFrom s1 (versionBefore j) k ∧ ¬ ReachFrom s1 j k)) ∧
    ∀ r, ∃ s2, s1.purgeStaleNodes r = .ok s2 ∧
      ∀ j, j < rest.length + 1 → r ≤ j ∨ j = rest.length → ∀ es, Spec.Lists H (Spec.stateAfter mp (ws :: rest) (j + 1)) es →
        getRootHash H s2.reader j = .ok (Spec.root H es) ∧ getLeafCount s2.reader j = .ok es.length ∧
        ∀ k, (Spec.stateAfter mp (ws :: rest) (j + 1) k = none ∨
            ∃ u wu, u ≤ j ∧ (ws :: rest)[u]? = some wu ∧ k ∈ wu.map Prod.fst) →
          ∃ P, getWithProof H s2.reader k j = .ok (Spec.stateAfter mp (ws :: rest) (j + 1) k, P) ∧
            P.verify H (Spec.root H es) k (Spec.stateAfter mp (ws :: rest) (j + 1) k) = .ok () := by
  obtain ⟨tc, pss, tc', infos, a1, a2, a3, a4, a5, -, -⟩ := pre_putSets (wp := false) (rest := rest) hl.nodup hne ht hfresh (leaves_of hl hL) (by omega)
  have hlen : infos.length = rest.length + 1 := by rw [← List.length_map (f := StepInfo.ws), a3]; rfl
  have hb : b = tc'.finish.2 := by
    unfold putValueSets at hp
    rw [a1, ok_bind, a2] at hp
    cases hp; rfl
  subst hb
  have hold : ∀ q, pres m [] q → Old 0 ((fun _ => preGenesisVersion : List Nibble → Version) q) := fun _ _ => ⟨(by decide : preGenesisVersion ≠ 0), .inr rfl⟩
  have a4' : Run H 0 (nb s.nodes.get?) m (fun _ => preGenesisVersion) infos := a4
  obtain ⟨p1, p2⟩ := pushAll_nodes (H := H) (V := 0) (B := s.reader.getNodeOption) (m := m) (f := Frozen.empty) a4.nodup
  obtain ⟨p5, p6⟩ := pushAll_values (H := H) (f := Frozen.empty) a4
  have hN : tc'.finish.2.nodeBatch.nodes.NodupKeys := by
    show tc'.frozen.nodeBatch.nodes.NodupKeys
    rw [a5]; exact p2 AMap.nodupKeys_nil
  have hVn : tc'.finish.2.nodeBatch.values.NodupKeys := by
    show tc'.frozen.nodeBatch.values.NodupKeys
    rw [a5]; exact p6 AMap.nodupKeys_nil
  have hget : ∀ k, tc'.finish.2.nodeBatch.nodes.get? k = foldG (fun _ => none) infos k := by
    intro k
    have := congrFun (p1 (fun _ => none)) k
    rw [← a5] at this
    have h2 : overG Frozen.empty.nodeBatch.nodes (fun _ => none) = (fun _ => none) := by funext k; rfl
    rw [h2] at this
    show tc'.frozen.nodeBatch.nodes.get? k = _
    rw [← this]
    unfold overG
    cases tc'.frozen.nodeBatch.nodes.get? k <;> rfl
  obtain ⟨w1, w2, w3, w4⟩ := write_inv hw
  have hs1 : ∀ k, s1.nodes.get? k = foldG s.nodes.get? infos k := by
    intro k
    have h := congrFun (p1 s.nodes.get?) k
    rw [← a5] at h
    have he : overG Frozen.empty.nodeBatch.nodes s.nodes.get? = s.nodes.get? := by funext k; rfl
    rw [he] at h
    rw [← h, w1, get?_extend_overG hN]
    rfl
  have hstale : s1.stale = stAll 0 infos := by
    rw [w3, hst]
    show [] ++ tc'.frozen.stale = _
    rw [a5, pushAll_stale a4 (by intro x hx; cases hx)]
    rfl
  have hstats : tc'.finish.2.nodeStats = statAll H (nb s.nodes.get?) infos := by
    show tc'.frozen.stats = _
    rw [a5, pushAll_stats]; rfl
  have hle' : 0 + infos.length ≤ preGenesisVersion := by omega
  have hre : ∀ j, runEntries H m infos j = preEntries H m (ws :: rest) j := by
    intro j; unfold runEntries preEntries; rw [a3]
  have hnd : ∀ j, NodupE (preEntries H m (ws :: rest) j) := fun j => foldl_nodupE _ hl.nodup
  have htree : ∀ j i, infos[j]? = some i → TreeAt H s1.reader.getNodeOption j (preEntries H m (ws :: rest) (j + 1)) i.ver := by
    intro j i hi
    obtain ⟨m', -, b2, b3, -⟩ := a4'.treesN hold hle' hl.nodup j i hi
    rw [b2, a3, Nat.zero_add] at b3
    have : s1.reader.getNodeOption = nb (foldG s.nodes.get? infos) := by
      funext k
      show Except.ok (s1.nodes.get? k) = _
      rw [hs1]; rfl
    rw [this]
    exact b3
  have hsamepre : ∀ q, s1.nodes.get? ⟨preGenesisVersion, q⟩ = s.nodes.get? ⟨preGenesisVersion, q⟩ := by
    intro q
    rw [hs1]
    exact foldG_ge a4 _ (by show 0 + infos.length ≤ preGenesisVersion; omega)
  have htpre : TreeAt H s1.reader.getNodeOption preGenesisVersion m (fun _ => preGenesisVersion) := by
    constructor
    · show Except.ok (s1.nodes.get? _) = _
      rw [hsamepre]; exact ht.root
    · intro q h1 h2
      show Except.ok (s1.nodes.get? _) = _
      rw [hsamepre]; exact ht.node q h1 h2
  have hbefore : ∀ j, j < infos.length →
      TreeAt H s1.reader.getNodeOption (versionBefore j) (preEntries H m (ws :: rest) j) (runVer (fun _ => preGenesisVersion) infos j) := by
    intro j hj
    cases j with
    | zero => exact htpre
    | succ j =>
      obtain ⟨i, hi⟩ : ∃ i, infos[j]? = some i := ⟨infos[j], List.getElem?_eq_getElem (by omega)⟩
      rw [runVer_succ hi]
      exact htree j i hi
  refine ⟨⟨by rw [hstats, statAll_length, hlen], fun j hj => ?_⟩, fun j hj k hk => ?_, fun r => ?_⟩
  · obtain ⟨i, hi⟩ : ∃ i, infos[j]? = some i := ⟨infos[j], List.getElem?_eq_getElem (by omega)⟩
    rw [hstats, hstale]
    have := stats_of_run (V := 0) a4' hN hget hs1 (fun x hx => by
      obtain ⟨j', i', e1, e2, e3⟩ := mem_stAll hx
      obtain ⟨-, -, ⟨-, ho⟩, -⟩ := a4'.stale_old hold hle' e1 e3
      rcases ho with ho | ho <;> omega) hi
    rw [Nat.zero_add] at this
    exact this
  · obtain ⟨i, hi⟩ : ∃ i, infos[j]? = some i := ⟨infos[j], List.getElem?_eq_getElem (by omega)⟩
    rw [(hbefore j (by omega)).reach_iff (hnd j), (htree j i hi).reach_iff (hnd _), hstale, mem_stAll_run]
    obtain ⟨⟨B', d⟩, -⟩ := a4'.delta hold hle' j i hi
    rw [hre, hre] at d
    have hiff : (∃ (j' : Nat) (i' : StepInfo), infos[j']? = some i' ∧ j = 0 + j' ∧ k ∈ i'.S) ↔ k ∈ i.S := by
      constructor
      · rintro ⟨j', i', e1, e2, e3⟩
        rw [Nat.zero_add] at e2
        subst e2
        rw [hi] at e1
        cases e1
        exact e3
      · intro h; exact ⟨j, i, hi, by omega, h⟩
    rw [hiff]
    obtain ⟨w, q⟩ := k
    simp only at hk
    rw [d.stale]
    simp only [NodeKey.mk.injEq, hk, and_false, false_or, ne_eq, not_false_eq_true, true_and]
    constructor
    · rintro ⟨e1, e2, e3⟩; exact ⟨⟨e1, e2.symm⟩, e3⟩
    · rintro ⟨⟨e1, e2⟩, e3⟩; exact ⟨e1, e2.symm, e3⟩
  · have hnd1 : (s1.stale.map StaleNodeIndex.nodeKey).Nodup := by rw [hstale]; exact a4'.stale_nodup hold hle'
    have hex : ∀ x ∈ s1.stale, ∃ nd, s1.nodes.get? x.nodeKey = some nd := by
      intro x hx
      rw [hs1]
      refine a4'.stale_stored hold hle' (fun q hq => ?_) x (by rw [← hstale]; exact hx)
      by_cases hq' : q = []
      · subst hq'; exact ⟨_, Except.ok.inj ht.root⟩
      · exact ⟨_, Except.ok.inj (ht.node q hq' hq)⟩
    obtain ⟨s2, c1, c2, -, -, -, -, c7⟩ := Store.purgeLoop_ok (s1.stale.filter (fun i => decide (i.staleSince ≤ r))) s1
      (hnd1.sublist (List.filter_sublist.map _)) (fun x hx => hex x (List.mem_filter.1 hx).1)
    refine ⟨s2, c1, fun j hj hr es hes => ?_⟩
    obtain ⟨i, hi⟩ : ∃ i, infos[j]? = some i := ⟨infos[j], List.getElem?_eq_getElem (by omega)⟩
    have t := htree j i hi
    have hkeep : ∀ k : NodeKey, (∀ (j' : Nat) (i' : StepInfo), infos[j']? = some i' → j' ≤ j → k ∉ i'.S) → s2.nodes.get? k = s1.nodes.get? k := by
      intro k hk
      rw [c7, if_neg]
      rintro ⟨x, hx, rfl⟩
      simp only [List.mem_filter, decide_eq_true_eq, hstale] at hx
      obtain ⟨j', i', e1, e2, e3⟩ := mem_stAll hx.1
      have := (List.getElem?_eq_some_iff.1 e1).1
      exact hk j' i' e1 (by omega) e3
    have hwr := (mock_written_update hN hVn hw)
    have h0 : PreInv H mp m s.reader [] := ⟨hl.nodup, fun j hj => by simp at hj, fun w _ h => hfresh w h, by
      rintro j k ⟨u, wu, -, h, -⟩; simp at h⟩
    have hpi := h0.written (ver := fun _ => preGenesisVersion) (infos := infos) (tc' := tc') (R' := s1.reader)
      (by simp only [List.length_nil]; omega) hold a4 a5 hwr
    rw [a3, List.nil_append] at hpi
    refine pre_queries (ver' := i.ver) hl ?_ ?_ hes
    · constructor
      · show Except.ok (s2.nodes.get? ⟨j, []⟩) = _
        rw [hkeep _ (fun j' i' e1 e2 e3 => by
          obtain ⟨-, -, ⟨-, ho⟩, -⟩ := a4'.stale_old hold hle' e1 e3
          have ho : j < 0 + j' ∨ j = preGenesisVersion := ho
          omega)]
        exact t.root
      · intro q h1 h2
        show Except.ok (s2.nodes.get? ⟨i.ver q, q⟩) = _
        rw [hkeep _ (fun j' i' e1 e2 e3 => by
          have hjl := (List.getElem?_eq_some_iff.1 e1).1
          refine a4'.stale_gone hold hle' e1 e3 (l := j + 1) (by omega) (by omega) ⟨?_, ?_⟩
          · rw [hre]; exact h2
          · rw [runVer_succ hi])]
        exact t.node q h1 h2
    · intro k hk
      have := hpi.value j k hk
      show Except.ok (s2.getValueOption j k) = _
      rw [← this]
      show Except.ok (s2.getValueOption j k) = Except.ok (s1.getValueOption j k)
      rw [getValueOption_valueIn, getValueOption_valueIn, c2]

variable {ops : List Op} {y : Sys} {v : Version} {all : List (KeyHash × Value)} {checked ow : Bool} {root : Digest}

/-- C45, what the first update over a pre-genesis tree contains, and pruning: restore at the pre-genesis version as in C25, build versions
`0 .. rest.length` in one call, the first value set taking effect, and let the in-memory store accept the batch.  Then for every version
the reported statistics are the numbers of nodes and leaves written and retired at that version; below the root, the entries made at a
version are exactly the nodes reachable from the version before (the pre-genesis tree, for version 0) and not from it; and every purge
succeeds and keeps the roots, leaf counts, values and proofs of the versions from its target on, and of the latest, as far as
`C45_pregenesis_tree_partial` gives them. -/
theorem C45_pregenesis_update_partial (hr : Reached H ops y) (hb : (setsOf ops).length < 2 ^ 64) (hv : Readable ops v)
    (hall : SortedPairs (mapAt ops v) all) (hne : all ≠ []) (hroot : getRootHash H y.store.reader v = .ok root)
    (hph : ∀ p ∈ Spec.treeStrings H (Spec.hashed H all), p.hash H ≠ placeholder)
    (evs : List SendEvent) (sizes : List Nat) (hsizes : all.length ≤ (sizes.map (· + 1)).sum)
    {ws : ValueSet} {rest : List ValueSet} (hL : Spec.TakesEffect (mapAt ops v) ws) (hle : rest.length + 1 < 2 ^ 64 - 1) :
    ∃ z z' s', Sess.run H checked y.store.reader v all preGenesisVersion root (Sess.start ow preGenesisVersion root) evs = .ok z ∧
      Sess.run H checked y.store.reader v all preGenesisVersion root z (sizes.map .feed) = .ok z' ∧
      z'.receiver.finish H z'.store = .ok s' ∧
      ∃ hs b, putValueSets H s'.reader (ws :: rest) 0 = .ok (hs, b) ∧ ∀ s1, s'.writeTreeUpdateBatch b = .ok s1 →
        (b.nodeStats.length = rest.length + 1 ∧ ∀ j, j < rest.length + 1 → b.nodeStats[j]? = some
          { newNodes := b.nodeBatch.nodes.countP (fun e => e.1.version == j)
            newLeaves := b.nodeBatch.nodes.countP (fun e => e.1.version == j && e.2.isLeaf)
            staleNodes := s1.stale.countP (fun x => x.staleSince == j)
            staleLeaves := s1.stale.countP (fun x => x.staleSince == j &&
              ((s1.nodes.get? x.nodeKey).map Node.isLeaf).getD false) }) ∧
        (∀ j, j < rest.length + 1 → ∀ k : NodeKey, k.path ≠ [] →
          ((⟨j, k⟩ : StaleNodeIndex) ∈ s1.stale ↔ ReachFrom s1 (versionBefore j) k ∧ ¬ ReachFrom s1 j k)) ∧
        ∀ r, ∃ s2, s1.purgeStaleNodes r = .ok s2 ∧
          ∀ j, j < rest.length + 1 → r ≤ j ∨ j = rest.length →
            ∀ es, Spec.Lists H (Spec.stateAfter (mapAt ops v) (ws :: rest) (j + 1)) es →
            getRootHash H s2.reader j = .ok (Spec.root H es) ∧ getLeafCount s2.reader j = .ok es.length ∧
            ∀ k, (Spec.stateAfter (mapAt ops v) (ws :: rest) (j + 1) k = none ∨
                ∃ u wu, u ≤ j ∧ (ws :: rest)[u]? = some wu ∧ k ∈ wu.map Prod.fst) →
              ∃ P, getWithProof H s2.reader k j = .ok (Spec.stateAfter (mapAt ops v) (ws :: rest) (j + 1) k, P) ∧
                P.verify H (Spec.root H es) k (Spec.stateAfter (mapAt ops v) (ws :: rest) (j + 1) k) = .ok () := by
  have hle' : rest.length + 1 < preGenesisVersion := hle
  obtain ⟨hasc, hp, -, hl⟩ := honest_setting hr hb hv hall hroot
  have hnp : NP H (entriesOf H all) := np_of' hasc.nodup hph
  obtain ⟨z, p0, gp, h1, h2⟩ := sess_run (checked := checked) hr hb hv hall hroot hnp evs
    (sess_start (H := H) (all := all) (w := preGenesisVersion) (root := root) ow)
  obtain ⟨z', p0', h3, h4⟩ := feed_all (checked := checked) hr hb hv hall hroot hnp sizes h2 (by omega)
  obtain ⟨s', h5, h6, h7, rfl, h9⟩ := sess_finish h4 hne
  have hne' : entriesOf H p0' ≠ [] := fun hc => hne (List.map_eq_nil_iff.1 hc)
  have hl' : Spec.Lists H (mapAt ops v) (entriesOf H p0') := hl
  have hfresh : ∀ w, w < preGenesisVersion → s'.reader.getNodeOption ⟨w, []⟩ = .ok none := by
    intro w hw
    show Except.ok (s'.nodes.get? ⟨w, []⟩) = _
    rw [h6.no ⟨w, []⟩ (fun h => by have h : w = preGenesisVersion := h.1; omega)]
  obtain ⟨hs, b, a1, -⟩ := pre_put (R := s'.reader) (rest := rest) hl' hne' (h6.treeAt hne') hfresh hL (by omega)
  refine ⟨z, z', s', h1, h3, h5, hs, b, a1, fun s1 hw => ?_⟩
  exact pre_update hl' hne' (h6.treeAt hne') hfresh
    (by rw [finish_stale h5, sess_stale _ h3, sess_stale evs h1]; rfl) hL hle' a1 hw

end

/-- The hypotheses are met, with a batch that the in-memory store accepts: two keys restored before genesis, a third one written, then a purge. -/
example : ∃ r s' hs b s1, Sample.preFed.result = .ok () ∧ Sample.preFed.receiver = some r ∧ r.finish Sample.T Sample.preFed.store = .ok s' ∧
    putValueSets Sample.T s'.reader [[(Sample.key 0x44, some [7])]] 0 = .ok (hs, b) ∧ s'.writeTreeUpdateBatch b = .ok s1 ∧
    s1.stale = [⟨0, ⟨preGenesisVersion, []⟩⟩] ∧ b.nodeStats = [⟨2, 1, 1, 0⟩] := by
  have key : Sample.preStore (fun s' => Sample.okAnd (putValueSets Sample.T s'.reader [[(Sample.key 0x44, some [7])]] 0) (fun r1 =>
      Sample.okAnd (s'.writeTreeUpdateBatch r1.2) (fun s1 => decide (s1.stale = [⟨0, ⟨preGenesisVersion, []⟩⟩]) &&
        decide (r1.2.nodeStats = [⟨2, 1, 1, 0⟩])))) = true := by decide +kernel
  obtain ⟨r, s', g1, g2, g3, key⟩ := Sample.of_preStore key
  obtain ⟨⟨hs, b⟩, g4, key⟩ := Sample.of_okAnd key
  obtain ⟨s1, g5, key⟩ := Sample.of_okAnd key
  simp only [Bool.and_eq_true, decide_eq_true_eq] at key
  exact ⟨r, s', hs, b, s1, g1, g2, g3, g4, g5, key.1, key.2⟩

end Jmt
