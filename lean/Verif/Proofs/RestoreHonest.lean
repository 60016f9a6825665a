import Verif.Proofs.RestoreRun
/-!
# Restoration by an honest sender
-/
namespace Jmt
open Spec (Entry)
open Store

section
variable {H : Hasher} {w : Version} {root : Digest} {s s' : Store} {p0 gp all chunk : List (KeyHash × Value)}
  {r r' : Restore} {checked : Bool}

theorem above_append {t : List (KeyHash × Value)} (h : (gp ++ t).Pairwise (fun a b => a.1.val < b.1.val)) :
    Spec.above (gp ++ t) (gp.getLast?.map Prod.fst) = t := by
  unfold Spec.above
  rw [List.pairwise_append] at h
  rw [List.filter_append]
  have h1 : gp.filter (fun e => (gp.getLast?.map Prod.fst).all (fun l => decide (l.val < e.1.val))) = [] := by
    rw [List.filter_eq_nil_iff]
    intro a ha
    cases hl : gp.getLast? with
    | none => rw [List.getLast?_eq_none_iff] at hl; rw [hl] at ha; simp at ha
    | some e =>
      simp only [Option.map_some, Option.all_some, decide_eq_true_eq]
      rw [List.getLast?_eq_some_iff] at hl
      obtain ⟨u, rfl⟩ := hl
      have hu := h.1
      rw [List.pairwise_append] at hu
      rcases List.mem_append.1 ha with ha | ha
      · exact fun hc => List.lt_irrefl _ (List.lt_trans hc (hu.2.2 a ha e (by simp)))
      · rw [List.mem_singleton.1 ha]; exact List.lt_irrefl _
  have h2 : t.filter (fun e => (gp.getLast?.map Prod.fst).all (fun l => decide (l.val < e.1.val))) = t := by
    rw [List.filter_eq_self]
    intro a ha
    cases hl : gp.getLast? with
    | none => rfl
    | some e => simpa using h.2.2 e (List.mem_of_getLast? hl) a ha
  rw [h1, h2, List.nil_append]

theorem new_previousLeaf (h : Restore.new H s.reader w root = .ok r) : r.previousLeaf = s.getRightmostLeaf.map (fun l => l.2) := by
  unfold Restore.new at h
  rw [show s.reader.getRightmostLeaf = .ok s.getRightmostLeaf from rfl, ok_bind] at h
  cases hl : s.getRightmostLeaf with
  | none => rw [hl] at h; cases h; rfl
  | some a =>
    obtain ⟨nk, l⟩ := a
    rw [hl] at h
    simp only [] at h
    obtain ⟨ps, -, h2⟩ := bind_ok_inv h
    cases h2
    rfl

/-- What holds during a restoration by an honest sender. -/
structure SessInv (H : Hasher) (all : List (KeyHash × Value)) (w : Version) (root : Digest) (y : Sess) (p0 gp : List (KeyHash × Value)) :
    Prop where
  inv : RInv H (entriesOf H all) all w root y.store p0 y.receiver gp
  got : gp <+: all
  accepted : p0 <+: all
  pos : y.pos = gp.getLast?.map Prod.fst
  clean : y.receiver.numKeysReceived ≠ 0 → gp = p0 ∧ y.receiver.frozenNodes = ⟨[], []⟩

theorem sess_start (ow : Bool) : SessInv H all w root (Sess.start ow w root) [] [] := by
  refine ⟨⟨⟨List.Pairwise.nil, List.nil_prefix, AMap.nodupKeys_nil, ⟨fun _ _ => rfl, fun m k vh L h => by simp [entriesOf] at h⟩, ?_, ?_⟩, rfl, rfl,
    AMap.nodupKeys_nil, ?_, ?_, ?_, fun _ _ => .inl rfl, AMap.nodupKeys_nil⟩, List.nil_prefix, List.nil_prefix, rfl, fun h => absurd rfl h⟩
  · intro _
    exact ⟨rfl, rfl, rfl, fun k => ⟨rfl, by decide, rfl⟩, by simp [entriesOf]⟩
  · intro k vh h; simp [entriesOf] at h
  · intro v k x h; simp [Sess.start, Restore.newOverwrite] at h
  · intro e he; simp at he
  · intro e he; simp at he

/-- An honest chunk. -/
theorem sess_chunk {y : Sess} (hasc : Asc (entriesOf H all)) (hnp : NP H (entriesOf H all)) (hroot : root = sh H (entriesOf H all) [])
    (h : SessInv H all w root y p0 gp) (hpre : gp ++ chunk <+: all) {e : KeyHash × Value} (he : chunk.getLast? = some e) :
    ∃ r s, y.receiver.addChunk H checked y.store chunk ⟨rightSiblingsOf (specProof H (entriesOf H all) e.1).siblings e.1⟩ = (r, s, .ok ()) ∧
      SessInv H all w root ⟨r, s, some e.1⟩ (gp ++ chunk) (gp ++ chunk) := by
  have hne : chunk ≠ [] := by rintro rfl; simp at he
  have hpre' : entriesOf H (gp ++ chunk) <+: entriesOf H all := List.IsPrefix.map _ hpre
  obtain ⟨r1, h1⟩ := addKeys_next hasc chunk h.inv hpre'
  obtain ⟨h2, h3⟩ := addKeys_inv chunk h.inv h1 (fun m hm => by cases hm)
  obtain ⟨h3, h4⟩ := h3 rfl
  have h4 := h4 hne
  rw [h3] at h2
  have hlast : (gp ++ chunk).getLast? = some e := by rw [List.getLast?_append, he]; rfl
  have hle : (entriesOf H (gp ++ chunk)).getLast? = some (e.1, H.hash e.2) := by rw [entriesOf_last, hlast]; rfl
  have hmem : (e.1, H.hash e.2) ∈ entriesOf H (gp ++ chunk) := List.mem_of_getLast? hle
  have heq : entriesOf H (gp ++ chunk) = upto (entriesOf H all) e.1 := by
    apply asc_ext h2.nodes.asc (hasc.prefix (upto_prefix hasc))
    intro a
    rw [mem_upto]
    constructor
    · intro ha
      exact ⟨hpre'.subset ha, h2.nodes.asc.max hle a ha⟩
    · rintro ⟨ha, hna⟩
      obtain ⟨t, ht⟩ := hpre'
      rw [← ht] at ha
      rcases List.mem_append.1 ha with ha | ha
      · exact ha
      · exfalso
        rw [← ht] at hasc
        unfold Asc at hasc
        rw [List.pairwise_append] at hasc
        exact hna (hasc.2.2 _ hmem a ha)
  obtain ⟨g1, n, g2, g3⟩ := h2.grown h4 hlast
  have hv : r1.verify H checked ⟨rightSiblingsOf (specProof H (entriesOf H all) e.1).siblings e.1⟩ = .ok () := by
    rw [heq] at g2 g3
    exact check_complete hasc.nodup hnp (hpre'.subset hmem) g2 g3 g1 (by rw [h2.root, hroot]) checked
  obtain ⟨s1, hw, hinv, -⟩ := commit_inv h2 h4 hpre'
  refine ⟨{ r1 with frozenNodes := ⟨[], []⟩ }, s1, ?_, ⟨hinv, hpre, hpre, ?_, fun _ => ⟨rfl, rfl⟩⟩⟩
  · unfold Restore.addChunk
    rw [if_neg hne, h1]
    simp only []
    rw [hv]
    simp only []
    rw [hw]
  · rw [hlast]; rfl

theorem sess_new (hasc : Asc (entriesOf H all)) (hd : Durable H (entriesOf H all) all w s p0) (hp0 : p0 <+: all) :
    ∃ r, Restore.new H s.reader w root = .ok r ∧
      SessInv H all w root ⟨r, s, s.getRightmostLeaf.map (fun l => l.2.keyHash)⟩ p0 p0.dropLast := by
  obtain ⟨r, h1, h2⟩ := new_inv (root := root) hd hasc
  refine ⟨r, h1, ⟨h2, (List.dropLast_prefix p0).trans hp0, hp0, ?_, fun hc => absurd ?_ hc⟩⟩
  · show s.getRightmostLeaf.map (fun l => l.2.keyHash) = _
    have h3 := h2.prevLeaf
    rw [new_previousLeaf h1] at h3
    have := congrArg (Option.map LeafNode.keyHash) h3
    rw [Option.map_map, Option.map_map] at this
    exact this
  · -- nothing has been received since
    unfold Restore.new at h1
    rw [show s.reader.getRightmostLeaf = .ok s.getRightmostLeaf from rfl, ok_bind] at h1
    cases hl : s.getRightmostLeaf with
    | none => rw [hl] at h1; cases h1; rfl
    | some a =>
      obtain ⟨nk, l⟩ := a
      rw [hl] at h1
      simp only [] at h1
      obtain ⟨ps, -, h5⟩ := bind_ok_inv h1
      cases h5
      rfl

theorem sess_restart {y : Sess} (hasc : Asc (entriesOf H all)) (h : SessInv H all w root y p0 gp) :
    ∃ r, Restore.new H y.store.reader w root = .ok r ∧
      SessInv H all w root ⟨r, y.store, y.store.getRightmostLeaf.map (fun l => l.2.keyHash)⟩ p0 p0.dropLast :=
  sess_new hasc h.inv.durable h.accepted

/-- Everything has been sent: the restoration can be finished. -/
theorem sess_finish {y : Sess} (h : SessInv H all w root y p0 all) (hne : all ≠ []) :
    ∃ s', y.receiver.finish H y.store = .ok s' ∧ FullAt H s'.nodes (entriesOf H all) w ∧ s'.values = y.store.values ∧ p0 = all ∧
      AMap.NodupKeys s'.nodes := by
  obtain ⟨e, he⟩ : ∃ e, all.getLast? = some e := by
    cases hl : all.getLast? with
    | none => exact absurd (List.getLast?_eq_none_iff.1 hl) hne
    | some e => exact ⟨e, rfl⟩
  have hle : (entriesOf H all).getLast? = some (e.1, H.hash e.2) := by rw [entriesOf_last, he]; rfl
  obtain ⟨g1, n, g2, g3⟩ := h.inv.nodes.last _ _ hle
  rcases g3 with ⟨-, -, L, d, hL, -⟩ | ⟨h0, hr, hlen, hno⟩
  · exfalso
    have := h.inv.nodes.auth0.length_le
    rw [hL] at this
    simp at this
    omega
  · obtain ⟨hp, hF⟩ := h.clean h0
    have hno := hno (List.prefix_refl _)
    rw [hF] at hno
    obtain ⟨s', k1, k2, k3, -, k4⟩ := finish_ok h.inv.nodes.asc.nodup (h.inv.nodes.asc.max hle) (List.mem_of_getLast? hle) g2 h0 hr hF hno h.inv.snodup
    exact ⟨s', k1, k2, k3, hp.symm, k4⟩

end

section
variable {H : Hasher} {ops : List Op} {y : Sys} {v w : Version} {all : List (KeyHash × Value)} {checked : Bool}

/-- The setting of the honest sender. -/
theorem honest_setting (hr : Reached H ops y) (hb : (setsOf ops).length < 2 ^ 64) (hv : Readable ops v) (hall : SortedPairs (mapAt ops v) all)
    {root : Digest} (hroot : getRootHash H y.store.reader v = .ok root) :
    Asc (entriesOf H all) ∧ (entriesOf H all).Perm (entriesAfter H (setsOf ops) (v + 1)) ∧ root = sh H (entriesOf H all) [] ∧
      Spec.Lists H (mapAt ops v) (entriesOf H all) := by
  have ra := hr.readAt hb hv
  have hasc : Asc (entriesOf H all) := by
    unfold Asc entriesOf
    rw [List.pairwise_map]
    exact hall.sorted
  have hl : Spec.Lists H (mapAt ops v) (entriesOf H all) := by
    refine ⟨hasc.nodup, fun k vh => ?_⟩
    unfold entriesOf
    rw [List.mem_map]
    constructor
    · rintro ⟨⟨k', x⟩, h1, h2⟩
      cases h2
      exact ⟨x, (hall.mem _ _).1 h1, rfl⟩
    · rintro ⟨x, h1, rfl⟩
      exact ⟨(k, x), (hall.mem _ _).2 h1, rfl⟩
  have hp := lists_perm hl ra.lists
  refine ⟨hasc, hp, ?_, hl⟩
  rw [ra.rootHash] at hroot
  cases hroot
  rw [root_eq_sh]; exact (sh_perm' hp []).symm

theorem honest_proof (hr : Reached H ops y) (hb : (setsOf ops).length < 2 ^ 64) (hv : Readable ops v) (hall : SortedPairs (mapAt ops v) all)
    {e : KeyHash × Value} (he : e ∈ all) :
    getRangeProof H y.store.reader e.1 v = .ok ⟨rightSiblingsOf (specProof H (entriesOf H all) e.1).siblings e.1⟩ := by
  have ra := hr.readAt hb hv
  obtain ⟨root, hroot⟩ : ∃ root, getRootHash H y.store.reader v = .ok root := ⟨_, ra.rootHash⟩
  obtain ⟨hasc, hp, -, -⟩ := honest_setting hr hb hv hall hroot
  have hx := (hall.mem e.1 e.2).1 he
  unfold getRangeProof
  rw [ra.gwp, ok_bind]
  simp only [hx]
  rw [specProof_perm hasc.nodup hp]

theorem sess_run (hr : Reached H ops y) (hb : (setsOf ops).length < 2 ^ 64) (hv : Readable ops v) (hall : SortedPairs (mapAt ops v) all)
    {root : Digest} (hroot : getRootHash H y.store.reader v = .ok root) (hnp : NP H (entriesOf H all)) :
    ∀ (evs : List SendEvent) {z : Sess} {p0 gp : List (KeyHash × Value)}, SessInv H all w root z p0 gp →
    ∃ z' p0' gp', Sess.run H checked y.store.reader v all w root z evs = .ok z' ∧ SessInv H all w root z' p0' gp' := by
  obtain ⟨hasc, hp, hrt, -⟩ := honest_setting hr hb hv hall hroot
  intro evs
  induction evs with
  | nil => intro z p0 gp h; exact ⟨z, p0, gp, rfl, h⟩
  | cons ev evs ih =>
    intro z p0 gp h
    have hstep : ∃ z' p0' gp', z.step H checked y.store.reader v all w root ev = .ok z' ∧ SessInv H all w root z' p0' gp' := by
      cases ev with
      | restart =>
        obtain ⟨r, h1, h2⟩ := sess_restart hasc h
        unfold Sess.step
        simp only [h1, ok_bind]
        exact ⟨_, _, _, rfl, h2⟩
      | feed n =>
        obtain ⟨t, ht⟩ := h.got
        unfold Sess.step
        have hab : Spec.above all z.pos = t := by
          rw [h.pos, ← ht]
          exact above_append (by rw [ht]; exact hall.sorted)
        simp only [hab]
        cases hl : (t.take (n + 1)).getLast? with
        | none => exact ⟨z, p0, gp, rfl, h⟩
        | some e =>
          have hpre : gp ++ t.take (n + 1) <+: all := by
            rw [← ht]
            exact (List.prefix_append_right_inj gp).2 (List.take_prefix _ _)
          have hemem : e ∈ all := by
            apply hpre.subset
            exact List.mem_append_right _ (List.mem_of_getLast? hl)
          obtain ⟨r, s, h1, h2⟩ := sess_chunk (checked := checked) hasc hnp hrt h hpre hl
          simp only []
          rw [honest_proof hr hb hv hall hemem, ok_bind, h1]
          exact ⟨_, _, _, rfl, h2⟩
    obtain ⟨z1, p1, g1, h1, h2⟩ := hstep
    obtain ⟨z2, p2, g2, h3, h4⟩ := ih h2
    refine ⟨z2, p2, g2, ?_, h4⟩
    unfold Sess.run
    rw [h1, ok_bind]
    exact h3

end
end Jmt
