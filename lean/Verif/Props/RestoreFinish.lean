import Verif.Props.Restore
import Verif.Props.Stale
/-!
# C26: what `finish` does and does not guarantee; concrete restorations
-/
namespace Jmt
open Spec (Entry)
open Store

section
variable {H : Hasher} {Ms : List Entry} {w : Version} {root : Digest} {s s' : Store} {p0 gp : List (KeyHash × Value)}
  {r r' : Restore} {checked ow : Bool} {chunk : List (KeyHash × Value)} {P : RangeProof}

theorem addChunk_clean (h : RInv H Ms E w root s p0 r gp) (hadd : r.addChunk H checked s chunk P = (r', s', .ok ())) :
    r'.numKeysReceived ≠ 0 ∧ r'.frozenNodes = ⟨[], []⟩ := by
  unfold Restore.addChunk at hadd
  by_cases hc : chunk = []
  · rw [if_pos hc] at hadd; cases hadd
  · rw [if_neg hc] at hadd
    cases ha : Restore.addKeys H chunk r with
    | mk r1 res1 =>
      rw [ha] at hadd
      cases res1 with
      | error e1 => simp only [] at hadd; cases hadd
      | ok u =>
        simp only [] at hadd
        have h3 := ((addKeys_inv chunk h ha (fun m hm => by cases hm)).2 rfl).2 hc
        cases hv : r1.verify H checked P with
        | error e => rw [hv] at hadd; simp only [] at hadd; cases hadd
        | ok u =>
          rw [hv] at hadd
          simp only [] at hadd
          cases hw : s.writeNodeBatch r1.frozenNodes with
          | error e => rw [hw] at hadd; simp only [] at hadd; cases hadd
          | ok s1 =>
            rw [hw] at hadd
            simp only [] at hadd
            cases hadd
            exact ⟨h3, rfl⟩

/-- The state after an accepted chunk. -/
theorem accepted_step {mp : Spec.Map} {es : List Entry} (hl : Spec.Lists H mp es) {evs : List RecvEvent} (pairs : List (KeyHash × Value))
    (proof : RangeProof)
    (hnc : Spec.NoCollision H (Spec.treeStrings H es ++
      ((Recv.start ow).run H checked w (Spec.root H es) (evs ++ [.chunk pairs proof])).strings))
    (hok : ((Recv.start ow).run H checked w (Spec.root H es) (evs ++ [.chunk pairs proof])).result = .ok ()) :
    ∃ r gp last, ((Recv.start ow).run H checked w (Spec.root H es) (evs ++ [.chunk pairs proof])).receiver = some r ∧
      RInv H (sortE es) [] w (Spec.root H es) ((Recv.start ow).run H checked w (Spec.root H es) (evs ++ [.chunk pairs proof])).store gp r gp ∧
      r.numKeysReceived ≠ 0 ∧ r.frozenNodes = ⟨[], []⟩ ∧ gp.getLast? = some last ∧ pairs.getLast? = some last ∧
      entriesOf H gp = upto (sortE es) last.1 := by
  have hi2 := run_inv hl hnc
  have hi : RunInv H (sortE es) w (Spec.root H es) ((Recv.start ow).run H checked w (Spec.root H es) evs) := by
    apply run_inv hl
    apply NoCollision.sub hnc
    rw [run_snoc]
    intro p hp
    rcases List.mem_append.1 hp with hp | hp
    · exact List.mem_append_left _ hp
    · exact List.mem_append_right _ (strings_step _ _ p hp)
  rw [run_snoc] at hok hi2 ⊢
  generalize (Recv.start ow).run H checked w (Spec.root H es) evs = y at *
  unfold Recv.step at hok hi2 ⊢
  cases hr : y.receiver with
  | none => simp only [hr] at hok; cases hok
  | some r =>
    simp only [hr] at hok hi2 ⊢
    have hinv := hi.receiver r hr
    cases ha : r.addChunk H checked y.store pairs proof with
    | mk r1 t =>
      obtain ⟨s1, res⟩ := t
      rw [ha] at hok hi2
      cases res with
      | error e => cases e <;> cases hok
      | ok u =>
        obtain ⟨c1, c2⟩ := addChunk_clean hinv ha
        have hne : pairs ≠ [] := by
          rintro rfl
          unfold Restore.addChunk at ha
          rw [if_pos rfl] at ha
          cases ha
        have hasc : Spec.ascending (y.got.getLast?.map Prod.fst) pairs = pairs := by
          unfold Restore.addChunk at ha
          rw [if_neg hne] at ha
          cases hk : Restore.addKeys H pairs r with
          | mk r2 res2 =>
            rw [hk] at ha
            cases res2 with
            | error e => simp only [] at ha; cases ha
            | ok u => exact ((addKeys_inv pairs hinv hk (fun m hm => by cases hm)).2 rfl).1
        unfold Recv.outcome at hi2 ⊢
        rw [hasc] at hi2 ⊢
        simp only [] at hi2 ⊢
        obtain ⟨e, he⟩ : ∃ e, pairs.getLast? = some e := by
          cases h : pairs.getLast? with
          | none => exact absurd (List.getLast?_eq_none_iff.1 h) hne
          | some e => exact ⟨e, rfl⟩
        have hgl : (y.got ++ pairs).getLast? = some e := by rw [List.getLast?_append, he]; rfl
        exact ⟨r1, y.got ++ pairs, e, rfl, hi2.receiver r1 rfl, c1, c2, hgl, he, hi2.upto e hgl⟩

/-- C26, what holds: after any history ending with an accepted chunk, `finish` succeeds and stores the tree of exactly the pairs of the
snapshot up to the last key of that chunk; so the stored root hash is that of the snapshot iff nothing is left out (next two theorems).
The full property, "if `finish` returns `Ok` the stored root hash is the expected one", is false: see `C26_finish_checks_nothing`. -/
theorem C26_finish_stores_received_partial {mp : Spec.Map} {es : List Entry} (hl : Spec.Lists H mp es) {evs : List RecvEvent}
    (pairs : List (KeyHash × Value)) (proof : RangeProof)
    (hnc : Spec.NoCollision H (Spec.treeStrings H es ++
      ((Recv.start ow).run H checked w (Spec.root H es) (evs ++ [.chunk pairs proof])).strings))
    (hok : ((Recv.start ow).run H checked w (Spec.root H es) (evs ++ [.chunk pairs proof])).result = .ok ()) :
    ∃ r s' last x, ((Recv.start ow).run H checked w (Spec.root H es) (evs ++ [.chunk pairs proof])).receiver = some r ∧
      r.finish H ((Recv.start ow).run H checked w (Spec.root H es) (evs ++ [.chunk pairs proof])).store = .ok s' ∧
      pairs.getLast? = some (last, x) ∧
      getRootHash H s'.reader w = .ok (Spec.root H (es.filter (fun e => !decide (last.val < e.1.val)))) := by
  obtain ⟨r, gp, last, h1, h2, h3, h4, h5, h6, h7⟩ := accepted_step hl pairs proof hnc hok
  have hle : (entriesOf H gp).getLast? = some (last.1, H.hash last.2) := by rw [entriesOf_last, h5]; rfl
  obtain ⟨g1, n, g2, g3⟩ := h2.nodes.last _ _ hle
  rcases g3 with g3 | ⟨-, hr, -, hno⟩
  · exact absurd g3.1 h3
  have hno := hno h2.nodes.auth0
  rw [h4] at hno
  obtain ⟨s', k1, k2, -, -, -⟩ := finish_ok h2.nodes.asc.nodup (h2.nodes.asc.max hle) (List.mem_of_getLast? hle) g2 h3 hr h4 hno h2.snodup
  refine ⟨r, s', last.1, last.2, h1, k1, h6, ?_⟩
  have hne : entriesOf H gp ≠ [] := by intro hc; rw [hc] at hle; simp at hle
  have t := k2.treeAt (s := s') hne
  have hroot : getRootHash H s'.reader w = .ok (sh H (entriesOf H gp) []) := by
    unfold getRootHash getRootNode getRootNodeOption
    rw [show s'.reader.getNodeOption (NodeKey.root w) = _ from t.root, ok_bind, ok_bind, canonNode_hash h2.nodes.asc.nodup]
    simp
  rw [hroot, h7, root_eq_sh]
  congr 1
  exact sh_perm' ((sortE_perm es).filter _) []

/-- C26: nothing left out, then the stored root is the expected one. -/
theorem C26_complete_root {mp : Spec.Map} {es : List Entry} (hl : Spec.Lists H mp es) (last : KeyHash)
    (hcomplete : ∀ k x, mp k = some x → ¬ last.val < k.val) :
    Spec.root H (es.filter (fun e => !decide (last.val < e.1.val))) = Spec.root H es := by
  rw [List.filter_eq_self.2]
  intro e he
  obtain ⟨x, hx, -⟩ := (hl.mem e.1 e.2).1 he
  simpa using hcomplete e.1 x hx

/-- C26: something left out, then it is another root (absent collisions). -/
theorem C26_incomplete_root {mp : Spec.Map} {es : List Entry} (hl : Spec.Lists H mp es) (last : KeyHash) {k : KeyHash} {x : Value}
    (hx : mp k = some x) (hk : last.val < k.val)
    (hnc : Spec.NoCollision H (Spec.treeStrings H (es.filter (fun e => !decide (last.val < e.1.val))) ++ Spec.treeStrings H es)) :
    Spec.root H (es.filter (fun e => !decide (last.val < e.1.val))) ≠ Spec.root H es := by
  intro hc
  rw [root_eq_sh, root_eq_sh] at hc
  have hm := nodupE_of_lists hl
  have hm' : NodupE (es.filter (fun e => !decide (last.val < e.1.val))) := by
    unfold NodupE
    exact List.Nodup.sublist (List.Sublist.map _ List.filter_sublist) hm
  have hp := root_binds hm' hm hc hnc
  have := hp.mem_iff.2 ((hl.mem k (H.hash x)).2 ⟨x, hx, rfl⟩)
  rw [List.mem_filter] at this
  simp [hk] at this

end
end Jmt
