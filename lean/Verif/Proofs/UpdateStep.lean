import Verif.Proofs.UpdateRelease
/-!
# Soundness of one step of `verify_update`
-/
namespace Jmt
open Spec (Entry)

section
variable {H : Hasher} {m : List Entry} {k : KeyHash}

/-- Without overflow checks the siblings of a proof with more than 256 of them are ignored. -/
theorem rootHash_long {P : SMProof} {l : KeyHash × ValueHash} (hl : P.leaf = some l) (h : 256 < P.siblings.length)
    (hm : P.siblings.length ≤ SMProof.maxVec) : SMProof.rootHash H false P = .ok (H.leafHash l.1 l.2) := by
  unfold SMProof.rootHash
  rw [hl]
  simp only
  unfold usub
  rw [if_neg (by omega), if_neg (by simp), ok_bind]
  unfold SMProof.foldSiblings
  rw [List.drop_eq_nil_of_le (by
    rw [List.length_reverse, iterBits_eq, keyBits_length]
    unfold SMProof.maxVec at hm; unfold u64Size; omega), List.zip_nil_right]
  rfl

/-- What rules out the overflow defects: overflow checks are on, or a delete comes with at most 256 siblings and an insertion does not
come with the proof of another leaf that has exactly one sibling more than the two keys have leading bits in common (and the proof fits in
memory). -/
def PathGuard (checked : Bool) (P : SMProof) (k : KeyHash) (x : Option Value) : Prop :=
  checked = true ∨ (P.siblings.length ≤ SMProof.maxVec ∧ (x = none → P.siblings.length ≤ 256) ∧
    ∀ l, P.leaf = some l → P.siblings.length ≠ Bytes32.commonPrefixBitsLen k l.1 + 1)

theorem rootHash_inv {checked : Bool} {P : SMProof} {r : Digest} (h : SMProof.rootHash H checked P = .ok r)
    (hg : checked = true ∨ P.siblings.length ≤ 256) :
    P.siblings.length ≤ 256 ∧ ∃ l, P.leaf = some l ∧
      r = Spec.pathHash H l.1 (H.leafHash l.1 l.2) 0 P.siblings.reverse := by
  have hlen : P.siblings.length ≤ 256 := by
    rcases hg with hg | hg
    · unfold SMProof.rootHash at h
      cases hl : P.leaf with
      | none => rw [hl] at h; cases h
      | some l =>
        rw [hl] at h
        simp only at h
        obtain ⟨d, a1, -⟩ := bind_ok_inv h
        exact (usub_ok a1 hg).1
    · exact hg
  refine ⟨hlen, ?_⟩
  cases hl : P.leaf with
  | none => unfold SMProof.rootHash at h; rw [hl] at h; cases h
  | some l =>
    rw [rootHash_eq checked hl hlen] at h
    cases h
    exact ⟨l, rfl, rfl⟩

/-- Soundness of one step on a well-shaped proof. -/
theorem checkComputeNewRoot_sound' (hm : NodupE m) {checked : Bool} {P : SMProof} {x : Option Value} {r : Digest}
    (h : SMProof.checkComputeNewRoot H checked P (sh H m []) k x = .ok r)
    (hg : checked = true ∨ (P.siblings.length ≤ 256 ∧
      ∀ l, P.leaf = some l → k ≠ l.1 → x ≠ none → P.siblings.length ≤ Bytes32.commonPrefixBitsLen k l.1)) (hdel : x = none → P.leaf = none → ∀ e ∈ m, e.1 ≠ k)
    (hnc : Spec.NoCollision H (Spec.treeStrings H m ++ Spec.updateStrings H P k)) :
    r = sh H (upd m k (x.map H.hash)) [] := by
  have hg' : checked = true ∨ P.siblings.length ≤ 256 := hg.imp id And.left
  have key : ∀ l, P.leaf = some l → SMProof.rootHash H checked P = .ok (sh H m []) → P = specProof H m l.1 := by
    intro l hl hr
    obtain ⟨hlen, l', hl', he⟩ := rootHash_inv hr hg'
    rw [hl] at hl'; cases hl'
    refine proof_canonical hm hlen ?_ (fun l' h' => by rw [hl] at h'; cases h'; rfl) ?_
    · rw [hl]; exact he.symm
    · have : Spec.updateStrings H P l.1 = Spec.updateStrings H P k := by
        unfold Spec.updateStrings; rw [hl]
      rw [this]; exact hnc
  unfold SMProof.checkComputeNewRoot at h
  cases x with
  | some v =>
    have fin : P = specProof H m k → r = sh H (upd m k (some (H.hash v))) [] := by
      intro hP
      have := checkComputeNewRoot_insert (H := H) (k := k) hm checked v
      rw [← hP] at this
      unfold SMProof.checkComputeNewRoot at this
      simp only at h this
      rw [h] at this
      simpa using this
    cases hl : P.leaf with
    | none =>
      have h' := h
      rw [hl] at h'
      simp only at h'
      cases hv : SMProof.verifyNonexistence H P (sh H m []) k with
      | error e => rw [hv] at h'; cases h'
      | ok u =>
        obtain ⟨v1, -, v3⟩ := verify_iff.1 hv
        exact fin (proof_canonical hm v1 v3 (fun l h' => by rw [hl] at h'; cases h') hnc)
    | some l =>
      have h' := h
      simp only [hl] at h'
      obtain ⟨r0, a1, h'⟩ := bind_ok_inv h'
      split at h'
      · cases h'
      · next hr0 =>
        have hr0 : r0 = sh H m [] := by simpa using hr0
        subst hr0
        have hP := key l hl a1
        split at h'
        · next hk => rw [← hk] at hP; exact fin hP
        · next hk =>
          apply fin
          rw [hP]
          symm
          apply specProof_key_congr hm
          rw [← hP]
          obtain ⟨P', a2, h'⟩ := bind_ok_inv h'
          unfold SMProof.computeNewMerklePathOnSplit at a2
          obtain ⟨n, a3, -⟩ := bind_ok_inv a2
          rcases hg with rfl | ⟨g1, g2⟩
          · obtain ⟨c, c1, c2, c3⟩ := numDefaultSiblings_ok hk a3
            apply List.ext_getElem?
            intro i
            by_cases hi : i < P.siblings.length
            · rw [List.getElem?_take, List.getElem?_take, if_pos hi, if_pos hi]
              exact c3 i (by omega)
            · rw [List.getElem?_take, List.getElem?_take, if_neg hi, if_neg hi]
          · exact (le_commonPrefixBitsLen g1).1 (g2 l hl hk (by simp))
  | none =>
    cases hl : P.leaf with
    | none =>
      rw [hl] at h
      simp only [Except.ok.injEq] at h
      rw [← h, Option.map_none, upd_none_of_not_mem (hdel rfl hl)]
    | some l =>
      simp only [hl] at h
      obtain ⟨r0, a1, h⟩ := bind_ok_inv h
      split at h
      · cases h
      · next hr0 =>
        have hr0 : r0 = sh H m [] := by simpa using hr0
        subst hr0
        have hP := key l hl a1
        split at h
        · cases h
        · next hk =>
          have hk : k = l.1 := by simpa using hk
          rw [← hk] at hP
          rw [hP] at hl
          have hmem : (k, l.2) ∈ m := by
            rw [← specProof_leaf_iff (H := H) hm, hl, hk]
          rw [hP, rootAfterDelete_eq hm checked hmem] at h
          simp only [Except.ok.injEq] at h
          rw [← h]; rfl

/-- Soundness of one step. -/
theorem checkComputeNewRoot_sound (hm : NodupE m) {checked : Bool} {P : SMProof} {x : Option Value} {r : Digest}
    (h : SMProof.checkComputeNewRoot H checked P (sh H m []) k x = .ok r)
    (hg : PathGuard checked P k x) (hdel : x = none → P.leaf = none → ∀ e ∈ m, e.1 ≠ k)
    (hnc : Spec.NoCollision H (Spec.treeStrings H m ++ Spec.updateStrings H P k)) :
    r = sh H (upd m k (x.map H.hash)) [] := by
  cases checked with
  | true => exact checkComputeNewRoot_sound' hm h (.inl rfl) hdel hnc
  | false =>
    rcases hg with hg | ⟨g0, g1, g2⟩
    · cases hg
    have foreign : ∀ l, P.leaf = some l → k ≠ l.1 → x ≠ none → P.siblings.length ≤ Bytes32.commonPrefixBitsLen k l.1 := by
      intro l hl hk hx
      cases x with
      | none => exact absurd rfl hx
      | some v =>
        apply Decidable.byContradiction
        intro hc
        have := g2 l hl
        obtain ⟨e, he⟩ := split_capacity (H := H) hk (show Bytes32.commonPrefixBitsLen k l.1 + 1 < P.siblings.length by omega) g0 v
        unfold SMProof.checkComputeNewRoot at h
        simp only [hl] at h
        obtain ⟨r0, -, h⟩ := bind_ok_inv h
        split at h
        · cases h
        · rw [he] at h
          cases h
    by_cases h256 : P.siblings.length ≤ 256
    · exact checkComputeNewRoot_sound' hm h (.inr ⟨h256, foreign⟩) hdel hnc
    · cases x with
      | none => exact absurd (g1 rfl) h256
      | some v =>
        cases hl : P.leaf with
        | none =>
          unfold SMProof.checkComputeNewRoot at h
          simp only [hl] at h
          cases hv : SMProof.verifyNonexistence H P (sh H m []) k with
          | error e => rw [hv] at h; cases h
          | ok u => exact absurd (verify_iff.1 hv).1 h256
        | some l =>
          by_cases hk : k = l.1
          · have hP0 : SMProof.checkComputeNewRoot H false ⟨some l, []⟩ (sh H m []) k (some v) = .ok r := by
              unfold SMProof.checkComputeNewRoot at h ⊢
              simp only [hl] at h ⊢
              rw [rootHash_long hl (by omega) g0, ok_bind] at h
              rw [rootHash_eq false (P := ⟨some l, []⟩) rfl (by simp), ok_bind]
              simp only [List.reverse_nil, Spec.pathHash]
              split at h
              · cases h
              · next hc =>
                rw [if_neg hc, if_pos hk]
                rw [rootHash_long (P := ⟨some (k, H.hash v), P.siblings⟩) (l := (k, H.hash v)) rfl (show 256 < P.siblings.length by omega) g0] at h
                rw [rootHash_eq false (l := (k, H.hash v)) rfl (by simp)]
                exact h
            refine checkComputeNewRoot_sound' hm hP0 (.inr ⟨by simp, fun l' hl' hk' => ?_⟩) (by simp) ?_
            · cases hl'; exact absurd hk hk'
            · apply NoCollision.sub hnc
              intro p hp
              simp only [Spec.updateStrings, List.flatMap_nil, List.reverse_nil, Spec.pathStrings, List.append_nil, List.nil_append,
                List.mem_append, List.mem_singleton] at hp
              rcases hp with hp | hp
              · exact List.mem_append_left _ hp
              · apply List.mem_append_right
                unfold Spec.updateStrings
                rw [hl]
                exact List.mem_append_left _ (by simp [hp])
          · have := foreign l hl hk (by simp)
            have hle : Bytes32.commonPrefixBitsLen k l.1 ≤ 256 := by
              obtain ⟨c, c1, c2, c3⟩ := first_diff hk
              rw [commonPrefix_first c1 c2 c3]; omega
            omega

end
end Jmt
