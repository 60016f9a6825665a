import Verif.Proofs.UpdateSound
/-!
# The arithmetic of `verify_update` in builds without overflow checks
-/
namespace Jmt

/-- The length of the common prefix of two distinct keys is the position of their first difference. -/
theorem commonPrefix_first {k k' : KeyHash} {c : Nat} (hc : c < 256) (hpre : ∀ i, i < c → (keyBits k)[i]? = (keyBits k')[i]?)
    (hne : (keyBits k)[c]? ≠ (keyBits k')[c]?) : Bytes32.commonPrefixBitsLen k k' = c := by
  have h1 : c ≤ Bytes32.commonPrefixBitsLen k k' := by
    rw [le_commonPrefixBitsLen (by omega)]
    apply List.ext_getElem?
    intro i
    simp only [List.getElem?_take]
    split
    · exact hpre i (by omega)
    · rfl
  have h2 : ¬ c + 1 ≤ Bytes32.commonPrefixBitsLen k k' := by
    rw [le_commonPrefixBitsLen (by omega)]
    intro h
    have := congrArg (fun l => l[c]?) h
    simp only [List.getElem?_take, if_pos (Nat.lt_succ_self c)] at this
    exact hne this
  omega

/-- Without overflow checks the number of default siblings is `c - s` modulo `2^64`. -/
theorem numDefaultSiblings_wrap {k k' : KeyHash} {s : Nat} (hk : k ≠ k') (hs : s ≤ SMProof.maxVec) :
    SMProof.numDefaultSiblings false k' k s = .ok ((Bytes32.commonPrefixBitsLen k k' + u64Size - s) % u64Size) := by
  obtain ⟨c, c1, c2, c3⟩ := first_diff hk
  rw [commonPrefix_first c1 c2 c3]
  have h0 := numDefaultSiblings_eq (s := 0) true hk c1 c2 c3 (Nat.zero_le _)
  unfold SMProof.numDefaultSiblings at h0 ⊢
  simp only at h0 ⊢
  obtain ⟨d0, a1', h0⟩ := bind_ok_inv h0
  obtain ⟨r0, a2', h0⟩ := bind_ok_inv h0
  obtain ⟨x0, a3', h0⟩ := bind_ok_inv h0
  obtain ⟨y0, a4', hB⟩ := bind_ok_inv h0
  obtain ⟨u1', rfl⟩ := usub_ok a1' rfl
  have u3' := uadd_ok a3' rfl
  have u4' := uadd_ok a4' rfl
  obtain ⟨u5', u6'⟩ := usub_ok hB rfl
  rw [a2']
  generalize (skipCommonPrefix k.nibbles k'.nibbles).1 = p at *
  clear a1' a2' a3' a4' hB hk c2 c3
  obtain rfl : c = 4 * p + r0 := by omega
  clear u1' u3' u4' u5' u6'
  have hQ : ∃ Q, u64Size = 4 * Q ∧ SMProof.maxVec + 1000 < Q := ⟨2 ^ 62, by decide, by decide⟩
  obtain ⟨Q, hQ, hQ2⟩ := hQ
  unfold usub uadd
  rw [hQ]
  clear hQ
  have hs : s + 1000 < Q := by omega
  clear hQ2
  by_cases h1 : s ≤ 4 * (p + 1)
  · rw [if_pos h1]
    simp only [ok_bind]
    rw [if_pos (by omega)]
    simp only [ok_bind]
    rw [if_pos (by omega)]
    simp only [ok_bind]
    split
    · rw [show 4 * p + r0 + 4 * Q - s = 4 * p + r0 - s + 4 * Q by omega, Nat.add_mod_right,
        Nat.mod_eq_of_lt (show 4 * p + r0 - s < 4 * Q by omega)]
      congr 1; omega
    · rw [if_neg (by simp), Nat.mod_eq_of_lt (show 4 * p + r0 + 4 * Q - s < 4 * Q by omega)]; congr 1; omega
  · rw [if_neg h1, if_neg (by simp)]
    simp only [ok_bind]
    have e1 : (4 - s % 4) % 4 + (4 * (p + 1) + 4 * Q - s) / 4 * 4 = 4 * (p + 1) + 4 * Q - s := by omega
    rw [e1, if_pos (by omega)]
    simp only [ok_bind]
    by_cases h2 : s ≤ 4 * p + r0
    · rw [show 4 * p + r0 + 4 * Q - s = 4 * p + r0 - s + 4 * Q by omega, Nat.add_mod_right,
        Nat.mod_eq_of_lt (show 4 * p + r0 - s < 4 * Q by omega),
        if_neg (by omega), if_neg (by simp)]
      simp only [ok_bind]
      rw [show 4 * (p + 1) + 4 * Q - s + r0 = 4 * (p + 1) + r0 - s + 4 * Q by omega, Nat.add_mod_right,
          Nat.mod_eq_of_lt (show 4 * (p + 1) + r0 - s < 4 * Q by omega),
        if_pos (by omega)]
      congr 1; omega
    · rw [Nat.mod_eq_of_lt (show 4 * p + r0 + 4 * Q - s < 4 * Q by omega)]
      split
      · simp only [ok_bind]
        rw [if_pos (by omega)]
        congr 1; omega
      · rw [if_neg (by simp)]
        simp only [ok_bind]
        rw [show 4 * (p + 1) + 4 * Q - s + r0 = 4 * (p + 1) + r0 - s + 4 * Q by omega, Nat.add_mod_right,
          Nat.mod_eq_of_lt (show 4 * (p + 1) + r0 - s < 4 * Q by omega),
          if_neg (by omega), if_neg (by simp)]
        congr 1; omega

/-- Without overflow checks: a proof with exactly one sibling more than the keys have common bits is taken over as it is, the old leaf
being lost. -/
theorem split_one_off {H : Hasher} {P : SMProof} {l : KeyHash × ValueHash} {k : KeyHash} (hk : k ≠ l.1)
    (hn : P.siblings.length = Bytes32.commonPrefixBitsLen k l.1 + 1) (v : Value) :
    SMProof.computeNewMerklePathOnSplit H false P l k v = .ok ⟨some (k, H.hash v), P.siblings⟩ := by
  obtain ⟨c, c1, c2, c3⟩ := first_diff hk
  rw [commonPrefix_first c1 c2 c3] at hn
  unfold SMProof.computeNewMerklePathOnSplit
  rw [numDefaultSiblings_wrap hk (by unfold SMProof.maxVec; omega), commonPrefix_first c1 c2 c3, hn]
  have e : (c + u64Size - (c + 1)) % u64Size = u64Size - 1 := by unfold u64Size; omega
  simp only [ok_bind, e]
  have e2 : uadd false (u64Size - 1) 1 = .ok 0 := by unfold uadd u64Size; rfl
  rw [e2]
  have e3 : uadd false 0 (c + 1) = .ok (c + 1) := by unfold uadd u64Size; rw [if_pos (by omega), Nat.zero_add]
  simp only [ok_bind]
  rw [e3]
  simp only [ok_bind]
  rw [if_neg (by unfold SMProof.maxVec; omega)]
  rfl

/-- Without overflow checks: with more siblings than that the split computation panics. -/
theorem split_capacity {H : Hasher} {P : SMProof} {l : KeyHash × ValueHash} {k : KeyHash} (hk : k ≠ l.1)
    (hn : Bytes32.commonPrefixBitsLen k l.1 + 1 < P.siblings.length) (hm : P.siblings.length ≤ SMProof.maxVec) (v : Value) :
    ∃ m, SMProof.computeNewMerklePathOnSplit H false P l k v = .error (.panic m) := by
  unfold SMProof.computeNewMerklePathOnSplit
  rw [numDefaultSiblings_wrap hk hm]
  generalize Bytes32.commonPrefixBitsLen k l.1 = c at *
  generalize P.siblings.length = n at *
  unfold SMProof.maxVec at hm
  have e : (c + u64Size - n) % u64Size = u64Size - (n - c) := by unfold u64Size; omega
  simp only [ok_bind, e]
  have e2 : uadd false (u64Size - (n - c)) 1 = .ok (u64Size - (n - c) + 1) := by
    unfold uadd; rw [if_pos (by unfold u64Size; omega)]
  rw [e2]
  have e3 : ∃ r, uadd false (u64Size - (n - c) + 1) n = .ok r := by
    unfold uadd
    split
    · exact ⟨_, rfl⟩
    · exact ⟨_, rfl⟩
  obtain ⟨r, e3⟩ := e3
  simp only [ok_bind]
  rw [e3]
  simp only [ok_bind]
  rw [if_pos (.inr (by unfold SMProof.maxVec u64Size; omega))]
  exact ⟨_, rfl⟩

end Jmt
