import Verif.Proofs.Update
import Verif.Proofs.ProofSim
/-!
# Soundness of `check_compute_new_root`: an accepted proof is the canonical one
-/
namespace Jmt
open Spec (Entry)

section
variable {H : Hasher} {m : List Entry} {k : KeyHash}

theorem sibNode_of_hash (hm : NodupE m) {b : List Bool} {s : SMNode} (h : s.hash H = sh H m b)
    (hnc : Spec.NoCollision H (ts H m b ++ Spec.nodeString s)) : s = sibNode H m b := by
  rcases sh_cases hm H b with ⟨h0, h1⟩ | ⟨e, h0, h1, h2⟩ | ⟨h0, h1, h2, -⟩
  · rw [sibNode_nil h0]
    cases s with
    | null => rfl
    | internal l r =>
      exact absurd (h.trans h1) (hnc.notPlaceholder (.internal l r) (by simp [Spec.nodeString]))
    | leaf k v => exact absurd (h.trans h1) (hnc.notPlaceholder (.leaf k v) (by simp [Spec.nodeString]))
  · rw [sibNode_one h0]
    cases s with
    | null => exact absurd (h1.symm.trans h.symm) (hnc.notPlaceholder _ (by simp [h2]))
    | internal l r =>
      have := hnc.inj (.internal l r) (by simp [Spec.nodeString]) _ (by simp [h2]) (h.trans h1)
      cases this
    | leaf k v =>
      have := hnc.inj (.leaf k v) (by simp [Spec.nodeString]) _ (by simp [h2]) (h.trans h1)
      simp only [Spec.Preimage.leaf.injEq] at this
      rw [this.1, this.2]
  · rw [sibNode_two h0]
    cases s with
    | null => exact absurd (h1.symm.trans h.symm) (hnc.notPlaceholder _ (by simp [h2]))
    | internal l r =>
      have := hnc.inj (.internal l r) (by simp [Spec.nodeString]) _ (by simp [h2]) (h.trans h1)
      simp only [Spec.Preimage.internal.injEq] at this
      rw [this.1, this.2]
    | leaf k v =>
      have := hnc.inj (.leaf k v) (by simp [Spec.nodeString]) _ (by simp [h2]) (h.trans h1)
      cases this

/-- A path that hashes to a canonical subtree hash is the canonical walk. -/
theorem path_canonical (hm : NodupE m) {leaf : Option (KeyHash × ValueHash)} :
    ∀ (S : List SMNode) (b xs : List Bool), S.length ≤ xs.length → b ++ xs = keyBits k →
    Spec.pathHash H k (Spec.bottomHash H leaf) b.length S = sh H m b →
    Spec.NoCollision H (ts H m b ++ ((match leaf with | none => [] | some l => [Spec.Preimage.leaf l.1 l.2]) ++
      (S.flatMap Spec.nodeString ++ Spec.pathStrings H k (Spec.bottomHash H leaf) b.length S))) →
    (walk H m b xs).1 = S ∧
      ub (walk H m b xs).2 m = (match leaf with | none => [] | some l => [l]) := by
  intro S
  induction S with
  | nil =>
    intro b xs hlen hk heq hnc
    have hb : b <+: keyBits k := ⟨xs, hk⟩
    have hbl : b.length ≤ 256 := by have := hb.length_le; simpa using this
    obtain ⟨b', c1, c2, c3, c4⟩ := path_sound hm (leaf := leaf) (k := k) [] b (by simpa using hbl) hb heq
      (NoCollision.sub hnc (by
        intro p hp
        simp only [List.mem_append] at hp ⊢
        rcases hp with hp | hp | hp
        · exact .inl hp
        · exact .inr (.inl hp)
        · simp [Spec.pathStrings] at hp))
    have : b' = b := (c1.eq_of_length (by simpa using c3.symm)).symm
    subst this
    have hle : (ub b' m).length ≤ 1 := by rw [c4]; cases leaf <;> simp
    rw [walk_stop hle]
    exact ⟨rfl, c4⟩
  | cons s S ih =>
    intro b xs hlen hk heq hnc
    cases xs with
    | nil => simp at hlen
    | cons x xs =>
    have hbl := (keyBits_split hk).2
    have hx := (keyBits_split hk).1
    simp only [Spec.pathHash] at heq
    have hmemp : Spec.combine (Spec.bit k b.length) (s.hash H)
        (Spec.pathHash H k (Spec.bottomHash H leaf) (b.length + 1) S)
        ∈ Spec.pathStrings H k (Spec.bottomHash H leaf) b.length (s :: S) := by simp [Spec.pathStrings]
    have hmem' := List.mem_append_right (ts H m b) (List.mem_append_right
      (match leaf with | none => [] | some l => [Spec.Preimage.leaf l.1 l.2])
      (List.mem_append_right ((s :: S).flatMap Spec.nodeString) hmemp))
    have hint : ∃ l r, Spec.combine (Spec.bit k b.length) (s.hash H)
        (Spec.pathHash H k (Spec.bottomHash H leaf) (b.length + 1) S) = .internal l r := by
      unfold Spec.combine; cases Spec.bit k b.length <;> exact ⟨_, _, rfl⟩
    rcases sh_cases hm H b with ⟨h, h1⟩ | ⟨e, h, h1, h2⟩ | ⟨h, h1, h2, h3⟩
    · exact absurd (heq.trans h1) (hnc.notPlaceholder _ hmem')
    · have := hnc.inj _ hmem' _ (by simp [h2]) (heq.trans h1)
      obtain ⟨l, r, hlr⟩ := hint
      rw [hlr] at this; cases this
    · have hc := hnc.inj _ hmem' _ (by simp [h2]) (heq.trans h1)
      have hnext : Spec.pathHash H k (Spec.bottomHash H leaf) (b.length + 1) S = sh H m (b ++ [x]) ∧
          s.hash H = sh H m (b ++ [!x]) := by
        rw [hx]
        unfold Spec.combine at hc
        cases hbit : Spec.bit k b.length
        · rw [hbit] at hc; simp only [Bool.false_eq_true, if_false, Spec.Preimage.internal.injEq] at hc
          exact ⟨hc.1, hc.2⟩
        · rw [hbit] at hc; simp only [if_true, Spec.Preimage.internal.injEq] at hc
          exact ⟨hc.2, hc.1⟩
      have hs := sibNode_of_hash hm hnext.2 (NoCollision.sub hnc (by
        intro p hp
        simp only [List.mem_append] at hp ⊢
        rcases hp with hp | hp
        · exact .inl (h3 _ _ hp)
        · right; right; left; simp [hp]))
      obtain ⟨i1, i2⟩ := ih (b ++ [x]) xs (by simpa using hlen) (by simpa using hk)
        (by simpa using hnext.1) (by
          apply NoCollision.sub hnc
          intro p hp
          simp only [List.mem_append, List.length_append, List.length_singleton] at hp ⊢
          rcases hp with hp | hp | hp | hp
          · exact .inl (h3 _ _ hp)
          · exact .inr (.inl hp)
          · right; right; left; rw [List.flatMap_cons]; exact List.mem_append_right _ hp
          · right; right; right; simp [Spec.pathStrings, hp])
      rw [walk_step h, i1, ← hs]
      exact ⟨rfl, i2⟩

/-- A proof whose path hashes to the canonical root is the canonical proof. -/
theorem proof_canonical (hm : NodupE m) {P : SMProof} (hlen : P.siblings.length ≤ 256)
    (h : Spec.pathHash H k (Spec.bottomHash H P.leaf) 0 P.siblings.reverse = sh H m [])
    (hk : ∀ l, P.leaf = some l → l.1 = k)
    (hnc : Spec.NoCollision H (Spec.treeStrings H m ++ Spec.updateStrings H P k)) :
    P = specProof H m k := by
  have ht : ts H m [] = Spec.treeStrings H m := by simp [ts, Spec.treeStrings]
  obtain ⟨w1, w2⟩ := path_canonical (k := k) hm (leaf := P.leaf) P.siblings.reverse [] (keyBits k)
    (by simpa using hlen) rfl (by simpa using h) (by
      apply NoCollision.sub hnc
      intro p hp
      rw [ht] at hp
      have hu : Spec.updateStrings H P k =
          (match P.leaf with | none => [] | some l => [Spec.Preimage.leaf l.1 l.2]) ++
            (P.siblings.flatMap Spec.nodeString ++
              Spec.pathStrings H k (Spec.bottomHash H P.leaf) 0 P.siblings.reverse) := by
        unfold Spec.updateStrings
        cases hl : P.leaf with
        | none => rfl
        | some l => simp only [hk l hl]
      rw [hu]
      simp only [List.mem_append, List.length_nil, List.mem_flatMap, List.mem_reverse] at hp ⊢
      exact hp)
  unfold specProof
  rw [w1, w2]
  cases P with
  | mk leaf sibs => cases leaf <;> simp

/-- The walk depends on the bits it passes only. -/
theorem specProof_key_congr (hm : NodupE m) {k k' : KeyHash}
    (h : (keyBits k).take (specProof H m k').siblings.length
      = (keyBits k').take (specProof H m k').siblings.length) :
    specProof H m k = specProof H m k' := by
  have hl : (specProof H m k').siblings.length = (walk H m [] (keyBits k')).1.length := by simp [specProof]
  rw [hl] at h
  have hw : ∀ (xs b : List Bool), walk H m b (xs.take (walk H m b xs).1.length) = walk H m b xs := by
    intro xs
    induction xs with
    | nil => intro b; simp [walk]
    | cons x xs ih =>
      intro b
      by_cases hb : (ub b m).length ≤ 1
      · rw [walk_stop hb, walk_stop hb]
      · rw [walk_step (by omega)]
        simp only [List.length_cons, List.take_succ_cons]
        rw [walk_step (by omega), ih]
  have h2 : walk H m [] (keyBits k) = walk H m [] (keyBits k') := by
    rw [← List.take_append_drop (walk H m [] (keyBits k')).1.length (keyBits k), h, walk_append, hw,
      walk_stop (walk_mem (H := H) hm k').1]
    simp
  unfold specProof
  rw [h2]

theorem usub_ok {checked : Bool} {a b c : Nat} (h : usub checked a b = .ok c) (hc : checked = true) :
    b ≤ a ∧ c = a - b := by
  unfold usub at h
  by_cases hle : b ≤ a
  · rw [if_pos hle] at h; simp only [Except.ok.injEq] at h; exact ⟨hle, h.symm⟩
  · rw [if_neg hle, if_pos hc] at h; cases h

theorem uadd_ok {checked : Bool} {a b c : Nat} (h : uadd checked a b = .ok c) (hc : checked = true) :
    c = a + b := by
  unfold uadd at h
  by_cases hle : a + b < u64Size
  · rw [if_pos hle] at h; simp only [Except.ok.injEq] at h; exact h.symm
  · rw [if_neg hle, if_pos hc] at h; cases h

/-- With overflow checks, the split computation only succeeds if the leaf's key agrees with the new key on
all bits of the path. -/
theorem numDefaultSiblings_ok {k k' : KeyHash} {s n : Nat} (hk : k ≠ k')
    (h : SMProof.numDefaultSiblings true k' k s = .ok n) :
    ∃ c, c < 256 ∧ s ≤ c ∧ ∀ i, i < c → (keyBits k)[i]? = (keyBits k')[i]? := by
  obtain ⟨c, c1, c2, c3⟩ := first_diff hk
  refine ⟨c, c1, ?_, c2⟩
  -- the number of common nibbles and bits does not depend on `s`
  have h0 := numDefaultSiblings_eq (s := 0) true hk c1 c2 c3 (Nat.zero_le _)
  unfold SMProof.numDefaultSiblings at h h0
  simp only at h h0
  obtain ⟨d, a1, h⟩ := bind_ok_inv h
  obtain ⟨d0, a1', h0⟩ := bind_ok_inv h0
  obtain ⟨r, a2, h⟩ := bind_ok_inv h
  obtain ⟨r0, a2', h0⟩ := bind_ok_inv h0
  rw [a2] at a2'; cases a2'
  obtain ⟨x, a3, h⟩ := bind_ok_inv h
  obtain ⟨x0, a3', h0⟩ := bind_ok_inv h0
  obtain ⟨y, a4, hA⟩ := bind_ok_inv h
  obtain ⟨y0, a4', hB⟩ := bind_ok_inv h0
  obtain ⟨u1, rfl⟩ := usub_ok a1 rfl
  obtain ⟨u1', rfl⟩ := usub_ok a1' rfl
  have u3 := uadd_ok a3 rfl
  have u3' := uadd_ok a3' rfl
  have u4 := uadd_ok a4 rfl
  have u4' := uadd_ok a4' rfl
  obtain ⟨u5, u6⟩ := usub_ok hA rfl
  obtain ⟨u5', u6'⟩ := usub_ok hB rfl
  omega

end
end Jmt
