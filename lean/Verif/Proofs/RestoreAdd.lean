import Verif.Proofs.RestoreStep
/-!
# Restore, part 3: adding one key
-/
namespace Jmt
open Spec (Entry)

section
variable {H : Hasher} {m : List Entry} {w : Version} {k k' : KeyHash} {vh vh' : ValueHash} {n c : Nat} {r : Restore}

/-- A subtree of a subtree with a single entry. -/
theorem under_single {p q : List Nibble} {e : Entry} (hpq : p <+: q) (h : under p m = [e]) :
    under q m = if q <+: e.1.nibbles then [e] else [] := by
  rw [← under_under hpq m, h]
  have := under_append q [] e
  simpa [under, ub] using this

theorem single_take {i j : Nat} (h : under (k.nibbles.take i) m = [(k, vh)]) (hij : i ≤ j) :
    under (k.nibbles.take j) m = [(k, vh)] := by
  have hpre : k.nibbles.take i <+: k.nibbles.take j := by
    rw [← Nat.min_eq_left hij, ← List.take_take]
    exact List.take_prefix _ _
  rw [under_single hpre h, if_pos (take_prefix_nib _ _)]

theorem single_side {i j : Nat} {x : Nibble} (h : under (k.nibbles.take i) m = [(k, vh)]) (hij : i ≤ j) (hj : j < 64)
    (hx : x ≠ nib k j) : under (k.nibbles.take j ++ [x]) m = [] := by
  have h1 := single_take h hij
  rw [under_single (List.prefix_append _ _) h1, if_neg]
  rw [snoc_prefix_nib hj]
  exact fun hc => hx hc.2.symm

/-- Case 1: the new key branches off at a level that is present. -/
theorem addOne_high (hp : Part H r m w k n) (hk : MaxKey m k) (hlt : k.val < k'.val) (hc : lcpN k k' ≤ n) :
    r.addOne H k' vh' = (do
      let r ← r.freeze H (lcpN k k' + 1)
      .ok (r.setChildAt (lcpN k k') (nib k' (lcpN k k')) (.leaf ⟨k', vh'⟩))) := by
  obtain ⟨h64, he, hnl⟩ := lcpN_spec hlt
  generalize lcpN k k' = c at *
  rw [addOne_reach hp hc he, drop_nib h64]
  have h0 := right_empty hk h64 hnl
  have hne : nib k' c ≠ nib k c := fun h => by rw [h] at hnl; exact absurd hnl (Nat.lt_irrefl _)
  have hg : ∃ info, r.partialNodes[c]? = some info ∧ info.children (nib k' c) = none := by
    rcases Nat.lt_or_eq_of_le hc with h | h
    · refine ⟨openInfo H m w k c, ?_, ?_⟩
      · rw [hp.nodes, List.getElem?_append_left (by rw [openPath_length]; omega)]
        unfold openPath
        rw [List.getElem?_map, List.getElem?_range (by omega)]
        rfl
      · unfold openInfo
        simp only [if_neg hne]
        exact cinfo_nil h0
    · refine ⟨fullInfo H m w (k.nibbles.take c), ?_, cinfo_nil h0⟩
      subst h
      have := hp.getLast
      rwa [List.getLast?_eq_getElem?, hp.length] at this
  obtain ⟨info, h1, h2⟩ := hg
  conv => lhs; unfold Restore.addOneLoop
  rw [h1]
  simp only []
  rw [h2]

theorem pushChain_spec (he : k.nibbles.take c = k'.nibbles.take c) (h64 : c < 64) : ∀ (d : Nat) {i : Nat}, i + d = c →
    under (k.nibbles.take i) m = [(k, vh)] →
    Restore.pushChain w d (k'.nibbles.take i) (k'.nibbles.drop i) (openPath H m w k i) =
      .ok (k'.nibbles.take c, openPath H m w k c) := by
  intro d
  induction d with
  | zero => intro i hi _; rw [Nat.add_zero] at hi; subst hi; rfl
  | succ d ih =>
    intro i hi h1
    have hi64 : i < 64 := by omega
    rw [drop_nib hi64]
    unfold Restore.pushChain
    have hs : (InternalInfo.newEmpty ⟨w, k'.nibbles.take i⟩).setChild (nib k' i) (.internal none 0) = openInfo H m w k i := by
      unfold InternalInfo.newEmpty InternalInfo.setChild openInfo
      rw [← take_take_nib he (by omega), ← nib_eq_of_take he (by omega)]
      simp only [InternalInfo.mk.injEq, true_and]
      funext j
      by_cases hj : j = nib k i
      · rw [if_pos hj, if_pos hj]
      · rw [if_neg hj, if_neg hj, cinfo_nil (single_side h1 (Nat.le_refl _) hi64 hj)]
    simp only []
    rw [hs, ← openPath_succ, ← take_succ_nib hi64]
    exact ih (by omega) (single_take h1 (Nat.le_succ _))

/-- Case 2: the new key meets the leaf of the last key below the bottom level. -/
theorem addOne_leaf (hp : Part H r m w k n) (hlt : k.val < k'.val) (hc : n < lcpN k k')
    (h1 : under (k.nibbles.take (n + 1)) m = [(k, vh)]) :
    r.addOne H k' vh' = (do
      let r ← (r.put H m w k (lcpN k k') r.frozenNodes.nodes).freeze H (lcpN k k' + 1)
      .ok (r.setChildAt (r.partialNodes.length - 1) (nib k' (lcpN k k')) (.leaf ⟨k', vh'⟩))) := by
  obtain ⟨h64, he, hnl⟩ := lcpN_spec hlt
  have hcommon : Bytes32.commonPrefixNibblesLen k k' = lcpN k k' := rfl
  generalize lcpN k k' = c at *
  have hn64 := hp.lt
  rw [addOne_reach hp (Nat.le_refl n) (take_take_nib he (by omega)), drop_nib hn64]
  conv => lhs; unfold Restore.addOneLoop
  have hg : r.partialNodes[n]? = some (fullInfo H m w (k.nibbles.take n)) := by
    have := hp.getLast
    rwa [List.getLast?_eq_getElem?, hp.length] at this
  rw [hg]
  simp only []
  have hx : nib k' n = nib k n := (nib_eq_of_take he hc).symm
  have hch : (fullInfo H m w (k.nibbles.take n)).children (nib k' n) = some (.leaf ⟨k, vh⟩) := by
    show cinfo H m _ = _
    rw [hx, ← take_succ_nib hn64, cinfo_one h1]
  rw [hch]
  simp only []
  rw [if_pos (by rw [hp.length]; rfl)]
  unfold Restore.insertAtLeaf
  simp only []
  rw [hp.length, show n + 1 - 1 = n from rfl]
  have hset : r.setChildAt n (nib k' n) (.internal none 0) = { r with partialNodes := openPath H m w k (n + 1) } := by
    unfold Restore.setChildAt
    rw [hp.nodes]
    have := modify_last (openPath H m w k n) (fullInfo H m w (k.nibbles.take n)) (fun info => info.setChild (nib k' n) (.internal none 0))
    rw [openPath_length] at this
    rw [this, openPath_succ]
    congr 3
    unfold InternalInfo.setChild fullInfo openInfo
    rw [hx]
  rw [hset]
  simp only []
  rw [hcommon, hp.version, ← take_succ_nib hn64]
  rw [pushChain_spec he h64 (c - (n + 1)) (i := n + 1) (by omega) h1, ok_bind]
  simp only []
  rw [nibbleAt_ok h64, ok_bind]
  have hinfo : (InternalInfo.newEmpty ⟨w, k'.nibbles.take c⟩).setChild (nib k c) (.leaf ⟨k, vh⟩) = fullInfo H m w (k.nibbles.take c) := by
    unfold InternalInfo.newEmpty InternalInfo.setChild fullInfo
    rw [← he]
    simp only [InternalInfo.mk.injEq, true_and]
    funext j
    by_cases hj : j = nib k c
    · subst hj
      rw [if_pos rfl, ← take_succ_nib h64, cinfo_one (single_take h1 (by omega))]
    · rw [if_neg hj, cinfo_nil (single_side h1 (by omega) h64 hj)]
  rw [hinfo]
  have hlen : (openPath H m w k c ++ [fullInfo H m w (k.nibbles.take c)]).length = c + 1 := by simp [openPath_length]
  rw [hlen]
  rw [nibbleAt_ok h64]
  simp only [ok_bind, hnl, not_true_eq_false, ↓reduceIte]
  have := hp.version
  subst this
  rfl

/-- Case 3: below the bottom level there is a complete internal node: panic. -/
theorem addOne_blocked (hp : Part H r m w k n) (hlt : k.val < k'.val) (hc : n < lcpN k k')
    (h2 : 2 ≤ (under (k.nibbles.take (n + 1)) m).length) : ∃ s, r.addOne H k' vh' = .error (.panic s) := by
  obtain ⟨h64, he, hnl⟩ := lcpN_spec hlt
  generalize lcpN k k' = c at *
  have hn64 := hp.lt
  rw [addOne_reach hp (Nat.le_refl n) (take_take_nib he (by omega)), drop_nib hn64]
  unfold Restore.addOneLoop
  have hg : r.partialNodes[n]? = some (fullInfo H m w (k.nibbles.take n)) := by
    have := hp.getLast
    rwa [List.getLast?_eq_getElem?, hp.length] at this
  rw [hg]
  simp only []
  have hx : nib k' n = nib k n := (nib_eq_of_take he hc).symm
  have hch : (fullInfo H m w (k.nibbles.take n)).children (nib k' n) =
      some (.internal (some (sh H m (pathBits (k.nibbles.take (n + 1))))) (under (k.nibbles.take (n + 1)) m).length) := by
    show cinfo H m _ = _
    rw [hx, ← take_succ_nib hn64, cinfo_two h2]
  rw [hch]
  simp only []
  rw [drop_nib (by omega)]
  unfold Restore.addOneLoop
  have : r.partialNodes[n + 1]? = none := by
    rw [List.getElem?_eq_none]
    rw [hp.length]; exact Nat.le_refl _
  rw [this]
  exact ⟨_, rfl⟩

/-- The conditions under which a key above the last one can be added. -/
structure CanAdd (m : List Entry) (k k' : KeyHash) (vh : ValueHash) (n : Nat) : Prop where
  bottom : lcpN k k' ≤ n ∨ under (k.nibbles.take (n + 1)) m = [(k, vh)]
  two : ∀ i, lcpN k k' < i → i ≤ n → 2 ≤ (under (k.nibbles.take i) m).length

/-- The nodes frozen when `k'` is added. -/
def addFrozen (H : Hasher) (m : List Entry) (w : Version) (k : KeyHash) (vh : ValueHash) (k' : KeyHash) (n : Nat) (r : Restore) :
    AMap NodeKey Node :=
  frzAll H m w k vh (lcpN k k') (max n (lcpN k k')) r

theorem addOne_ok (hm : NodupE m) (hk : MaxKey m k) (hp : Part H r m w k n)
    (h1 : r.numKeysReceived ≠ 0 → under (k.nibbles.take (n + 1)) m = [(k, vh)]) (hlt : k.val < k'.val)
    (hca : CanAdd m k k' vh n) :
    r.addOne H k' vh' = .ok (r.put H (m ++ [(k', vh')]) w k' (lcpN k k') (addFrozen H m w k vh k' n r)) := by
  obtain ⟨h64, he, hnl⟩ := lcpN_spec hlt
  have h0 := right_empty hk h64 hnl
  unfold addFrozen
  rcases Nat.lt_or_ge n (lcpN k k') with hc | hc
  · have hs : under (k.nibbles.take (n + 1)) m = [(k, vh)] := by
      rcases hca.bottom with h | h
      · omega
      · exact h
    rw [addOne_leaf hp hlt hc hs, Nat.max_eq_right (Nat.le_of_lt hc)]
    have hp' : Part H (r.put H m w k (lcpN k k') r.frozenNodes.nodes) m w k (lcpN k k') := ⟨hp.version, h64, rfl⟩
    rw [freeze_ok hm hk hp' (vh := vh) (fun _ => single_take hs (by omega)) (Nat.le_refl _) (fun i a b => by omega), ok_bind]
    have hl : ((r.put H m w k (lcpN k k') r.frozenNodes.nodes).withFrozen (openPath H m w k (lcpN k k') ++
        [fullInfo H m w (k.nibbles.take (lcpN k k'))]) (frzAll H m w k vh (lcpN k k') (lcpN k k')
          (r.put H m w k (lcpN k k') r.frozenNodes.nodes))).partialNodes.length - 1 = lcpN k k' := by
      simp [Restore.withFrozen, openPath_length]
    rw [hl]
    exact congrArg Except.ok (setChildAt_put h64 he _ h0)
  · rw [addOne_high hp hk hlt hc, Nat.max_eq_left hc, freeze_ok hm hk hp h1 hc hca.two, ok_bind]
    exact congrArg Except.ok (setChildAt_put h64 he _ h0)

theorem addOne_inv (hm : NodupE m) (hk : MaxKey m k) (hmem : (k, vh) ∈ m) (hp : Part H r m w k n)
    (h1 : r.numKeysReceived ≠ 0 → under (k.nibbles.take (n + 1)) m = [(k, vh)]) (hlt : k.val < k'.val) {r' : Restore}
    (h : r.addOne H k' vh' = .ok r') : CanAdd m k k' vh n := by
  rcases Nat.lt_or_ge n (lcpN k k') with hc | hc
  · refine ⟨.inr ?_, fun i a b => by omega⟩
    rcases len_cases (under (k.nibbles.take (n + 1)) m) with h3 | ⟨e, h3⟩ | h3
    · exact absurd h3 (under_take_ne hmem _)
    · have := mem_under_take hmem (n + 1)
      rw [h3] at this ⊢
      rw [List.mem_singleton.1 this]
    · obtain ⟨s, hs⟩ := addOne_blocked (vh' := vh') hp hlt hc h3
      rw [hs] at h
      cases h
  · refine ⟨.inl hc, ?_⟩
    rw [addOne_high hp hk hlt hc] at h
    cases hf : r.freeze H (lcpN k k' + 1) with
    | error e => rw [hf] at h; cases h
    | ok r1 => exact freeze_inv hm hk hmem hp h1 hc hf

/-- The very first key. -/
theorem addOne_first (hp : Part H r [] w k 0) (h0 : r.numKeysReceived = 0) :
    r.addOne H k' vh' = .ok (r.put H [(k', vh')] w k' 0 r.frozenNodes.nodes) := by
  have hu : ∀ q, under q ([] : List Entry) = [] := fun q => rfl
  unfold Restore.addOne
  have hd := drop_nib (k := k') (i := 0) (by decide)
  rw [List.drop_zero] at hd
  rw [hd]
  unfold Restore.addOneLoop
  have hps : r.partialNodes = [fullInfo H [] w []] := by rw [hp.nodes]; rfl
  rw [hps]
  simp only [List.getElem?_cons_zero]
  have : (fullInfo H [] w []).children (nib k' 0) = none := cinfo_nil (H := H) (q := [] ++ [nib k' 0]) (hu _)
  rw [this]
  simp only []
  unfold Restore.freeze
  rw [freezePreviousLeaf_zero h0, ok_bind]
  unfold Restore.freezeInternalNodes
  rw [hps]
  simp only [List.length_singleton, Nat.zero_add, Nat.sub_self]
  unfold Restore.freezeInternalLoop
  rw [ok_bind]
  apply congrArg Except.ok
  have := setChildAt_put (H := H) (r := r) (m := []) (w := w) (k := k) (k' := k') (vh' := vh') (c := 0) (by decide) rfl r.frozenNodes.nodes rfl
  rw [← List.nil_append [(k', vh')]]
  refine Eq.trans ?_ this
  congr 1
  unfold Restore.put Restore.withFrozen
  rw [show openPath H [] w k 0 ++ [fullInfo H [] w (k.nibbles.take 0)] = r.partialNodes from by rw [hps]; rfl]

/-- After the addition the new key is a leaf just below the bottom level. -/
theorem under_new (hk : MaxKey m k) (hlt : k.val < k'.val) :
    under (k'.nibbles.take (lcpN k k' + 1)) (m ++ [(k', vh')]) = [(k', vh')] := by
  obtain ⟨h64, he, hnl⟩ := lcpN_spec hlt
  have h0 := right_empty hk h64 hnl
  rw [under_append, if_pos (take_prefix_nib _ _), take_succ_nib h64, ← he, h0, List.nil_append]

end
end Jmt
