import Verif.Model.Batch
import Verif.Proofs.Nib
/-!
# Splitting the sorted pairs of a batch into groups by nibble
-/
namespace Jmt

/-- Strictly ascending keys. -/
def KvSorted (kvs : List Kv) : Prop := kvs.Pairwise (fun a b => a.1.val < b.1.val)

section
variable {kvs : List Kv} {p : List Nibble}

theorem snoc_prefix_iff {k : KeyHash} (hp : p.length < 64) (h : p <+: k.nibbles) (c : Nibble) :
    p ++ [c] <+: k.nibbles ↔ nib k p.length = c := by
  obtain ⟨h1, h2⟩ := prefix_nib_iff.1 h
  rw [h2, take_length_nib h1, snoc_prefix_nib hp]
  constructor
  · exact fun h => h.2
  · exact fun h' => ⟨h2 ▸ h, h'⟩

/-- The pairs found by one range. -/
theorem batchGroup_spec {depth : Nat} (hd : depth < 64) {lr : Nat × Nat} (h1 : lr.1 < kvs.length) (h2 : lr.1 ≤ lr.2)
    (h3 : lr.2 < kvs.length)
    (h : ∀ n (hn : n < kvs.length), nib kvs[n].1 depth = nib kvs[lr.1].1 depth ↔ lr.1 ≤ n ∧ n ≤ lr.2) :
    ∃ g, batchGroup kvs depth lr = .ok (nib kvs[lr.1].1 depth, g) ∧ g ≠ [] ∧ g.Sublist kvs ∧
      ∀ e, e ∈ g ↔ e ∈ kvs ∧ nib e.1 depth = nib kvs[lr.1].1 depth := by
  refine ⟨(kvs.drop lr.1).take (lr.2 + 1 - lr.1), ?_, ?_, ?_, ?_⟩
  · unfold batchGroup
    rw [List.getElem?_eq_getElem h1]
    simp only [nibbleAt_ok hd, ok_bind, h3, ↓reduceIte]
  · intro hc
    have := congrArg List.length hc
    simp at this
    omega
  · exact (List.take_sublist _ _).trans (List.drop_sublist _ _)
  · intro e
    rw [List.mem_iff_getElem]
    constructor
    · rintro ⟨n, hn, rfl⟩
      simp only [List.length_take, List.length_drop] at hn
      rw [List.getElem_take, List.getElem_drop]
      exact ⟨List.getElem_mem _, (h _ (by omega)).2 ⟨by omega, by omega⟩⟩
    · rintro ⟨he, hn⟩
      obtain ⟨n, hn', rfl⟩ := List.mem_iff_getElem.1 he
      obtain ⟨a, b⟩ := (h n hn').1 hn
      refine ⟨n - lr.1, by simp; omega, ?_⟩
      rw [List.getElem_take, List.getElem_drop]
      congr 1; omega

theorem batchGroupsOf_spec {depth : Nat} (hd : depth < 64) : ∀ (rs : List (Nat × Nat)),
    (∀ lr ∈ rs, ∃ h1 : lr.1 < kvs.length, lr.1 ≤ lr.2 ∧ lr.2 < kvs.length ∧
      ∀ n (hn : n < kvs.length), nib kvs[n].1 depth = nib kvs[lr.1].1 depth ↔ lr.1 ≤ n ∧ n ≤ lr.2) →
    ∃ gs, batchGroupsOf kvs depth rs = .ok gs ∧
      gs.map Prod.fst = rs.map (fun lr => ((kvs[lr.1]?).map (fun e => nib e.1 depth)).getD 0) ∧
      ∀ c g, (c, g) ∈ gs → g ≠ [] ∧ g.Sublist kvs ∧ ∀ e, e ∈ g ↔ e ∈ kvs ∧ nib e.1 depth = c := by
  intro rs
  induction rs with
  | nil => intro _; exact ⟨[], rfl, rfl, by simp⟩
  | cons lr rs ih =>
    intro h
    obtain ⟨h1, h2, h3, h4⟩ := h lr (by simp)
    obtain ⟨g, a1, a2, a3, a4⟩ := batchGroup_spec hd h1 h2 h3 h4
    obtain ⟨gs, b1, b2, b3⟩ := ih (fun lr' hlr => h lr' (by simp [hlr]))
    refine ⟨(nib kvs[lr.1].1 depth, g) :: gs, ?_, ?_, ?_⟩
    · unfold batchGroupsOf
      simp only [a1, b1, ok_bind]
    · simp only [List.map_cons, b2, List.getElem?_eq_getElem h1]; rfl
    · intro c g' hg
      rcases List.mem_cons.1 hg with hg | hg
      · cases hg; exact ⟨a2, a3, a4⟩
      · exact b3 c g' hg

theorem tiles_mem {pos n : Nat} : ∀ {rs : List (Nat × Nat)}, Spec.Tiles pos rs n → ∀ i, pos ≤ i → i < n →
    ∃ lr ∈ rs, lr.1 ≤ i ∧ i ≤ lr.2 := by
  intro rs
  induction rs generalizing pos with
  | nil => intro h i h1 h2; simp only [Spec.Tiles] at h; omega
  | cons lr rs ih =>
    intro h i h1 h2
    obtain ⟨a, b, c, d⟩ := h
    by_cases hi : i ≤ lr.2
    · exact ⟨lr, by simp, by omega, hi⟩
    · obtain ⟨lr', e1, e2⟩ := ih d i (by omega) h2
      exact ⟨lr', by simp [e1], e2⟩

theorem tiles_le {pos n : Nat} : ∀ {rs : List (Nat × Nat)}, Spec.Tiles pos rs n → ∀ lr ∈ rs, lr.1 ≤ lr.2 ∧ lr.2 < n := by
  intro rs
  induction rs generalizing pos with
  | nil => intro h lr hlr; simp at hlr
  | cons lr rs ih =>
    intro h lr' hlr
    obtain ⟨a, b, c, d⟩ := h
    rcases List.mem_cons.1 hlr with rfl | hlr
    · exact ⟨b, c⟩
    · exact ih d lr' hlr

/-- The groups of sorted pairs below `p`: one per child of `p` that has pairs. -/
theorem batchGroups_spec (hp : p.length < 64) (hs : KvSorted kvs) (hpre : ∀ e ∈ kvs, p <+: e.1.nibbles) :
    ∃ gs, batchGroups kvs p.length = .ok gs ∧ (gs.map Prod.fst).Nodup ∧
      (∀ e ∈ kvs, ∃ c, p ++ [c] <+: e.1.nibbles ∧ c ∈ gs.map Prod.fst) ∧
      ∀ c g, (c, g) ∈ gs → g ≠ [] ∧ KvSorted g ∧ (∀ e, e ∈ g ↔ e ∈ kvs ∧ p ++ [c] <+: e.1.nibbles) := by
  let f : Nat → UInt8 := fun i => match kvs[i]? with | some a => UInt8.ofNat (nib a.1 p.length).val | none => 0
  have hfi : ∀ i (h : i < kvs.length), f i = UInt8.ofNat (nib kvs[i].1 p.length).val := by
    intro i h
    show (match kvs[i]? with | some a => UInt8.ofNat (nib a.1 p.length).val | none => 0) = _
    rw [List.getElem?_eq_getElem h]
  have hf : ∀ i, i < kvs.length → kvNibble kvs p.length i = .ok (f i) := by
    intro i h
    rw [hfi i h]
    unfold kvNibble
    rw [List.getElem?_eq_getElem h]
    obtain ⟨n, n1, n2, n3⟩ := nibbles_get kvs[i].1 p.length hp
    rw [nib_get? hp] at n1
    cases n1
    simp only [n2]
  have hm : ∀ i j, i ≤ j → j < kvs.length → f i ≤ f j := by
    intro i j hij hj
    have hii : i < kvs.length := by omega
    rw [hfi i hii, hfi j hj]
    have hle : (nib kvs[i].1 p.length).val ≤ (nib kvs[j].1 p.length).val := by
      refine nibble_mono (p := kvs[i].1.nibbles) (q := kvs[j].1.nibbles) (i := p.length) ?_ (nib_get? hp) (nib_get? hp) ?_
      · rw [← (prefix_nib_iff.1 (hpre _ (List.getElem_mem hii))).2, ← (prefix_nib_iff.1 (hpre _ (List.getElem_mem hj))).2]
      · rw [nibbles_lt]
        rcases Nat.lt_or_eq_of_le hij with h | h
        · exact fun hc => List.lt_irrefl _ (List.lt_trans hc (List.pairwise_iff_getElem.1 hs i j hii hj h))
        · subst h; exact List.lt_irrefl _
    rw [← UInt8.not_lt, ofNat_nibble_lt]
    omega
  obtain ⟨rs, e1, e2, e3, e4⟩ := rangesFrom_spec hf hm (kvs.length + 1) 0 (by omega) (Nat.zero_le _) (fun n h => by omega)
  have hcond : ∀ lr ∈ rs, ∃ h1 : lr.1 < kvs.length, lr.1 ≤ lr.2 ∧ lr.2 < kvs.length ∧
      ∀ n (hn : n < kvs.length), nib kvs[n].1 p.length = nib kvs[lr.1].1 p.length ↔ lr.1 ≤ n ∧ n ≤ lr.2 := by
    intro lr hlr
    obtain ⟨-, h2, h3⟩ := e3 lr hlr
    obtain ⟨h4, h5⟩ := tiles_le e2 lr hlr
    refine ⟨h2, h4, h5, fun n hn => ?_⟩
    rw [← h3 n hn, hfi n hn, hfi _ h2, ofNat_nibble_inj]
  obtain ⟨gs, b1, b2, b3⟩ := batchGroupsOf_spec hp rs hcond
  refine ⟨gs, ?_, ?_, ?_, ?_⟩
  · unfold batchGroups nibbleRanges
    rw [if_neg (by simp only [rootNibbleHeight]; omega), e1]
    exact b1
  · rw [b2]
    refine List.pairwise_map.2 (List.Pairwise.imp_of_mem ?_ e4)
    intro x y hx hy hlt he
    obtain ⟨hx1, -⟩ := hcond x hx
    obtain ⟨hy1, -⟩ := hcond y hy
    rw [List.getElem?_eq_getElem hx1, List.getElem?_eq_getElem hy1] at he
    simp only [Option.map_some, Option.getD_some] at he
    rw [hfi _ hx1, hfi _ hy1, he] at hlt
    exact UInt8.lt_irrefl _ hlt
  · intro e he
    refine ⟨nib e.1 p.length, (snoc_prefix_iff hp (hpre e he) _).2 rfl, ?_⟩
    obtain ⟨n, hn, rfl⟩ := List.mem_iff_getElem.1 he
    obtain ⟨lr, h1, h2⟩ := tiles_mem e2 n (Nat.zero_le _) hn
    obtain ⟨h3, h4, h5, h6⟩ := hcond lr h1
    rw [b2, List.mem_map]
    refine ⟨lr, h1, ?_⟩
    rw [List.getElem?_eq_getElem h3]
    simp only [Option.map_some, Option.getD_some]
    exact ((h6 n hn).2 h2).symm
  · intro c g hg
    obtain ⟨h1, h2, h3⟩ := b3 c g hg
    refine ⟨h1, List.Pairwise.sublist h2 hs, fun e => ?_⟩
    rw [h3]
    exact and_congr_right fun he => (snoc_prefix_iff hp (hpre e he) c).symm

end
end Jmt
