import Verif.Proofs.RestoreCommit
/-!
# Recovery of the partial nodes after a crash
-/
namespace Jmt
open Spec (Entry)

section
variable {H : Hasher} {m : List Entry} {w : Version} {k : KeyHash} {vh : ValueHash} {L : Entry} {S : AMap NodeKey Node}

/-- The leaf with the greatest key is found. -/
theorem rightmost_fold {key : NodeKey} {l : LeafNode} : ∀ (N : List (NodeKey × Node)) (acc : Option (NodeKey × LeafNode)),
    (∀ e ∈ N, ∀ l', e.2 = .leaf l' → (e.1 = key ∧ l' = l) ∨ l'.keyHash.val < l.keyHash.val) →
    (∀ a, acc = some a → a = (key, l) ∨ a.2.keyHash.val < l.keyHash.val) →
    (acc = some (key, l) ∨ (key, Node.leaf l) ∈ N) →
    N.foldl (fun acc e =>
      match e.2 with
      | .leaf l =>
        match acc with
        | none => some (e.1, l)
        | some (_, best) => if best.keyHash.val < l.keyHash.val then some (e.1, l) else acc
      | _ => acc) acc = some (key, l) := by
  intro N
  induction N with
  | nil =>
    intro acc _ _ h
    rcases h with h | h
    · exact h
    · simp at h
  | cons e N ih =>
    intro acc hN ha h
    rw [List.foldl_cons]
    apply ih
    · exact fun e' he' => hN e' (List.mem_cons_of_mem _ he')
    · intro a hx
      cases hn : e.2 with
      | leaf l' =>
        have h1 := hN e (by simp) l' hn
        have h1' : ((e.1, l') : NodeKey × LeafNode) = (key, l) ∨ l'.keyHash.val < l.keyHash.val := by
          rcases h1 with ⟨a, b⟩ | h1
          · exact .inl (by rw [a, b])
          · exact .inr h1
        rw [hn] at hx
        simp only [] at hx
        cases hacc : acc with
        | none => rw [hacc] at hx; simp only [] at hx; cases hx; exact h1'
        | some b =>
          rw [hacc] at hx
          obtain ⟨bk, bl⟩ := b
          simp only [] at hx
          split at hx
          · cases hx; exact h1'
          · cases hx; exact ha _ hacc
      | internal _ => rw [hn] at hx; exact ha a hx
      | null => rw [hn] at hx; exact ha a hx
    · by_cases hin : (key, Node.leaf l) ∈ N
      · exact .inr hin
      left
      have hin' : acc = some (key, l) ∨ e = (key, Node.leaf l) := by
        rcases h with h | h
        · exact .inl h
        · rcases List.mem_cons.1 h with h | h
          · exact .inr h.symm
          · exact absurd h hin
      rcases hin' with h | h
      · subst h
        cases hn : e.2 with
        | leaf l' =>
          simp only []
          rcases hN e (by simp) l' hn with ⟨a, b⟩ | h1
          · subst b; rw [if_neg (List.lt_irrefl _)]
          · rw [if_neg (fun hc => List.lt_irrefl _ (List.lt_trans h1 hc))]
        | internal _ => rfl
        | null => rfl
      · subst h
        simp only []
        cases hacc : acc with
        | none => rfl
        | some b =>
          obtain ⟨bk, bl⟩ := b
          simp only []
          rcases ha _ hacc with h1 | h1
          · cases h1; rw [if_neg (List.lt_irrefl _)]
          · rw [if_pos h1]

/-- The first level at which `k` is alone. -/
theorem leaf_level (hm : NodupE m) (hmem : (k, vh) ∈ m) (h2 : 2 ≤ m.length) :
    ∃ i, 0 < i ∧ i ≤ 64 ∧ under (k.nibbles.take i) m = [(k, vh)] ∧ ∀ j, j < i → 2 ≤ (under (k.nibbles.take j) m).length := by
  have hex : ∃ i, (under (k.nibbles.take i) m).length ≤ 1 := by
    refine ⟨64, ub_length_le_one hm ?_⟩
    simp
  have hfind : ∀ n, (under (k.nibbles.take n) m).length ≤ 1 →
      ∃ i, i ≤ n ∧ (under (k.nibbles.take i) m).length ≤ 1 ∧ ∀ j, j < i → 2 ≤ (under (k.nibbles.take j) m).length := by
    intro n
    induction n using Nat.strongRecOn with
    | ind n ih =>
      intro h
      by_cases hall : ∀ j, j < n → 2 ≤ (under (k.nibbles.take j) m).length
      · exact ⟨n, Nat.le_refl _, h, hall⟩
      · have : ∃ j, j < n ∧ (under (k.nibbles.take j) m).length ≤ 1 := by
          apply Decidable.byContradiction
          intro hc
          apply hall
          intro j hj
          apply Decidable.byContradiction
          intro hc2
          exact hc ⟨j, hj, by omega⟩
        obtain ⟨j, hj, hj1⟩ := this
        obtain ⟨i, h1, h3, h4⟩ := ih j hj hj1
        exact ⟨i, by omega, h3, h4⟩
  obtain ⟨i, h1, h3, h4⟩ := hfind 64 (ub_length_le_one hm (by simp))
  have hne := under_take_ne hmem i
  refine ⟨i, ?_, h1, ?_, h4⟩
  · apply Nat.pos_of_ne_zero
    rintro rfl
    have : under (k.nibbles.take 0) m = m := by
      rw [List.take_zero]
      unfold under ub
      rw [List.filter_eq_self]
      intro a _
      rfl
    rw [this] at h3
    omega
  · have hin := mem_under_take hmem i
    match hu : under (k.nibbles.take i) m, h3 with
    | [], _ => exact absurd hu hne
    | [e], _ => rw [hu] at hin; rw [List.mem_singleton.1 hin]

theorem genParent_snoc {v : Version} {p : List Nibble} (hp : p ≠ []) : Restore.genParent ⟨v, p⟩ = .ok ⟨v, p.dropLast⟩ := by
  unfold Restore.genParent
  cases p with
  | nil => exact absurd rfl hp
  | cons x p => rfl

theorem genParent_take {v : Version} {i : Nat} (hi : i < 64) :
    Restore.genParent ⟨v, k.nibbles.take (i + 1)⟩ = .ok ⟨v, k.nibbles.take i⟩ := by
  rw [genParent_snoc, take_succ_nib hi, List.dropLast_concat]
  rw [take_succ_nib hi]; simp

/-- Climbing from level `i` to level `c`. -/
theorem climb_take {s : Store} {c : Nat} (hc : s.nodes.get? ⟨w, k.nibbles.take c⟩ = none) :
    ∀ (d fuel : Nat), d ≤ fuel → c + d ≤ 64 → (∀ i, c < i → i ≤ c + d → ∃ n, s.nodes.get? ⟨w, k.nibbles.take i⟩ = some n) →
    Restore.climb s.reader fuel ⟨w, k.nibbles.take (c + d)⟩ = .ok ⟨w, k.nibbles.take c⟩ := by
  intro d
  induction d with
  | zero =>
    intro fuel _ _ _
    unfold Restore.climb
    simp only [Nat.add_zero, Store.reader, hc, ok_bind]
  | succ d ih =>
    intro fuel hf h64 hs
    obtain ⟨n, hn⟩ := hs (c + d + 1) (by omega) (by omega)
    unfold Restore.climb
    rw [show c + (d + 1) = c + d + 1 from rfl]
    simp only [Store.reader, hn, ok_bind]
    rw [genParent_take (by omega), ok_bind]
    cases fuel with
    | zero => omega
    | succ fuel => exact ih fuel (by omega) (by omega) (fun i h1 h2 => hs i h1 (by omega))

/-- Scanning positions whose stored nodes are known. -/
theorem scan_spec (hm : NodupE m) {s : Store} {p : List Nibble} {v : Version} (hp : p.length < 64) : ∀ (is : List Nibble) (info : InternalInfo),
    (∀ i ∈ is, s.nodes.get? ⟨w, p ++ [i]⟩ = if under (p ++ [i]) m = [] then none else some (canonNode H m (fun _ => w) (p ++ [i]))) →
    Restore.scan H s.reader w ⟨v, p⟩ is info = .ok ⟨info.nodeKey, fun j =>
      if j ∈ is ∧ (cinfo H m (p ++ [j])).isSome then cinfo H m (p ++ [j]) else info.children j⟩ := by
  intro is
  induction is with
  | nil =>
    intro info _
    unfold Restore.scan
    simp
  | cons i is ih =>
    intro info hs
    unfold Restore.scan
    rw [genChild_ok hp, ok_bind]
    have hi := hs i (by simp)
    have hs' := fun j hj => hs j (List.mem_cons_of_mem _ hj)
    by_cases h0 : under (p ++ [i]) m = []
    · rw [if_pos h0] at hi
      simp only [Store.reader, hi, ok_bind]
      have := ih info hs'
      simp only [Store.reader] at this
      rw [this]
      congr 2
      funext j
      by_cases hj : j = i
      · subst hj; simp [cinfo_nil h0]
      · simp [hj]
    · rw [if_neg h0] at hi
      obtain ⟨c, hc1, hc2⟩ := childInfoOf_canon (H := H) hm (fun _ => w) h0
      simp only [Store.reader, hi, ok_bind, hc1]
      have := ih (info.setChild i c) hs'
      simp only [Store.reader] at this
      rw [this]
      congr 2
      funext j
      by_cases hj : j = i
      · subst hj; simp [InternalInfo.setChild, hc2]
      · simp [hj, InternalInfo.setChild]

theorem frz_cases {c d : Nat} {key : NodeKey} (h64 : c + d ≤ 64) (hk : (frz H m w k c d []).get? key ≠ none) :
    ∃ i, c < i ∧ i ≤ c + d ∧ key = ⟨w, k.nibbles.take i⟩ := by
  apply Classical.byContradiction
  intro hc
  apply hk
  rw [frz_miss]
  · rfl
  · intro i a b e
    exact hc ⟨i, a, b, e⟩

/-- What is in the store: everything complete when `L` is the last entry received, but the gap. -/
theorem stored_at {d : Nat} (hgap : GapAt H S m w k L d) {p : List Nibble} {i : Nibble} (h2 : 2 ≤ (under p (m ++ [L])).length)
    (hi : ¬ p ++ [i] <+: L.1.nibbles) (hng : ∀ j, lcpN k L.1 < j → j ≤ lcpN k L.1 + d → p ++ [i] ≠ k.nibbles.take j) :
    S.get? ⟨w, p ++ [i]⟩ = if under (p ++ [i]) m = [] then none else some (canonNode H m (fun _ => w) (p ++ [i])) := by
  have hno := hgap.ok
  have hu := under_append_ne (m := m) (e := L) hi
  have hcn : canonNode H (m ++ [L]) (fun _ => w) (p ++ [i]) = canonNode H m (fun _ => w) (p ++ [i]) :=
    canonNode_add (vh' := L.2) (k' := L.1) _ hi
  split
  · rename_i h0
    refine (hno.no ⟨w, p ++ [i]⟩ (fun hc => hc.2.2.1.2.1 ?_)).1
    show under (p ++ [i]) (m ++ [L]) = []
    rw [hu, h0]
  · rename_i h0
    have hpd : pending (m ++ [L]) L.1 (p ++ [i]) := by
      refine ⟨by simp, ⟨List.nil_prefix, by rw [hu]; exact h0, .inr ?_⟩, hi⟩
      rw [List.dropLast_concat]; exact h2
    rcases hno.yes _ hpd with h | h
    · rw [h.1, hcn]
    · exfalso
      obtain ⟨j, h1, h2, h3⟩ := frz_cases (Nat.le_of_lt hgap.lt) (by rw [h.2]; simp)
      rw [NodeKey.mk.injEq] at h3
      exact hng j h1 h2 h3.2

theorem stored_on_path {d : Nat} (hgap : GapAt H S m w k L d) {p : List Nibble} {v : Version} (hi : p <+: L.1.nibbles) :
    S.get? ⟨v, p⟩ = none :=
  (hgap.ok.no ⟨v, p⟩ (fun hc => hc.2.2.2 hi)).1

theorem stored_gap {d i : Nat} (hgap : GapAt H S m w k L d) (h1 : lcpN k L.1 < i) (h2 : i ≤ lcpN k L.1 + d) :
    S.get? ⟨w, k.nibbles.take i⟩ = none := by
  have hf := frz_hit (H := H) (m := m) (w := w) (k := k) (c := lcpN k L.1) (i := i) d [] h1 h2 (Nat.le_of_lt hgap.lt)
  by_cases hp : pending (m ++ [L]) L.1 (k.nibbles.take i)
  · rcases hgap.ok.yes _ hp with h | h
    · rw [hf] at h; exact absurd h.2 (by simp)
    · exact h.1
  · exact (hgap.ok.no ⟨w, k.nibbles.take i⟩ (fun hc => hp hc.2)).1

theorem two_at_path {c i : Nat} (hmem : (k, vh) ∈ m) (he : k.nibbles.take c = L.1.nibbles.take c) (hlt : k.val < L.1.val) (hi : i ≤ c) :
    2 ≤ (under (k.nibbles.take i) (m ++ [L])).length := by
  refine two_le_of_mem (a := (k, vh)) (b := L) (mem_under_take (by simp [hmem]) i) ?_ ?_
  · rw [mem_under]
    refine ⟨by simp, ?_⟩
    rw [take_take_nib he hi]
    exact take_prefix_nib _ _
  · rintro rfl
    exact List.lt_irrefl _ hlt

theorem two_at_gap {i d : Nat} (hmem : (k, vh) ∈ m) (hlt : k.val < L.1.val) (hgap : GapAt H S m w k L d) (hi : i ≤ lcpN k L.1 + d) :
    2 ≤ (under (k.nibbles.take i) (m ++ [L])).length := by
  by_cases hc : i ≤ lcpN k L.1
  · exact two_at_path hmem (lcpN_spec hlt).2.1 hlt hc
  · exact Nat.le_trans (hgap.two i (by omega) hi) under_mono_length

/-- The lowest partial node. -/
theorem scan_bottom {s : Store} {d : Nat} (hm : NodupE m) (hk : MaxKey m k) (hmem : (k, vh) ∈ m) (hlt : k.val < L.1.val) (hgap : GapAt H s.nodes m w k L d) :
    Restore.scan H s.reader w ⟨w, k.nibbles.take (lcpN k L.1 + d)⟩ (Restore.scanRange none) (InternalInfo.newEmpty ⟨w, k.nibbles.take (lcpN k L.1 + d)⟩)
      = .ok (fullInfo H m w (k.nibbles.take (lcpN k L.1 + d))) := by
  obtain ⟨h64, he, hn⟩ := lcpN_spec hlt
  have hb := hgap.lt
  rw [scan_spec hm (by simp; omega)]
  · congr 1
    unfold fullInfo InternalInfo.newEmpty
    congr 1
    funext j
    simp only [Restore.scanRange, List.mem_finRange, true_and]
    split
    · rfl
    · rename_i h
      cases hc : cinfo H m (k.nibbles.take (lcpN k L.1 + d) ++ [j]) with
      | none => rfl
      | some x => rw [hc] at h; simp at h
  · intro j _
    by_cases hp : k.nibbles.take (lcpN k L.1 + d) ++ [j] <+: L.1.nibbles
    · have hd : d = 0 := by
        apply Classical.byContradiction
        intro hd
        exact not_prefix_take hlt (show lcpN k L.1 < lcpN k L.1 + d by omega) (by omega) ((List.prefix_append _ _).trans hp)
      subst hd
      have hj := ((snoc_prefix_nib h64).1 hp).2
      rw [stored_on_path hgap hp, if_pos (by rw [Nat.add_zero]; exact right_empty hk h64 (hj ▸ hn))]
    · refine stored_at hgap (two_at_gap hmem hlt hgap (Nat.le_refl _)) hp (fun j' _ h2 hc => ?_)
      have := congrArg List.length hc
      rw [List.length_append, take_length_nib (by omega), take_length_nib (by omega)] at this
      simp at this
      omega

/-- A higher partial node. -/
theorem scan_high {s : Store} {d i : Nat} (hm : NodupE m) (hk : MaxKey m k) (hmem : (k, vh) ∈ m) (hlt : k.val < L.1.val) (hgap : GapAt H s.nodes m w k L d)
    (hi : i < lcpN k L.1 + d) :
    ∃ info, Restore.scan H s.reader w ⟨w, k.nibbles.take i⟩ (Restore.scanRange (some (nib k i))) (InternalInfo.newEmpty ⟨w, k.nibbles.take i⟩)
      = .ok info ∧ Restore.markPartial (some (nib k i)) info = openInfo H m w k i := by
  obtain ⟨-, he, hn⟩ := lcpN_spec hlt
  have hb := hgap.lt
  have h64 : i < 64 := by omega
  rw [scan_spec hm (by simp; omega)]
  · refine ⟨_, rfl, ?_⟩
    unfold Restore.markPartial openInfo InternalInfo.newEmpty InternalInfo.setChild
    simp only [InternalInfo.mk.injEq, true_and]
    funext j
    by_cases hj : j = nib k i
    · rw [if_pos hj, if_pos hj]
    · rw [if_neg hj, if_neg hj]
      simp only [Restore.scanRange, List.mem_filter, List.mem_finRange, true_and, decide_eq_true_eq]
      cases hci : cinfo H m (k.nibbles.take i ++ [j]) with
      | none => simp
      | some x =>
        rw [if_pos]
        refine ⟨?_, rfl⟩
        apply Decidable.byContradiction
        intro hge
        have hgt : nib k i < j := by
          rw [Fin.lt_def] at *
          have : j.val ≠ (nib k i).val := fun h => hj (Fin.ext h)
          omega
        rw [cinfo_nil (right_empty hk h64 hgt)] at hci
        cases hci
  · intro j hj
    simp only [Restore.scanRange, List.mem_filter, List.mem_finRange, true_and, decide_eq_true_eq] at hj
    refine stored_at hgap (two_at_gap hmem hlt hgap (Nat.le_of_lt hi)) (fun hp => ?_) (fun j' _ _ hc => ?_)
    · have hle : i ≤ lcpN k L.1 := by
        apply Classical.byContradiction
        intro hc
        exact not_prefix_take hlt (show lcpN k L.1 < i by omega) (by omega) ((List.prefix_append _ _).trans hp)
      rw [take_take_nib he hle] at hp
      have hjL := ((snoc_prefix_nib h64).1 hp).2
      rcases Nat.lt_or_ge i (lcpN k L.1) with hlt' | hge
      · rw [← nib_eq_of_take he hlt'] at hjL
        rw [hjL] at hj
        exact absurd hj (Nat.lt_irrefl _)
      · have : i = lcpN k L.1 := by omega
        subst this
        have h1 : j.val < (nib k (lcpN k L.1)).val := hj
        have h2 : (nib k (lcpN k L.1)).val < (nib L.1 (lcpN k L.1)).val := hn
        have h3 := congrArg Fin.val hjL
        omega
    · have hl := congrArg List.length hc
      rw [List.length_append, take_length_nib (by omega), take_length_nib (by omega)] at hl
      simp at hl
      subst hl
      rw [take_succ_nib h64] at hc
      have := List.append_cancel_left hc
      simp at this
      rw [this] at hj
      exact absurd hj (Nat.lt_irrefl _)

theorem rebuild_high {s : Store} {d : Nat} (hm : NodupE m) (hk : MaxKey m k) (hmem : (k, vh) ∈ m) (hlt : k.val < L.1.val) (hgap : GapAt H s.nodes m w k L d) :
    ∀ (i : Nat) (acc : List InternalInfo), i < lcpN k L.1 + d →
    Restore.rebuild H s.reader w i ⟨w, k.nibbles.take i⟩ (some (nib k i)) acc = .ok (openPath H m w k (i + 1) ++ acc) := by
  have hb := hgap.lt
  intro i
  induction i with
  | zero =>
    intro acc hi
    obtain ⟨info, h1, h2⟩ := scan_high hm hk hmem hlt hgap hi
    unfold Restore.rebuild
    rw [h1, ok_bind]
    simp only [h2]
    rfl
  | succ i ih =>
    intro acc hi
    obtain ⟨info, h1, h2⟩ := scan_high hm hk hmem hlt hgap hi
    unfold Restore.rebuild
    rw [h1, ok_bind]
    simp only [h2]
    have hl : (k.nibbles.take (i + 1)).getLast? = some (nib k i) := by
      rw [take_succ_nib (by omega), List.getLast?_concat]
    rw [hl]
    simp only []
    rw [genParent_take (by omega), ok_bind, ih _ (by omega), openPath_succ (i + 1)]
    simp

theorem rebuild_all {s : Store} {d : Nat} (hm : NodupE m) (hk : MaxKey m k) (hmem : (k, vh) ∈ m) (hlt : k.val < L.1.val) (hgap : GapAt H s.nodes m w k L d) :
    Restore.rebuild H s.reader w (k.nibbles.take (lcpN k L.1 + d)).length ⟨w, k.nibbles.take (lcpN k L.1 + d)⟩ none []
      = .ok (openPath H m w k (lcpN k L.1 + d) ++ [fullInfo H m w (k.nibbles.take (lcpN k L.1 + d))]) := by
  have hsc := scan_bottom hm hk hmem hlt hgap
  have hb := hgap.lt
  have hrh := rebuild_high hm hk hmem hlt hgap
  generalize lcpN k L.1 + d = c at *
  rw [take_length_nib (by omega)]
  unfold Restore.rebuild
  rw [hsc, ok_bind]
  cases c with
  | zero => rfl
  | succ c =>
    have hl : (k.nibbles.take (c + 1)).getLast? = some (nib k c) := by
      rw [take_succ_nib (by omega), List.getLast?_concat]
    rw [hl]
    simp only []
    rw [genParent_take (by omega), ok_bind, hrh c _ (by omega)]
    rfl

/-- The stored leaf with the greatest key. -/
theorem rightmost_spec {s : Store} {d : Nat} (hs : AMap.NodupKeys s.nodes) (hm : NodupE (m ++ [L])) (hk : MaxKey m k) (hmem : (k, vh) ∈ m)
    (hlt : k.val < L.1.val) (hgap : GapAt H s.nodes m w k L d) :
    ∃ i, lcpN k L.1 + d < i ∧ i ≤ 64 ∧ s.getRightmostLeaf = some (⟨w, k.nibbles.take i⟩, ⟨k, vh⟩) ∧
      ∀ j, lcpN k L.1 + d < j → j < i → ∃ n, s.nodes.get? ⟨w, k.nibbles.take j⟩ = some n := by
  have hno := hgap.ok
  have hmem0 : (k, vh) ∈ m ++ [L] := by simp [hmem]
  have h2 : 2 ≤ (m ++ [L]).length := by
    have := List.length_pos_of_mem hmem
    simp; omega
  obtain ⟨i, hi0, hi64, hleaf, htwo⟩ := leaf_level hm hmem0 h2
  obtain ⟨h64, he, hn⟩ := lcpN_spec hlt
  have hci : lcpN k L.1 + d < i := by
    apply Decidable.byContradiction
    intro hc
    have := two_at_gap hmem hlt hgap (Nat.not_lt.1 hc)
    rw [hleaf] at this
    simp at this
  have hpend : ∀ j, lcpN k L.1 < j → j ≤ i → pending (m ++ [L]) L.1 (k.nibbles.take j) := by
    intro j hj hji
    refine ⟨fun hc => ?_, ⟨List.nil_prefix, under_take_ne hmem0 j, .inr ?_⟩, not_prefix_take hlt hj (by omega)⟩
    · have := congrArg List.length hc
      rw [take_length_nib (by omega)] at this
      simp at this; omega
    · rw [dropLast_take (by omega)]
      exact htwo _ (by omega)
  have hget : ∀ j, lcpN k L.1 + d < j → j ≤ i → s.nodes.get? ⟨w, k.nibbles.take j⟩ = some (canonNode H (m ++ [L]) (fun _ => w) (k.nibbles.take j)) := by
    intro j hj hji
    rcases hno.yes _ (hpend j (by omega) hji) with h | h
    · exact h.1
    · exfalso
      obtain ⟨j', h1, h2, h3⟩ := frz_cases (Nat.le_of_lt hgap.lt) (by rw [h.2]; simp)
      rw [NodeKey.mk.injEq] at h3
      have := take_inj_nib (by omega) (by have := hgap.lt; omega) h3.2
      omega
  refine ⟨i, hci, hi64, ?_, fun j h1 h2 => ⟨_, hget j h1 (by omega)⟩⟩
  unfold Store.getRightmostLeaf
  apply rightmost_fold
  · intro e he' l' hl'
    have hg : s.nodes.get? e.1 = some (.leaf l') := by
      rw [← hl']; exact (AMap.mem_iff_get? hs).1 he'
    have hpd : e.1.version = w ∧ pending (m ++ [L]) L.1 e.1.path := by
      apply Classical.byContradiction
      intro hc
      rw [(hno.no e.1 hc).1] at hg
      cases hg
    have hcan : canonNode H (m ++ [L]) (fun _ => w) e.1.path = .leaf l' := by
      rcases hno.yes _ hpd.2 with h | h
      · have := h.1
        rw [← hpd.1] at this
        rw [hg] at this
        rw [← hpd.1]
        exact (Option.some.inj this).symm
      · exfalso
        rw [← hpd.1] at h
        rw [h.1] at hg
        cases hg
    rcases len_cases (under e.1.path (m ++ [L])) with h | ⟨a, h⟩ | h
    · exact absurd h hpd.2.2.1.2.1
    · rw [canonNode_one h] at hcan
      cases hcan
      have ha : a ∈ m ++ [L] ∧ e.1.path <+: a.1.nibbles := mem_under.1 (by rw [h]; simp)
      have ham : a ∈ m := by
        rcases List.mem_append.1 ha.1 with h1 | h1
        · exact h1
        · rw [List.mem_singleton.1 h1] at ha
          exact absurd ha.2 hpd.2.2.2
      by_cases hak : a.1 = k
      · left
        have hae : a = (k, vh) := by
          obtain ⟨a1, a2⟩ := a
          simp only at hak
          subst hak
          rw [NodupE.eq_of_mem hm ha.1 hmem0]
        subst hae
        refine ⟨?_, rfl⟩
        have hpath : e.1.path = k.nibbles.take i := by
          obtain ⟨hl64, hpt⟩ := prefix_nib_iff.1 ha.2
          have hdl : 2 ≤ (under e.1.path.dropLast (m ++ [L])).length := by
            rcases hpd.2.2.1.2.2 with h1 | h1
            · exact absurd h1 hpd.2.1
            · exact h1
          rcases Nat.lt_trichotomy e.1.path.length i with h1 | h1 | h1
          · have := htwo _ h1
            simp only at hpt
            rw [← hpt, h] at this
            simp at this
          · rw [← h1]; exact hpt
          · exfalso
            rw [hpt, dropLast_take hl64] at hdl
            have := single_take hleaf (show i ≤ e.1.path.length - 1 by omega)
            simp only at hdl
            rw [this] at hdl
            simp at hdl
        obtain ⟨⟨ev, ep⟩, en⟩ := e
        simp only at hpath hpd ⊢
        rw [hpath, hpd.1]
      · right
        have h1 : ¬ k.val < a.1.val := hk a ham
        rcases Std.lt_trichotomy a.1.val k.val with h2 | h2 | h2
        · exact h2
        · exact absurd (Subtype.ext h2) hak
        · exact absurd h2 h1
    · have := canonNode_two (H := H) (ver := fun _ => w) h
      rw [this] at hcan
      cases hcan
  · intro a ha; cases ha
  · right
    have := hget i hci (Nat.le_refl _)
    rw [canonNode_one hleaf] at this
    exact AMap.mem_of_get? this

/-- Recovery rebuilds the partial nodes the receiver had before the last entry. -/
theorem new_recovers {s : Store} {root : Digest} {d : Nat} (hs : AMap.NodupKeys s.nodes) (hm : NodupE (m ++ [L])) (hk : MaxKey m k) (hmem : (k, vh) ∈ m)
    (hlt : k.val < L.1.val) (hgap : GapAt H s.nodes m w k L d) :
    Restore.new H s.reader w root = .ok ⟨w, openPath H m w k (lcpN k L.1 + d) ++ [fullInfo H m w (k.nibbles.take (lcpN k L.1 + d))],
      ⟨[], []⟩, some ⟨k, vh⟩, 0, root⟩ := by
  obtain ⟨i, hci, hi64, hr, hst⟩ := rightmost_spec hs hm hk hmem hlt hgap
  have hm' : NodupE m := by
    unfold NodupE at hm ⊢
    rw [List.map_append] at hm
    exact (List.nodup_append.1 hm).1
  have hrb := rebuild_all (s := s) hm' hk hmem hlt hgap
  obtain ⟨h64, he, hn⟩ := lcpN_spec hlt
  have hbot : s.nodes.get? ⟨w, k.nibbles.take (lcpN k L.1 + d)⟩ = none := by
    by_cases hd : d = 0
    · subst hd
      exact stored_on_path hgap (by rw [Nat.add_zero, he]; exact take_prefix_nib _ _)
    · exact stored_gap hgap (by omega) (Nat.le_refl _)
  generalize lcpN k L.1 + d = c at *
  have hcl := climb_take (s := s) (k := k) (w := w) (c := c) hbot (i - 1 - c)
    (k.nibbles.take (i - 1)).length (by rw [take_length_nib (by omega)]; omega) (by omega) (fun j h1 h2 => hst j h1 (by omega))
  rw [show c + (i - 1 - c) = i - 1 by omega] at hcl
  obtain ⟨i, rfl⟩ : ∃ i', i = i' + 1 := ⟨i - 1, by omega⟩
  unfold Restore.new
  rw [show s.reader.getRightmostLeaf = .ok s.getRightmostLeaf from rfl, ok_bind, hr]
  simp only []
  unfold Restore.recoverPartialNodes
  rw [if_neg (by simp only []; rw [take_succ_nib (by omega)]; simp), genParent_take (by omega), ok_bind]
  simp only [Nat.add_sub_cancel] at hcl
  rw [hcl, ok_bind, hrb, ok_bind]

end

/-- What is in the store `s` when the pairs `p0` have been accepted. -/
structure Durable (H : Hasher) (Ms : List Entry) (E : List (KeyHash × Value)) (w : Version) (s : Store) (p0 : List (KeyHash × Value)) : Prop where
  auth : entriesOf H p0 <+: Ms
  store : StoreN H s.nodes (entriesOf H p0) w
  stored : ∀ e ∈ p0, Store.histOf s.values e.1 = [(w, some e.2)]
  absent : ∀ k, k ∉ p0.map Prod.fst → Store.histOf s.values k = [] ∨ ∃ x, (k, x) ∈ E ∧ Store.histOf s.values k = [(w, some x)]
  snodup : AMap.NodupKeys s.nodes

section
variable {H : Hasher} {Ms : List Entry} {w : Version} {root : Digest} {s : Store} {E p0 gp : List (KeyHash × Value)} {r : Restore}

theorem RInv.durable (h : RInv H Ms E w root s p0 r gp) : Durable H Ms E w s p0 :=
  ⟨h.nodes.auth0, h.nodes.store, h.stored, h.absent, h.snodup⟩

theorem durable_new (ow : Bool) : Durable H Ms E w (Store.new ow) [] :=
  ⟨List.nil_prefix, ⟨fun _ _ => rfl, fun m k vh L h => by simp [entriesOf] at h⟩, fun e he => by simp at he, fun k _ => .inl rfl, AMap.nodupKeys_nil⟩

theorem entriesOf_dropLast : entriesOf H p0.dropLast = (entriesOf H p0).dropLast := by
  unfold entriesOf; rw [List.map_dropLast]

theorem rightmost_none (h : ∀ key, s.nodes.get? key = none) : s.getRightmostLeaf = none := by
  have : s.nodes = [] := by
    match hs : s.nodes with
    | [] => rfl
    | (a, b) :: t =>
      have := h a
      rw [hs] at this
      simp [AMap.get?] at this
  unfold Store.getRightmostLeaf
  rw [this]; rfl

/-- Starting or restarting: everything accepted but the last pair is taken over. -/
theorem new_inv (hd : Durable H Ms E w s p0) (hMs : Asc Ms) :
    ∃ r, Restore.new H s.reader w root = .ok r ∧ RInv H Ms E w root s p0 r p0.dropLast := by
  have hasc := hMs.prefix hd.auth
  by_cases hl : p0.length ≤ 1
  · have hno := hd.store.none_of_le (by simpa [entriesOf] using hl)
    have hdl : p0.dropLast = [] := by
      match p0, hl with
      | [], _ => rfl
      | [e], _ => rfl
    rw [hdl]
    refine ⟨Restore.newOverwrite w root, ?_, ⟨⟨?_, hd.auth, AMap.nodupKeys_nil, hd.store, ?_, ?_⟩, rfl, rfl, AMap.nodupKeys_nil, ?_, ?_, hd.stored, hd.absent, hd.snodup⟩⟩
    · unfold Restore.new
      rw [show s.reader.getRightmostLeaf = .ok s.getRightmostLeaf from rfl, ok_bind, rightmost_none hno]
    · exact List.Pairwise.nil
    · intro _
      refine ⟨rfl, rfl, rfl, fun k => ⟨rfl, by decide, rfl⟩, by simpa [entriesOf] using hl⟩
    · intro k vh h; simp [entriesOf] at h
    · intro v k x h; simp [Restore.newOverwrite] at h
    · intro e he; simp at he
  · obtain ⟨gp, L, rfl⟩ : ∃ gp L, p0 = gp ++ [L] := by
      refine ⟨p0.dropLast, p0.getLast (by rintro rfl; simp at hl), (List.dropLast_concat_getLast _).symm⟩
    rw [List.dropLast_concat]
    obtain ⟨e, he⟩ : ∃ e, gp.getLast? = some e := by
      cases h : gp.getLast? with
      | none => rw [List.getLast?_eq_none_iff] at h; subst h; simp at hl
      | some e => exact ⟨e, rfl⟩
    have hle : (entriesOf H gp).getLast? = some (e.1, H.hash e.2) := by rw [entriesOf_last, he]; rfl
    have heq : entriesOf H (gp ++ [L]) = entriesOf H gp ++ [(L.1, H.hash L.2)] := by rw [entriesOf_append]; rfl
    rw [heq] at hasc
    have hasc1 : Asc (entriesOf H gp) := hasc.prefix (List.prefix_append _ _)
    have hmem : (e.1, H.hash e.2) ∈ entriesOf H gp := List.mem_of_getLast? hle
    have hlt : e.1.val < L.1.val := by
      unfold Asc at hasc
      rw [List.pairwise_append] at hasc
      exact hasc.2.2 _ hmem (L.1, H.hash L.2) (by simp)
    obtain ⟨d, hgap⟩ := hd.store.last _ _ _ _ heq hle
    have hnew := new_recovers (root := root) (L := (L.1, H.hash L.2)) hd.snodup hasc.nodup (hasc1.max hle) hmem hlt hgap
    refine ⟨_, hnew, ⟨⟨hasc1, hd.auth, AMap.nodupKeys_nil, hd.store, ?_, ?_⟩, rfl, rfl, AMap.nodupKeys_nil, ?_, ?_, hd.stored, hd.absent, hd.snodup⟩⟩
    · intro hc; rw [hc] at hle; simp at hle
    · intro k vh hk
      rw [hle] at hk
      cases hk
      exact ⟨rfl, lcpN e.1 L.1 + d, ⟨rfl, hgap.lt, rfl⟩, .inl ⟨rfl, rfl, (L.1, H.hash L.2), d, heq, rfl, hgap⟩⟩
    · intro v k x h; simp at h
    · intro e' he'
      exact .inr (by simp [he'])

end
end Jmt
