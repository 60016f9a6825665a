import Verif.Proofs.RestoreAdd
/-!
# Restore, part 4: which nodes have been frozen
-/
namespace Jmt
open Spec (Entry)

section
variable {H : Hasher} {m : List Entry} {w : Version} {k k' : KeyHash} {vh vh' : ValueHash} {n c : Nat} {r : Restore}

theorem take_inj_nib {i j : Nat} (hi : i ≤ 64) (hj : j ≤ 64) (h : k.nibbles.take i = k.nibbles.take j) : i = j := by
  have := congrArg List.length h
  rwa [take_length_nib hi, take_length_nib hj] at this

theorem frz_miss {key : NodeKey} : ∀ (d : Nat) (N : AMap NodeKey Node), (∀ i, c < i → i ≤ c + d → key ≠ ⟨w, k.nibbles.take i⟩) →
    (frz H m w k c d N).get? key = N.get? key := by
  intro d
  induction d with
  | zero => intro N _; rfl
  | succ d ih =>
    intro N h
    unfold frz
    rw [ih _ (fun i a b => h i a (by omega)), AMap.get?_insert, if_neg (fun e => h (c + d + 1) (by omega) (by omega) e.symm)]

theorem frz_hit {i : Nat} : ∀ (d : Nat) (N : AMap NodeKey Node), c < i → i ≤ c + d → c + d ≤ 64 →
    (frz H m w k c d N).get? ⟨w, k.nibbles.take i⟩ = some (.internal (canonInternal H m (fun _ => w) (k.nibbles.take i))) := by
  intro d
  induction d with
  | zero => intro N h1 h2; omega
  | succ d ih =>
    intro N h1 h2 h3
    unfold frz
    by_cases hi : i = c + d + 1
    · subst hi
      rw [frz_miss d, AMap.get?_insert, if_pos rfl]
      intro j a b hc
      rw [NodeKey.mk.injEq] at hc
      have := take_inj_nib (by omega) (by omega) hc.2
      omega
    · exact ih _ h1 (by omega) (by omega)

/-- The new leaf stands just below level `n`, and all levels above it (but the root) have at least two entries. -/
structure RReady (m : List Entry) (k : KeyHash) (vh : ValueHash) (n : Nat) : Prop where
  leaf : under (k.nibbles.take (n + 1)) m = [(k, vh)]
  two : ∀ i, 1 ≤ i → i ≤ n → 2 ≤ (under (k.nibbles.take i) m).length

theorem two_le_of_mem {α : Type} {l : List α} {a b : α} (ha : a ∈ l) (hb : b ∈ l) (hne : a ≠ b) : 2 ≤ l.length := by
  match l with
  | [] => simp at ha
  | [x] => simp at ha hb; exact absurd (ha.trans hb.symm) hne
  | _ :: _ :: _ => simp

theorem key_ne_of_lt (h : k.val < k'.val) : k ≠ k' := fun e => by rw [e] at h; exact List.lt_irrefl _ h

theorem ready_add (hk : MaxKey m k) (hmem : (k, vh) ∈ m) (hlt : k.val < k'.val) :
    RReady (m ++ [(k', vh')]) k' vh' (lcpN k k') := by
  refine ⟨under_new hk hlt, fun i h1 h2 => ?_⟩
  obtain ⟨h64, he, hnl⟩ := lcpN_spec hlt
  refine two_le_of_mem (a := (k, vh)) (b := (k', vh')) (mem_under.2 ⟨by simp [hmem], ?_⟩)
    (mem_under.2 ⟨by simp, take_prefix_nib _ _⟩) (fun e => key_ne_of_lt hlt (congrArg Prod.fst e))
  rw [← take_take_nib he h2]
  exact take_prefix_nib _ _

theorem ready_first : RReady [(k', vh')] k' vh' 0 := by
  refine ⟨?_, fun i h1 h2 => by omega⟩
  have := under_append (k'.nibbles.take 1) [] (k', vh')
  rw [if_pos (take_prefix_nib _ _)] at this
  exact this

theorem RReady.canAdd (h : RReady m k vh n) : CanAdd m k k' vh n :=
  ⟨.inr h.leaf, fun i h1 h2 => h.two i (by omega) h2⟩

/-- A node that is complete once `k` has been received. -/
def pending (m : List Entry) (k : KeyHash) (q : List Nibble) : Prop := q ≠ [] ∧ pres m [] q ∧ ¬ q <+: k.nibbles

/-- Stored and frozen nodes together are the complete ones, and no node is in both. -/
structure NodesOk (H : Hasher) (S F : AMap NodeKey Node) (m : List Entry) (w : Version) (k : KeyHash) : Prop where
  yes : ∀ q, pending m k q →
    (S.get? ⟨w, q⟩ = some (canonNode H m (fun _ => w) q) ∧ F.get? ⟨w, q⟩ = none) ∨
    (S.get? ⟨w, q⟩ = none ∧ F.get? ⟨w, q⟩ = some (canonNode H m (fun _ => w) q))
  no : ∀ key : NodeKey, ¬ (key.version = w ∧ pending m k key.path) → S.get? key = none ∧ F.get? key = none

theorem convex {p a b c : List Nibble} (ha : p <+: a) (hc : p <+: c) (h1 : a < b) (h2 : b < c) (hab : a.length = b.length)
    (hbc : b.length = c.length) : p <+: b := by
  rw [← pos_eq_iff] at ha hc ⊢
  cases h : pos p b with
  | eq => rfl
  | lt =>
    have := pos_trans (q := p) (x := c) (y := b) hbc.symm ((pos_eq_iff.1 hc).length_le) (by rw [hc]; decide) (by rw [h]; decide)
      (.inr (by rw [h]; decide))
    exact absurd (List.lt_trans h2 this) (List.lt_irrefl _)
  | gt =>
    have := pos_trans (q := p) (x := b) (y := a) hab.symm (by rw [← hab]; exact (pos_eq_iff.1 ha).length_le) (by rw [h]; decide) (by rw [ha]; decide)
      (.inl (by rw [h]; decide))
    exact absurd (List.lt_trans h1 this) (List.lt_irrefl _)

theorem under_mono_length {q : List Nibble} {e : Entry} : (under q m).length ≤ (under q (m ++ [e])).length := by
  rw [under_append, List.length_append]; omega

theorem pres_mono {q : List Nibble} {e : Entry} (h : pres m [] q) : pres (m ++ [e]) [] q := by
  refine ⟨h.1, ?_, ?_⟩
  · intro hc
    apply h.2.1
    rw [under_append] at hc
    exact (List.append_eq_nil_iff.1 hc).1
  · rcases h.2.2 with h | h
    · exact .inl h
    · exact .inr (Nat.le_trans h under_mono_length)

theorem not_prefix_take {i : Nat} (hlt : k.val < k'.val) (hi : lcpN k k' < i) (h64 : i ≤ 64) :
    ¬ k.nibbles.take i <+: k'.nibbles := by
  intro h
  have := (prefix_nib_iff.1 h).2
  rw [take_length_nib h64] at this
  have := (le_lcpN h64).2 this
  omega

theorem dropLast_take {i : Nat} (hi : i ≤ 64) : (k.nibbles.take i).dropLast = k.nibbles.take (i - 1) := by
  rw [List.dropLast_eq_take, take_length_nib hi, List.take_take, Nat.min_eq_left (by omega)]

/-- What adding `k'` completes: the nodes on the path of `k` below the branching point. -/
theorem pending_add (hk : MaxKey m k) (hmem : (k, vh) ∈ m) (hr : RReady m k vh n) (hn : n < 64) (hlt : k.val < k'.val)
    (q : List Nibble) : pending (m ++ [(k', vh')]) k' q ↔
      pending m k q ∨ ∃ i, lcpN k k' < i ∧ i ≤ max n (lcpN k k') + 1 ∧ q = k.nibbles.take i := by
  obtain ⟨h64, he, hnl⟩ := lcpN_spec hlt
  have hN : max n (lcpN k k') + 1 ≤ 64 := by omega
  constructor
  · rintro ⟨hq, hpr, hnp⟩
    by_cases hqk : q <+: k.nibbles
    · right
      obtain ⟨hl, hqe⟩ := prefix_nib_iff.1 hqk
      generalize hi : q.length = i at *
      refine ⟨i, ?_, ?_, hqe⟩
      · apply Decidable.byContradiction
        intro hc
        apply hnp
        rw [hqe, take_take_nib he (by omega)]
        exact take_prefix_nib _ _
      · apply Decidable.byContradiction
        intro hc
        rcases hpr.2.2 with h | h
        · exact hq h
        · have hnp' : ¬ k.nibbles.take (i - 1) <+: k'.nibbles := not_prefix_take hlt (by omega) (by omega)
          rw [hqe, dropLast_take hl, under_append_ne (e := (k', vh')) hnp',
            single_take hr.leaf (by omega)] at h
          simp at h
    · left
      refine ⟨hq, ⟨List.nil_prefix, ?_, ?_⟩, hqk⟩
      · have := hpr.2.1
        rwa [under_append_ne hnp] at this
      · right
        have hne := hpr.2.1
        rw [under_append_ne hnp] at hne
        obtain ⟨e, hemem⟩ := List.exists_mem_of_ne_nil _ hne
        rw [mem_under] at hemem
        have h2 : 2 ≤ (under q.dropLast (m ++ [(k', vh')])).length := by
          rcases hpr.2.2 with h | h
          · exact absurd h hq
          · exact h
        by_cases hd : q.dropLast <+: k'.nibbles
        · have hek : e.1 ≠ k := fun hc => hqk (hc ▸ hemem.2)
          have hlt' : e.1.val < k.val := by
            have h1 := hk e hemem.1
            rcases Decidable.em (e.1.val < k.val) with h | h
            · exact h
            · exact absurd (Subtype.ext (List.le_antisymm (List.not_lt.1 h1) (List.not_lt.1 h))) hek
          have hdk : q.dropLast <+: k.nibbles := convex ((List.dropLast_prefix q).trans hemem.2) hd
            (nibbles_lt.2 hlt') (nibbles_lt.2 hlt) (by simp) (by simp)
          exact two_le_of_mem (a := e) (b := (k, vh)) (mem_under.2 ⟨hemem.1, (List.dropLast_prefix q).trans hemem.2⟩)
            (mem_under.2 ⟨hmem, hdk⟩) (fun hc => hek (congrArg Prod.fst hc))
        · rwa [under_append_ne hd] at h2
  · rintro (⟨hq, hpr, hnp⟩ | ⟨i, h1, h2, rfl⟩)
    · refine ⟨hq, pres_mono hpr, fun hc => ?_⟩
      obtain ⟨hl, hqe⟩ := prefix_nib_iff.1 hc
      apply hpr.2.1
      have hle : lcpN k k' + 1 ≤ q.length := by
        apply Decidable.byContradiction
        intro hcc
        apply hnp
        rw [hqe, ← take_take_nib he (by omega)]
        exact take_prefix_nib _ _
      have h0 := right_empty hk h64 hnl
      have hpre : k.nibbles.take (lcpN k k') ++ [nib k' (lcpN k k')] <+: q := by
        rw [he, ← take_succ_nib h64, hqe, ← Nat.min_eq_left hle, ← List.take_take]
        exact List.take_prefix _ _
      rw [← under_under hpre m, h0]
      rfl
    · refine ⟨?_, ⟨List.nil_prefix, ?_, .inr ?_⟩, not_prefix_take hlt h1 (by omega)⟩
      · intro hc
        have := congrArg List.length hc
        rw [take_length_nib (by omega)] at this
        simp at this
        omega
      · exact under_take_ne (vh := vh) (by simp [hmem]) _
      · rw [dropLast_take (by omega)]
        by_cases hi : i - 1 ≤ lcpN k k'
        · refine two_le_of_mem (a := (k, vh)) (b := (k', vh')) (mem_under.2 ⟨by simp [hmem], take_prefix_nib _ _⟩)
            (mem_under.2 ⟨by simp, ?_⟩) (fun e => key_ne_of_lt hlt (congrArg Prod.fst e))
          rw [take_take_nib he hi]
          exact take_prefix_nib _ _
        · exact Nat.le_trans (hr.two (i - 1) (by omega) (by omega)) under_mono_length

theorem canonNode_add {q : List Nibble} (ver) (h : ¬ q <+: k'.nibbles) :
    canonNode H (m ++ [(k', vh')]) ver q = canonNode H m ver q := by
  apply canonNode_congr
  · rw [under_append_ne (e := (k', vh')) h]
  · intros; rfl

theorem addFrozen_hit (hr : RReady m k vh n) (hn : n < 64) (hlt : k.val < k'.val) (h0 : r.numKeysReceived ≠ 0) {i : Nat}
    (h1 : lcpN k k' < i) (h2 : i ≤ max n (lcpN k k') + 1) :
    (addFrozen H m w k vh k' n r).get? ⟨w, k.nibbles.take i⟩ = some (canonNode H m (fun _ => w) (k.nibbles.take i)) := by
  obtain ⟨h64, -, -⟩ := lcpN_spec hlt
  unfold addFrozen frzAll
  rw [if_neg h0]
  by_cases hi : i = max n (lcpN k k') + 1
  · subst hi
    rw [frz_miss, AMap.get?_insert, if_pos rfl, canonNode_one (single_take hr.leaf (by omega))]
    intro j a b hc
    rw [NodeKey.mk.injEq] at hc
    have := take_inj_nib (by omega) (by omega) hc.2
    omega
  · rw [frz_hit _ _ h1 (by omega) (by omega), canonNode_two]
    exact hr.two i (by omega) (by omega)

theorem addFrozen_miss {key : NodeKey}
    (h : ∀ i, lcpN k k' < i → i ≤ max n (lcpN k k') + 1 → key ≠ ⟨w, k.nibbles.take i⟩) :
    (addFrozen H m w k vh k' n r).get? key = r.frozenNodes.nodes.get? key := by
  unfold addFrozen frzAll
  rw [frz_miss _ _ (fun i a b => h i a (by omega))]
  split
  · rfl
  · rw [AMap.get?_insert, if_neg (fun e => h (max n (lcpN k k') + 1) (by omega) (Nat.le_refl _) e.symm)]

theorem nodesOk_add (hk : MaxKey m k) (hmem : (k, vh) ∈ m) (hr : RReady m k vh n) (hn : n < 64) (hlt : k.val < k'.val)
    (h0 : r.numKeysReceived ≠ 0) {S : AMap NodeKey Node} (h : NodesOk H S r.frozenNodes.nodes m w k) :
    NodesOk H S (addFrozen H m w k vh k' n r) (m ++ [(k', vh')]) w k' := by
  have hnot : ∀ i, ¬ pending m k (k.nibbles.take i) := fun i hp => hp.2.2 (take_prefix_nib _ _)
  constructor
  · intro q hq
    rw [canonNode_add _ hq.2.2]
    rcases (pending_add hk hmem hr hn hlt q).1 hq with hp | ⟨i, h1, h2, rfl⟩
    · rw [addFrozen_miss]
      · exact h.yes q hp
      · intro i _ _ hc
        rw [NodeKey.mk.injEq] at hc
        exact hnot i (hc.2 ▸ hp)
    · right
      exact ⟨(h.no _ (fun hc => hnot i hc.2)).1, addFrozen_hit hr hn hlt h0 h1 h2⟩
  · intro key hkey
    have hnp : ¬ (key.version = w ∧ pending m k key.path) := fun hc =>
      hkey ⟨hc.1, (pending_add hk hmem hr hn hlt key.path).2 (.inl hc.2)⟩
    rw [addFrozen_miss]
    · exact h.no key hnp
    · intro i h1 h2 hc
      subst hc
      exact hkey ⟨rfl, (pending_add hk hmem hr hn hlt _).2 (.inr ⟨i, h1, h2, rfl⟩)⟩

theorem pending_nil (q : List Nibble) : ¬ pending [] k q := fun h => h.2.1.2.1 rfl

theorem pending_one {e : Entry} (q : List Nibble) : ¬ pending [e] k q := by
  rintro ⟨h1, h2, -⟩
  rcases h2.2.2 with h | h
  · exact h1 h
  · have : (under q.dropLast [e]).length ≤ 1 := List.length_filter_le _ _
    omega

theorem nodesOk_first {S F : AMap NodeKey Node} (h : NodesOk H S F [] w k) : NodesOk H S F [(k', vh')] w k' :=
  ⟨fun q hq => absurd hq (pending_one q), fun key _ => h.no key (fun hc => pending_nil _ hc.2)⟩

end
end Jmt
