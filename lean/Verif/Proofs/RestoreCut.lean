import Verif.Spec.RestoreCrash
import Verif.Proofs.RestoreHonest
/-!
# The store after an interrupted write: if nodes are stored from left to right, children first, recovery finds what it needs
-/
namespace Jmt
open Spec (Entry Before)

section
variable {H : Hasher} {m M : List Entry} {w : Version} {k k' : KeyHash} {vh : ValueHash} {S F : AMap NodeKey Node} {q p : List Nibble}

theorem split_paths : ∀ (q l : List Nibble), ¬ q <+: l → l <+: q ∨ ∃ c i j, i ≠ j ∧ c ++ [i] <+: q ∧ c ++ [j] <+: l := by
  intro q
  induction q with
  | nil => intro l h; exact absurd List.nil_prefix h
  | cons x q ih =>
    intro l h
    cases l with
    | nil => exact .inl List.nil_prefix
    | cons y l =>
      by_cases hxy : x = y
      · subst hxy
        have : ¬ q <+: l := fun hc => h (List.cons_prefix_cons.2 ⟨rfl, hc⟩)
        rcases ih l this with h1 | ⟨c, i, j, h1, h2, h3⟩
        · exact .inl (List.cons_prefix_cons.2 ⟨rfl, h1⟩)
        · refine .inr ⟨x :: c, i, j, h1, ?_, ?_⟩
          · exact List.cons_prefix_cons.2 ⟨rfl, h2⟩
          · exact List.cons_prefix_cons.2 ⟨rfl, h3⟩
      · exact .inr ⟨[], x, y, hxy, by simp, by simp⟩

theorem key_lt_of_split {c : List Nibble} {i j : Nibble} (hij : i < j) (h1 : c ++ [i] <+: k.nibbles) (h2 : c ++ [j] <+: k'.nibbles) : k.val < k'.val := by
  apply nibbles_lt.1
  obtain ⟨t1, e1⟩ := h1
  obtain ⟨t2, e2⟩ := h2
  rw [← e1, ← e2, List.append_assoc, List.append_assoc]
  apply append_lt_nib
  rw [List.cons_append, List.cons_append, List.cons_lt_cons_iff]
  exact .inl hij

theorem before_path {l : Nat} (hk : MaxKey m k) (hu : under q m ≠ []) (hq : ¬ q <+: k.nibbles) : Before q (k.nibbles.take l) := by
  rcases split_paths q k.nibbles hq with h | ⟨c, i, j, h1, h2, h3⟩
  · exact .inl ((take_prefix_nib k l).trans h)
  · obtain ⟨x, hx⟩ := List.exists_mem_of_ne_nil _ hu
    obtain ⟨hxm, hxq⟩ := mem_under.1 hx
    have hij : i < j := by
      rcases Nat.lt_trichotomy i.val j.val with h | h | h
      · exact h
      · exact absurd (Fin.ext h) h1
      · exact absurd (key_lt_of_split (k := k) (k' := x.1) h h3 (h2.trans hxq)) (hk x hxm)
    by_cases hl : c.length + 1 ≤ l
    · refine .inr ⟨c, i, j, hij, h2, ?_⟩
      rw [List.prefix_take_iff]
      exact ⟨h3, by simpa using hl⟩
    · left
      have h4 : k.nibbles.take l <+: c := by
        have h5 : c <+: k.nibbles := (List.prefix_append _ _).trans h3
        exact List.prefix_of_prefix_length_le (take_prefix_nib k l) h5 (by rw [List.length_take]; omega)
      exact h4.trans ((List.prefix_append _ _).trans h2)

/-- The stored nodes are complete nodes of the tree of `M`, and with each of them all that come before it. -/
structure ClosedN (H : Hasher) (S : AMap NodeKey Node) (M : List Entry) (w : Version) (e : KeyHash) : Prop where
  yes : ∀ q, pending M e q → S.get? ⟨w, q⟩ = some (canonNode H M (fun _ => w) q) ∨ S.get? ⟨w, q⟩ = none
  no : ∀ key : NodeKey, ¬ (key.version = w ∧ pending M e key.path) → S.get? key = none
  closed : ∀ a b, pending M e a → pending M e b → S.get? ⟨w, a⟩ ≠ none → Before b a → S.get? ⟨w, b⟩ ≠ none

theorem ready_exists : ∀ (m : List Entry) {k : KeyHash} {vh : ValueHash}, Asc m → m.getLast? = some (k, vh) → ∃ n, n < 64 ∧ RReady m k vh n := by
  intro m
  induction m using list_snoc_ind with
  | h0 => intro k vh _ h; simp at h
  | h1 m L ih =>
    intro k vh hasc hl
    simp only [List.getLast?_concat, Option.some.injEq] at hl
    subst hl
    cases hk : m.getLast? with
    | none =>
      rw [List.getLast?_eq_none_iff] at hk
      subst hk
      exact ⟨0, by decide, ready_first⟩
    | some e =>
      obtain ⟨k0, vh0⟩ := e
      have hasc0 : Asc m := hasc.prefix (List.prefix_append _ _)
      have hmem := List.mem_of_getLast? hk
      have hlt : k0.val < k.val := by
        unfold Asc at hasc
        rw [List.pairwise_append] at hasc
        exact hasc.2.2 _ hmem (k, vh) (by simp)
      exact ⟨_, (lcpN_spec hlt).1, ready_add (hasc0.max hk) hmem hlt⟩

/-- Such a store is what recovery expects after an initial segment. -/
theorem ClosedN.storeN : ∀ (M : List Entry) {e : KeyHash} {vh : ValueHash}, Asc M → M.getLast? = some (e, vh) → ClosedN H S M w e →
    ∃ m0, m0 <+: M ∧ m0 ≠ [] ∧ StoreN H S m0 w := by
  intro M
  induction M using list_snoc_ind with
  | h0 => intro k vh _ h; simp at h
  | h1 m L ih =>
    intro e vh0 hasc hl hcl
    simp only [List.getLast?_concat, Option.some.injEq] at hl
    subst hl
    cases hk : m.getLast? with
    | none =>
      rw [List.getLast?_eq_none_iff] at hk
      subst hk
      refine ⟨_, List.prefix_refl _, by simp, fun _ key => hcl.no key (fun hc => pending_one _ hc.2), fun m k vh L' hL hk => ?_⟩
      have : m = [] := by
        have := congrArg List.length hL
        simp at this
        exact this
      subst this
      simp at hk
    | some a =>
      obtain ⟨k, vh⟩ := a
      have hasc0 : Asc m := hasc.prefix (List.prefix_append _ _)
      have hmem := List.mem_of_getLast? hk
      have hmax := hasc0.max hk
      have hlt : k.val < e.val := by
        unfold Asc at hasc
        rw [List.pairwise_append] at hasc
        exact hasc.2.2 _ hmem (e, vh0) (by simp)
      obtain ⟨n, hn, hr⟩ := ready_exists m hasc0 hk
      obtain ⟨h64, he, -⟩ := lcpN_spec hlt
      have hpa := pending_add (vh' := vh0) hmax hmem hr hn hlt
      have hlv : pending (m ++ [(e, vh0)]) e (k.nibbles.take (max n (lcpN k e) + 1)) := (hpa _).2 (.inr ⟨_, by omega, Nat.le_refl _, rfl⟩)
      by_cases hleaf : S.get? ⟨w, k.nibbles.take (max n (lcpN k e) + 1)⟩ = none
      · -- nothing on the path of the last but one key is stored
        have hnone : ∀ i, lcpN k e < i → i ≤ max n (lcpN k e) + 1 → S.get? ⟨w, k.nibbles.take i⟩ = none := by
          intro i h1 h2
          apply Classical.byContradiction
          intro hc
          refine hcl.closed _ _ ((hpa _).2 (.inr ⟨i, h1, h2, rfl⟩)) hlv hc (.inl ?_) hleaf
          exact List.take_prefix_take_left h2
        have hcl' : ClosedN H S m w k := by
          refine ⟨fun q hq => ?_, fun key hkey => ?_, fun a b ha hb hs hab => ?_⟩
          · have hp := (hpa q).2 (.inl hq)
            rcases hcl.yes q hp with h | h
            · left; rw [h, canonNode_add _ hp.2.2]
            · exact .inr h
          · by_cases hp : key.version = w ∧ pending (m ++ [(e, vh0)]) e key.path
            · rcases (hpa _).1 hp.2 with h | ⟨i, h1, h2, h3⟩
              · exact absurd ⟨hp.1, h⟩ hkey
              · obtain ⟨kv, kp⟩ := key
                simp only at hp h3
                rw [hp.1, h3]
                exact hnone i h1 h2
            · exact hcl.no key hp
          · exact hcl.closed a b ((hpa a).2 (.inl ha)) ((hpa b).2 (.inl hb)) hs hab
        obtain ⟨m0, h1, h2, h3⟩ := ih hasc0 hk hcl'
        exact ⟨m0, h1.trans (List.prefix_append _ _), h2, h3⟩
      · -- the leaf of the last but one key is stored
        have hold : ∀ q, pending m k q → S.get? ⟨w, q⟩ ≠ none := fun q hq =>
          hcl.closed _ _ hlv ((hpa q).2 (.inl hq)) hleaf (before_path hmax hq.2.1.2.1 hq.2.2)
        have hup : ∀ i j, lcpN k e < i → i ≤ j → j ≤ max n (lcpN k e) + 1 → S.get? ⟨w, k.nibbles.take i⟩ ≠ none → S.get? ⟨w, k.nibbles.take j⟩ ≠ none := by
          intro i j h1 h2 h3 hs
          exact hcl.closed _ _ ((hpa _).2 (.inr ⟨i, h1, by omega, rfl⟩)) ((hpa _).2 (.inr ⟨j, by omega, h3, rfl⟩)) hs
            (.inl (List.take_prefix_take_left h2))
        obtain ⟨d, hd1, hd2, hd3⟩ : ∃ d, lcpN k e + d ≤ max n (lcpN k e) ∧
            (∀ i, lcpN k e < i → i ≤ lcpN k e + d → S.get? ⟨w, k.nibbles.take i⟩ = none) ∧
            (∀ i, lcpN k e + d < i → i ≤ max n (lcpN k e) + 1 → S.get? ⟨w, k.nibbles.take i⟩ ≠ none) := by
          have key : ∀ t, t ≤ max n (lcpN k e) - lcpN k e → ∃ d, lcpN k e + d ≤ max n (lcpN k e) ∧
              (∀ i, lcpN k e < i → i ≤ lcpN k e + d → S.get? ⟨w, k.nibbles.take i⟩ = none) ∧
              (∀ i, lcpN k e + d < i → i ≤ lcpN k e + t + 1 → S.get? ⟨w, k.nibbles.take i⟩ ≠ none) ∨
              S.get? ⟨w, k.nibbles.take (lcpN k e + t + 1)⟩ = none := by
            intro t ht
            induction t with
            | zero =>
              by_cases h0 : S.get? ⟨w, k.nibbles.take (lcpN k e + 0 + 1)⟩ = none
              · exact ⟨0, .inr h0⟩
              · refine ⟨0, .inl ⟨by omega, fun i a b => by omega, fun i a b => ?_⟩⟩
                have : i = lcpN k e + 0 + 1 := by omega
                rw [this]; exact h0
            | succ t iht =>
              by_cases h0 : S.get? ⟨w, k.nibbles.take (lcpN k e + (t + 1) + 1)⟩ = none
              · exact ⟨0, .inr h0⟩
              · obtain ⟨d, h1 | h1⟩ := iht (by omega)
                · refine ⟨d, .inl ⟨h1.1, h1.2.1, fun i a b => ?_⟩⟩
                  by_cases hi : i = lcpN k e + (t + 1) + 1
                  · rw [hi]; exact h0
                  · exact h1.2.2 i a (by omega)
                · refine ⟨t + 1, .inl ⟨by omega, fun i a b => ?_, fun i a b => ?_⟩⟩
                  · apply Classical.byContradiction
                    intro hc
                    exact hup i (lcpN k e + t + 1) a (by omega) (by omega) hc h1
                  · have : i = lcpN k e + (t + 1) + 1 := by omega
                    rw [this]; exact h0
          obtain ⟨d, h | h⟩ := key (max n (lcpN k e) - lcpN k e) (Nat.le_refl _)
          · refine ⟨d, h.1, h.2.1, fun i a b => h.2.2 i a (by omega)⟩
          · rw [show lcpN k e + (max n (lcpN k e) - lcpN k e) + 1 = max n (lcpN k e) + 1 by omega] at h
            exact absurd h hleaf
        have hdn : d = 0 ∨ lcpN k e + d ≤ n := by omega
        refine ⟨_, List.prefix_refl _, by simp, fun hle => ?_, fun m' k1 vh1 L1 hL hk1 => ?_⟩
        · have := List.length_pos_of_mem hmem
          rw [List.length_append, List.length_singleton] at hle
          omega
        · obtain ⟨h1, h2⟩ := List.append_inj' hL rfl
          subst h1
          simp only [List.cons.injEq, and_true] at h2
          subst h2
          rw [hk] at hk1
          cases hk1
          refine ⟨d, by show lcpN k e + d < 64; omega, fun i a b => hr.two i (by omega) (by simp only at a b; omega), ⟨fun q hq => ?_, fun key hkey => ⟨hcl.no key hkey, ?_⟩⟩⟩
          · rcases (hpa q).1 hq with h | ⟨i, h1, h2, rfl⟩
            · left
              constructor
              · exact (hcl.yes q hq).resolve_right (hold q h)
              · apply Classical.byContradiction
                intro hc
                obtain ⟨i, -, -, h3⟩ := frz_cases (show lcpN k e + d ≤ 64 by omega) hc
                rw [NodeKey.mk.injEq] at h3
                exact h.2.2 (h3.2 ▸ take_prefix_nib _ _)
            · by_cases hid : i ≤ lcpN k e + d
              · right
                refine ⟨hd2 i h1 hid, ?_⟩
                rw [frz_hit d [] h1 hid (by show lcpN k e + d ≤ 64; omega), canonNode_add _ hq.2.2, canonNode_two]
                exact hr.two i (by omega) (by omega)
              · left
                refine ⟨(hcl.yes _ hq).resolve_right (hd3 i (by omega) h2), ?_⟩
                apply Classical.byContradiction
                intro hc
                obtain ⟨j, -, hj, h3⟩ := frz_cases (show lcpN k e + d ≤ 64 by omega) hc
                rw [NodeKey.mk.injEq] at h3
                have := take_inj_nib (by omega) (by omega) h3.2
                omega
          · apply Classical.byContradiction
            intro hc
            obtain ⟨j, h1, h2, h3⟩ := frz_cases (show lcpN k e + d ≤ 64 by omega) hc
            subst h3
            exact hkey ⟨rfl, (hpa _).2 (.inr ⟨j, h1, by omega, rfl⟩)⟩

theorem other_of_two {l : List Entry} (hn : NodupE l) (h : 2 ≤ l.length) (a : Entry) : ∃ b ∈ l, b.1 ≠ a.1 := by
  match l, hn, h with
  | x :: y :: t, hn, _ =>
    have hxy : x.1 ≠ y.1 := by
      unfold NodupE at hn
      simp only [List.map_cons, List.nodup_cons, List.mem_cons, not_or] at hn
      exact hn.1.1
    by_cases hx : x.1 = a.1
    · exact ⟨y, by simp, fun hc => hxy (hx.trans hc.symm)⟩
    · exact ⟨x, by simp, hx⟩

theorem under_nodupE (hm : NodupE m) (q : List Nibble) : NodupE (under q m) := by
  unfold NodupE at hm ⊢
  unfold under ub
  exact List.Nodup.sublist ((List.filter_sublist).map _) hm

/-- Before anything is written of the current chunk, the store is closed. -/
theorem StoreN.closed {m0 : List Entry} (hs : StoreN H S m0 w) (hpre : m0 <+: M) (hM : Asc M) {e : KeyHash} {a b : List Nibble}
    (hb : pending M e b) (hsa : S.get? ⟨w, a⟩ ≠ none) (hab : Before b a) : S.get? ⟨w, b⟩ ≠ none := by
  by_cases hl : m0.length ≤ 1
  · exact absurd (hs.nil hl _) hsa
  obtain ⟨m, L, rfl⟩ : ∃ m L, m0 = m ++ [L] := ⟨m0.dropLast, m0.getLast (by rintro rfl; simp at hl), (List.dropLast_concat_getLast _).symm⟩
  obtain ⟨⟨k, vh⟩, hk⟩ : ∃ e, m.getLast? = some e := by
    cases h : m.getLast? with
    | none => rw [List.getLast?_eq_none_iff] at h; subst h; simp at hl
    | some e => exact ⟨e, rfl⟩
  obtain ⟨d, hgap⟩ := hs.last m k vh L rfl hk
  obtain ⟨t, rfl⟩ := hpre
  have hmem := List.mem_of_getLast? hk
  have hasc1 : Asc (m ++ [L]) := hM.prefix (List.prefix_append _ _)
  have hmax : MaxKey m k := (hasc1.prefix (List.prefix_append _ _)).max hk
  have hmL : ∀ x ∈ m, x.1.val < L.1.val := by
    intro x hx
    unfold Asc at hasc1
    rw [List.pairwise_append] at hasc1
    exact hasc1.2.2 x hx L (by simp)
  have hLt : ∀ x ∈ t, L.1.val < x.1.val := by
    intro x hx
    unfold Asc at hM
    rw [List.pairwise_append] at hM
    exact hM.2.2 L (by simp) x hx
  have hlt : k.val < L.1.val := hmL _ hmem
  have hirr : ∀ x : List UInt8, ¬ x < x := fun x => List.lt_irrefl x
  -- the stored node
  have hpa : pending (m ++ [L]) L.1 a := by
    apply Classical.byContradiction
    intro hc
    exact hsa (hgap.ok.no ⟨w, a⟩ (fun h => hc h.2)).1
  obtain ⟨x, hx⟩ := List.exists_mem_of_ne_nil _ hpa.2.1.2.1
  obtain ⟨hxm, hxa⟩ := mem_under.1 hx
  have hxm : x ∈ m := by
    rcases List.mem_append.1 hxm with h | h
    · exact h
    · rw [List.mem_singleton.1 h] at hxa
      exact absurd hxa hpa.2.2
  have hconv : ∀ {p : List Nibble} {y z : Entry}, p <+: y.1.nibbles → p <+: z.1.nibbles → y.1.val < L.1.val → L.1.val < z.1.val → p <+: L.1.nibbles := by
    intro p y z h1 h2 h3 h4
    exact convex h1 h2 (nibbles_lt.2 h3) (nibbles_lt.2 h4) (by simp) (by simp)
  -- the keys below `b` come before `L`
  have hbelow : ∀ y, y ∈ m ++ [L] ++ t → b <+: y.1.nibbles → y ∈ m := by
    intro y hy hby
    have hlt' : y.1.val < L.1.val → y ∈ m := by
      intro h
      rcases List.mem_append.1 hy with h1 | h1
      · rcases List.mem_append.1 h1 with h2 | h2
        · exact h2
        · rw [List.mem_singleton.1 h2] at h; exact absurd h (hirr _)
      · exact absurd (List.lt_trans h (hLt y h1)) (hirr _)
    rcases hab with h | ⟨c, i, j, hij, h1, h2⟩
    · have hay := h.trans hby
      rcases List.mem_append.1 hy with h1 | h1
      · rcases List.mem_append.1 h1 with h2 | h2
        · exact h2
        · rw [List.mem_singleton.1 h2] at hay
          exact absurd hay hpa.2.2
      · exact absurd (hconv hxa hay (hmL x hxm) (hLt y h1)) hpa.2.2
    · exact hlt' (List.lt_trans (key_lt_of_split hij (h1.trans hby) (h2.trans hxa)) (hmL x hxm))
  obtain ⟨y, hy⟩ := List.exists_mem_of_ne_nil _ hb.2.1.2.1
  obtain ⟨hyM, hyb⟩ := mem_under.1 hy
  have hym := hbelow y hyM hyb
  have hdl : 2 ≤ (under b.dropLast (m ++ [L])).length := by
    have h2 : 2 ≤ (under b.dropLast (m ++ [L] ++ t)).length := by
      rcases hb.2.1.2.2 with h | h
      · exact absurd h hb.1
      · exact h
    obtain ⟨y', h3, h4⟩ := other_of_two (under_nodupE hM.nodup _) h2 y
    obtain ⟨h5, h6⟩ := mem_under.1 h3
    have hyd : b.dropLast <+: y.1.nibbles := (List.dropLast_prefix b).trans hyb
    rcases List.mem_append.1 h5 with h7 | h7
    · exact two_le_of_mem (mem_under.2 ⟨List.mem_append_left _ hym, hyd⟩) (mem_under.2 ⟨h7, h6⟩) (fun hc => h4 (by rw [hc]))
    · refine two_le_of_mem (a := y) (b := L) (mem_under.2 ⟨List.mem_append_left _ hym, hyd⟩)
        (mem_under.2 ⟨by simp, hconv hyd h6 (hmL y hym) (hLt y' h7)⟩) (fun hc => ?_)
      have := hmL y hym
      rw [hc] at this
      exact hirr _ this
  have hpb : pending (m ++ [L]) L.1 b := by
    refine ⟨hb.1, ⟨List.nil_prefix, List.ne_nil_of_mem (mem_under.2 ⟨List.mem_append_left _ hym, hyb⟩), .inr hdl⟩, fun hc => ?_⟩
    have := hmL L (hbelow L (by simp) hc)
    exact hirr _ this
  rcases hgap.ok.yes b hpb with h | h
  · rw [h.1]; simp
  · exfalso
    obtain ⟨i, h1, h2, h3⟩ := frz_cases (Nat.le_of_lt hgap.lt) (by rw [h.2]; simp)
    rw [NodeKey.mk.injEq] at h3
    have h3 := h3.2
    subst h3
    have hi64 : i ≤ 64 := by have := hgap.lt; omega
    rcases hab with h4 | ⟨c, i0, j0, hij, h4, h5⟩
    · have h5 : a <+: k.nibbles := h4.trans (take_prefix_nib _ _)
      obtain ⟨h6, h7⟩ := prefix_nib_iff.1 h5
      have h8 : a.length ≤ i := by
        have := h4.length_le
        rwa [take_length_nib hi64] at this
      apply hsa
      rw [h7]
      apply stored_gap hgap
      · apply Classical.byContradiction
        intro hc
        apply hpa.2.2
        rw [h7, take_take_nib (lcpN_spec hlt).2.1 (by omega)]
        exact take_prefix_nib _ _
      · omega
    · exact hmax x hxm (key_lt_of_split hij (h4.trans (take_prefix_nib _ _)) (h5.trans hxa))

/-- Storing nodes from left to right keeps the store closed. -/
theorem closed_part {m0 : List Entry} (hs : StoreN H S m0 w) (hpre : m0 <+: M) (hM : Asc M) {e : KeyHash} (hno : NodesOk H S F M w e)
    (hF : AMap.NodupKeys F) {N : AMap NodeKey Node} (hN : AMap.NodupKeys N) (hsub : ∀ a ∈ N, a ∈ F)
    (hcl : ∀ a ∈ N, ∀ b ∈ F, Before b.1.path a.1.path → b ∈ N) : ClosedN H (AMap.extend S N) M w e := by
  have hget : ∀ key, AMap.get? (AMap.extend S N) key = match AMap.get? N key with | some v => some v | none => AMap.get? S key := by
    intro key
    rw [AMap.get?_extend _ hN key]
    cases AMap.get? N key <;> rfl
  have hNF : ∀ key n, N.get? key = some n → F.get? key = some n := fun key n h => AMap.get?_of_mem hF (hsub _ (AMap.mem_of_get? h))
  have hNn : ∀ key, F.get? key = none → N.get? key = none := by
    intro key h
    cases hn : N.get? key with
    | none => rfl
    | some n => rw [hNF _ _ hn] at h; cases h
  refine ⟨fun q hq => ?_, fun key hkey => ?_, fun a b ha hb hsa hab => ?_⟩
  · rw [hget]
    rcases hno.yes q hq with ⟨h1, h2⟩ | ⟨h1, h2⟩
    · rw [hNn _ h2]; exact .inl h1
    · cases hn : N.get? ⟨w, q⟩ with
      | none => exact .inr h1
      | some n =>
        rw [hNF _ _ hn] at h2
        cases h2
        exact .inl rfl
  · obtain ⟨h1, h2⟩ := hno.no key hkey
    rw [hget, hNn _ h2]
    exact h1
  · rw [hget] at hsa ⊢
    cases hnb : N.get? ⟨w, b⟩ with
    | some n => simp
    | none =>
      simp only []
      cases hna : N.get? ⟨w, a⟩ with
      | none =>
        rw [hna] at hsa
        exact hs.closed hpre hM hb hsa hab
      | some n =>
        rcases hno.yes b hb with ⟨h1, h2⟩ | ⟨h1, h2⟩
        · rw [h1]; simp
        · exfalso
          have := hcl _ (AMap.mem_of_get? hna) _ (AMap.mem_of_get? h2) hab
          rw [AMap.get?_of_mem hN this] at hnb
          cases hnb

end

open Store
open Spec (PartOf LeftToRight)

section
variable {H : Hasher} {w : Version} {root : Digest} {s : Store} {all p0 gp : List (KeyHash × Value)} {r : Restore} {part : NodeBatch}

/-- The store after a part of the batch has been written from left to right. -/
theorem cut_durable (h : RInv H (entriesOf H all) all w root s p0 r gp) (hasc : Asc (entriesOf H all)) (h0 : r.numKeysReceived ≠ 0)
    (hgp : gp <+: all) (hp0 : p0 <+: all) (hpart : PartOf part r.frozenNodes) (hltr : LeftToRight r.frozenNodes part) :
    ∃ s' p0', s.writeNodeBatch part = .ok s' ∧ p0' <+: all ∧ Durable H (entriesOf H all) all w s' p0' := by
  obtain ⟨pn, pv, hsubn, hsubv⟩ := hpart
  have hauth : entriesOf H gp <+: entriesOf H all := List.IsPrefix.map _ hgp
  have hne : gp ≠ [] := by
    intro hc
    subst hc
    exact h0 (h.nodes.nil rfl).1
  obtain ⟨e, he⟩ : ∃ e, gp.getLast? = some e := by
    cases hl : gp.getLast? with
    | none => exact absurd (List.getLast?_eq_none_iff.1 hl) hne
    | some e => exact ⟨e, rfl⟩
  have hle : (entriesOf H gp).getLast? = some (e.1, H.hash e.2) := by rw [entriesOf_last, he]; rfl
  obtain ⟨hpl, n, hp, hcase⟩ := h.nodes.last e.1 (H.hash e.2) hle
  obtain ⟨hlen, hno⟩ : (entriesOf H p0).length ≤ (entriesOf H gp).length ∧
      NodesOk H s.nodes r.frozenNodes.nodes (entriesOf H gp) w e.1 := by
    rcases hcase with hc | hc
    · exact absurd hc.1 h0
    · exact ⟨hc.2.2.1, hc.2.2.2 hauth⟩
  have hpre : entriesOf H p0 <+: entriesOf H gp := List.prefix_of_prefix_length_le h.nodes.auth0 hauth hlen
  -- nodes
  have hn := insertNodes_ok s.allowOverwrite part.nodes s.nodes pn (fun e' he' => by
    have hg := (AMap.mem_iff_get? h.nodes.nodup).1 (hsubn e' he')
    by_cases hpd : e'.1.version = w ∧ pending (entriesOf H gp) e.1 e'.1.path
    · rcases hno.yes _ hpd.2 with hy | hy
      · rw [← hpd.1] at hy
        rw [hg] at hy
        exact absurd hy.2 (by simp)
      · rw [← hpd.1] at hy
        exact hy.1
    · exact (hno.no _ hpd).1)
  -- values
  have hperm := List.mergeSort_perm part.values valueKeyLe
  have hnd : AMap.NodupKeys (part.values.mergeSort valueKeyLe) := (hperm.map Prod.fst).nodup_iff.2 pv
  have hget : ∀ a, AMap.get? (part.values.mergeSort valueKeyLe) a = AMap.get? part.values a := by
    intro a
    cases hg : AMap.get? part.values a with
    | none =>
      rw [AMap.get?_eq_none_iff] at hg ⊢
      rwa [(hperm.map Prod.fst).mem_iff]
    | some y =>
      exact AMap.get?_of_mem hnd (hperm.mem_iff.2 (AMap.mem_of_get? hg))
  have hfz : ∀ v k x, AMap.get? part.values (v, k) = some x → v = w ∧ ∃ y, x = some y ∧ (k, y) ∈ gp := fun v k x hx =>
    h.frozen v k x (AMap.get?_of_mem h.vnodup (hsubv _ (AMap.mem_of_get? hx)))
  have hmem : ∀ e' ∈ part.values.mergeSort valueKeyLe, AMap.get? part.values e'.1 = some e'.2 := fun e' he' =>
    AMap.get?_of_mem pv (hperm.mem_iff.1 he')
  obtain ⟨vh, hv1, hv2⟩ := insertValues_at (w := w) (part.values.mergeSort valueKeyLe) s.values hnd
    (fun e' he' => (hfz e'.1.1 e'.1.2 e'.2 (hmem e' he')).1) (fun e' he' => by
      by_cases hk : e'.1.2 ∈ p0.map Prod.fst
      · obtain ⟨a, ha, hae⟩ := List.mem_map.1 hk
        rw [← hae]
        exact .inr ⟨_, h.stored a ha⟩
      · rcases h.absent _ hk with ha | ⟨x, -, ha⟩
        · exact .inl ha
        · exact .inr ⟨_, ha⟩)
  have hany : ∀ k, histOf vh k = [] ∨ ∃ x, (k, x) ∈ all ∧ histOf vh k = [(w, some x)] := by
    intro k
    rw [hv2, hget]
    cases hg : AMap.get? part.values (w, k) with
    | some y =>
      obtain ⟨-, z, rfl, hz⟩ := hfz _ _ _ hg
      exact .inr ⟨z, hgp.subset hz, rfl⟩
    | none =>
      by_cases hk : k ∈ p0.map Prod.fst
      · obtain ⟨a, ha, rfl⟩ := List.mem_map.1 hk
        exact .inr ⟨a.2, hp0.subset ha, h.stored a ha⟩
      · exact h.absent k hk
  have hnda : (all.map Prod.fst).Nodup := by
    rw [← entriesOf_keys (H := H)]
    exact hasc.nodup
  have hval : ∀ e' ∈ all, histOf vh e'.1 ≠ [] → histOf vh e'.1 = [(w, some e'.2)] := by
    intro e' he' hne'
    rcases hany e'.1 with h1 | ⟨x, h1, h2⟩
    · exact absurd h1 hne'
    · rw [h2]
      have h3 : (e'.1, e'.2) ∈ all := he'
      rw [Option.some.inj ((AMap.get?_of_mem (m := all) hnda h1).symm.trans (AMap.get?_of_mem (m := all) hnda h3))]
  have hold : ∀ e' ∈ p0, histOf vh e'.1 ≠ [] := by
    intro e' he'
    rw [hv2, hget]
    cases AMap.get? part.values (w, e'.1) with
    | some y => simp
    | none => simp only []; rw [h.stored e' he']; simp
  refine ⟨{ s with nodes := AMap.extend s.nodes part.nodes, values := vh }, ?_⟩
  have hw : s.writeNodeBatch part = .ok { s with nodes := AMap.extend s.nodes part.nodes, values := vh } := by
    unfold writeNodeBatch
    rw [hn, ok_bind, hv1, ok_bind]
  have hsn : AMap.NodupKeys (AMap.extend s.nodes part.nodes) := h.snodup.extend _
  rcases hltr.1 with hnil | hallv
  · refine ⟨p0, hw, hp0, h.nodes.auth0, ?_, fun e' he' => hval e' (hp0.subset he') (hold e' he'), fun k _ => hany k, hsn⟩
    show StoreN H (AMap.extend s.nodes part.nodes) _ w
    rw [hnil]
    exact h.nodes.store
  · have hcl := closed_part h.nodes.store hpre h.nodes.asc hno h.nodes.nodup pn hsubn hltr.2
    obtain ⟨m0, h1, h2, h3⟩ := ClosedN.storeN _ h.nodes.asc hle hcl
    have hm0 : entriesOf H (gp.take m0.length) = m0 := by
      unfold entriesOf at h1 ⊢
      rw [List.map_take]
      exact (List.prefix_iff_eq_take.1 h1).symm
    refine ⟨gp.take m0.length, hw, (List.take_prefix _ _).trans hgp, ?_, ?_, fun e' he' => hval e' (hgp.subset (List.mem_of_mem_take he')) ?_, fun k _ => hany k, hsn⟩
    · rw [hm0]; exact h1.trans hauth
    · rw [hm0]; exact h3
    · have hg := List.mem_of_mem_take he'
      rcases h.known e' hg with ⟨y, hy⟩ | hk
      · rw [hv2, hget, AMap.get?_of_mem pv (hallv _ (AMap.mem_of_get? hy))]
        simp
      · exact hold e' hk

end
end Jmt
