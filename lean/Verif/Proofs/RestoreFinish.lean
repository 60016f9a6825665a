import Verif.Proofs.RestoreRecover
/-!
# Finishing a restoration
-/
namespace Jmt
open Spec (Entry)
open Store

section
variable {H : Hasher} {m : List Entry} {w : Version} {k : KeyHash} {vh : ValueHash} {n : Nat} {r : Restore}

theorem rootChildren_count (info : InternalInfo) :
    (Restore.rootChildren info).1 = ((List.finRange 16).filter (fun i => (info.children i).isSome)).length := by
  unfold Restore.rootChildren
  have : ∀ (is : List Nibble) (acc : Nat × Option LeafNode),
      (is.foldl (Restore.countChild info) acc).1 = acc.1 + (is.filter (fun i => (info.children i).isSome)).length := by
    intro is
    induction is with
    | nil => intro acc; rfl
    | cons i is ih =>
      intro acc
      rw [List.foldl_cons, ih, List.filter_cons]
      unfold Restore.countChild
      cases hc : info.children i with
      | none => simp
      | some c => cases c <;> simp <;> omega
  rw [this]
  simp

theorem rootChildren_one {info : InternalInfo} {x : Nibble} {l : LeafNode} (hx : info.children x = some (.leaf l))
    (h : ∀ j, j ≠ x → info.children j = none) : Restore.rootChildren info = (1, some l) := by
  unfold Restore.rootChildren
  have : ∀ (is : List Nibble) (acc : Nat × Option LeafNode), is.Nodup →
      is.foldl (Restore.countChild info) acc = if x ∈ is then (acc.1 + 1, some l) else acc := by
    intro is
    induction is with
    | nil => intro acc _; rfl
    | cons i is ih =>
      intro acc hn
      rw [List.nodup_cons] at hn
      rw [List.foldl_cons, ih _ hn.2]
      unfold Restore.countChild
      by_cases hi : i = x
      · subst hi
        rw [hx]
        simp [hn.1]
      · rw [h i hi]
        simp [Ne.symm hi]
  rw [this _ _ (List.nodup_finRange 16)]
  simp

theorem under_nil_path : under [] m = m := by
  unfold under ub
  rw [List.filter_eq_self]
  intro a _
  rfl

/-- Freezing everything, the root included. -/
theorem freezeInternalLoop_all (hm : NodupE m) (hk : MaxKey m k) : ∀ (n : Nat) {r : Restore},
    Part H r m w k n → (∀ i, i ≤ n → 2 ≤ (under (k.nibbles.take i) m).length) →
    Restore.freezeInternalLoop H (n + 1) r = .ok (r.withFrozen []
      ((frz H m w k 0 n r.frozenNodes.nodes).insert ⟨w, []⟩ (.internal (canonInternal H m (fun _ => w) [])))) := by
  intro n
  induction n with
  | zero =>
    intro r hp h2
    rw [freezeInternalLoop_step hm hp (h2 0 (Nat.le_refl _))]
    rw [show openPath H m w k 0 = [] from rfl]
    rw [show Restore.fillParent [] (sh H m (pathBits (k.nibbles.take 0))) (under (k.nibbles.take 0) m).length = .ok [] from rfl, ok_bind]
    rfl
  | succ n ih =>
    intro r hp h2
    have hn : n < 64 := by have := hp.lt; omega
    rw [freezeInternalLoop_step hm hp (h2 (n + 1) (Nat.le_refl _)), fillParent_open hk hn (h2 (n + 1) (Nat.le_refl _)), ok_bind]
    have := ih (r := r.withFrozen (openPath H m w k n ++ [fullInfo H m w (List.take n k.nibbles)])
        (r.frozenNodes.nodes.insert { version := w, path := List.take (n + 1) k.nibbles }
          (Node.internal (canonInternal H m (fun x => w) (List.take (n + 1) k.nibbles))))) ⟨hp.version, hn, rfl⟩ (fun i hi => h2 i (by omega))
    rw [this]
    unfold Restore.withFrozen
    simp only [frz, Nat.zero_add]

theorem freeze_all (hm : NodupE m) (hk : MaxKey m k) (hp : Part H r m w k n) (h0 : r.numKeysReceived ≠ 0) (hr : RReady m k vh n)
    (h2 : 2 ≤ m.length) :
    r.freeze H 0 = .ok (r.withFrozen [] ((frz H m w k 0 n (r.frozenNodes.nodes.insert ⟨w, k.nibbles.take (n + 1)⟩ (.leaf ⟨k, vh⟩))).insert ⟨w, []⟩
      (.internal (canonInternal H m (fun _ => w) [])))) := by
  unfold Restore.freeze
  rw [freezePreviousLeaf_some hp hk h0 hr.leaf, ok_bind]
  unfold Restore.freezeInternalNodes
  rw [show (r.insertFrozen ⟨w, k.nibbles.take (n + 1)⟩ (.leaf ⟨k, vh⟩)).partialNodes = r.partialNodes from rfl, hp.length, Nat.sub_zero]
  rw [freezeInternalLoop_all hm hk n (r := r.insertFrozen _ _) ⟨hp.version, hp.lt, hp.nodes⟩ (fun i hi => by
    by_cases h : i = 0
    · subst h; rw [List.take_zero, under_nil_path]; exact h2
    · exact hr.two i (by omega) hi)]
  rfl

/-- All nodes of the tree of `m` are in `S` under version `w`, and nothing else is. -/
structure FullAt (H : Hasher) (S : AMap NodeKey Node) (m : List Entry) (w : Version) : Prop where
  yes : ∀ q, pres m [] q → S.get? ⟨w, q⟩ = some (canonNode H m (fun _ => w) q)
  no : ∀ key : NodeKey, ¬ (key.version = w ∧ pres m [] key.path) → S.get? key = none

theorem writeNodes (s : Store) {N : AMap NodeKey Node} (hn : AMap.NodupKeys N) (h : ∀ e ∈ N, s.nodes.get? e.1 = none) :
    s.writeNodeBatch ⟨N, []⟩ = .ok { s with nodes := AMap.extend s.nodes N } := by
  unfold writeNodeBatch
  simp only []
  rw [insertNodes_ok s.allowOverwrite N s.nodes hn h, ok_bind]
  simp [insertValues, ok_bind]

theorem singleLeaf_none (hm : NodupE m) (hmem : (k, vh) ∈ m) (hp : Part H r m w k n) (hr : RReady m k vh n) (h2 : 2 ≤ m.length) :
    r.singleLeaf = none := by
  unfold Restore.singleLeaf
  rw [hp.nodes]
  cases n with
  | succ n =>
    rw [openPath_succ]
    cases hop : openPath H m w k n with
    | nil => rfl
    | cons a t =>
      simp only [List.cons_append]
      cases t <;> rfl
  | zero =>
    simp only [show openPath H m w k 0 = [] from rfl, List.nil_append, List.take_zero]
    rw [if_neg]
    rw [rootChildren_count]
    obtain ⟨e, he, hek⟩ : ∃ e ∈ m, e ≠ (k, vh) := by
      apply Classical.byContradiction
      intro hc
      have hall : ∀ e ∈ m, e = (k, vh) := fun e he => Classical.byContradiction (fun h => hc ⟨e, he, h⟩)
      match m, h2 with
      | a :: b :: t, _ =>
        have h1 := hall a (by simp)
        have h3 := hall b (by simp)
        unfold NodupE at hm
        rw [h1, h3] at hm
        simp at hm
    have hnib : ∀ e ∈ m, ((fullInfo H m w []).children (nib e.1 0)).isSome = true := by
      intro e he
      show (cinfo H m ([] ++ [nib e.1 0])).isSome = true
      rw [cinfo_isSome]
      have := mem_under_take (k := e.1) (vh := e.2) he 1
      rw [take_succ_nib (by omega), List.take_zero] at this
      exact List.ne_nil_of_mem this
    have hdiff : nib e.1 0 ≠ nib k 0 := by
      intro hc
      have h1 := mem_under_take (k := e.1) (vh := e.2) he 1
      have h3 := hr.leaf
      rw [take_succ_nib (by omega), List.take_zero] at h1 h3
      rw [hc, h3] at h1
      exact hek (List.mem_singleton.1 h1)
    have := two_le_of_mem (l := (List.finRange 16).filter (fun i => ((fullInfo H m w []).children i).isSome))
      (a := nib e.1 0) (b := nib k 0) (by simp [hnib e he]) (by simp [hnib (k, vh) hmem]) hdiff
    omega


theorem singleLeaf_some (hmem : (k, vh) ∈ m) (hp : Part H r m w k n) (hr : RReady m k vh n) (h2 : ¬ 2 ≤ m.length) :
    r.singleLeaf = some ⟨k, vh⟩ := by
  have h1 : m = [(k, vh)] := by
    match m, hmem, h2 with
    | [a], hmem, _ => rw [List.mem_singleton.1 hmem]
    | _ :: _ :: _, _, h2 => simp at h2
  have hn : n = 0 := by
    apply Decidable.byContradiction
    intro hc
    have h3 := hr.two 1 (Nat.le_refl _) (by omega)
    have h4 : (under (k.nibbles.take 1) m).length ≤ m.length := List.length_filter_le _ _
    omega
  subst hn
  have hrc : Restore.rootChildren (fullInfo H m w []) = (1, some ⟨k, vh⟩) := by
    apply rootChildren_one (x := nib k 0)
    · show cinfo H m ([] ++ [nib k 0]) = _
      have h3 := hr.leaf
      rw [take_succ_nib (by omega), List.take_zero] at h3
      exact cinfo_one h3
    · intro j hj
      show cinfo H m ([] ++ [j]) = _
      apply cinfo_nil
      rw [List.eq_nil_iff_forall_not_mem]
      intro e he
      rw [mem_under, h1, List.mem_singleton] at he
      obtain ⟨rfl, he⟩ := he
      have := ((snoc_prefix_nib (k := k) (i := 0) (by omega)).1 (by simpa using he)).2
      exact hj this.symm
  have hpn : r.partialNodes = [fullInfo H m w []] := by rw [hp.nodes]; rfl
  unfold Restore.singleLeaf
  rw [hpn]
  simp only [hrc, if_true]

theorem finish_ok {s : Store} (hm : NodupE m) (hk : MaxKey m k) (hmem : (k, vh) ∈ m) (hp : Part H r m w k n) (h0 : r.numKeysReceived ≠ 0)
    (hr : RReady m k vh n) (hF : r.frozenNodes = ⟨[], []⟩) (hno : NodesOk H s.nodes [] m w k) (hs : AMap.NodupKeys s.nodes) :
    ∃ s', r.finish H s = .ok s' ∧ FullAt H s'.nodes m w ∧ s'.values = s.values ∧ s'.allowOverwrite = s.allowOverwrite ∧
      AMap.NodupKeys s'.nodes := by
  have hfree : ∀ i, s.nodes.get? ⟨w, k.nibbles.take i⟩ = none := fun i => (hno.no _ (fun hc => hc.2.2.2 (take_prefix_nib _ _))).1
  -- positions present on the path of `k`
  have hpath : ∀ q, pres m [] q → q <+: k.nibbles → q = [] ∨ ∃ i, 1 ≤ i ∧ i ≤ n + 1 ∧ q = k.nibbles.take i := by
    intro q hq hpre
    by_cases hne : q = []
    · exact .inl hne
    right
    obtain ⟨hl64, hqt⟩ := prefix_nib_iff.1 hpre
    refine ⟨q.length, List.length_pos_iff.2 hne, ?_, hqt⟩
    apply Decidable.byContradiction
    intro hc
    have hdl : 2 ≤ (under q.dropLast m).length := by
      rcases hq.2.2 with h1 | h1
      · exact absurd h1 hne
      · exact h1
    rw [hqt, dropLast_take hl64] at hdl
    rw [single_take hr.leaf (show n + 1 ≤ q.length - 1 by omega)] at hdl
    simp at hdl
  have hpend : ∀ q, pres m [] q → ¬ q <+: k.nibbles → s.nodes.get? ⟨w, q⟩ = some (canonNode H m (fun _ => w) q) := by
    intro q hq hnp
    have hne : q ≠ [] := by rintro rfl; exact hnp List.nil_prefix
    rcases hno.yes q ⟨hne, hq, hnp⟩ with h | h
    · exact h.1
    · exact absurd h.2 (by simp)
  by_cases h2 : 2 ≤ m.length
  · -- freeze everything
    have hsingle : r.singleLeaf = none := singleLeaf_none hm hmem hp hr h2
    have hfr := freeze_all hm hk hp h0 hr h2
    generalize hN : (frz H m w k 0 n (r.frozenNodes.nodes.insert ⟨w, k.nibbles.take (n + 1)⟩ (.leaf ⟨k, vh⟩))).insert ⟨w, []⟩
      (.internal (canonInternal H m (fun _ => w) [])) = N at hfr
    have hNn : AMap.NodupKeys N := by
      rw [← hN, hF]
      exact (frz_nodup _ _ _ (AMap.NodupKeys.insert AMap.nodupKeys_nil _ _)).insert _ _
    have hroot : N.get? ⟨w, []⟩ = some (canonNode H m (fun _ => w) []) := by
      rw [← hN, AMap.get?_insert, if_pos rfl, canonNode_two (by rw [under_nil_path]; exact h2)]
    have hhit : ∀ i, 1 ≤ i → i ≤ n + 1 → N.get? ⟨w, k.nibbles.take i⟩ = some (canonNode H m (fun _ => w) (k.nibbles.take i)) := by
      intro i h1 h3
      have hn64 := hp.lt
      have hnr : ¬ (⟨w, []⟩ : NodeKey) = ⟨w, k.nibbles.take i⟩ := by
        intro hc
        rw [NodeKey.mk.injEq] at hc
        have := congrArg List.length hc.2
        rw [take_length_nib (by omega)] at this
        simp at this; omega
      rw [← hN, AMap.get?_insert, if_neg hnr]
      by_cases hi : i = n + 1
      · subst hi
        rw [frz_miss, AMap.get?_insert, if_pos rfl, canonNode_one hr.leaf]
        intro j a b hc
        rw [NodeKey.mk.injEq] at hc
        have := take_inj_nib (by omega) (by omega) hc.2
        omega
      · rw [frz_hit _ _ (by omega) (by omega) (by omega), canonNode_two (hr.two i h1 (by omega))]
    have hmiss : ∀ key, key ≠ ⟨w, []⟩ → (∀ i, 1 ≤ i → i ≤ n + 1 → key ≠ ⟨w, k.nibbles.take i⟩) → N.get? key = none := by
      intro key h1 h3
      rw [← hN, AMap.get?_insert, if_neg (fun h => h1 h.symm), frz_miss _ _ (fun i a b => h3 i (by omega) (by omega)), AMap.get?_insert,
        if_neg (fun h => h3 (n + 1) (by omega) (Nat.le_refl _) h.symm), hF]
      rfl
    have hconf : ∀ e ∈ N, s.nodes.get? e.1 = none := by
      intro e he
      by_cases h1 : e.1 = ⟨w, []⟩
      · rw [h1]; have := hfree 0; rwa [List.take_zero] at this
      · by_cases h3 : ∀ i, 1 ≤ i → i ≤ n + 1 → e.1 ≠ ⟨w, k.nibbles.take i⟩
        · have := hmiss e.1 h1 h3
          rw [AMap.get?_of_mem hNn he] at this
          cases this
        · obtain ⟨i, h3⟩ := Classical.not_forall.1 h3
          have : e.1 = ⟨w, k.nibbles.take i⟩ := by
            apply Classical.byContradiction
            intro hc
            exact h3 (fun _ _ => hc)
          rw [this]
          exact hfree i
    refine ⟨{ s with nodes := AMap.extend s.nodes N }, ?_, ⟨?_, ?_⟩, rfl, rfl, hs.extend _⟩
    · unfold Restore.finish
      rw [hsingle]
      simp only []
      rw [hfr, ok_bind]
      show s.writeNodeBatch ⟨N, r.frozenNodes.values⟩ = _
      rw [hF]
      exact writeNodes s hNn hconf
    · intro q hq
      show AMap.get? (AMap.extend s.nodes N) ⟨w, q⟩ = _
      rw [AMap.get?_extend _ hNn]
      by_cases hpre : q <+: k.nibbles
      · rcases hpath q hq hpre with rfl | ⟨i, h1, h3, rfl⟩
        · rw [hroot]
        · rw [hhit i h1 h3]
      · rw [hmiss, hpend q hq hpre]
        · intro hc; rw [NodeKey.mk.injEq] at hc; exact hpre (by rw [hc.2]; exact List.nil_prefix)
        · intro i _ _ hc; rw [NodeKey.mk.injEq] at hc; exact hpre (by rw [hc.2]; exact take_prefix_nib _ _)
    · intro key hkey
      show AMap.get? (AMap.extend s.nodes N) key = _
      rw [AMap.get?_extend _ hNn, hmiss]
      · exact (hno.no key (fun hc => hkey ⟨hc.1, hc.2.2.1⟩)).1
      · rintro rfl
        apply hkey
        refine ⟨rfl, pres_self.2 ?_⟩
        rw [under_nil_path]
        exact List.ne_nil_of_mem hmem
      · intro i h1 h3 hc
        subst hc
        apply hkey
        refine ⟨rfl, ⟨List.nil_prefix, under_take_ne hmem i, .inr ?_⟩⟩
        simp only
        have := hp.lt
        rw [dropLast_take (by omega)]
        by_cases hi : i = 1
        · subst hi
          rw [Nat.sub_self, List.take_zero, under_nil_path]; exact h2
        · exact hr.two _ (by omega) (by omega)
  · -- one leaf
    have h1 : m = [(k, vh)] := by
      match m, hmem, h2 with
      | [a], hmem, _ => rw [List.mem_singleton.1 hmem]
      | _ :: _ :: _, _, h2 => simp at h2
    have hn : n = 0 := by
      apply Decidable.byContradiction
      intro hc
      have h3 := hr.two 1 (Nat.le_refl _) (by omega)
      have h4 : (under (k.nibbles.take 1) m).length ≤ m.length := List.length_filter_le _ _
      omega
    subst hn
    have hrc : Restore.rootChildren (fullInfo H m w []) = (1, some ⟨k, vh⟩) := by
      apply rootChildren_one (x := nib k 0)
      · show cinfo H m ([] ++ [nib k 0]) = _
        have h3 := hr.leaf
        rw [take_succ_nib (by omega), List.take_zero] at h3
        exact cinfo_one h3
      · intro j hj
        show cinfo H m ([] ++ [j]) = _
        apply cinfo_nil
        rw [List.eq_nil_iff_forall_not_mem]
        intro e he
        rw [mem_under, h1, List.mem_singleton] at he
        obtain ⟨rfl, he⟩ := he
        have := ((snoc_prefix_nib (k := k) (i := 0) (by omega)).1 (by simpa using he)).2
        exact hj this.symm
    have hpn : r.partialNodes = [fullInfo H m w []] := by rw [hp.nodes]; rfl
    have hN : AMap.insert ([] : AMap NodeKey Node) ⟨w, []⟩ (Node.leaf ⟨k, vh⟩) = [(⟨w, []⟩, .leaf ⟨k, vh⟩)] := rfl
    have hroot0 : s.nodes.get? ⟨w, []⟩ = none := by have := hfree 0; rwa [List.take_zero] at this
    have hNn : AMap.NodupKeys ([(⟨w, []⟩, .leaf ⟨k, vh⟩)] : AMap NodeKey Node) := by simp [AMap.NodupKeys]
    have honly : ∀ q, pres m [] q → q = [] := by
      intro q hq
      apply Classical.byContradiction
      intro hne
      have hdl : 2 ≤ (under q.dropLast m).length := by
        rcases hq.2.2 with h3 | h3
        · exact absurd h3 hne
        · exact h3
      have h4 : (under q.dropLast m).length ≤ m.length := List.length_filter_le _ _
      omega
    refine ⟨{ s with nodes := AMap.extend s.nodes [(⟨w, []⟩, .leaf ⟨k, vh⟩)] }, ?_, ⟨?_, ?_⟩, rfl, rfl, hs.extend _⟩
    · unfold Restore.finish
      rw [show r.singleLeaf = some ⟨k, vh⟩ by unfold Restore.singleLeaf; rw [hpn]; simp only [hrc, if_true]]
      simp only [hF, and_self, if_true]
      show s.writeNodeBatch ⟨AMap.insert r.frozenNodes.nodes (NodeKey.root r.version) (Node.leaf ⟨k, vh⟩), r.frozenNodes.values⟩ = _
      rw [hp.version, hF]
      exact writeNodes s hNn (by
        intro e he
        rw [List.mem_singleton.1 he]
        exact hroot0)
    · intro q hq
      rw [honly q hq]
      show AMap.get? (AMap.extend s.nodes _) _ = _
      rw [AMap.get?_extend _ hNn, canonNode_one (by rw [under_nil_path]; exact h1)]
      simp [AMap.get?]
    · intro key hkey
      show AMap.get? (AMap.extend s.nodes _) _ = _
      rw [AMap.get?_extend _ hNn]
      have hne : ¬ (⟨w, []⟩ : NodeKey) = key := by
        rintro rfl
        apply hkey
        refine ⟨rfl, pres_self.2 ?_⟩
        rw [under_nil_path]
        exact List.ne_nil_of_mem hmem
      simp only [AMap.get?, if_neg hne]
      exact (hno.no key (fun hc => hkey ⟨hc.1, hc.2.2.1⟩)).1

/-- A store with the whole tree answers like one. -/
theorem FullAt.treeAt {s : Store} (h : FullAt H s.nodes m w) (hne : m ≠ []) : TreeAt H s.reader.getNodeOption w m (fun _ => w) := by
  constructor
  · show Except.ok (s.nodes.get? ⟨w, []⟩) = _
    rw [h.yes [] (pres_self.2 (by rw [under_nil_path]; exact hne))]
  · intro q _ hq
    show Except.ok (s.nodes.get? ⟨w, q⟩) = _
    rw [h.yes q hq]

end
end Jmt
