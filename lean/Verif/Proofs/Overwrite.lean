import Verif.Proofs.Stats
import Verif.Proofs.Reach
import Verif.Spec.Overwrite
/-!
# `append_value_set`: writing again at the latest version
-/
namespace Jmt
open Spec (Entry)

section
variable {C : Ctx} {tc tc' : TreeCache} {m m' : List Entry} {ver ver' ver1 : List Nibble → Version}

/-- `freeze` when the version being written already has a root. -/
theorem freeze_over (hB : C.B ⟨C.V, []⟩ ≠ .ok none) (hrv : C.rv = C.V) (h0 : C.pres0 [] → C.ver0 [] = C.V) (hm : NodupE m)
    (g : GInv C tc m ver) (hro : RootOk C tc m []) (hnv : tc.nextVersion = C.V) (hV : C.V + 1 < u64Size) :
    ∃ N sl, tc.freeze C.H = .ok (tc.frozenAt C.V N sl (sh C.H m [])) ∧ N.NodupKeys ∧
      (∀ k nd, N.get? k = some nd → k.version = C.V) ∧ TreeAt C.H (over N C.B) C.V m ver := by
  have hV' : tc.nextVersion + 1 < u64Size := by rw [hnv]; exact hV
  have hro : m = [] → NotDropped C tc := (hro.resolve_left hB).2
  by_cases hne : m = []
  · subst hne
    have hn := g.null rfl
    obtain ⟨hrk, h2⟩ : tc.rootNodeKey = ⟨C.V, []⟩ ∧ tc.nodeCache.get? ⟨C.V, []⟩ = some .null := by
      rcases hn.root with ⟨h, h', -⟩ | ⟨h, h'⟩ | ⟨h, -⟩
      · exact ⟨h, h'⟩
      · exact absurd (h' _) (hro rfl h)
      · exact absurd hrv h.1
    refine ⟨tc.nodeCache, tc.numStaleLeaves, ?_, g.count.nodup, ?_, ?_, fun q _ hq => absurd hq not_pres_of_nil⟩
    · rw [← hnv]
      refine freeze_plain (n := .null) (tc' := tc) ?_ ?_ ?_ (SameV.refl _) rfl rfl g.count hV'
      · unfold TreeCache.freezeRoot TreeCache.getNodeOption
        rw [hrk, h2]; rfl
      · rw [sh_zero C.H (by simp)]; rfl
      · rintro ⟨-, h, -⟩; rw [h] at h2; simp at h2
    · rintro ⟨w, q⟩ nd hw
      by_cases hq : q = []
      · subst hq
        apply Decidable.byContradiction
        intro hwV
        rcases hn.root with ⟨-, -, h⟩ | ⟨-, h⟩ | ⟨h, -⟩
        · rw [h w hwV] at hw; cases hw
        · rw [h w] at hw; cases hw
        · exact absurd hrv h.1
      · exact (((hn.abs q hq) [] ver).dom w nd hw).1
    · unfold over; rw [h2, canonNode_nil (by simp)]
  · obtain ⟨hs, hrk, hcl⟩ := g.tree hne
    have hpr : pres m [] [] := pres_root.2 hne
    have hget := (hs [] (nil_prefix _)).get hpr g.base
    have hhash : (canonNode C.H m ver []).hash C.H = .ok (sh C.H m []) := canonNode_hash hm
    have hv : ver [] = C.V := by
      rcases (hs [] (nil_prefix _)).stored hpr with ⟨h, -⟩ | ⟨-, -, h1, h2⟩
      · exact h
      · rw [h2]; exact h0 h1
    have htree : TreeAt C.H (over tc.nodeCache C.B) C.V m ver := by
      have hnode : ∀ q, pres m [] q → over tc.nodeCache C.B ⟨ver q, q⟩ = .ok (some (canonNode C.H m ver q)) := by
        intro q hq
        unfold over
        rcases (hs q (nil_prefix q)).stored hq with ⟨h1, h2⟩ | ⟨h1, h2, -⟩
        · rw [h1, h2]
        · rw [h1]; exact h2
      exact ⟨hv ▸ hnode [] hpr, fun q _ hq => hnode q hq⟩
    have hkey : ∀ k nd, tc.nodeCache.get? k = some nd → k.version = C.V := by
      rintro ⟨w, q⟩ nd hw
      exact ((hs q (nil_prefix q)).dom w nd hw).1
    by_cases hcopy : 0 < tc.nextVersion ∧ tc.nodeCache = [] ∧ tc.stale = []
    · obtain ⟨c1, c2, c3⟩ := hcopy
      refine ⟨[(⟨C.V, []⟩, canonNode C.H m ver [])], 0, ?_, by simp [AMap.NodupKeys], ?_, ?_, ?_⟩
      · have := freeze_copy (C := C) (tc := tc) (by rw [hrk]; exact hget) hhash c1 c2 c3 g.count hV'
        rw [this, hrk, hnv]; rfl
      · rintro ⟨w, q⟩ nd hw
        simp only [AMap.get?] at hw
        split at hw
        · rename_i he; cases he; rfl
        · simp at hw
      · simp [over, AMap.get?]
      · intro q hq hp
        have := htree.node q hq hp
        rw [c2] at this
        unfold over at this ⊢
        simp only [AMap.get?_nil] at this
        simp only [AMap.get?]
        rw [if_neg (by intro h; exact hq (congrArg NodeKey.path h).symm)]
        exact this
    · refine ⟨tc.nodeCache, tc.numStaleLeaves, ?_, g.count.nodup, hkey, htree⟩
      rw [← hnv]
      refine freeze_plain (n := canonNode C.H m ver []) (tc' := tc) ?_ hhash hcopy (SameV.refl _) rfl rfl g.count hV'
      unfold TreeCache.freezeRoot
      rw [hrk, hget]; rfl

end

section
variable {H : Hasher}

theorem NullRoot_or {C : Ctx} {tc : TreeCache} {m : List Entry} {ver} (g : GInv C tc m ver) (w : Version) (q : List Nibble)
    (h : (⟨w, q⟩ : NodeKey) ∈ tc.stale) : C.pres0 q ∧ w = C.ver0 q := by
  by_cases hm : m = []
  · subst hm
    by_cases hq : q = []
    · subst hq; exact ((g.null rfl).stale0 w).1 h
    · have := (((g.null rfl).abs q hq [] ver).stale w).1 h
      exact ⟨this.1, this.2.1⟩
  · have := (((g.tree hm).1 q (nil_prefix q)).stale w).1 h
    exact ⟨this.1, this.2.1⟩

/-- When the root hash has changed, the old root node is recorded as stale. -/
theorem GInv.root_stale {C : Ctx} {tc : TreeCache} {m : List Entry} {ver} (g : GInv C tc m ver) (h0 : C.pres0 [])
    (hB : C.B ⟨C.ver0 [], []⟩ = .ok (some (canonNode C.H C.m0 C.ver0 []))) (hn0 : NodupE C.m0) (hn : NodupE m)
    (hne : sh C.H m [] ≠ sh C.H C.m0 []) : (⟨C.ver0 [], []⟩ : NodeKey) ∈ tc.stale := by
  by_cases hm : m = []
  · subst hm
    exact ((g.null rfl).stale0 _).2 ⟨h0, rfl⟩
  · have hp := (g.tree hm).1 [] (nil_prefix [])
    refine (hp.stale _).2 ⟨h0, rfl, fun ⟨h1, h2, h3⟩ => hne ?_⟩
    have hst : Stored C tc m ver [] := hp.stored h1
    rcases hst with ⟨hc1, hc2⟩ | ⟨-, hc, -⟩
    · rw [← hc1, h2, h3] at hc2
      cases hc2
    · rw [h2, hB] at hc
      have he : canonNode C.H C.m0 C.ver0 [] = canonNode C.H m ver [] := Option.some.inj (Except.ok.inj hc)
      have e1 := canonNode_hash (H := C.H) (ver := C.ver0) (p := []) hn0
      have e2 := canonNode_hash (H := C.H) (ver := ver) (p := []) hn
      rw [he, e2] at e1
      exact Except.ok.inj e1

/-- `append_value_set` on a reader that serves the tree of `m` at version `V`. -/
theorem append_spec {R : Reader} {V : Version} {m : List Entry} {ver : List Nibble → Version} {nk : NodeKey} {l : LeafNode}
    (hnd : NodupE m) (hne : m ≠ []) (ht : TreeAt H R.getNodeOption V m ver) (hroot : ver [] = V)
    (hacc : R.getRightmostLeaf = .ok (some (nk, l))) (hv : nk.version = V) (hV : V + 1 < u64Size) {vs : ValueSet}
    (safe : SafeDel H m vs) :
    ∃ (b : TreeUpdateBatch) (S : List NodeKey) (ver' : List Nibble → Version), appendValueSet H R vs V = .ok (sh H (updAll H m vs) [], b) ∧
      b.nodeBatch.nodes.NodupKeys ∧ (∀ k nd, b.nodeBatch.nodes.get? k = some nd → k.version = V) ∧
      TreeAt H (over b.nodeBatch.nodes R.getNodeOption) V (updAll H m vs) ver' ∧
      ValsOk V vs b.nodeBatch.values ∧ b.staleNodeIndexBatch = S.map (fun k => ⟨V, k⟩) ∧ S.Nodup ∧
      (∀ w q, (⟨w, q⟩ : NodeKey) ∈ S → pres m [] q ∧ w = ver q) ∧
      Fresh V m ver (updAll H m vs) ver' (vs.map Prod.fst) (∀ w ∈ vs, w.2 ≠ none) (Effective m vs)
        (Renewed H m vs) ∧
      (sh H (updAll H m vs) [] ≠ sh H m [] → NodeKey.root V ∈ S) := by
  let tc0 : TreeCache := ⟨NodeKey.root V, V, [], [], 0, [], 0, Frozen.empty, R⟩
  have hnew : TreeCache.newOverwrite R V = .ok tc0 := by
    unfold TreeCache.newOverwrite
    rw [hacc, ok_bind]
    simp only [hv, if_true]; rfl
  let C : Ctx := ⟨H, V, R.getNodeOption, m, ver, V⟩
  have hbase : tc0.base = C.B := by funext k; rfl
  have hholds : ∀ q, pres m [] q → R.getNodeOption ⟨ver q, q⟩ = .ok (some (canonNode H m ver q)) := by
    intro q hq
    by_cases h : q = []
    · subst h; rw [hroot]; exact ht.root
    · exact ht.node q h hq
  have g0 : GInv C tc0 m ver := by
    refine ginv_drained (C := C) hbase rfl rfl rfl rfl hholds ?_ (fun h => absurd h hne)
    intro _
    show NodeKey.root V = ⟨ver [], []⟩
    rw [hroot]; rfl
  have hB : C.B ⟨C.V, []⟩ ≠ .ok none := by
    show R.getNodeOption ⟨V, []⟩ ≠ _
    rw [ht.root]; simp
  obtain ⟨ps, tc1, ver1, a1, a2, -, a4, a5, a6, a7, a8, a9, a10⟩ :=
    putAll_spec (C := C) false vs m ver tc0 (.inr ⟨safe, fun h => absurd h hne⟩) hnd g0
  obtain ⟨N, sl, c1, c2, c3, c4⟩ := freeze_over (C := C) hB rfl (fun _ => hroot) (hnd.updAll vs) a2 a10 a6 hV
  have hN : ∀ k, (AMap.extend ([] : AMap NodeKey Node) N).get? k = N.get? k := by
    intro k; rw [AMap.get?_extend _ c2]; cases N.get? k <;> simp
  have hover : over (AMap.extend [] N) R.getNodeOption = over N R.getNodeOption := by
    funext k; unfold over; rw [hN]
  refine ⟨(tc1.frozenAt V N sl (sh H (updAll H m vs) [])).finish.2, tc1.stale, ver1, ?_, ?_, ?_, ?_, ?_, ?_, a2.count.staleNodup, ?_, a9, fun hch => ?_⟩
  · unfold appendValueSet
    rw [hnew, ok_bind]
    have a1' : putAll H V false vs tc0 = .ok (ps, tc1) := a1
    have c1' : tc1.freeze H = .ok (tc1.frozenAt V N sl (sh H (updAll H m vs) [])) := c1
    rw [a1', ok_bind]
    simp only [c1', ok_bind]
    have : (tc1.frozenAt V N sl (sh H (updAll H m vs) [])).finish.1 = [sh H (updAll H m vs) []] := by
      show tc1.frozen.rootHashes ++ _ = _
      rw [a7]; rfl
    simp only [TreeCache.finish] at this ⊢
    rw [this]
  · show AMap.NodupKeys (AMap.extend tc1.frozen.nodeBatch.nodes N)
    rw [a7]; exact AMap.nodupKeys_nil.extend _
  · intro k nd h
    have h : (AMap.extend tc1.frozen.nodeBatch.nodes N).get? k = some nd := h
    rw [a7] at h
    exact c3 k nd ((hN k).symm.trans h)
  · have : (tc1.frozenAt V N sl (sh H (updAll H m vs) [])).finish.2.nodeBatch.nodes = AMap.extend [] N := by
      show AMap.extend tc1.frozen.nodeBatch.nodes N = _
      rw [a7]; rfl
    rw [this, hover]; exact c4
  · have : (tc1.frozenAt V N sl (sh H (updAll H m vs) [])).finish.2.nodeBatch.values = AMap.extend [] (valAll V [] vs) := by
      show AMap.extend tc1.frozen.nodeBatch.values tc1.valueCache = _
      rw [a7, a5]; rfl
    rw [this]
    refine ⟨AMap.nodupKeys_nil.extend _, fun v k => ?_⟩
    rw [AMap.get?_extend _ (valAll_ok V vs).nodup, (valAll_ok V vs).get]
    by_cases hvV : v = V
    · simp only [hvV, if_true]; cases lastWrite vs k <;> simp
    · simp [hvV]
  · show tc1.frozen.stale ++ _ = _
    rw [a7]
    simp [Frozen.empty, tc0]
  · intro w q h
    exact NullRoot_or a2 w q h
  · have hp0 : C.pres0 [] := pres_root.2 hne
    have := a2.root_stale hp0 (hholds [] hp0) hnd (hnd.updAll vs) hch
    rw [show C.ver0 [] = V from hroot] at this
    exact this

end

/-! ### what stays true of a store whose latest version may be written again -/

/-- All versions from `low` on are readable. -/
structure TInv (H : Hasher) (G : Nodes) (n low : Nat) (M : Nat → List Entry) (W : Nat → List Nibble → Version) : Prop where
  lowle : low ≤ n - 1
  nodup : ∀ i, i < n → NodupE (M i)
  tree : ∀ i, low ≤ i → i < n → TreeAt H (nb G) i (M i) (W i)
  wle : ∀ i, i < n → ∀ q, pres (M i) [] q → W i q ≤ i
  lt : ∀ k nd, G k = some nd → k.version < n

theorem HistInv.toT {H : Hasher} {G st n low M W} (h : HistInv H G st n low M W) : TInv H G n low M W :=
  ⟨h.lowle, h.nodup, h.tree, h.wle, h.lt⟩

section
variable {H : Hasher} {G : Nodes} {n low : Nat} {M : Nat → List Entry} {W : Nat → List Nibble → Version}

/-- Nodes of version `v` or later do not disturb older versions. -/
theorem TreeAt.over_later {H : Hasher} {G : Nodes} {i v : Nat} {m : List Entry} {ver} (ht : TreeAt H (nb G) i m ver)
    {N : AMap NodeKey Node} (hN : ∀ k nd, N.get? k = some nd → k.version = v) (hi : i < v)
    (hw : ∀ q, pres m [] q → ver q ≤ i) : TreeAt H (nb (overG N G)) i m ver := by
  have hne : ∀ k : NodeKey, k.version ≤ i → overG N G k = G k := by
    intro k hk
    unfold overG
    cases hg : N.get? k with
    | none => rfl
    | some nd => have := hN k nd hg; omega
  refine ⟨?_, fun q hq hp => ?_⟩
  · have := ht.root
    unfold nb at this ⊢
    rw [hne _ (Nat.le_refl _)]; exact this
  · have := ht.node q hq hp
    unfold nb at this ⊢
    rw [hne _ (hw q hp)]; exact this

theorem TInv.step (h : TInv H G n low M W) {m : List Entry} {ver : List Nibble → Version} {m' : List Entry}
    {ver' : List Nibble → Version} {N : AMap NodeKey Node} {S : List NodeKey} (hm : m = cur M n)
    (hver : 0 < n → ver = W (n - 1)) (hm' : NodupE m') (d : Delta H n (nb G) m ver m' ver' N S) :
    TInv H (overG N G) (n + 1) low (updN M n m') (updN W n ver') := by
  have hold : ∀ q, pres m [] q → ver q < n := by
    intro q hq
    by_cases h0 : n = 0
    · rw [hm] at hq; simp only [cur, h0, if_true] at hq; exact absurd hq not_pres_of_nil
    · rw [hm] at hq; simp only [cur, h0, if_false] at hq
      have := h.wle (n - 1) (by omega) q hq
      rw [hver (by omega)]; omega
  have hwf : ∀ q, pres m [] q → Old n (ver q) := fun q hq => by
    have := hold q hq; exact ⟨by omega, .inl this⟩
  refine ⟨by have := h.lowle; omega, fun i hi => ?_, fun i h1 h2 => ?_, fun i hi q hq => ?_, fun k nd hk => ?_⟩
  · by_cases hin : i = n
    · subst hin; rw [updN_self]; exact hm'
    · rw [updN_ne hin]; exact h.nodup i (by omega)
  · by_cases hin : i = n
    · subst hin; rw [updN_self, updN_self, ← over_nb]; exact d.treeAt hwf
    · rw [updN_ne hin, updN_ne hin]
      exact (h.tree i h1 (by omega)).over_later (v := n) (fun k nd hk => (d.newKey k nd hk).1) (by omega)
        (h.wle i (by omega))
  · by_cases hin : i = n
    · subst hin
      rw [updN_self] at hq ⊢
      by_cases hv : ver' q = i
      · omega
      · obtain ⟨h1, h2, -⟩ := d.old q hq hv
        have := hold q h1
        omega
    · rw [updN_ne hin] at hq ⊢; exact h.wle i (by omega) q hq
  · unfold overG at hk
    cases hg : N.get? k with
    | none => rw [hg] at hk; have := h.lt k nd hk; omega
    | some nd' => have := (d.newKey k nd' hg).1; omega

theorem Run.reads {infos : List StepInfo} : ∀ {n : Nat} {G : Nodes} {m ver M W}, Run H n (nb G) m ver infos →
    TInv H G n low M W → m = cur M n → (0 < n → ver = W (n - 1)) → NodupE m →
    ∀ {hist : List ValueSet}, hist.length = n → FreshInv hist M W →
    ∃ M' W', TInv H (foldG G infos) (n + infos.length) low M' W' ∧
      (∀ i, i < n → M' i = M i ∧ W' i = W i) ∧
      (∀ j, j < infos.length → M' (n + j) = ((infos.map StepInfo.ws).take (j + 1)).foldl (updAll H) m) ∧
      FreshInv (hist ++ infos.map StepInfo.ws) M' W' ∧
      (∀ j, j < infos.length → ∀ q, pres (M' (n + j)) [] q → W' (n + j) q < n → pres m [] q ∧ W' (n + j) q = ver q) := by
  induction infos with
  | nil =>
    intro n G m ver M W _ h _ _ _ hist _ hfr
    exact ⟨M, W, by simpa [foldG] using h, fun _ _ => ⟨rfl, rfl⟩, by simp, by simpa using hfr, by simp⟩
  | cons i rest ih =>
    intro n G m ver M W hr h hm hv hnd hist hlen hfi
    cases hr with
    | cons d hr hfr _ =>
      have hfi' := hfi.step (H := H) (hlen ▸ hm) (hlen ▸ hv) rfl (hlen ▸ hfr)
      rw [hlen] at hfi'
      have h' := h.step hm hv (hnd.updAll i.ws) d
      rw [over_nb] at hr
      obtain ⟨M', W', a1, a2, a3, a4, a5⟩ := ih hr h' (by simp [cur]) (by intro _; simp) (hnd.updAll _)
        (hist := hist ++ [i.ws]) (by simp [hlen]) hfi'
      refine ⟨M', W', ?_, ?_, ?_, by simpa using a4, ?_⟩
      · simp only [foldG, List.length_cons]
        rw [show n + (rest.length + 1) = n + 1 + rest.length by omega]
        exact a1
      · intro j hj
        obtain ⟨b1, b2⟩ := a2 j (by omega)
        rw [b1, b2, updN_ne (by omega), updN_ne (by omega)]
        exact ⟨rfl, rfl⟩
      · intro j hj
        cases j with
        | zero =>
          rw [Nat.add_zero, (a2 n (by omega)).1]
          simp
        | succ j =>
          rw [show n + (j + 1) = n + 1 + j by omega, a3 j (by simpa using hj)]
          simp
      · have hnew : ∀ q, pres (updAll H m i.ws) [] q → i.ver q < n → pres m [] q ∧ i.ver q = ver q := by
          intro q hq hlt
          obtain ⟨h1, h2, -⟩ := d.old q hq (by omega)
          exact ⟨h1, h2⟩
        intro j hj q hq hlt
        cases j with
        | zero =>
          rw [Nat.add_zero, (a2 n (by omega)).2, updN_self] at hlt ⊢
          rw [Nat.add_zero, (a2 n (by omega)).1, updN_self] at hq
          exact hnew q hq hlt
        | succ j =>
          rw [show n + (j + 1) = n + 1 + j by omega] at hq hlt ⊢
          obtain ⟨h1, h2⟩ := a5 j (by simpa using hj) q hq (by omega)
          rw [h2] at hlt ⊢
          exact hnew q h1 hlt

/-- The root of the latest version may be taken to be at that version. -/
theorem TInv.resetRoot (h : TInv H G n low M W) (hn : 0 < n) :
    TInv H G n low M (updN W (n - 1) (setVer (W (n - 1)) [] (n - 1))) := by
  have hW : ∀ i q, q ≠ [] → updN W (n - 1) (setVer (W (n - 1)) [] (n - 1)) i q = W i q := by
    intro i q hq
    unfold updN; split
    · next h => rw [setVer_ne hq, h]
    · rfl
  have hcn : ∀ i q, canonNode H (M i) (updN W (n - 1) (setVer (W (n - 1)) [] (n - 1)) i) q =
      canonNode H (M i) (W i) q := by
    intro i q
    unfold updN; split
    · next h => rw [canonNode_setRoot, h]
    · rfl
  refine ⟨h.lowle, h.nodup, ?_, ?_, h.lt⟩
  · intro i h1 h2
    have ht := h.tree i h1 h2
    refine ⟨by rw [hcn]; exact ht.root, fun q hq hp => ?_⟩
    rw [hcn, hW _ _ hq]; exact ht.node q hq hp
  · intro i hi q hq
    by_cases hq0 : q = []
    · subst hq0
      unfold updN; split
      · rw [setVer_self]; omega
      · exact h.wle i hi _ hq
    · rw [hW _ _ hq0]; exact h.wle i hi _ hq

theorem FreshInv.resetRoot {hist : List ValueSet} (h : FreshInv hist M W) :
    FreshInv hist M (updN W (hist.length - 1) (setVer (W (hist.length - 1)) [] (hist.length - 1))) := by
  intro i hi q hq hp u hu
  refine h i hi q hq hp u ?_
  by_cases hin : i = hist.length - 1
  · rw [hin, updN_self, setVer_ne hq] at hu
    rw [hin]; exact hu
  · rwa [updN_ne hin] at hu

end

/-- A store that serves the value sets `hist` from version `low` on. -/
structure ReadInv (H : Hasher) (s : Store) (hist : List ValueSet) (low : Nat) : Prop where
  tree : ∃ M W, TInv H s.nodes.get? hist.length low M W ∧
    (0 < hist.length → W (hist.length - 1) [] = hist.length - 1) ∧
    (∀ i, i < hist.length → M i = entriesAfter H hist (i + 1)) ∧ FreshInv hist M W
  vals : ValInv s.values hist

theorem SysInv.reads {H : Hasher} {s : Store} {hist : List ValueSet} {low : Nat} (h : SysInv H s hist low) :
    ReadInv H s hist low := by
  obtain ⟨⟨M, W, h1, h2⟩, -, h3⟩ := h
  exact ⟨⟨M, W, h1.toT, ⟨h2.1, h2.2.1, h2.2.2.1⟩⟩, h3⟩

section
variable {H : Hasher} {s : Store} {hist : List ValueSet} {low : Nat}

theorem ReadInv.readAt (h : ReadInv H s hist low) {v : Version} (h1 : low ≤ v) (h2 : v < hist.length) :
    ReadAt H s.reader v (Spec.stateAfter Spec.Map.empty hist (v + 1)) (entriesAfter H hist (v + 1)) := by
  obtain ⟨⟨M, W, hI, -, hM, hF⟩, hval⟩ := h
  have ht : TreeAt H s.reader.getNodeOption v (entriesAfter H hist (v + 1)) (W v) := by
    rw [← hM v h2]
    exact hI.tree v h1 h2
  refine .of (entriesAfter_nodup _ _ _) ⟨W v, ht⟩ (lists_entriesAfter H _ _) (fun k => ?_) ⟨W v, ht, ?_⟩
  · show Except.ok _ = _
    rw [hval.get]
  · intro q e hq hp hu
    show Except.ok _ = _
    rw [hval.get]
    congr 1
    rw [← hM v h2] at hp hu
    have he : e ∈ under q (M v) := by rw [hu]; simp
    refine stateAfter_const (hI.wle v h2 q hp) (fun u h3 h4 ws hws hk => ?_)
    exact hF v h2 q hq hp u h3 h4 ws hws _ hk e (mem_under.1 he).1 rfl (mem_under.1 he).2

theorem TInv.ready {M : Nat → List Entry} {W : Nat → List Nibble → Version} (hI : TInv H s.nodes.get? hist.length low M W)
    (hW : 0 < hist.length → W (hist.length - 1) [] = hist.length - 1) (hM : ∀ i, i < hist.length → M i = entriesAfter H hist (i + 1)) :
    Ready H (nb s.nodes.get?) hist.length (entriesAfter H hist hist.length)
      (if hist.length = 0 then fun _ => 0 else W (hist.length - 1)) := by
  rw [← cur_entries hM]
  have hnone : ∀ w q, hist.length ≤ w → nb s.nodes.get? ⟨w, q⟩ = .ok none := by
    intro w q hw
    unfold nb
    cases hg : s.nodes.get? ⟨w, q⟩ with
    | none => rfl
    | some nd => have := hI.lt _ _ hg; dsimp only at this; omega
  by_cases h0 : hist.length = 0
  · rw [if_pos h0, h0]
    refine ⟨by simp [cur, NodupE], fun _ => ⟨by simp [cur], hnone _ _ (by omega)⟩, fun h => by omega, ?_, rfl,
      fun _ w hw _ => hnone w [] (by omega)⟩
    intro q _ hq
    simp only [cur, if_true] at hq
    exact absurd hq not_pres_of_nil
  · simp only [cur, h0, if_false]
    refine ⟨hI.nodup _ (by omega), fun h' => absurd h' h0, fun _ => hI.tree _ hI.lowle (by omega), ?_, hW (by omega),
      fun _ w hw _ => hnone w [] hw⟩
    intro q _ hq
    have := hI.wle (hist.length - 1) (by omega) q hq
    exact ⟨by omega, .inl (by omega)⟩

theorem insertStale_inv : ∀ (L st st' : List StaleNodeIndex), Store.insertStale L st = .ok st' → st' = st ++ L := by
  intro L
  induction L with
  | nil => intro st st' h; simp [Store.insertStale] at h; simp [h]
  | cons i L ih =>
    intro st st' h
    unfold Store.insertStale at h
    split at h
    · cases h
    · rw [ih _ _ h]; simp

theorem insertNodes_inv (ow : Bool) : ∀ (L : List (NodeKey × Node)) (m m' : AMap NodeKey Node),
    Store.insertNodes ow L m = .ok m' → m' = AMap.extend m L := by
  intro L
  induction L with
  | nil => intro m m' h; simp [Store.insertNodes] at h; simp [h, AMap.extend]
  | cons e L ih =>
    intro m m' h
    obtain ⟨k, n⟩ := e
    unfold Store.insertNodes at h
    split at h
    · cases h
    · rw [ih _ _ h]; rfl

theorem insertNodes_ow : ∀ (L : List (NodeKey × Node)) (m : AMap NodeKey Node),
    Store.insertNodes true L m = .ok (AMap.extend m L) := by
  intro L
  induction L with
  | nil => intro m; rfl
  | cons e L ih =>
    intro m
    obtain ⟨k, n⟩ := e
    unfold Store.insertNodes
    rw [if_neg (by simp), ih]; rfl

/-- What a successful write does. -/
theorem write_inv {b : TreeUpdateBatch} {s' : Store} (h : s.writeTreeUpdateBatch b = .ok s') :
    s'.nodes = AMap.extend s.nodes b.nodeBatch.nodes ∧
    Store.insertValues (b.nodeBatch.values.mergeSort Store.valueKeyLe) s.values = .ok s'.values ∧
    s'.stale = s.stale ++ b.staleNodeIndexBatch ∧ s'.allowOverwrite = s.allowOverwrite := by
  unfold Store.writeTreeUpdateBatch at h
  obtain ⟨s1, h1, h2⟩ := bind_ok_inv h
  obtain ⟨st, h3, h4⟩ := bind_ok_inv h2
  unfold Store.writeNodeBatch at h1
  obtain ⟨nd, h5, h6⟩ := bind_ok_inv h1
  obtain ⟨vl, h7, h8⟩ := bind_ok_inv h6
  cases h8; cases h4
  exact ⟨insertNodes_inv _ _ _ _ h5, h7, insertStale_inv _ _ _ h3, rfl⟩

theorem get?_extend_overG {m N : AMap NodeKey Node} (hN : N.NodupKeys) : (AMap.extend m N).get? = overG N m.get? := by
  funext k
  rw [AMap.get?_extend _ hN]; unfold overG
  cases N.get? k <;> rfl

/-! ### The stale entries from before the appends -/

/-- The stale entries of versions below `bar` are those of an ordinary history. -/
structure OldStale (G : Nodes) (st : List StaleNodeIndex) (n bar : Nat) (M : Nat → List Entry) (W : Nat → List Nibble → Version) : Prop where
  barle : bar ≤ n - 1
  entry : ∀ x ∈ st, x.staleSince < bar → x.nodeKey.version < x.staleSince ∧ (∃ nd, G x.nodeKey = some nd) ∧
    (x.nodeKey.path ≠ [] → ∀ j, x.staleSince ≤ j → j < n → ¬ (pres (M j) [] x.nodeKey.path ∧ W j x.nodeKey.path = x.nodeKey.version))
  nodup : ((st.filter (fun x => decide (x.staleSince < bar))).map StaleNodeIndex.nodeKey).Nodup

theorem HistInv.oldStale {G : Nodes} {st n M W} (h : HistInv H G st n low M W) {bar : Nat} (hbar : bar ≤ n - 1) : OldStale G st n bar M W :=
  ⟨hbar, fun x hx _ => ⟨(h.stale x hx).2.1, (h.stale x hx).2.2.1, (h.stale x hx).2.2.2⟩, h.staleNodup.sublist (List.filter_sublist.map _)⟩

theorem OldStale.grow {G G' : Nodes} {st L : List StaleNodeIndex} {n n' bar : Nat} {M M' : Nat → List Entry} {W W' : Nat → List Nibble → Version}
    (h : OldStale G st n bar M W) (hn : n ≤ n') (hL : ∀ x ∈ L, bar ≤ x.staleSince) (hG : ∀ k : NodeKey, k.version < bar → G' k = G k)
    (hMW : ∀ j, j < n' → ∀ q, q ≠ [] → pres (M' j) [] q → W' j q < bar →
      ∃ j0, j0 < n ∧ (∀ t, t < bar → t ≤ j → t ≤ j0) ∧ pres (M j0) [] q ∧ W j0 q = W' j q) :
    OldStale G' (st ++ L) n' bar M' W' := by
  refine ⟨by have := h.barle; omega, fun x hx hlt => ?_, ?_⟩
  · rcases List.mem_append.1 hx with hx | hx
    · obtain ⟨h1, h2, h3⟩ := h.entry x hx hlt
      refine ⟨h1, by rw [hG _ (by omega)]; exact h2, fun hp j hj1 hj2 ⟨hc1, hc2⟩ => ?_⟩
      obtain ⟨j0, a1, a2, a3, a4⟩ := hMW j hj2 _ hp hc1 (by omega)
      exact h3 hp j0 (a2 _ hlt hj1) a1 ⟨a3, a4.trans hc2⟩
    · have := hL x hx; omega
  · rw [List.filter_append, List.filter_eq_nil_iff (l := L) |>.2 (fun x hx => by have := hL x hx; simp; omega), List.append_nil]
    exact h.nodup

/-- As `ReadInv`, and the stale entries below `bar` may be purged. -/
structure OwInv (H : Hasher) (s : Store) (hist : List ValueSet) (low bar : Nat) : Prop where
  tree : ∃ M W, TInv H s.nodes.get? hist.length low M W ∧
    (0 < hist.length → W (hist.length - 1) [] = hist.length - 1) ∧
    (∀ i, i < hist.length → M i = entriesAfter H hist (i + 1)) ∧ FreshInv hist M W ∧ OldStale s.nodes.get? s.stale hist.length bar M W
  vals : ValInv s.values hist

theorem OwInv.reads {bar : Nat} (h : OwInv H s hist low bar) : ReadInv H s hist low := by
  obtain ⟨⟨M, W, a, b, c, d, -⟩, e⟩ := h
  exact ⟨⟨M, W, a, b, c, d⟩, e⟩

theorem SysInv.owInv (h : SysInv H s hist low) {bar : Nat} (hbar : bar ≤ hist.length - 1) : OwInv H s hist low bar := by
  obtain ⟨⟨M, W, h1, h2⟩, -, h3⟩ := h
  exact ⟨⟨M, W, h1.toT, h2.1, h2.2.1, h2.2.2.1, h1.oldStale hbar⟩, h3⟩

/-- Purging below `bar` succeeds and gives up nothing else. -/
theorem OwInv.purge {bar : Nat} (h : OwInv H s hist low bar) {r : Nat} (hr : r < bar) :
    ∃ s', s.purgeStaleNodes r = .ok s' ∧ OwInv H s' hist (max low r) bar := by
  obtain ⟨⟨M, W, hI, hW, hM, hF, hO⟩, hval⟩ := h
  have hsub : (s.stale.filter (fun i => decide (i.staleSince ≤ r))).Sublist (s.stale.filter (fun x => decide (x.staleSince < bar))) :=
    by
    have : s.stale.filter (fun i => decide (i.staleSince ≤ r)) =
        (s.stale.filter (fun x => decide (x.staleSince < bar))).filter (fun i => decide (i.staleSince ≤ r)) := by
      rw [List.filter_filter]
      apply List.filter_congr
      intro x _
      by_cases h : x.staleSince ≤ r
      · simp [h]; omega
      · simp [h]
    rw [this]
    exact List.filter_sublist
  obtain ⟨s', a1, a2, a3, a4, a5, a6, a7⟩ := Store.purgeLoop_ok (s.stale.filter (fun i => decide (i.staleSince ≤ r))) s
    (hO.nodup.sublist (hsub.map _)) (by
      intro i hi
      simp only [List.mem_filter, decide_eq_true_eq] at hi
      exact (hO.entry i hi.1 (by omega)).2.1)
  have hs' : s'.stale = s.stale.filter (fun i => decide (¬ i.staleSince ≤ r)) := by
    rw [a5]
    apply List.filter_congr
    intro x hx
    simp [List.mem_filter, hx]
  have hkeep : ∀ k, (∀ x ∈ s.stale, x.staleSince ≤ r → x.nodeKey ≠ k) → s'.nodes.get? k = s.nodes.get? k := by
    intro k hk
    rw [a7, if_neg]
    rintro ⟨x, hx, hxk⟩
    simp only [List.mem_filter, decide_eq_true_eq] at hx
    exact hk x hx.1 hx.2 hxk
  refine ⟨s', a1, ⟨M, W, ⟨?_, hI.nodup, fun i h1 h2 => ?_, hI.wle, fun k nd hk => ?_⟩, hW, hM, hF, ⟨hO.barle, fun x hx hlt => ?_, ?_⟩⟩, by rw [a2]; exact hval⟩
  · have := hI.lowle; have := hO.barle; omega
  · have ht := hI.tree i (by omega) h2
    refine ⟨?_, fun q hq hp => ?_⟩
    · have := ht.root
      unfold nb at this ⊢
      rw [hkeep]; · exact this
      intro x hx hr hk
      have := (hO.entry x hx (by omega)).1
      rw [hk] at this
      dsimp only at this
      omega
    · have := ht.node q hq hp
      unfold nb at this ⊢
      rw [hkeep]; · exact this
      intro x hx hr hk
      have := (hO.entry x hx (by omega)).2.2
      rw [hk] at this
      exact this hq i (by omega) h2 ⟨hp, rfl⟩
  · rw [a7] at hk
    split at hk
    · cases hk
    · exact hI.lt k nd hk
  · rw [hs', List.mem_filter] at hx
    simp only [decide_eq_true_eq] at hx
    obtain ⟨h1, h2, h3⟩ := hO.entry x hx.1 hlt
    refine ⟨h1, ?_, h3⟩
    rw [hkeep]; · exact h2
    intro z hz hzr hk
    have : x = z := nodup_map_inj hO.nodup (List.mem_filter.2 ⟨hx.1, by simpa using hlt⟩) (List.mem_filter.2 ⟨hz, by simp; omega⟩) hk.symm
    subst this
    exact hx.2 hzr
  · rw [hs']
    exact hO.nodup.sublist ((List.filter_sublist.filter _).map _)

theorem OldStale.resetRoot {G : Nodes} {st n bar M W} (h : OldStale G st n bar M W) :
    OldStale G st n bar M (updN W (n - 1) (setVer (W (n - 1)) [] (n - 1))) := by
  refine ⟨h.barle, fun x hx hlt => ?_, h.nodup⟩
  obtain ⟨h1, h2, h3⟩ := h.entry x hx hlt
  refine ⟨h1, h2, fun hp j a b hc => h3 hp j a b ?_⟩
  unfold updN at hc
  split at hc
  · next he => rw [setVer_ne hp] at hc; rw [he] at hc ⊢; exact hc
  · exact hc

theorem OwInv.ready {bar : Nat} (h : OwInv H s hist low bar) : ∃ M W, TInv H s.nodes.get? hist.length low M W ∧
    (∀ i, i < hist.length → M i = entriesAfter H hist (i + 1)) ∧ FreshInv hist M W ∧
    (0 < hist.length → W (hist.length - 1) [] = hist.length - 1) ∧ OldStale s.nodes.get? s.stale hist.length bar M W ∧
    Ready H (nb s.nodes.get?) hist.length (entriesAfter H hist hist.length)
      (if hist.length = 0 then fun _ => 0 else W (hist.length - 1)) := by
  obtain ⟨⟨M, W, hI, hW, hM, hF, hO⟩, hv⟩ := h
  exact ⟨M, W, hI, hM, hF, hW, hO, TInv.ready hI hW hM⟩

theorem stAll_since {infos : List StepInfo} : ∀ {V : Nat}, ∀ x ∈ stAll V infos, V ≤ x.staleSince := by
  induction infos with
  | nil => intro V x hx; simp [stAll] at hx
  | cons i rest ih =>
    intro V x hx
    unfold stAll at hx
    rcases List.mem_append.1 hx with hx | hx
    · obtain ⟨k, -, rfl⟩ := List.mem_map.1 hx
      exact Nat.le_refl _
    · have := ih x hx; omega

/-- What a run of value sets writes keeps the invariant, whichever call computed it. -/
theorem OwInv.wrote {bar : Nat} (h : OwInv H s hist low bar) :
    ∃ ver, Ready H (nb s.nodes.get?) hist.length (entriesAfter H hist hist.length) ver ∧
    ∀ (sets : List ValueSet) (tc' : TreeCache) (infos : List StepInfo) (s' : Store), infos.map StepInfo.ws = sets →
      Run H hist.length (nb s.nodes.get?) (entriesAfter H hist hist.length) ver infos →
      tc'.frozen = pushAll H hist.length (nb s.nodes.get?) (entriesAfter H hist hist.length) Frozen.empty infos →
      s.writeTreeUpdateBatch tc'.finish.2 = .ok s' → OwInv H s' (hist ++ sets) low bar := by
  obtain ⟨M, W, hI, hM, hF, hW, hO, hready⟩ := h.ready
  refine ⟨_, hready, fun sets tc' infos s' b2 b3 b4 hc1 => ?_⟩
  obtain ⟨w1, w2, w3, -⟩ := write_inv hc1
  have hlen : infos.length = sets.length := by rw [← b2]; simp
  have b3' : Run H hist.length (nb s.nodes.get?) (entriesAfter H hist hist.length) _ infos := b3
  obtain ⟨p1, p2⟩ := pushAll_nodes (H := H) (V := hist.length) (B := nb s.nodes.get?)
    (m := entriesAfter H hist hist.length) (f := Frozen.empty) b3.nodup
  obtain ⟨p5, p6⟩ := pushAll_values (H := H) (f := Frozen.empty) b3
  have b4' : tc'.frozen = pushAll H hist.length (nb s.nodes.get?) (entriesAfter H hist hist.length) Frozen.empty infos := b4
  obtain ⟨M', W', c1, c2, c3, c4, c5⟩ := b3'.reads hI (cur_entries hM).symm (by
    intro h0; rw [if_neg (by omega)]) (entriesAfter_nodup _ _ _) rfl hF
  obtain ⟨vals', v1, v2⟩ := values_step h.vals sets tc'.frozen.nodeBatch.values (by
    rw [b4]; exact p6 AMap.nodupKeys_nil) (by
    intro v k
    rw [b4, p5]
    simp only [Frozen.empty, AMap.get?_nil, Option.or_none, ← b2, List.getElem?_map]
    split
    · cases infos[v - hist.length]? <;> rfl
    · rfl)
  have w2' : Store.insertValues (tc'.frozen.nodeBatch.values.mergeSort Store.valueKeyLe) s.values = .ok s'.values := w2
  have hndN : tc'.frozen.nodeBatch.nodes.NodupKeys := by rw [b4']; exact p2 AMap.nodupKeys_nil
  have hG : s'.nodes.get? = foldG s.nodes.get? infos := by
    rw [w1, show tc'.finish.2.nodeBatch.nodes = tc'.frozen.nodeBatch.nodes from rfl, get?_extend_overG hndN]
    show overG tc'.frozen.nodeBatch.nodes _ = _
    rw [b4', p1]
    rfl
  have hv : ValInv s'.values (hist ++ sets) := by
    rw [w2'] at v1; cases v1; exact v2
  have c1' : TInv H s'.nodes.get? (hist ++ sets).length low M' W' := by
    rw [hG, List.length_append, ← hlen]; exact c1
  have hM' : ∀ i, i < (hist ++ sets).length → M' i = entriesAfter H (hist ++ sets) (i + 1) := by
    intro i hi
    rw [List.length_append] at hi
    by_cases hlt : i < hist.length
    · rw [(c2 i hlt).1, hM i hlt, entriesAfter_append_le]; omega
    · have := c3 (i - hist.length) (by omega)
      rw [show hist.length + (i - hist.length) = i by omega] at this
      rw [this, b2, show i + 1 = hist.length + (i - hist.length + 1) by omega, entriesAfter_append]
  have hO' : OldStale s'.nodes.get? s'.stale (hist ++ sets).length bar M' W' := by
    have hbar := hO.barle
    have hst : s'.stale = s.stale ++ stAll hist.length infos := by
      rw [w3]
      show _ ++ tc'.frozen.stale = _
      rw [b4', pushAll_stale b3' (fun x hx => by cases hx)]
      rfl
    rw [hst]
    refine hO.grow (by simp) (fun x hx => by have := stAll_since x hx; omega) (fun k hk => ?_) (fun j hj q hq hp hlt => ?_)
    · rw [hG]; exact foldG_lt b3' k (by omega)
    · rw [List.length_append] at hj
      by_cases hjn : j < hist.length
      · rw [(c2 j hjn).1] at hp
        rw [(c2 j hjn).2]
        exact ⟨j, hjn, fun t _ h => h, hp, rfl⟩
      · have := c5 (j - hist.length) (by omega) q
        rw [show hist.length + (j - hist.length) = j by omega] at this
        obtain ⟨d1, d2⟩ := this hp (by omega)
        rw [if_neg (by omega)] at d2
        refine ⟨hist.length - 1, by omega, fun t h1 h2 => by omega, ?_, d2.symm⟩
        rw [hM _ (by omega), show hist.length - 1 + 1 = hist.length by omega]
        exact d1
  by_cases h0 : (hist ++ sets).length = 0
  · exact ⟨⟨M', W', c1', by omega, hM', b2 ▸ c4, hO'⟩, hv⟩
  · exact ⟨⟨M', _, c1'.resetRoot (by omega), by intro _; rw [updN_self, setVer_self], hM', (b2 ▸ c4).resetRoot, hO'.resetRoot⟩, hv⟩

/-- A successful commit. -/
theorem OwInv.commit {bar : Nat} (h : OwInv H s hist low bar) {sets : List ValueSet}
    (hle : hist.length + sets.length ≤ preGenesisVersion) {hs : List Digest} {s' : Store}
    (hc : s.commit H sets hist.length = .ok (hs, s')) :
    OwInv H s' (hist ++ sets) low bar := by
  obtain ⟨ver, hready, hw⟩ := h.wrote
  obtain ⟨tc, pss, tc', infos, b0, b1, b2, b3, b4, b5, b6⟩ := putSets_ready (R := s.reader) hready false sets hle
  have hput : putValueSets H s.reader sets hist.length = .ok tc'.finish := by
    unfold putValueSets; rw [b0, ok_bind, b1]; rfl
  unfold Store.commit at hc
  rw [hput, ok_bind] at hc
  obtain ⟨s1, hc1, hc2⟩ := bind_ok_inv hc
  cases hc2
  exact hw sets tc' infos s' b2 b3 b4 hc1

/-- The batch API keeps the invariant as well. -/
theorem OwInv.batch {bar : Nat} (h : OwInv H s hist low bar) {sets : List (List (KeyHash × Value))}
    (hle : hist.length + sets.length ≤ preGenesisVersion) {hs : List Digest} {s' : Store}
    (hc : s.commitBatch H sets none hist.length = .ok (hs, s')) :
    OwInv H s' (hist ++ sets.map someSet) low bar := by
  obtain ⟨ver, hready, hw⟩ := h.wrote
  unfold Store.commitBatch at hc
  obtain ⟨⟨hs1, b1⟩, hb, hc'⟩ := bind_ok_inv hc
  obtain ⟨s1, hc1, hc2⟩ := bind_ok_inv hc'
  cases hc2
  obtain ⟨tc, tc', infos, b0, b1', b2, b3, b4⟩ := batchSets_ready (R := s.reader) hready sets none (batch_nonempty hb)
    (cachesFor_none _ _) hle
  have hput : batchPutValueSets H s.reader sets none hist.length = .ok tc'.finish := by
    unfold batchPutValueSets
    rw [b0, ok_bind]
    show (batchSets H hist.length sets (cachesOf sets none) tc >>= _) = _
    rw [b1']; rfl
  rw [hput] at hb
  cases hb
  exact hw (sets.map someSet) tc' infos s' b2 b3 b4 hc1

end
end Jmt
