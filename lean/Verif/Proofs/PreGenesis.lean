import Verif.Proofs.Crash
import Verif.Proofs.Continue
import Verif.Spec.PreGenesis
import Verif.Proofs.Stats
/-!
# Building version 0 on a pre-genesis tree
-/
namespace Jmt
open Spec (Entry)

section
variable {H : Hasher} {R : Reader} {m : List Entry}

/-- The cache `TreeCache::new` makes for version 0 over a pre-genesis tree. -/
theorem pre_start (hm : NodupE m) (hne : m ≠ []) (ht : TreeAt H R.getNodeOption preGenesisVersion m (fun _ => preGenesisVersion))
    (hfresh : ∀ w, w < preGenesisVersion → R.getNodeOption ⟨w, []⟩ = .ok none) :
    ∃ tc, TreeCache.new R 0 = .ok tc ∧ StartG True H tc 0 m (fun _ => preGenesisVersion) := by
  have hbase : TreeCache.base ⟨NodeKey.root preGenesisVersion, 0, [], [], 0, [], 0, Frozen.empty, R⟩ = R.getNodeOption := by
    funext k; rfl
  have hold : Old 0 preGenesisVersion := ⟨by decide, .inr rfl⟩
  refine ⟨⟨NodeKey.root preGenesisVersion, 0, [], [], 0, [], 0, Frozen.empty, R⟩, ?_, hm, rfl, by decide, rfl, fun _ _ => hold, ?_, ?_, fun h => absurd h hne⟩
  · unfold TreeCache.new
    have := ht.root
    simp only [↓reduceIte, NodeKey.root, this, ok_bind]
  · intro _ w _ h; rw [hbase]; exact hfresh w h
  · refine ginv_drained (C := TreeCache.ctx H ⟨NodeKey.root preGenesisVersion, 0, [], [], 0, [], 0, Frozen.empty, R⟩ 0 m _) rfl rfl rfl rfl rfl
      ?_ (fun _ => rfl) (fun h => absurd h hne)
    intro q hq
    by_cases h : q = []
    · subst h; exact ht.root
    · exact ht.node q h hq

/-- A write that leaves a trace: some key written is there afterwards, or some key is gone. -/
def Leaves (H : Hasher) (m : List Entry) (ws : ValueSet) : Prop :=
  (∃ k ∈ ws.map Prod.fst, ∃ e ∈ updAll H m ws, e.1 = k) ∨ (∃ e ∈ m, ∀ e' ∈ updAll H m ws, e'.1 ≠ e.1)

/-- The leaf of an entry. -/
theorem leaf_pos (hm : NodupE m) {e : Entry} (he : e ∈ m) : ∃ q, pres m [] q ∧ under q m = [e] := by
  have key : ∀ i, i ≤ 64 → under (e.1.nibbles.take i) m = [e] → ∃ q, pres m [] q ∧ under q m = [e] := by
    intro i
    induction i with
    | zero =>
      intro _ h
      exact ⟨[], pres_self.2 (by rw [List.take_zero] at h; rw [h]; simp), by simpa using h⟩
    | succ i ih =>
      intro hi h
      by_cases h1 : under (e.1.nibbles.take i) m = [e]
      · exact ih (by omega) h1
      · refine ⟨e.1.nibbles.take (i + 1), ⟨List.nil_prefix, by rw [h]; simp, .inr ?_⟩, h⟩
        have hd : (e.1.nibbles.take (i + 1)).dropLast = e.1.nibbles.take i := by
          rw [List.dropLast_eq_take, List.take_take]
          congr 1
          simp only [List.length_take, nibbles_length]
          omega
        rw [hd]
        have hmem : e ∈ under (e.1.nibbles.take i) m := mem_under.2 ⟨he, List.take_prefix _ _⟩
        rcases hl : under (e.1.nibbles.take i) m with _ | ⟨a, _ | ⟨b, l⟩⟩
        · rw [hl] at hmem; cases hmem
        · rw [hl] at hmem h1
          rw [List.mem_singleton.1 hmem] at h1; exact absurd rfl h1
        · simp
  refine key 64 (Nat.le_refl _) ?_
  rw [List.take_of_length_le (by simp)]
  have hmem : e ∈ under e.1.nibbles m := mem_under.2 ⟨he, List.prefix_rfl⟩
  have hall : ∀ a ∈ under e.1.nibbles m, a.1 = e.1 := by
    intro a ha
    exact (nibbles_inj ((mem_under.1 ha).2.eq_of_length (by simp))).symm
  have hnd : NodupE (under e.1.nibbles m) := by
    unfold under ub
    exact hm.filter _
  rcases hl : under e.1.nibbles m with _ | ⟨a, _ | ⟨b, l⟩⟩
  · rw [hl] at hmem; cases hmem
  · rw [hl] at hmem; rw [List.mem_singleton.1 hmem]
  · exfalso
    rw [hl] at hall hnd
    unfold NodupE at hnd
    rw [List.map_cons, List.nodup_cons] at hnd
    exact hnd.1 (by rw [hall a (by simp), ← hall b (by simp)]; simp)

/-- After a write that leaves a trace the root is new. -/
theorem root_moved {C : Ctx} {tc1 : TreeCache} {ver1 : List Nibble → Version} {ws : ValueSet} {ins eff : Prop} {ren : List Nibble → Prop}
    (hm : NodupE C.m0)
    (hwf : C.WF) (hne : C.m0 ≠ []) (hL : Leaves C.H C.m0 ws) (g : GInv C tc1 (updAll C.H C.m0 ws) ver1)
    (hf : Fresh C.V C.m0 C.ver0 (updAll C.H C.m0 ws) ver1 (ws.map Prod.fst) ins eff ren) (hv : ∀ q, C.pres0 q → C.ver0 q ≠ C.V)
    (hB0 : ∀ q, C.pres0 q → C.B ⟨C.ver0 q, q⟩ = .ok (some (canonNode C.H C.m0 C.ver0 q))) :
    tc1.rootNodeKey = ⟨C.V, []⟩ := by
  have hp0 : C.pres0 [] := pres_self.2 (by rw [under_nil_path]; exact hne)
  by_cases hm' : updAll C.H C.m0 ws = []
  · obtain ⟨-, hst, hroot⟩ := g.null hm'
    rcases hroot with h | h | ⟨-, -, -, h, -⟩
    · exact h.1
    · exact h.1
    · have := (hst (C.ver0 [])).2 ⟨hp0, rfl⟩
      rw [h] at this; cases this
  · obtain ⟨hs, hk, hr⟩ := g.tree hm'
    rcases hr with hr | ⟨hc, hst⟩
    · rw [hk, hr]
    · exfalso
      have hpr : pres (updAll C.H C.m0 ws) [] [] := pres_self.2 (by rw [under_nil_path]; exact hm')
      rcases hL with ⟨k, hk1, e, he, hke⟩ | ⟨e, he, hgone⟩
      · rcases hf.new [] hpr with h | ⟨-, -, h⟩
        · rcases (hs [] List.prefix_rfl).stored hpr with ⟨-, h'⟩ | ⟨-, -, h', h''⟩
          · rw [hc] at h'; cases h'
          · exact hv [] h' (by rw [← h'', h])
        · exact h k hk1 ⟨e, he, hke⟩ List.nil_prefix
      · obtain ⟨q, hq, hu⟩ := leaf_pos hm he
        have hP := hs q List.nil_prefix
        have hns := mt (hP.stale (C.ver0 q)).2 (by rw [hst]; simp)
        have hkeep : pres (updAll C.H C.m0 ws) [] q ∧ ver1 q = C.ver0 q ∧ tc1.nodeCache.get? ⟨C.ver0 q, q⟩ = none :=
          Classical.byContradiction fun hcon => hns ⟨hq, rfl, hcon⟩
        rcases hP.stored hkeep.1 with ⟨-, h'⟩ | ⟨-, hB, h', h''⟩
        · rw [hc] at h'; cases h'
        · rw [h'', hB0 q h', canonNode_one hu] at hB
          obtain ⟨e', he', hke⟩ : ∃ e' ∈ updAll C.H C.m0 ws, e'.1 = e.1 := by
            rcases hl : under q (updAll C.H C.m0 ws) with _ | ⟨a, _ | ⟨b, l⟩⟩
            · exact absurd hl hkeep.1.2.1
            · rw [canonNode_one hl] at hB
              have hB : a.1 = e.1 := by
                have := Except.ok.inj hB
                simp only [Option.some.injEq, Node.leaf.injEq, LeafNode.mk.injEq] at this
                exact this.1.symm
              exact ⟨a, (mem_under.1 (by rw [hl]; simp : a ∈ under q _)).1, hB⟩
            · rw [canonNode_two (by rw [hl]; simp)] at hB
              cases hB
          exact hgone e' he' hke

/-- The trees of all versions of a run, in the nodes after it. -/
theorem Run.trees {infos : List StepInfo} : ∀ {V : Nat} {G : Nodes} {m ver}, Run H V (nb G) m ver infos →
    (∀ q, pres m [] q → Old V (ver q)) → V + infos.length ≤ preGenesisVersion → NodupE m →
    ∀ j, j < infos.length → ∃ ver', TreeAt H (nb (foldG G infos)) (V + j) (((infos.map StepInfo.ws).take (j + 1)).foldl (updAll H) m) ver' ∧
      NodupE (((infos.map StepInfo.ws).take (j + 1)).foldl (updAll H) m) := by
  induction infos with
  | nil => intro V G m ver _ _ _ _ j hj; simp at hj
  | cons i rest ih =>
    intro V G m ver hr hold hle hm j hj
    simp only [List.length_cons] at hle hj
    cases hr with
    | cons d hr hfr hvo =>
      rw [over_nb] at hr
      have ht := d.treeAt hold
      have hold2 : ∀ q, pres (updAll H m i.ws) [] q → i.ver q < V + 1 ∨ i.ver q = preGenesisVersion := by
        intro q hq
        rcases d.ver_old hold q hq with h | ⟨h1, h2⟩
        · omega
        · rcases h2 with h2 | h2 <;> omega
      cases j with
      | zero =>
        refine ⟨i.ver, ?_, by simpa using hm.updAll i.ws⟩
        simp only [List.map_cons, List.take_succ_cons, List.take_zero, List.foldl_cons, List.foldl_nil, Nat.add_zero]
        rw [over_nb] at ht
        have hsame : ∀ k : NodeKey, (k.version < V + 1 ∨ k.version = preGenesisVersion) → foldG G (i :: rest) k = overG i.N G k := by
          intro k hk
          show foldG (overG i.N G) rest k = _
          rcases hk with hk | hk
          · exact foldG_lt hr k hk
          · exact foldG_ge hr k (by omega)
        constructor
        · show Except.ok _ = _
          rw [hsame _ (.inl (Nat.lt_succ_self V))]
          exact ht.root
        · intro q h1 h2
          show Except.ok _ = _
          rw [hsame _ (hold2 q h2)]
          exact ht.node q h1 h2
      | succ j =>
        obtain ⟨ver', a1, a2⟩ := ih hr (fun q hq => ⟨by rcases hold2 q hq with h | h <;> omega, hold2 q hq⟩) (by omega) (hm.updAll i.ws) j (by omega)
        refine ⟨ver', ?_, a2⟩
        rw [show V + (j + 1) = V + 1 + j by omega]
        exact a1

/-- `put_value_sets` at version 0 over a pre-genesis tree. -/
theorem pre_putSets (hm : NodupE m) (hne : m ≠ [])
    (ht : TreeAt H R.getNodeOption preGenesisVersion m (fun _ => preGenesisVersion))
    (hfresh : ∀ w, w < preGenesisVersion → R.getNodeOption ⟨w, []⟩ = .ok none)
    {ws : ValueSet} {rest : List ValueSet} (hL : Leaves H m ws) (hle : rest.length + 1 ≤ preGenesisVersion) (wp : Bool) :
    ∃ tc pss tc' infos, TreeCache.new R 0 = .ok tc ∧ putSets H wp 0 (ws :: rest) tc = .ok (pss, tc') ∧
      infos.map StepInfo.ws = ws :: rest ∧ Run H 0 R.getNodeOption m (fun _ => preGenesisVersion) infos ∧
      tc'.frozen = pushAll H 0 R.getNodeOption m Frozen.empty infos ∧
      (wp = true → ProofSets H m (ws :: rest) pss) ∧ pss.length = rest.length + 1 := by
  obtain ⟨tc, htc, st⟩ := pre_start hm hne ht hfresh
  obtain ⟨ps, tc1, ver1, a1, a2, a3, a4, a5, a6, a7, a8, a9, a10⟩ :=
    putAll_spec (C := tc.ctx H 0 m (fun _ => preGenesisVersion)) wp ws m _ tc
      (.inl (st.fresh trivial 0 (Nat.le_refl _) st.lt)) st.nodup st.ginv
  obtain ⟨e1, e2, e3⟩ := new_base htc
  have hmoved := root_moved (C := tc.ctx H 0 m (fun _ => preGenesisVersion)) hm st.wf hne hL a2 a9
    (fun _ _ => by show preGenesisVersion ≠ 0; decide) (by
      intro q hq
      show tc.base _ = _
      rw [e1]
      by_cases h : q = []
      · subst h; exact ht.root
      · exact ht.node q h hq)
  obtain ⟨tc2, N, S, ver', sl, c1, c2, c3, c4, c5, c6, c7, c8⟩ := freeze_stepG st (hm.updAll ws) a2 a6 a7 a8 a9
    (a10.imp id And.right) (.inl hmoved)
  rw [a5, st.vals] at c4
  obtain ⟨pss, tc3, infos, b1, b2, b3, b4, b5, b6⟩ := putSets_spec (H := H) wp rest tc2 (0 + 1) (updAll H m ws) ver'
    (F := True) (fun hr => c8 (by have := List.length_pos_iff.2 hr; omega)) (.inl trivial) (by omega)
  refine ⟨tc, ps :: pss, tc3, ⟨ws, valAll 0 [] ws, ver', N, S⟩ :: infos, htc, ?_, by simp [b2], ?_, ?_, ?_, by simp [b6]⟩
  · unfold putSets
    have a1 : putAll H 0 wp ws tc = .ok (ps, tc1) := a1
    simp only [a1, ok_bind, c1, b1]
  · rw [c5, e1] at b3
    rw [e1] at c2
    exact .cons c2 b3 c7 (valAll_ok 0 ws)
  · rw [b4, c5, c4, c3, ← e1, ← e2]; rfl
  · intro h; exact .cons (a3 h) (b5 h)

/-- `Leaves` from the specification. -/
theorem leaves_of {mp : Spec.Map} (hl : Spec.Lists H mp m) {ws : ValueSet} (h : Spec.TakesEffect mp ws) : Leaves H m ws := by
  have hl' := lists_updAll (H := H) ws hl
  rcases h with ⟨k, h1, h2⟩ | ⟨k, h1, h2⟩
  · obtain ⟨x, hx⟩ := Option.ne_none_iff_exists'.1 h2
    exact .inl ⟨k, h1, _, (hl'.mem k _).2 ⟨x, hx, rfl⟩, rfl⟩
  · obtain ⟨x, hx⟩ := Option.ne_none_iff_exists'.1 h1
    refine .inr ⟨_, (hl.mem k _).2 ⟨x, hx, rfl⟩, fun e' he' hc => ?_⟩
    obtain ⟨x', hx', -⟩ := (hl'.mem e'.1 e'.2).1 he'
    rw [hc, h2] at hx'; cases hx'

theorem lists_foldl (sets : List ValueSet) : ∀ {mp : Spec.Map} {m : List Entry}, Spec.Lists H mp m →
    Spec.Lists H (sets.foldl Spec.Map.writes mp) (sets.foldl (updAll H) m) := by
  induction sets with
  | nil => intro mp m h; exact h
  | cons ws rest ih => intro mp m h; exact ih (lists_updAll ws h)

/-- The last write of a key up to a version. -/
theorem last_set {mp : Spec.Map} {sets : List ValueSet} {k : KeyHash} : ∀ j, (∃ u ws, u ≤ j ∧ sets[u]? = some ws ∧ k ∈ ws.map Prod.fst) →
    ∃ w x, w ≤ j ∧ sets[w]?.bind (fun ws => lastWrite ws k) = some x ∧
      (∀ u x', sets[u]?.bind (fun ws => lastWrite ws k) = some x' → u ≤ j → u ≤ w) ∧ Spec.stateAfter mp sets (j + 1) k = x := by
  intro j
  induction j with
  | zero =>
    rintro ⟨u, ws, h1, h2, h3⟩
    obtain rfl : u = 0 := by omega
    obtain ⟨x, hx⟩ := Option.isSome_iff_exists.1 (lastWrite_isSome.2 h3)
    exact ⟨0, x, Nat.le_refl _, by rw [h2]; exact hx, fun u x' _ h => h, by rw [stateAfter_succ, h2]; simp [hx]⟩
  | succ j ih =>
    rintro ⟨u, ws, h1, h2, h3⟩
    cases hl : sets[j + 1]?.bind (fun ws => lastWrite ws k) with
    | some x => exact ⟨j + 1, x, Nat.le_refl _, hl, fun u x' _ h => h, by rw [stateAfter_succ, hl]⟩
    | none =>
      have hu : u ≠ j + 1 := by
        rintro rfl
        rw [h2] at hl
        have := lastWrite_isSome.2 h3
        simp only [Option.bind_some] at hl
        rw [hl] at this; cases this
      obtain ⟨w, x, g1, g2, g3, g4⟩ := ih ⟨u, ws, by omega, h2, h3⟩
      refine ⟨w, x, by omega, g2, fun u x' h hu => ?_, by rw [stateAfter_succ, hl]; exact g4⟩
      by_cases huj : u = j + 1
      · subst huj; rw [hl] at h; cases h
      · exact g3 u x' h (by omega)

end
end Jmt
