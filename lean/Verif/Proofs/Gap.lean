import Verif.Proofs.Fork
/-!
# Writing at a version whose predecessor is missing
-/
namespace Jmt
open Spec (Entry)

section
variable {H : Hasher} {R : Reader} {V : Nat} {F : Prop}

/-- The cache for version `V` when there is no root of version `V - 1`. -/
theorem gap_start (hV : 0 < V) (hlt : V < preGenesisVersion) (hm : R.getNodeOption ⟨V - 1, []⟩ = .ok none)
    (hfresh : F → ∀ w, V ≤ w → w < preGenesisVersion → R.getNodeOption ⟨w, []⟩ = .ok none) :
    ∃ tc, TreeCache.new R V = .ok tc ∧ StartG F H tc V [] (fun _ => V - 1) := by
  have hbase : TreeCache.base ⟨NodeKey.root (V - 1), V, [], [], 0, [], 0, Frozen.empty, R⟩ = R.getNodeOption := by
    funext k; rfl
  have hold : Old V (V - 1) := ⟨by omega, .inl (by omega)⟩
  refine ⟨⟨NodeKey.root (V - 1), V, [], [], 0, [], 0, Frozen.empty, R⟩, ?_, by simp [NodupE], rfl, hlt, rfl, fun _ _ => hold, ?_, ?_,
    fun _ h => ?_⟩
  · unfold TreeCache.new
    rw [if_neg (by omega)]
  · intro hF w h1 h2; rw [hbase]; exact hfresh hF w h1 h2
  · refine ginv_drained (C := TreeCache.ctx H ⟨NodeKey.root (V - 1), V, [], [], 0, [], 0, Frozen.empty, R⟩ V [] _) rfl rfl rfl rfl rfl
      ?_ (fun h => absurd rfl h) (fun _ => ⟨hold, rfl, .inr ?_⟩)
    · intro q hq; exact absurd hq not_pres_of_nil
    · exact hm
  · have : V - 1 = V := congrArg NodeKey.version h
    omega

/-- `put_value_sets` then takes the tree for an empty one, provided the first set leaves something behind. -/
theorem gap_putSets (hV : 0 < V) (hm : R.getNodeOption ⟨V - 1, []⟩ = .ok none)
    (hfresh : F → ∀ w, V ≤ w → w < preGenesisVersion → R.getNodeOption ⟨w, []⟩ = .ok none)
    {ws : ValueSet} {rest : List ValueSet} (hsafe : F ∨ SafeSets H [] (ws :: rest)) (hL : updAll H [] ws ≠ [])
    (hle : V + (rest.length + 1) ≤ preGenesisVersion) (wp : Bool) :
    ∃ tc pss tc' infos, TreeCache.new R V = .ok tc ∧ putSets H wp V (ws :: rest) tc = .ok (pss, tc') ∧
      infos.map StepInfo.ws = ws :: rest ∧ Run H V R.getNodeOption [] (fun _ => V - 1) infos ∧
      tc'.frozen = pushAll H V R.getNodeOption [] Frozen.empty infos ∧
      (wp = true → ProofSets H [] (ws :: rest) pss) ∧ pss.length = rest.length + 1 := by
  obtain ⟨tc, htc, st⟩ := gap_start (H := H) hV (by omega) hm hfresh
  obtain ⟨ps, tc1, ver1, a1, a2, a3, a4, a5, a6, a7, a8, a9, a10⟩ :=
    putAll_spec (C := tc.ctx H V [] (fun _ => V - 1)) wp ws [] _ tc
      (hsafe.imp (fun h => st.fresh h V (Nat.le_refl _) st.lt) (fun h => ⟨h.1, st.dropped⟩)) st.nodup st.ginv
  obtain ⟨e1, e2, e3⟩ := new_base htc
  have hmoved : tc1.rootNodeKey = ⟨V, []⟩ := by
    obtain ⟨hs, hk, hr⟩ := a2.tree hL
    rcases hr with hr | ⟨hc, -⟩
    · rw [hk, hr]; rfl
    · exfalso
      rcases (hs [] List.prefix_rfl).stored (pres_root.2 hL) with ⟨-, h'⟩ | ⟨-, -, h', -⟩
      · rw [hc] at h'; cases h'
      · exact not_pres_of_nil h'
  obtain ⟨tc2, N, S, ver', sl, c1, c2, c3, c4, c5, c6, c7, c8⟩ := freeze_stepG st (st.nodup.updAll ws) a2 a6 a7 a8 a9
    (a10.imp id And.right) (.inl hmoved)
  rw [a5, st.vals] at c4
  obtain ⟨pss, tc3, infos, b1, b2, b3, b4, b5, b6⟩ := putSets_spec (H := H) wp rest tc2 (V + 1) (updAll H [] ws) ver'
    (F := F) (fun hr => c8 (by have := List.length_pos_iff.2 hr; omega)) (hsafe.imp id And.right) (by omega)
  refine ⟨tc, ps :: pss, tc3, ⟨ws, valAll V [] ws, ver', N, S⟩ :: infos, htc, ?_, by simp [b2], ?_, ?_, ?_, by simp [b6]⟩
  · unfold putSets
    have a1 : putAll H V wp ws tc = .ok (ps, tc1) := a1
    simp only [a1, ok_bind, c1, b1]
  · rw [c5, e1] at b3
    rw [e1] at c2
    exact .cons c2 b3 c7 (valAll_ok V ws)
  · rw [b4, c5, c4, c3, ← e1, ← e2]; rfl
  · intro h; exact .cons (a3 h) (b5 h)

end
end Jmt
