import Verif.Spec.Update
import Verif.Proofs.PreGenesis
import Verif.Props.Writes
/-!
# The contents of update batches
-/
namespace Jmt
open Spec (Entry)

section
variable {H : Hasher}

theorem lastWrite_iff {ws : ValueSet} {k : KeyHash} {x : Option Value} : lastWrite ws k = some x ↔
    ∃ pre post, ws = pre ++ (k, x) :: post ∧ ∀ w ∈ post, w.1 ≠ k := by
  constructor
  · intro h
    induction ws with
    | nil => cases h
    | cons w ws ih =>
      rw [lastWrite_cons] at h
      cases hl : lastWrite ws k with
      | some y =>
        rw [hl] at h
        obtain ⟨pre, post, h1, h2⟩ := ih (hl.trans h)
        exact ⟨w :: pre, post, by rw [h1]; rfl, h2⟩
      | none =>
        rw [hl, Option.none_or] at h
        split at h
        · next hk =>
          cases h
          refine ⟨[], ws, by rw [← hk]; rfl, fun w' hw' he => ?_⟩
          have : (lastWrite ws k).isSome := lastWrite_isSome.2 (List.mem_map.2 ⟨w', hw', he⟩)
          rw [hl] at this
          cases this
        · cases h
  · rintro ⟨pre, post, rfl, h⟩
    rw [lastWrite_append, lastWrite_cons, lastWrite_none (ws := post)]
    · simp
    · intro hm
      obtain ⟨w, hw, he⟩ := List.mem_map.1 hm
      exact h w hw he

/-- The trees of all versions of a run, and their new nodes. -/
theorem Run.treesN {infos : List StepInfo} : ∀ {V : Nat} {G : Nodes} {m ver}, Run H V (nb G) m ver infos →
    (∀ q, pres m [] q → Old V (ver q)) → V + infos.length ≤ preGenesisVersion → NodupE m →
    ∀ (j : Nat) (i : StepInfo), infos[j]? = some i → ∃ m', NodupE m' ∧
      m' = ((infos.map StepInfo.ws).take (j + 1)).foldl (updAll H) m ∧
      TreeAt H (nb (foldG G infos)) (V + j) m' i.ver ∧
      i.N.get? ⟨V + j, []⟩ = some (canonNode H m' i.ver []) ∧
      ∀ k nd, i.N.get? k = some nd → k.version = V + j ∧ (k.path = [] ∨ (pres m' [] k.path ∧ i.ver k.path = V + j)) := by
  induction infos with
  | nil => intro V G m ver _ _ _ _ j i hj; simp at hj
  | cons i rest ih =>
    intro V G m ver hr hold hle hm j i' hj
    simp only [List.length_cons] at hle
    cases hr with
    | cons d hr hfr hvo =>
      rw [over_nb] at hr
      have ht := d.treeAt hold
      have hold2 : ∀ q, pres (updAll H m i.ws) [] q → i.ver q < V + 1 ∨ i.ver q = preGenesisVersion := by
        intro q hq
        rcases d.ver_old hold q hq with h | ⟨h1, h2⟩
        · omega
        · rcases h2 with h2 | h2 <;> omega
      cases j with
      | zero =>
        simp only [List.getElem?_cons_zero, Option.some.injEq] at hj
        subst hj
        refine ⟨updAll H m i.ws, hm.updAll i.ws, by simp, ?_, ?_, fun k nd hk => ?_⟩
        · rw [over_nb] at ht
          have hsame : ∀ k : NodeKey, (k.version < V + 1 ∨ k.version = preGenesisVersion) →
              foldG G (i :: rest) k = overG i.N G k := by
            intro k hk
            show foldG (overG i.N G) rest k = _
            rcases hk with hk | hk
            · exact foldG_lt hr k hk
            · exact foldG_ge hr k (by omega)
          constructor
          · show Except.ok _ = _
            rw [hsame _ (.inl (Nat.lt_succ_self V))]
            exact ht.root
          · intro q h1 h2
            show Except.ok _ = _
            rw [hsame _ (hold2 q h2)]
            exact ht.node q h1 h2
        · exact d.rootNode
        · obtain ⟨h1, h2⟩ := d.newKey k nd hk
          refine ⟨h1, ?_⟩
          rcases h2 with ⟨h2, h3, -⟩ | ⟨h2, -⟩
          · exact .inr ⟨h2, h3⟩
          · exact .inl h2
      | succ j =>
        have hlt : j + 1 < rest.length + 1 := (List.getElem?_eq_some_iff.1 hj).1
        obtain ⟨m', a0, a1, a2, a3, a4⟩ := ih hr (fun q hq => ⟨by rcases hold2 q hq with h | h <;> omega, hold2 q hq⟩)
          (by omega) (hm.updAll i.ws) j i' (by simpa using hj)
        refine ⟨m', a0, a1, ?_⟩
        rw [show V + (j + 1) = V + 1 + j by omega]
        exact ⟨a2, a3, a4⟩

theorem statAll_length (infos : List StepInfo) : ∀ B, (statAll H B infos).length = infos.length := by
  induction infos with
  | nil => intro B; rfl
  | cons i rest ih => intro B; simp [statAll, ih]

/-- Both write functions. -/
theorem CommitRes.updateOf {s s' : Store} {hist sets : List ValueSet} {low : Nat} {hs b} {infos : List StepInfo}
    {ver : List Nibble → Version}
    (c : CommitRes H s hist sets low hs b s') (hle : hist.length + sets.length ≤ preGenesisVersion)
    (hinfos : infos.map StepInfo.ws = sets)
    (hready : Ready H (nb s.nodes.get?) hist.length (entriesAfter H hist hist.length) ver)
    (hrun : Run H hist.length (nb s.nodes.get?) (entriesAfter H hist hist.length) ver infos)
    (hnodes : ∀ k, s'.nodes.get? k = foldG s.nodes.get? infos k)
    (hbatch : ∀ k, b.nodeBatch.nodes.get? k = foldG (fun _ => none) infos k)
    (hstale : b.staleNodeIndexBatch = stAll hist.length infos)
    (hstats : b.nodeStats = statAll H (nb s.nodes.get?) infos) :
    Spec.UpdateOf H s s' hist.length sets hs b := by
  have hlen : infos.length = sets.length := by rw [← hinfos]; simp
  have hold : ∀ q, pres (entriesAfter H hist hist.length) [] q → Old hist.length (ver q) := by
    intro q hq
    by_cases h : q = []
    · subst h
      have h0 : hist.length ≠ 0 := by
        intro h0
        rw [(hready.zero h0).1] at hq
        exact not_pres_of_nil hq
      rw [hready.root]; exact ⟨by omega, .inl (by omega)⟩
    · exact hready.old q h hq
  have htrees := hrun.treesN hold (by omega) (entriesAfter_nodup _ _ _)
  have hrd : s'.reader.getNodeOption = nb (foldG s.nodes.get? infos) := by
    funext k
    show Except.ok _ = _
    rw [hnodes]; rfl
  obtain ⟨⟨M, W, hI, -⟩, -⟩ := c.inv
  refine ⟨fun v k x => ?_, fun k nd hk => ?_, fun j hj => ?_, fun x hx => ?_, ?_, c.hash_get.1, ?_⟩
  · rw [c.values]
    constructor
    · intro h
      split at h
      · next hv =>
        cases hg : sets[v - hist.length]? with
        | none => rw [hg] at h; cases h
        | some ws =>
          rw [hg] at h
          obtain ⟨pre, post, h1, h2⟩ := lastWrite_iff.1 h
          exact ⟨v - hist.length, ws, pre, post, by omega, hg, h1, h2⟩
      · cases h
    · rintro ⟨j, ws, pre, post, rfl, hj, h1, h2⟩
      rw [if_pos (by omega), show hist.length + j - hist.length = j by omega, hj]
      exact lastWrite_iff.2 ⟨pre, post, h1, h2⟩
  · obtain ⟨h1, h2⟩ := c.nodeVer k nd hk
    have hk' := hk
    rw [hbatch] at hk'
    rcases mem_foldG hrun hk' with h | ⟨j, i, e1, e2, e3⟩
    · cases h
    · have hj : j < infos.length := (List.getElem?_eq_some_iff.1 e1).1
      obtain ⟨m', t1, -, t3, -, t5⟩ := htrees j i e1
      refine ⟨h1, by omega, h2, ?_⟩
      rw [e2]
      rw [← hrd] at t3
      refine (TreeAt.reach_iff t1 t3 k).2 ?_
      obtain ⟨-, h5⟩ := t5 k nd e3
      by_cases hp : k.path = []
      · left
        obtain ⟨w, q⟩ := k
        dsimp only at hp e2
        rw [hp, e2]
      · rcases h5 with h5 | ⟨h5, h6⟩
        · exact absurd h5 hp
        · exact .inr ⟨hp, h5, h6.trans e2.symm⟩
  · obtain ⟨i, hi⟩ : ∃ i, infos[j]? = some i := ⟨_, List.getElem?_eq_getElem (by omega : j < infos.length)⟩
    obtain ⟨m', t1, t2, t3, t4, -⟩ := htrees j i hi
    refine ⟨canonNode H m' i.ver [], sh H m' [], ?_, ?_, ?_⟩
    · rw [hbatch, foldG_at hrun j i hi _ rfl]
      show (i.N.get? ⟨hist.length + j, []⟩).or _ = _
      rw [t4]; rfl
    · exact canonNode_hash t1
    · rw [c.hash_get.2 j hj]
      congr 1
      rw [t2, hinfos, show hist.length + j + 1 = hist.length + (j + 1) by omega, entriesAfter_append]
  · have hx' : x ∈ s'.stale := by rw [c.stale]; exact List.mem_append_right _ hx
    obtain ⟨h1, h2, ⟨nd, h3⟩, -⟩ := hI.stale x hx'
    rw [hstale] at hx
    obtain ⟨j, i, e1, e2, -⟩ := mem_stAll hx
    have hj : j < infos.length := (List.getElem?_eq_some_iff.1 e1).1
    refine ⟨by omega, by omega, h2, ?_⟩
    rw [c.nodes] at h3
    cases hb : b.nodeBatch.nodes.get? x.nodeKey with
    | some nd' => exact .inr ⟨nd', rfl⟩
    | none => rw [hb, Option.none_or] at h3; exact .inl ⟨nd, h3⟩
  · rw [← c.stale]; exact hI.staleNodup
  · rw [hstats, statAll_length, hlen]

end
end Jmt
