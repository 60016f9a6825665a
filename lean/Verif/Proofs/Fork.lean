import Verif.Proofs.Crash
import Verif.Props.Crash
import Verif.Props.Update
import Verif.Proofs.PreGenesis
/-!
# Building on a version that is not the last one
-/
namespace Jmt
open Spec (Entry Lists)

section
variable {H : Hasher}

/-- The nodes `s` holds of versions below `V`; every other lookup fails. -/
def pastOf (V : Nat) (s : Store) : Reader where
  getNodeOption k := if k.version < V then (match s.nodes.get? k with | some n => .ok (some n) | none => .error (.io "hidden"))
    else .error (.io "hidden")
  getValueOption _ _ := .error (.io "hidden")
  getRightmostLeaf := .error (.io "hidden")

theorem pastOf_get {V : Nat} {s : Store} {k : NodeKey} {n : Node} (hk : k.version < V) (h : s.nodes.get? k = some n) :
    (pastOf V s).getNodeOption k = .ok (some n) := by
  unfold pastOf
  dsimp only
  rw [if_pos hk, h]

/-- Everything shown is also shown by any store that has kept these nodes. -/
theorem pastOf_faulty {V : Nat} {s : Store} {R : Reader}
    (h : ∀ (k : NodeKey) n, k.version < V → s.nodes.get? k = some n → R.getNodeOption k = .ok (some n)) :
    Spec.OnlyErrors (pastOf V s) R where
  node k := by
    unfold pastOf
    dsimp only
    by_cases h1 : k.version < V
    · rw [if_pos h1]
      cases h2 : s.nodes.get? k with
      | none => exact .inr (.inl ⟨_, rfl⟩)
      | some n => exact .inl (h k n h1 h2).symm
    · rw [if_neg h1]; exact .inr (.inl ⟨_, rfl⟩)
  value _ _ := .inr (.inl ⟨_, rfl⟩)
  rightmost := .inr ⟨_, rfl⟩

/-- The nodes of versions up to `v` are enough to build the next version on version `v`. -/
theorem SysInv.past_ready {s : Store} {hist : List ValueSet} {low v : Nat} (h : SysInv H s hist low) (h1 : low ≤ v)
    (h2 : v < hist.length) :
    ∃ ver, ReadyW False H (pastOf (v + 1) s).getNodeOption (v + 1) (entriesAfter H hist (v + 1)) ver := by
  obtain ⟨⟨M, W, hI, -, hM, -⟩, -⟩ := h
  have hnd := hI.nodup v h2
  have ht := hI.tree v h1 h2
  have hw := hI.wle v h2
  rw [hM v h2] at hnd ht hw
  have hsome : ∀ (k : NodeKey) n, nb s.nodes.get? k = .ok (some n) → s.nodes.get? k = some n := fun _ _ h => Except.ok.inj h
  have hcanon : ∀ q, canonNode H (entriesAfter H hist (v + 1)) (setVer (W v) [] v) q =
      canonNode H (entriesAfter H hist (v + 1)) (W v) q := fun q =>
    canonNode_congr (List.Perm.refl _) (fun _ i _ => setVer_ne (by simp))
  refine ⟨setVer (W v) [] v, hnd, fun h0 => by omega, fun _ => ⟨?_, fun q h3 h4 => ?_⟩, fun q h3 h4 => ?_, ?_, fun h => h.elim⟩
  · rw [hcanon]
    exact pastOf_get (by show v < v + 1; omega) (hsome _ _ ht.root)
  · rw [hcanon, setVer_ne h3]
    have := hw q h4
    exact pastOf_get (by show W v q < v + 1; omega) (hsome _ _ (ht.node q h3 h4))
  · rw [setVer_ne h3]
    have := hw q h4
    exact ⟨by omega, .inl (by omega)⟩
  · rw [setVer_self]; rfl

theorem foldG_isSome {infos : List StepInfo} : ∀ {G : Nodes} {k : NodeKey}, (G k).isSome → (foldG G infos k).isSome := by
  induction infos with
  | nil => intro G k h; exact h
  | cons i rest ih =>
    intro G k h
    refine ih (G := overG i.N G) ?_
    unfold overG
    cases i.N.get? k with
    | none => exact h
    | some n => rfl

/-- Every version built has a root. -/
theorem Run.root_isSome {infos : List StepInfo} : ∀ {V : Nat} {B m ver} {G : Nodes}, Run H V B m ver infos →
    ∀ j, j < infos.length → (foldG G infos ⟨V + j, []⟩).isSome := by
  induction infos with
  | nil => intro V B m ver G _ j hj; simp at hj
  | cons i rest ih =>
    intro V B m ver G hr j hj
    cases hr with
    | cons d hr _ _ =>
      cases j with
      | zero =>
        refine foldG_isSome (G := overG i.N G) ?_
        unfold overG
        rw [show i.N.get? ⟨V + 0, []⟩ = _ from d.rootNode]
        rfl
      | succ j =>
        have := ih (G := overG i.N G) hr j (by simpa using hj)
        rw [show V + 1 + j = V + (j + 1) by omega] at this
        exact this

theorem Run.batch_root {infos : List StepInfo} {V : Nat} {B m ver} (hr : Run H V B m ver infos) (j : Nat) (hj : j < infos.length) :
    ∃ n, (pushAll H V B m Frozen.empty infos).nodeBatch.nodes.get? ⟨V + j, []⟩ = some n := by
  have h1 := congrFun ((pushAll_nodes (H := H) (V := V) (B := B) (m := m) (f := Frozen.empty) hr.nodup).1 (fun _ => none)) ⟨V + j, []⟩
  have h2 := hr.root_isSome (G := overG Frozen.empty.nodeBatch.nodes (fun _ => none)) j hj
  rw [← h1] at h2
  unfold overG at h2
  cases hg : (pushAll H V B m Frozen.empty infos).nodeBatch.nodes.get? ⟨V + j, []⟩ with
  | none => rw [hg] at h2; cases h2
  | some n => exact ⟨n, rfl⟩

/-- What building on version `v` returns, over any reader that shows the nodes up to `v`. -/
structure ForkRes (H : Hasher) (m : List Entry) (sets : List ValueSet) (res : List (Digest × List SMProof)) : Prop where
  len : res.length = sets.length
  get : ∀ (j : Nat) vs root ps, sets[j]? = some vs → res[j]? = some (root, ps) →
    root = sh H ((sets.take (j + 1)).foldl (updAll H) m) [] ∧ ProofsFor H ((sets.take j).foldl (updAll H) m) vs ps

theorem SysInv.past_put {s : Store} {hist : List ValueSet} {low v : Nat} (h : SysInv H s hist low) (h1 : low ≤ v)
    (h2 : v < hist.length) (sets : List ValueSet) (hsafe : Spec.NeverDeletesFromEmpty (Spec.stateAfter .empty hist (v + 1)) sets)
    (hle : v + 1 + sets.length ≤ preGenesisVersion) :
    ∃ res b, ForkRes H (entriesAfter H hist (v + 1)) sets res ∧
      (∀ j, j < sets.length → ∃ n, b.nodeBatch.nodes.get? ⟨v + 1 + j, []⟩ = some n) ∧
      ∀ R : Reader, (∀ (k : NodeKey) n, k.version < v + 1 → s.nodes.get? k = some n → R.getNodeOption k = .ok (some n)) →
        putValueSetsWithProof H R sets (v + 1) = .ok (res, b) ∧
        putValueSets H R sets (v + 1) = .ok (res.map Prod.fst, b) := by
  obtain ⟨ver, hready⟩ := h.past_ready (H := H) h1 h2
  have hs : SafeSets H (entriesAfter H hist (v + 1)) sets := safeSets_of (lists_entriesAfter H hist _) hsafe
  obtain ⟨tc, pss, tc', infos, a0, a1, a2, a3, a4, a5, a6⟩ :=
    putSets_readyW (R := pastOf (v + 1) s) hready true sets (.inr hs) hle
  obtain ⟨pss', a1'⟩ := putSets_sim sets (v + 1) a1
  have hlen : infos.length = sets.length := by rw [← a2]; simp
  have hroots : tc'.finish.1 = hashAll H (entriesAfter H hist (v + 1)) infos := by
    show tc'.frozen.rootHashes = _
    rw [a4, pushAll_hashes]; rfl
  have hrl : tc'.finish.1.length = sets.length := by rw [hroots, hashAll_eq]; simp [hlen]
  have hb1 : putValueSetsWithProof H (pastOf (v + 1) s) sets (v + 1) = .ok (tc'.finish.1.zip pss, tc'.finish.2) := by
    unfold putValueSetsWithProof
    rw [a0, ok_bind, a1]; rfl
  have hb2 : putValueSets H (pastOf (v + 1) s) sets (v + 1) = .ok ((tc'.finish.1.zip pss).map Prod.fst, tc'.finish.2) := by
    unfold putValueSets
    rw [List.map_fst_zip (by omega), a0, ok_bind, a1']; rfl
  refine ⟨tc'.finish.1.zip pss, tc'.finish.2, ⟨by rw [List.length_zip, hrl, a6, Nat.min_self], fun j vs root ps hv hres => ?_⟩, fun j hj => ?_, fun R hR => ?_⟩
  · obtain ⟨g1, g2⟩ := List.getElem?_zip_eq_some.1 hres
    have hj : j < sets.length := (List.getElem?_eq_some_iff.1 hv).1
    refine ⟨?_, (ProofSets.get (a5 rfl)).2 j vs ps hv g2⟩
    rw [hroots, hashAll_eq, List.getElem?_map, List.getElem?_range (by omega), a2] at g1
    exact (Option.some.inj g1).symm
  · show ∃ n, tc'.frozen.nodeBatch.nodes.get? _ = _
    rw [a4]
    exact a3.batch_root j (by omega)
  · have f := onlyErrors_roots (pastOf_faulty hR)
    exact ⟨(putValueSetsWithProof_le f sets _).eq hb1, (putValueSets_le f sets _).eq hb2⟩

theorem SysInv.past_batch {s : Store} {hist : List ValueSet} {low v : Nat} (h : SysInv H s hist low) (h1 : low ≤ v)
    (h2 : v < hist.length) (sets : List (List (KeyHash × Value))) (hn : ∀ s ∈ sets, s ≠ [])
    (hle : v + 1 + sets.length ≤ preGenesisVersion) :
    ∃ hs b, (hs.length = sets.length ∧ ∀ j, j < sets.length →
        hs[j]? = some (sh H (((sets.map someSet).take (j + 1)).foldl (updAll H) (entriesAfter H hist (v + 1))) [])) ∧
      (∀ j, j < sets.length → ∃ n, b.nodeBatch.nodes.get? ⟨v + 1 + j, []⟩ = some n) ∧
      ∀ R : Reader, (∀ (k : NodeKey) n, k.version < v + 1 → s.nodes.get? k = some n → R.getNodeOption k = .ok (some n)) →
        batchPutValueSets H R sets none (v + 1) = .ok (hs, b) := by
  obtain ⟨ver, hready⟩ := h.past_ready (H := H) h1 h2
  obtain ⟨tc, tc', infos, a0, a1, a2, a3, a4⟩ :=
    batchSets_ready (R := pastOf (v + 1) s) hready sets none hn (cachesFor_none _ _) hle
  have hlen : infos.length = sets.length := by rw [← List.length_map (f := StepInfo.ws), a2]; simp
  have hroots : tc'.finish.1 = hashAll H (entriesAfter H hist (v + 1)) infos := by
    show tc'.frozen.rootHashes = _
    rw [a4, pushAll_hashes]; rfl
  have hb : batchPutValueSets H (pastOf (v + 1) s) sets none (v + 1) = .ok tc'.finish := by
    unfold batchPutValueSets
    rw [a0, ok_bind]
    show (batchSets H (v + 1) sets (cachesOf sets none) tc >>= _) = _
    rw [a1]; rfl
  refine ⟨tc'.finish.1, tc'.finish.2, ⟨?_, fun j hj => ?_⟩, fun j hj => ?_, fun R hR => (batchPutValueSets_le (onlyErrors_roots (pastOf_faulty hR)) sets _ _).eq hb⟩
  · rw [hroots, hashAll_eq]; simp [hlen]
  · rw [hroots, hashAll_eq, List.getElem?_map, List.getElem?_range (by omega), a2]; rfl
  · show ∃ n, tc'.frozen.nodeBatch.nodes.get? _ = _
    rw [a4]
    exact a3.batch_root j (by omega)

end
end Jmt
