import Verif.Spec.Writers
import Verif.Proofs.Fork
/-!
# Computing an update while the store is pruned
-/
namespace Jmt

section
variable {H : Hasher}

/-- The nodes `s` holds, and the absence of the roots of versions from `V` on; every other lookup fails. -/
def shown (V : Nat) (s : Store) : Reader where
  getNodeOption k := match s.nodes.get? k with
    | some n => .ok (some n)
    | none => if k.path = [] ∧ V ≤ k.version then .ok none else .error (.io "hidden")
  getValueOption _ _ := .error (.io "hidden")
  getRightmostLeaf := .error (.io "hidden")

theorem shown_some {V : Nat} {s : Store} {k : NodeKey} {n : Node} (h : s.nodes.get? k = some n) :
    (shown V s).getNodeOption k = .ok (some n) := by
  unfold shown; dsimp only; rw [h]

theorem shown_root {V w : Nat} {s : Store} (h : s.nodes.get? ⟨w, []⟩ = none) (hw : V ≤ w) :
    (shown V s).getNodeOption ⟨w, []⟩ = .ok none := by
  unfold shown; dsimp only; rw [h]; dsimp only; rw [if_pos ⟨rfl, hw⟩]

theorem shown_faulty {V : Nat} {s : Store} {R : Reader}
    (h1 : ∀ (k : NodeKey) n, s.nodes.get? k = some n → R.getNodeOption k = .ok (some n))
    (h2 : ∀ w, V ≤ w → R.getNodeOption ⟨w, []⟩ = .ok none) :
    Spec.OnlyErrors (shown V s) R where
  node k := by
    cases hk : s.nodes.get? k with
    | some n => rw [shown_some hk, h1 k n hk]; exact .inl rfl
    | none =>
      unfold shown
      dsimp only
      rw [hk]
      dsimp only
      by_cases h : k.path = [] ∧ V ≤ k.version
      · rw [if_pos h]
        obtain ⟨w, q⟩ := k
        obtain ⟨rfl, h⟩ := h
        exact .inl (h2 w h).symm
      · rw [if_neg h]; exact .inr (.inl ⟨_, rfl⟩)
  value _ _ := .inr (.inl ⟨_, rfl⟩)
  rightmost := .inr ⟨_, rfl⟩

theorem SysInv.shown_ready {s : Store} {hist : List ValueSet} {low : Nat} (h : SysInv H s hist low) :
    ∃ ver, Ready H (shown hist.length s).getNodeOption hist.length (entriesAfter H hist hist.length) ver := by
  obtain ⟨ver, hr, -⟩ := h.commitRun (H := H) []
  have hsome : ∀ (k : NodeKey) n, nb s.nodes.get? k = .ok (some n) → (shown hist.length s).getNodeOption k = .ok (some n) :=
    fun k n hk => shown_some (Except.ok.inj hk)
  refine ⟨ver, hr.nodup, fun h0 => ⟨(hr.zero h0).1, ?_⟩, fun h0 => ⟨?_, fun q h1 h2 => ?_⟩, hr.old, hr.root, fun _ w h1 h2 => ?_⟩
  · exact shown_root (Except.ok.inj (hr.zero h0).2) (by omega)
  · exact hsome _ _ (hr.tree h0).root
  · exact hsome _ _ ((hr.tree h0).node q h1 h2)
  · exact shown_root (Except.ok.inj (hr.fresh trivial w h1 h2)) h1

/-- The update of the next versions, over any reader that shows the nodes of the store and no root of a later version. -/
theorem SysInv.shown_put {s : Store} {hist : List ValueSet} {low : Nat} (h : SysInv H s hist low) (sets : List ValueSet)
    (hle : hist.length + sets.length ≤ preGenesisVersion) :
    ∃ r r', ∀ R : Reader, (∀ (k : NodeKey) n, s.nodes.get? k = some n → R.getNodeOption k = .ok (some n)) →
      (∀ w, hist.length ≤ w → R.getNodeOption ⟨w, []⟩ = .ok none) →
      putValueSets H R sets hist.length = .ok r ∧ putValueSetsWithProof H R sets hist.length = .ok r' := by
  obtain ⟨ver, hready⟩ := h.shown_ready (H := H)
  obtain ⟨tc, pss, tc', -, a1, a2, -⟩ := putSets_readyW (R := shown hist.length s) hready false sets (.inl trivial) hle
  obtain ⟨tc2, pss2, tc2', -, a3, a4, -⟩ := putSets_readyW (R := shown hist.length s) hready true sets (.inl trivial) hle
  have hb : putValueSets H (shown hist.length s) sets hist.length = .ok tc'.finish := by
    unfold putValueSets
    rw [a1, ok_bind, a2]; rfl
  have hb2 : putValueSetsWithProof H (shown hist.length s) sets hist.length =
      .ok (tc2'.finish.1.zip pss2, tc2'.finish.2) := by
    unfold putValueSetsWithProof
    rw [a3, ok_bind, a4]; rfl
  refine ⟨tc'.finish, (tc2'.finish.1.zip pss2, tc2'.finish.2), fun R h1 h2 => ?_⟩
  have f := onlyErrors_roots (shown_faulty h1 h2)
  exact ⟨(putValueSets_le f sets _).eq hb, (putValueSetsWithProof_le f sets _).eq hb2⟩

theorem SysInv.shown_batch {s : Store} {hist : List ValueSet} {low : Nat} (h : SysInv H s hist low)
    (sets : List (List (KeyHash × Value))) (hn : ∀ s ∈ sets, s ≠ [])
    (hle : hist.length + sets.length ≤ preGenesisVersion) :
    ∃ r, ∀ R : Reader, (∀ (k : NodeKey) n, s.nodes.get? k = some n → R.getNodeOption k = .ok (some n)) →
      (∀ w, hist.length ≤ w → R.getNodeOption ⟨w, []⟩ = .ok none) →
      batchPutValueSets H R sets none hist.length = .ok r := by
  obtain ⟨ver, hready⟩ := h.shown_ready (H := H)
  obtain ⟨tc, tc', -, a1, a2, -⟩ := batchSets_ready (R := shown hist.length s) hready sets none hn (cachesFor_none _ _) hle
  have hb : batchPutValueSets H (shown hist.length s) sets none hist.length = .ok tc'.finish := by
    unfold batchPutValueSets
    rw [a1, ok_bind]
    show (batchSets H hist.length sets (cachesOf sets none) tc >>= _) = _
    rw [a2]; rfl
  exact ⟨_, fun R h1 h2 => (batchPutValueSets_le (onlyErrors_roots (shown_faulty h1 h2)) sets _ _).eq hb⟩

theorem SysInv.lt {s : Store} {hist : List ValueSet} {low : Nat} (h : SysInv H s hist low) {k : NodeKey} {n : Node}
    (hk : s.nodes.get? k = some n) : k.version < hist.length := by
  obtain ⟨⟨M, W, hI, -⟩, -⟩ := h
  exact hI.lt _ _ hk

theorem setsOf_purges (rs : List Version) : setsOf (rs.map Op.purge) = [] := by
  induction rs with
  | nil => rfl
  | cons r rs ih => exact ih

end
end Jmt
