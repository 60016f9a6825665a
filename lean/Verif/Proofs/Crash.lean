import Verif.Spec.Crash
import Verif.Proofs.FaultsPut
import Verif.Proofs.OverwriteStep
/-!
# Writing over the leftovers of an interrupted write
-/
namespace Jmt
open Spec (Entry Leftover NoLeftoverRoot NeverDeletesFromEmpty)

section
variable {H : Hasher} {F : Prop}

/-- A version that no leftover can have. -/
def Settled (V w : Nat) : Prop := w < V ∨ w = preGenesisVersion

instance (V w : Nat) : Decidable (Settled V w) := inferInstanceAs (Decidable (_ ∨ _))

/-- Only what is settled decides whether a cache can be built. -/
theorem ReadyW.transfer {B B' : NodeBase} {V : Nat} {m ver} (hr : ReadyW True H B V m ver)
    (h : ∀ k : NodeKey, Settled V k.version → B' k = B k) :
    ReadyW (∀ w, V ≤ w → w < preGenesisVersion → B' ⟨w, []⟩ = .ok none) H B' V m ver := by
  refine ⟨hr.nodup, fun h0 => ⟨(hr.zero h0).1, ?_⟩, fun h0 => ⟨?_, fun q hq hp => ?_⟩, hr.old, hr.root, fun h => h⟩
  · rw [h _ (.inr rfl)]; exact (hr.zero h0).2
  · rw [h _ (.inl (by show V - 1 < V; omega))]; exact (hr.tree h0).root
  · rw [h ⟨ver q, q⟩ (hr.old q hq hp).2]
    exact (hr.tree h0).node q hq hp

/-- `R` with everything unsettled hidden: a root that is not there is reported missing when `roots` is set, every other
lookup fails. -/
def blind (roots : Bool) (V : Nat) (R : Reader) : Reader where
  getNodeOption k := if Settled V k.version then R.getNodeOption k
    else if roots = true ∧ k.path = [] ∧ k.version < preGenesisVersion then .ok none else .error (.io "hidden")
  getValueOption _ _ := .error (.io "hidden")
  getRightmostLeaf := .error (.io "hidden")

theorem blind_faulty {roots : Bool} {V : Nat} {R R' : Reader}
    (h : ∀ k : NodeKey, Settled V k.version → R'.getNodeOption k = R.getNodeOption k)
    (hroot : roots = true → NoLeftoverRoot V R') :
    Spec.OnlyErrors (blind roots V R) R' where
  node k := by
    unfold blind
    dsimp only
    by_cases h1 : Settled V k.version
    · rw [if_pos h1, h k h1]; exact .inl rfl
    · rw [if_neg h1]
      by_cases h2 : roots = true ∧ k.path = [] ∧ k.version < preGenesisVersion
      · rw [if_pos h2]
        obtain ⟨w, q⟩ := k
        obtain ⟨h2, rfl, h3⟩ := h2
        exact .inl (hroot h2 w (by unfold Settled at h1; dsimp only at h1; omega) h3).symm
      · rw [if_neg h2]; exact .inr (.inl ⟨_, rfl⟩)
  value _ _ := .inr (.inl ⟨_, rfl⟩)
  rightmost := .inr ⟨_, rfl⟩

theorem onlyErrors_roots {R' R : Reader} (h : Spec.OnlyErrors R' R) : Spec.RootsNotLost R' R where
  node k := (h.node k).imp id (Or.imp id (fun h => h.1.elim))
  value v k := (h.value v k).imp id (Or.imp id (fun h => h.1.elim))
  rightmost := h.rightmost

theorem safeDel_of' {vs : ValueSet} {m : List Entry} {mp : Spec.Map} (hl : Spec.Lists H mp m)
    (hs : ∀ pre k post, vs = pre ++ (k, none) :: post → ∃ k' x, (mp.writes pre) k' = some x) : SafeDel H m vs := by
  induction vs generalizing m mp with
  | nil => trivial
  | cons w ws ih =>
    refine ⟨fun hm hw => ?_, ih (lists_upd hl w.1 w.2) (fun pre k post he => ?_)⟩
    · obtain ⟨k, x⟩ := w
      dsimp only at hw
      subst hw
      obtain ⟨k', x, hx⟩ := hs [] k ws rfl
      have := (hl.mem k' (H.hash x)).2 ⟨x, hx, rfl⟩
      rw [hm] at this; cases this
    · exact hs (w :: pre) k post (by rw [he]; rfl)

theorem safeSets_of {sets : List ValueSet} : ∀ {m : List Entry} {mp : Spec.Map}, Spec.Lists H mp m →
    NeverDeletesFromEmpty mp sets → SafeSets H m sets := by
  induction sets with
  | nil => intro _ _ _ _; trivial
  | cons ws rest ih =>
    intro m mp hl hs
    refine ⟨safeDel_of' hl (fun pre k post he => hs 0 ws pre k post rfl he), ih (lists_updAll ws hl) ?_⟩
    intro i ws' pre k post h1 h2
    exact hs (i + 1) ws' pre k post h1 h2

/-- The blinded store is enough to build the next versions. -/
theorem SysInv.blind_ready {s : Store} {hist : List ValueSet} {low : Nat} (h : SysInv H s hist low) (roots : Bool) :
    ∃ ver, ReadyW (roots = true) H (blind roots hist.length s.reader).getNodeOption hist.length
      (entriesAfter H hist hist.length) ver := by
  obtain ⟨ver, hready, -⟩ := h.commitRun (H := H) []
  have h1 := hready.transfer (B' := (blind roots hist.length s.reader).getNodeOption) (by
    intro k hk
    unfold blind
    dsimp only
    rw [if_pos hk]; rfl)
  refine ⟨ver, h1.nodup, h1.zero, h1.tree, h1.old, h1.root, fun hr w h2 h3 => ?_⟩
  unfold blind
  dsimp only
  rw [if_neg (by unfold Settled; omega), if_pos ⟨hr, rfl, h3⟩]

theorem SysInv.no_root {s : Store} {hist : List ValueSet} {low : Nat} (h : SysInv H s hist low) :
    NoLeftoverRoot hist.length s.reader := by
  obtain ⟨⟨M, W, hI, -⟩, -⟩ := h
  intro w h1 _
  show Except.ok (s.nodes.get? _) = _
  cases hg : s.nodes.get? (NodeKey.root w) with
  | none => rfl
  | some nd => have := hI.lt _ _ hg; dsimp only [NodeKey.root] at this; omega

/-- `put_value_sets`, with or without proofs, over leftovers. -/
theorem SysInv.leftover_put {s : Store} {hist : List ValueSet} {low : Nat} (h : SysInv H s hist low) {R' : Reader}
    (hl : Leftover hist.length R' s.reader) (sets : List ValueSet)
    (hsafe : NoLeftoverRoot hist.length R' ∨ NeverDeletesFromEmpty (latestMap hist) sets)
    (hle : hist.length + sets.length ≤ preGenesisVersion) :
    (∃ r, putValueSets H R' sets hist.length = .ok r ∧ putValueSets H s.reader sets hist.length = .ok r) ∧
    (∃ r, putValueSetsWithProof H R' sets hist.length = .ok r ∧
      putValueSetsWithProof H s.reader sets hist.length = .ok r) := by
  have main : ∀ roots : Bool, (roots = true → NoLeftoverRoot hist.length R') →
      (roots = true ∨ SafeSets H (entriesAfter H hist hist.length) sets) →
      (∃ r, putValueSets H R' sets hist.length = .ok r ∧ putValueSets H s.reader sets hist.length = .ok r) ∧
      (∃ r, putValueSetsWithProof H R' sets hist.length = .ok r ∧
        putValueSetsWithProof H s.reader sets hist.length = .ok r) := by
    intro roots hroots hs
    obtain ⟨ver, hready⟩ := h.blind_ready (H := H) roots
    have f1 := onlyErrors_roots (blind_faulty (roots := roots) hl.node hroots)
    have f2 := onlyErrors_roots (blind_faulty (roots := roots) (V := hist.length) (R := s.reader) (R' := s.reader)
      (fun _ _ => rfl) (fun _ => h.no_root))
    constructor
    · obtain ⟨tc, pss, tc', -, a1, a2, -⟩ := putSets_readyW (R := blind roots hist.length s.reader) hready false sets hs hle
      have hb : putValueSets H (blind roots hist.length s.reader) sets hist.length = .ok tc'.finish := by
        unfold putValueSets
        rw [a1, ok_bind, a2]; rfl
      exact ⟨_, (putValueSets_le f1 sets _).eq hb, (putValueSets_le f2 sets _).eq hb⟩
    · obtain ⟨tc, pss, tc', -, a1, a2, -⟩ := putSets_readyW (R := blind roots hist.length s.reader) hready true sets hs hle
      have hb : putValueSetsWithProof H (blind roots hist.length s.reader) sets hist.length =
          .ok (tc'.finish.1.zip pss, tc'.finish.2) := by
        unfold putValueSetsWithProof
        rw [a1, ok_bind, a2]; rfl
      exact ⟨_, (putValueSetsWithProof_le f1 sets _).eq hb, (putValueSetsWithProof_le f2 sets _).eq hb⟩
  rcases hsafe with hs | hs
  · exact main true (fun _ => hs) (.inl rfl)
  · exact main false (fun h => by cases h) (.inr (safeSets_of (lists_entriesAfter H hist _) hs))

/-- `batch_put_value_sets` over leftovers: no restriction, as it cannot delete. -/
theorem SysInv.leftover_batch {s : Store} {hist : List ValueSet} {low : Nat} (h : SysInv H s hist low) {R' : Reader}
    (hl : Leftover hist.length R' s.reader) (sets : List (List (KeyHash × Value))) (nodeHashes)
    (hn : ∀ s ∈ sets, s ≠ [])
    (hc : CachesFor H (entriesAfter H hist hist.length) sets (cachesOf sets nodeHashes))
    (hle : hist.length + sets.length ≤ preGenesisVersion) :
    ∃ r, batchPutValueSets H R' sets nodeHashes hist.length = .ok r ∧
      batchPutValueSets H s.reader sets nodeHashes hist.length = .ok r := by
  obtain ⟨ver, hready⟩ := h.blind_ready (H := H) false
  have f1 := onlyErrors_roots (blind_faulty (roots := false) hl.node (fun h => by cases h))
  have f2 := onlyErrors_roots (blind_faulty (roots := false) (V := hist.length) (R := s.reader) (R' := s.reader)
    (fun _ _ => rfl) (fun _ => h.no_root))
  obtain ⟨tc, tc', -, a1, a2, -⟩ := batchSets_ready (R := blind false hist.length s.reader) hready sets nodeHashes hn hc hle
  have hb : batchPutValueSets H (blind false hist.length s.reader) sets nodeHashes hist.length = .ok tc'.finish := by
    unfold batchPutValueSets
    rw [a1, ok_bind]
    show (batchSets H hist.length sets (cachesOf sets nodeHashes) tc >>= _) = _
    rw [a2]; rfl
  exact ⟨_, (batchPutValueSets_le f1 sets _ _).eq hb, (batchPutValueSets_le f2 sets _ _).eq hb⟩

end
end Jmt
