import Verif.Proofs.Crash
import Verif.Proofs.Reach
/-!
# Reading over leftovers, and while other operations run
-/
namespace Jmt
open Spec (Entry)

section
variable {H : Hasher} {ops : List Op} {y : Sys}

/-- A readable version depends only on what the store holds of it and of older versions. -/
theorem Reached.readAt_older (h : Reached H ops y) (hb : (setsOf ops).length < 2 ^ 64) {v : Version} (hv : Readable ops v)
    {R' : Reader} (hn : ∀ k : NodeKey, k.version ≤ v → R'.getNodeOption k = y.store.reader.getNodeOption k)
    (hx : ∀ w k, w ≤ v → R'.getValueOption w k = y.store.reader.getValueOption w k) :
    ReadAt H R' v (mapAt ops v) (entriesAfter H (setsOf ops) (v + 1)) := by
  obtain ⟨-, ⟨M, W, hI, -, hM, hF, -⟩, -, hval⟩ := h.inv hb
  have hle : ∀ q, pres (entriesAfter H (setsOf ops) (v + 1)) [] q → W v q ≤ v := by
    intro q hq
    rw [← hM v hv.2] at hq
    exact hI.wle v hv.2 q hq
  have ht : TreeAt H R'.getNodeOption v (entriesAfter H (setsOf ops) (v + 1)) (W v) := by
    have t : TreeAt H y.store.reader.getNodeOption v (entriesAfter H (setsOf ops) (v + 1)) (W v) := by
      rw [← hM v hv.2]
      exact hI.tree v hv.1 hv.2
    refine ⟨?_, fun q h1 h2 => ?_⟩
    · rw [hn _ (Nat.le_refl _)]; exact t.root
    · rw [hn _ (hle q h2)]; exact t.node q h1 h2
  refine .of (entriesAfter_nodup _ _ _) ⟨W v, ht⟩ (lists_entriesAfter H _ _) (fun k => ?_) ⟨W v, ht, ?_⟩
  · rw [hx _ _ (Nat.le_refl _)]
    show Except.ok _ = _
    rw [hval.get]; rfl
  · intro q e hq hp hu
    rw [hx _ _ (hle q hp)]
    show Except.ok _ = _
    rw [hval.get]
    congr 1
    rw [← hM v hv.2] at hp hu
    have he : e ∈ under q (M v) := by rw [hu]; simp
    refine stateAfter_const (hI.wle v hv.2 q hp) (fun u h1 h2 ws hws hk => ?_)
    exact hF v hv.2 q hq hp u h1 h2 ws hws _ hk e (mem_under.1 he).1 rfl (mem_under.1 he).2

/-- Nothing written in between, nothing changed. -/
theorem stateAfter_between {hist : List ValueSet} {k : KeyHash} {a b : Nat} (hab : a ≤ b)
    (h : ∀ u, a ≤ u → u < b → hist[u]?.bind (fun ws => lastWrite ws k) = none) :
    Spec.stateAfter Spec.Map.empty hist b k = Spec.stateAfter Spec.Map.empty hist a k := by
  induction b with
  | zero => rw [Nat.le_zero.1 hab]
  | succ b ih =>
    by_cases hb : a = b + 1
    · rw [hb]
    · rw [stateAfter_succ, h b (by omega) (by omega)]
      exact ih (by omega) (fun u h1 h2 => h u h1 (by omega))

/-- What the mock store does with a batch is what a backend promises. -/
theorem CommitRes.written {s s' : Store} {hist sets : List ValueSet} {low : Nat} {hs b} (h : SysInv H s hist low)
    (c : CommitRes H s hist sets low hs b s') : Spec.Written b.nodeBatch s'.reader s.reader := by
  have hget : ∀ w k, s'.reader.getValueOption w k = .ok (Spec.stateAfter Spec.Map.empty (hist ++ sets) (w + 1) k) := by
    intro w k
    show Except.ok _ = _
    rw [c.inv.vals.get]
  have hget0 : ∀ w k, s.reader.getValueOption w k = .ok (Spec.stateAfter Spec.Map.empty hist (w + 1) k) := by
    intro w k
    show Except.ok _ = _
    rw [h.vals.get]
  have hat : ∀ u k, hist.length ≤ u →
      (hist ++ sets)[u]?.bind (fun ws => lastWrite ws k) = b.nodeBatch.values.get? (u, k) := by
    intro u k hu
    rw [c.values, if_pos hu, List.getElem?_append_right hu]
  have hnone : ∀ u k x, b.nodeBatch.values.get? (u, k) = some x → hist.length ≤ u := by
    intro u k x hx
    rw [c.values] at hx
    by_cases hu : hist.length ≤ u
    · exact hu
    · rw [if_neg hu] at hx; cases hx
  refine ⟨fun k n hk => ?_, fun k hk => ?_, fun v k w x hx hwv hmax => ?_, fun v k hno => ?_⟩
  · show Except.ok _ = _
    rw [c.nodes, hk]; rfl
  · show Except.ok (s'.nodes.get? k) = .ok (s.nodes.get? k)
    rw [c.nodes, hk]; rfl
  · have hu := hnone w k x hx
    rw [hget, stateAfter_between (a := w + 1) (by omega), stateAfter_succ, hat w k hu, hx]
    intro u h1 h2
    rw [hat u k (by omega)]
    cases hc : b.nodeBatch.values.get? (u, k) with
    | none => rfl
    | some x' => have := hmax u x' hc (by omega); omega
  · rw [hget, hget0]
    have hbelow : ∀ i, i ≤ hist.length → Spec.stateAfter Spec.Map.empty (hist ++ sets) i =
        Spec.stateAfter Spec.Map.empty hist i := by
      intro i hi
      unfold Spec.stateAfter
      rw [List.take_append_of_le_length hi]
    by_cases hv : v + 1 ≤ hist.length
    · rw [hbelow _ hv]
    · rw [stateAfter_between (a := hist.length) (b := v + 1) (by omega), hbelow _ (Nat.le_refl _)]
      · congr 1
        unfold Spec.stateAfter
        rw [List.take_of_length_le (Nat.le_refl _), List.take_of_length_le (by omega)]
      · intro u h1 h2
        rw [hat u k h1]
        cases hc : b.nodeBatch.values.get? (u, k) with
        | none => rfl
        | some x' => have := hno u x' hc; omega

/-- Writing a batch gives the same store whether or not a part of it was there already. -/
theorem written_unique {b : NodeBatch} {R R1 R2 R2' : Reader} (h1 : Spec.PartlyWritten b R1 R)
    (h2 : Spec.Written b R2 R1) (h2' : Spec.Written b R2' R) :
    (∀ k, R2.getNodeOption k = R2'.getNodeOption k) ∧ ∀ v k, R2.getValueOption v k = R2'.getValueOption v k := by
  constructor
  · intro k
    cases hk : b.nodes.get? k with
    | some n => rw [h2.new k n hk, h2'.new k n hk]
    | none =>
      rw [h2.old k hk, h2'.old k hk]
      rcases h1.node k with h | ⟨n, hn, -⟩
      · exact h
      · rw [hk] at hn; cases hn
  · intro v k
    by_cases hw : ∃ w x, b.values.get? (w, k) = some x ∧ w ≤ v
    · -- the latest write not after `v`
      obtain ⟨w, x, hx, hwv, hmax⟩ : ∃ w x, b.values.get? (w, k) = some x ∧ w ≤ v ∧
          ∀ u x', b.values.get? (u, k) = some x' → u ≤ v → u ≤ w := by
        have key : ∀ n : Nat, ∀ w x, b.values.get? (w, k) = some x → w ≤ v → v - w ≤ n →
            ∃ w x, b.values.get? (w, k) = some x ∧ w ≤ v ∧
              ∀ u x', b.values.get? (u, k) = some x' → u ≤ v → u ≤ w := by
          intro n
          induction n with
          | zero =>
            intro w x hx hwv hn
            exact ⟨w, x, hx, hwv, fun u x' _ hu => by omega⟩
          | succ n ih =>
            intro w x hx hwv hn
            by_cases hu : ∃ u x', b.values.get? (u, k) = some x' ∧ u ≤ v ∧ w < u
            · obtain ⟨u, x', h1, h2, h3⟩ := hu
              exact ih u x' h1 h2 (by omega)
            · refine ⟨w, x, hx, hwv, fun u x' h1 h2 => ?_⟩
              apply Classical.byContradiction
              intro hc
              exact hu ⟨u, x', h1, h2, by omega⟩
        obtain ⟨w, x, hx, hwv⟩ := hw
        exact key _ w x hx hwv (Nat.le_refl _)
      rw [h2.newValue v k w x hx hwv hmax, h2'.newValue v k w x hx hwv hmax]
    · have hno : ∀ w x, b.values.get? (w, k) = some x → v < w := by
        intro w x hx
        apply Classical.byContradiction
        intro hc
        exact hw ⟨w, x, hx, by omega⟩
      rw [h2.oldValue v k hno, h2'.oldValue v k hno, h1.value v k hno]

/-- A store in which part of a batch for the next versions was written shows everything older unchanged. -/
theorem CommitRes.leftover {s s' : Store} {hist sets : List ValueSet} {low : Nat} {hs b}
    (c : CommitRes H s hist sets low hs b s') (hlt : hist.length + sets.length ≤ preGenesisVersion) {R1 : Reader}
    (h : Spec.PartlyWritten b.nodeBatch R1 s.reader) : Spec.Leftover hist.length R1 s.reader where
  node k hk := by
    rcases h.node k with h | ⟨n, hn, -⟩
    · exact h
    · have h1 := (c.nodeVer k n hn).1
      have h2 : k.version < hist.length + sets.length := by
        obtain ⟨⟨M, W, hI, -⟩, -⟩ := c.inv
        have := hI.lt k n (by rw [c.nodes, hn]; rfl)
        rwa [List.length_append] at this
      rcases hk with hk | hk <;> omega
  value v k hv := h.value v k (fun w x hx => by
    rw [c.values] at hx
    by_cases hu : hist.length ≤ w
    · omega
    · rw [if_neg hu] at hx; cases hx)

end
end Jmt
