import Verif.Proofs.Layout
import Verif.Props.Stale
import Verif.Props.Sample
/-!
# C59: what is stored
-/
namespace Jmt
open Spec (IsNode LastRenewed RenewedAt NodeAt)

variable {H : Hasher} {ops ops' : List Op} {y y' : Sys}

/-- The invariant in terms of the specification. -/
theorem Reached.layout (hr : Reached H ops y) (hb : (setsOf ops).length < 2 ^ 64) :
    ∃ M W, HistInv H y.store.nodes.get? y.store.stale (setsOf ops).length (horizon ops).2 M W ∧
      (∀ v, v < (setsOf ops).length → ∀ q, (pres (M v) [] q ↔ IsNode (mapAt ops v) q)) ∧
      (∀ v, v < (setsOf ops).length → ∀ q, q ≠ [] → pres (M v) [] q → ∀ w, (W v q = w ↔ LastRenewed (setsOf ops) v q w)) ∧
      (∀ v, v < (setsOf ops).length → ∀ q, q ≠ [] → pres (M v) [] q →
        (RenewedAt (setsOf ops) v q → W v q = v) ∧
        (¬ RenewedAt (setsOf ops) v q → 0 < v ∧ W v q = W (v - 1) q ∧ pres (M (v - 1)) [] q)) ∧
      ∀ v, v < (setsOf ops).length → ∀ q,
        NodeAt H (mapAt ops v) (LastRenewed (setsOf ops) v) q (canonNode H (M v) (W v) q) := by
  obtain ⟨-, ⟨M, W, hI, -, hM, -, hE⟩, -, -⟩ := hr.inv hb
  have hl : ∀ v, v < (setsOf ops).length → Spec.Lists H (mapAt ops v) (M v) := by
    intro v hv
    rw [hM v hv]; exact lists_entriesAfter H _ _
  refine ⟨M, W, hI, fun v hv q => pres_iff (hl v hv) q, ?_, fun v hv q hq hp => hE.last hM v hv q hq hp, ?_⟩
  · intro v hv q hq hp w
    have h1 := hE.lastRenewed hM hq v hv hp
    exact ⟨fun h => h ▸ h1, fun h => lastRenewed_unique h1 h⟩
  · intro v hv q
    exact canonNode_nodeAt (hl v hv) fun i hp => hE.lastRenewed hM (by simp) v hv hp

/-- C59: below the roots, the store holds a node under a key exactly when the tree of a retained version has a node at the
path and the version in the key is the last that renewed it; and the node is then what the maps and the value sets say. -/
theorem C59_stored_nodes_exactly (hr : Reached H ops y) (hb : (setsOf ops).length < 2 ^ 64) {w : Version} {q : List Nibble}
    (hq : q ≠ []) (n : Node) :
    y.store.nodes.get? ⟨w, q⟩ = some n ↔ ∃ v, Readable ops v ∧ IsNode (mapAt ops v) q ∧ LastRenewed (setsOf ops) v q w ∧
      NodeAt H (mapAt ops v) (LastRenewed (setsOf ops) v) q n := by
  obtain ⟨M, W, hI, hp, hw, -, hn⟩ := hr.layout hb
  have get : ∀ v, Readable ops v → pres (M v) [] q → y.store.nodes.get? ⟨W v q, q⟩ = some (canonNode H (M v) (W v) q) := by
    intro v hv h
    have := (hI.tree v hv.1 hv.2).node q hq h
    unfold nb at this
    exact Except.ok.inj this
  constructor
  · intro h
    obtain ⟨j, h1, h2, h3, h4⟩ := hI.keep _ n h hq
    simp only at h3 h4
    have hg := get j ⟨h1, h2⟩ h3
    rw [h4, h] at hg
    cases hg
    exact ⟨j, ⟨h1, h2⟩, (hp j h2 q).1 h3, (hw j h2 q hq h3 w).1 h4, hn j h2 q⟩
  · rintro ⟨v, hv, h1, h2, h3⟩
    have h4 := (hp v hv.2 q).2 h1
    have hg := get v hv h4
    rw [(hw v hv.2 q hq h4 w).2 h2] at hg
    rw [hg, nodeAt_unique (ver := LastRenewed (setsOf ops) v) (fun _ _ _ => lastRenewed_unique) h3 (hn v hv.2 q)]

/-- C59: the root of every retained version is stored under that version, and is what the maps and the value sets say. -/
theorem C59_stored_roots (hr : Reached H ops y) (hb : (setsOf ops).length < 2 ^ 64) {v : Version} (hv : Readable ops v) (n : Node) :
    y.store.nodes.get? ⟨v, []⟩ = some n ↔ NodeAt H (mapAt ops v) (LastRenewed (setsOf ops) v) [] n := by
  obtain ⟨M, W, hI, hp, hw, -, hn⟩ := hr.layout hb
  have hg : y.store.nodes.get? ⟨v, []⟩ = some (canonNode H (M v) (W v) []) := by
    have := (hI.tree v hv.1 hv.2).root
    unfold nb at this
    exact Except.ok.inj this
  rw [hg]
  constructor
  · intro h; cases h; exact hn v hv.2 []
  · intro h; rw [nodeAt_unique (ver := LastRenewed (setsOf ops) v) (fun _ _ _ => lastRenewed_unique) h (hn v hv.2 [])]

/-- C59: below the roots, the stale index has an entry exactly for each node that a version after the horizon renewed or
removed, naming that version and the version of the node it replaced. -/
theorem C59_stale_entries_exactly (hr : Reached H ops y) (hb : (setsOf ops).length < 2 ^ 64) {t w : Version} {q : List Nibble}
    (hq : q ≠ []) :
    (⟨t, ⟨w, q⟩⟩ : StaleNodeIndex) ∈ y.store.stale ↔ (horizon ops).2 < t ∧ t < (setsOf ops).length ∧
      IsNode (mapAt ops (t - 1)) q ∧ LastRenewed (setsOf ops) (t - 1) q w ∧
      (RenewedAt (setsOf ops) t q ∨ ¬ IsNode (mapAt ops t) q) := by
  obtain ⟨M, W, hI, hp, hw, hs, -⟩ := hr.layout hb
  have main : (horizon ops).2 < t → t < (setsOf ops).length → ((⟨t, ⟨w, q⟩⟩ : StaleNodeIndex) ∈ y.store.stale ↔
      IsNode (mapAt ops (t - 1)) q ∧ LastRenewed (setsOf ops) (t - 1) q w ∧
      (RenewedAt (setsOf ops) t q ∨ ¬ IsNode (mapAt ops t) q)) := by
    intro h1 h2
    rw [hI.exact t w q hq h1 h2, ← hp (t - 1) (by omega), ← hp t h2]
    constructor
    · rintro ⟨a, b, c⟩
      refine ⟨a, (hw _ (by omega) q hq a w).1 b, ?_⟩
      by_cases hpt : pres (M t) [] q
      · left
        apply Classical.byContradiction
        intro hn
        exact c ⟨hpt, by rw [((hs t h2 q hq hpt).2 hn).2.1]; exact b⟩
      · exact .inr hpt
    · rintro ⟨a, b, c⟩
      have hb' := (hw _ (by omega) q hq a w).2 b
      refine ⟨a, hb', ?_⟩
      rintro ⟨d, e⟩
      rcases c with c | c
      · have := (hs t h2 q hq d).1 c
        have hle := hI.wle (t - 1) (by omega) q a
        omega
      · exact c d
  constructor
  · intro h
    obtain ⟨h1, h2, ⟨nd, h3⟩, h4⟩ := hI.stale _ h
    have hlt : (horizon ops).2 < t := by
      apply Classical.byContradiction
      intro hc
      obtain ⟨j, g1, g2, g3, g4⟩ := hI.keep _ nd h3 hq
      exact h4 hq j (by simp only; omega) g2 ⟨g3, g4⟩
    exact ⟨hlt, h1, (main hlt h1).1 h⟩
  · rintro ⟨h1, h2, h3⟩
    exact (main h1 h2).2 h3

/-- C59: the value history of a key lists exactly what each committed version last wrote to it, deletions included, in the order of
the versions. Pruning never removes from it. -/
theorem C59_value_history_exactly (hr : Reached H ops y) (hb : (setsOf ops).length < 2 ^ 64) (k : KeyHash) :
    (∀ v x, (v, x) ∈ (y.store.values.get? k).getD [] ↔ Spec.WrittenAt (setsOf ops) k v x) ∧
    ((y.store.values.get? k).getD []).Pairwise (fun a b => a.1 < b.1) := by
  obtain ⟨-, -, -, hval⟩ := hr.inv hb
  refine ⟨fun v x => ?_, hval.sorted k⟩
  refine (hval.mem k v x).trans ?_
  unfold Spec.WrittenAt
  cases hs : (setsOf ops)[v]? with
  | none => simp
  | some ws => simp [lastWrite_split]

/-- C59: the layout is determined by the value sets and the pruning horizon. However two clients group the sets into calls,
through whichever insertion interface, and whenever they prune: if in the end they have written the same sets and given up the same
versions, their stores hold the same nodes below the roots, the same roots of retained versions, the same stale entries below
the roots, and the same value history of every key. -/
theorem C59_layout_deterministic (hr : Reached H ops y) (hr' : Reached H ops' y') (hb : (setsOf ops).length < 2 ^ 64)
    (hs : setsOf ops = setsOf ops') (hh : (horizon ops).2 = (horizon ops').2) :
    (∀ w q, q ≠ [] → y.store.nodes.get? ⟨w, q⟩ = y'.store.nodes.get? ⟨w, q⟩) ∧
    (∀ v, Readable ops v → y.store.nodes.get? ⟨v, []⟩ = y'.store.nodes.get? ⟨v, []⟩) ∧
    (∀ x : StaleNodeIndex, x.nodeKey.path ≠ [] → (x ∈ y.store.stale ↔ x ∈ y'.store.stale)) ∧
    ∀ k, (y.store.values.get? k).getD [] = (y'.store.values.get? k).getD [] := by
  have hb' : (setsOf ops').length < 2 ^ 64 := by rw [← hs]; exact hb
  have hread : ∀ v, Readable ops v ↔ Readable ops' v := by
    intro v; unfold Readable; rw [hs, hh]
  have hmap : ∀ v, mapAt ops v = mapAt ops' v := by
    intro v; unfold mapAt; rw [hs]
  refine ⟨?_, ?_, ?_, ?_⟩
  · intro w q hq
    apply Option.ext
    intro n
    rw [C59_stored_nodes_exactly hr hb hq, C59_stored_nodes_exactly hr' hb' hq]
    simp only [hread, hmap, hs]
  · intro v hv
    apply Option.ext
    intro n
    rw [C59_stored_roots hr hb hv, C59_stored_roots hr' hb' ((hread v).1 hv), hmap, hs]
  · rintro ⟨t, ⟨w, q⟩⟩ hq
    rw [C59_stale_entries_exactly hr hb hq, C59_stale_entries_exactly hr' hb' hq, hmap, hmap, hs, hh]
  · intro k
    obtain ⟨h1, h2⟩ := C59_value_history_exactly hr hb k
    obtain ⟨g1, g2⟩ := C59_value_history_exactly hr' hb' k
    refine versions_ext h2 g2 fun e => ?_
    obtain ⟨v, x⟩ := e
    rw [h1, g1, hs]

/-- C59: every node of the tree of a retained version has such a last renewal, and is therefore stored. -/
theorem C59_every_node_stored (hr : Reached H ops y) (hb : (setsOf ops).length < 2 ^ 64) {v : Version} (hv : Readable ops v)
    {q : List Nibble} (hq : q ≠ []) (hn : IsNode (mapAt ops v) q) :
    ∃ w n, LastRenewed (setsOf ops) v q w ∧ y.store.nodes.get? ⟨w, q⟩ = some n := by
  obtain ⟨M, W, hI, hp, hw, -, hc⟩ := hr.layout hb
  have h1 := (hp v hv.2 q).2 hn
  have h2 := (hw v hv.2 q hq h1 _).1 rfl
  exact ⟨_, _, h2, (C59_stored_nodes_exactly hr hb hq _).2 ⟨v, hv, hn, h2, hc v hv.2 q⟩⟩

namespace Sample

/-- The same three sets, with the last two in one call and one purge, and in three calls with purges in between. -/
def twoCalls : List Op :=
  [.commit [[(key 0x10, some [1])]], .commit [[], [(key 0x20, some [2])]], .purge 2]

def threeCalls : List Op :=
  [.batch [[(key 0x10, [1])]], .purge 0, .commit [[]], .purge 1, .commit [[(key 0x20, some [2])]], .purge 7]

end Sample

/-- Two histories that meet the hypotheses of `C59_layout_deterministic`. -/
example : ∃ y y', Reached Sample.T Sample.twoCalls y ∧ Reached Sample.T Sample.threeCalls y' ∧
    setsOf Sample.twoCalls = setsOf Sample.threeCalls ∧ (horizon Sample.twoCalls).2 = (horizon Sample.threeCalls).2 ∧
    (horizon Sample.twoCalls).2 = 2 := by
  obtain ⟨y, hy, -⟩ := Sample.of_check (ops := Sample.twoCalls) (p := fun _ => true) (by decide +kernel)
  obtain ⟨y', hy', -⟩ := Sample.of_check (ops := Sample.threeCalls) (p := fun _ => true) (by decide +kernel)
  exact ⟨y, y', hy, hy', rfl, rfl, rfl⟩

/-- The roots of versions that are not retained may differ: which of them leak depends on the grouping (C12). -/
example : ∃ y y', Reached Sample.T Sample.twoCalls y ∧ Reached Sample.T Sample.threeCalls y' ∧
    y.store.nodes.get? ⟨0, []⟩ = none ∧ y'.store.nodes.get? ⟨0, []⟩ ≠ none := by
  obtain ⟨y, hy, h⟩ := Sample.of_check (ops := Sample.twoCalls) (p := fun s => (s.nodes.get? ⟨0, []⟩).isNone) (by decide +kernel)
  obtain ⟨y', hy', h'⟩ := Sample.of_check (ops := Sample.threeCalls) (p := fun s => (s.nodes.get? ⟨0, []⟩).isSome) (by decide +kernel)
  exact ⟨y, y', hy, hy', by simpa using h, by intro hc; rw [hc] at h'; cases h'⟩

end Jmt
