import Verif.Proofs.Exclusion
import Verif.Spec.Neighbour
import Verif.Spec.Iterate
import Verif.Props.Core
/-!
# C27: exclusion proofs, and the rest of C32
-/
namespace Jmt
open Spec (Entry)

section
variable {H : Hasher} {mp : Spec.Map} {es : List Entry}

theorem Spec.Lists.key {H : Hasher} {mp : Spec.Map} {es : List Entry} (hl : Spec.Lists H mp es) (k : KeyHash) :
    (∃ e ∈ es, e.1 = k) ↔ mp k ≠ none := by
  constructor
  · rintro ⟨⟨k', vh⟩, h1, rfl⟩
    obtain ⟨x, hx, -⟩ := (hl.mem k' vh).1 h1
    simp [hx]
  · intro h
    obtain ⟨x, hx⟩ := Option.ne_none_iff_exists'.1 h
    exact ⟨(k, H.hash x), (hl.mem k _).2 ⟨x, hx, rfl⟩, rfl⟩

theorem isPred_key (hl : Spec.Lists H mp es) {k : KeyHash} {l} (h : IsPred es k l) : Spec.IsPredKey mp k l := by
  cases l with
  | none =>
    intro k' hk' hlt
    obtain ⟨e, he, rfl⟩ := (hl.key k').2 hk'
    exact h e he hlt
  | some l =>
    obtain ⟨h1, h2, h3⟩ := h
    refine ⟨h1, (hl.key l).1 h2, fun k' hk' hlt => ?_⟩
    obtain ⟨e, he, rfl⟩ := (hl.key k').2 hk'
    exact List.not_lt.1 (h3 e he hlt)

theorem isSucc_key (hl : Spec.Lists H mp es) {k : KeyHash} {r} (h : IsSucc es k r) : Spec.IsSuccKey mp k r := by
  cases r with
  | none =>
    intro k' hk' hlt
    obtain ⟨e, he, rfl⟩ := (hl.key k').2 hk'
    exact h e he hlt
  | some r =>
    obtain ⟨h1, h2, h3⟩ := h
    refine ⟨h1, (hl.key r).1 h2, fun k' hk' hlt => ?_⟩
    obtain ⟨e, he, rfl⟩ := (hl.key k').2 hk'
    exact List.not_lt.1 (h3 e he hlt)

end

variable {H : Hasher} {ops : List Op} {y : Sys}

/-- C27. For an absent key of a readable version whose map is not empty, `get_with_exclusion_proof` returns the proof of
the true neighbours: of the greatest smaller key and of the least greater key, as far as they exist, with the
existence proofs accepted against the root hash. -/
theorem C27_exclusion_neighbours (hr : Reached H ops y) (hb : (setsOf ops).length < 2 ^ 64) {v : Version}
    (hv : Readable ops v) {k : KeyHash} (habs : mapAt ops v k = none) (hne : ∃ k' x, mapAt ops v k' = some x) :
    ∃ l r root ep, Spec.IsPredKey (mapAt ops v) k l ∧ Spec.IsSuccKey (mapAt ops v) k r ∧
      getRootHash H y.store.reader v = .ok root ∧
      getWithExclusionProof H y.store.reader k v = .ok (.inr ep) ∧
      Spec.ExcludesBy H root (mapAt ops v) l r ep := by
  have ra := hr.readAt hb hv
  obtain ⟨ver, t⟩ := ra.tree
  have hmne : entriesAfter H (setsOf ops) (v + 1) ≠ [] := by
    obtain ⟨k', x, hx⟩ := hne
    obtain ⟨e, he, -⟩ := (ra.lists.key k').2 (by simp [hx])
    exact List.ne_nil_of_mem he
  obtain ⟨l, r, h1, h2, h3⟩ := getBoundingPath_spec (k := k) ra.nodup t hmne (fun e he hc => by
    exact (ra.lists.key k).1 ⟨e, he, hc⟩ habs)
  have p2 := isPred_key ra.lists h2
  have p3 := isSucc_key ra.lists h3
  have hproof : ∀ k', mapAt ops v k' ≠ none →
      Spec.ProvesKey H (Spec.root H (entriesAfter H (setsOf ops) (v + 1))) (mapAt ops v) k'
        (specProof H (entriesAfter H (setsOf ops) (v + 1)) k') := by
    intro k' hk'
    obtain ⟨x, hx⟩ := Option.ne_none_iff_exists'.1 hk'
    refine ⟨x, hx, ?_⟩
    rw [root_eq_sh]
    exact specProof_verifies_existence ra.nodup ((ra.lists.mem k' _).2 ⟨x, hx, rfl⟩)
  refine ⟨l, r, Spec.root H (entriesAfter H (setsOf ops) (v + 1)), ?_⟩
  unfold getWithExclusionProof
  rw [ra.gwp, habs, ok_bind]
  simp only [h1, ok_bind]
  match l, r, p2, p3 with
  | none, none, p2, p3 =>
    exfalso
    obtain ⟨k', x, hx⟩ := hne
    have a := p2 k' (by simp [hx])
    have b := p3 k' (by simp [hx])
    have : k = k' := Subtype.ext (List.le_antisymm (List.not_lt.1 a) (List.not_lt.1 b))
    rw [← this, habs] at hx
    cases hx
  | none, some r, p2, p3 =>
    simp only [ra.gwp, ok_bind]
    exact ⟨_, p2, p3, ra.rootHash, rfl, hproof r p3.2.1⟩
  | some l, none, p2, p3 =>
    simp only [ra.gwp, ok_bind]
    exact ⟨_, p2, p3, ra.rootHash, rfl, hproof l p2.2.1⟩
  | some l, some r, p2, p3 =>
    simp only [ra.gwp, ok_bind]
    exact ⟨_, p2, p3, ra.rootHash, rfl, hproof r p3.2.1, hproof l p2.2.1⟩

/-- The neighbours are determined by the map. -/
theorem C27_neighbours_unique (mp : Spec.Map) (k : KeyHash) {a b : Option KeyHash} :
    (Spec.IsPredKey mp k a → Spec.IsPredKey mp k b → a = b) ∧
    (Spec.IsSuccKey mp k a → Spec.IsSuccKey mp k b → a = b) := by
  constructor
  · intro ha hb
    match a, b, ha, hb with
    | none, none, _, _ => rfl
    | none, some l, ha, hb => exact absurd hb.1 (ha l hb.2.1)
    | some l, none, ha, hb => exact absurd ha.1 (hb l ha.2.1)
    | some l, some l', ha, hb =>
      have := Subtype.ext (List.le_antisymm (hb.2.2 l ha.2.1 ha.1) (ha.2.2 l' hb.2.1 hb.1))
      rw [this]
  · intro ha hb
    match a, b, ha, hb with
    | none, none, _, _ => rfl
    | none, some l, ha, hb => exact absurd hb.1 (ha l hb.2.1)
    | some l, none, ha, hb => exact absurd ha.1 (hb l ha.2.1)
    | some l, some l', ha, hb =>
      have := Subtype.ext (List.le_antisymm (ha.2.2 l' hb.2.1 hb.1) (hb.2.2 l ha.2.1 ha.1))
      rw [this]

/-- C27, present keys: the value and its existence proof, as `get_with_proof` gives them. -/
theorem C27_present_key (hr : Reached H ops y) (hb : (setsOf ops).length < 2 ^ 64) {v : Version}
    (hv : Readable ops v) {k : KeyHash} {x : Value} (hx : mapAt ops v k = some x) :
    ∃ P r, getWithExclusionProof H y.store.reader k v = .ok (.inl (x, P)) ∧
      getWithProof H y.store.reader k v = .ok (some x, P) ∧ getRootHash H y.store.reader v = .ok r ∧
      P.verifyExistence H r k x = .ok () := by
  obtain ⟨P, r, h1, h2, h3⟩ := C04_existence_complete hr hb hv hx
  refine ⟨P, r, ?_, h1, h2, h3⟩
  unfold getWithExclusionProof
  rw [h1, ok_bind]

/-- Exclusion proofs of an empty readable version. -/
theorem ReadTree.exclusion_empty {R : Reader} {v : Version} {mp : Spec.Map} {es : List Entry} (ra : ReadTree H R v mp es)
    (hemp : ∀ k, mp k = none) (k : KeyHash) : getWithExclusionProof H R k v =
      .error (.bail "Cannot manufacture nonexistence proof by exclusion for the empty tree") := by
  obtain ⟨ver, t⟩ := ra.tree
  have hm : es = [] := by
    cases h : es with
    | nil => rfl
    | cons e es' =>
      have := (ra.lists.key e.1).1 ⟨e, by rw [h]; simp, rfl⟩
      exact absurd (hemp _) this
  have hroot := getNode_root t
  unfold getWithExclusionProof
  rw [ra.gwp, hemp, ok_bind]
  simp only
  unfold getBoundingPath searchForClosestNode rootNibbleHeight searchForClosestLoop
  rw [hroot, ok_bind, canonNode_nil (by rw [hm]; rfl)]
  rfl

/-- C27, the empty tree: there are no neighbours, and the call fails with an error. -/
theorem C27_empty_tree (hr : Reached H ops y) (hb : (setsOf ops).length < 2 ^ 64) {v : Version}
    (hv : Readable ops v) (hemp : ∀ k, mapAt ops v k = none) (k : KeyHash) :
    ∃ s, getWithExclusionProof H y.store.reader k v = .error (.bail s) :=
  ⟨_, (hr.readAt hb hv).exclusion_empty hemp k⟩

/-- C32: the remaining queries.  For every reader that does not have the root node of version `v`, exclusion and range
proofs report exactly the missing root, and both iterator constructors report the missing root node. -/
theorem C32_missing_root_others (R : Reader) (k : KeyHash) (v : Version)
    (h : R.getNodeOption (NodeKey.root v) = .ok none) :
    getWithExclusionProof H R k v = .error (.missingRoot v) ∧
    getRangeProof H R k v = .error (.missingRoot v) ∧
    Iter.new R v k = .error (.missingNode (NodeKey.root v)) ∧
    ∀ i, Iter.newByIndex R v i = .error (.missingNode (NodeKey.root v)) := by
  have hg := (C32_missing_root (H := H) R k v h).1
  refine ⟨?_, ?_, ?_, ?_⟩
  · unfold getWithExclusionProof; rw [hg]; rfl
  · unfold getRangeProof; rw [hg]; rfl
  · unfold Iter.new Iter.newLoop Reader.getNode; rw [h]; rfl
  · intro i
    unfold Iter.newByIndex Reader.getNode; rw [h]; rfl

/-! ### The hypotheses are met -/

theorem Sample.map3 (k : KeyHash) : mapAt Sample.ops 3 k = if k = Sample.key 0x10 then some [4] else
    if k = Sample.key 0x80 then some [3] else none := by
  have h : Sample.key 0x1f ≠ Sample.key 0x10 := by decide
  have h' : Sample.key 0x1f ≠ Sample.key 0x80 := by decide
  simp [mapAt, Spec.stateAfter, setsOf, Sample.ops, Spec.Map.writes, Spec.Map.write, Spec.Map.empty]
  by_cases e1 : k = Sample.key 0x1f
  · subst e1; simp [h, h']
  · simp [e1]
    split <;> simp_all

/-- At version 3 of the sample history, which holds `10..` and `80..`, the absent keys `11..`, `00..`
and `ff..` have two, a right and a left neighbour. -/
example (H : Hasher) : ∃ y, Reached H Sample.ops y ∧ ∃ root, getRootHash H y.store.reader 3 = .ok root ∧
    (∃ R L, getWithExclusionProof H y.store.reader (Sample.key 0x11) 3 = .ok (.inr (.middle R L)) ∧
      R.verifyExistence H root (Sample.key 0x80) [3] = .ok () ∧
      L.verifyExistence H root (Sample.key 0x10) [4] = .ok ()) ∧
    (∃ R, getWithExclusionProof H y.store.reader (Sample.key 0x00) 3 = .ok (.inr (.leftmost R)) ∧
      R.verifyExistence H root (Sample.key 0x10) [4] = .ok ()) ∧
    (∃ L, getWithExclusionProof H y.store.reader (Sample.key 0xff) 3 = .ok (.inr (.rightmost L)) ∧
      L.verifyExistence H root (Sample.key 0x80) [3] = .ok ()) := by
  obtain ⟨y, hr⟩ := Sample.reached H
  have hm := Sample.map3
  have key : ∀ k l r, mapAt Sample.ops 3 k = none → Spec.IsPredKey (mapAt Sample.ops 3) k l →
      Spec.IsSuccKey (mapAt Sample.ops 3) k r → ∃ root ep, getRootHash H y.store.reader 3 = .ok root ∧
      getWithExclusionProof H y.store.reader k 3 = .ok (.inr ep) ∧
      Spec.ExcludesBy H root (mapAt Sample.ops 3) l r ep := by
    intro k l r ha hl hs
    obtain ⟨l', r', root, ep, h1, h2, h3, h4, h5⟩ := C27_exclusion_neighbours hr Sample.bound Sample.readable3 ha
      ⟨Sample.key 0x10, [4], by decide⟩
    rw [(C27_neighbours_unique _ k).1 h1 hl, (C27_neighbours_unique _ k).2 h2 hs] at h5
    exact ⟨root, ep, h3, h4, h5⟩
  have h10 : mapAt Sample.ops 3 (Sample.key 0x10) = some [4] := by decide
  have h80 : mapAt Sample.ops 3 (Sample.key 0x80) = some [3] := by decide
  have hcases : ∀ k, mapAt Sample.ops 3 k ≠ none → k = Sample.key 0x10 ∨ k = Sample.key 0x80 := by
    intro k hk
    rw [hm] at hk
    by_cases e1 : k = Sample.key 0x10
    · exact .inl e1
    · by_cases e2 : k = Sample.key 0x80
      · exact .inr e2
      · simp [e1, e2] at hk
  obtain ⟨root, e1, g1, g2, g3⟩ := key (Sample.key 0x11) (some (Sample.key 0x10)) (some (Sample.key 0x80)) (by decide)
    ⟨by decide, by decide, fun k' hk' hlt => by rcases hcases k' hk' with rfl | rfl <;> revert hlt <;> decide⟩
    ⟨by decide, by decide, fun k' hk' hlt => by rcases hcases k' hk' with rfl | rfl <;> revert hlt <;> decide⟩
  obtain ⟨root2, e2, g1', g2', g3'⟩ := key (Sample.key 0x00) none (some (Sample.key 0x10)) (by decide)
    (fun k' hk' => by rcases hcases k' hk' with rfl | rfl <;> decide)
    ⟨by decide, by decide, fun k' hk' hlt => by rcases hcases k' hk' with rfl | rfl <;> revert hlt <;> decide⟩
  obtain ⟨root3, e3, g1'', g2'', g3''⟩ := key (Sample.key 0xff) (some (Sample.key 0x80)) none (by decide)
    ⟨by decide, by decide, fun k' hk' hlt => by rcases hcases k' hk' with rfl | rfl <;> revert hlt <;> decide⟩
    (fun k' hk' => by rcases hcases k' hk' with rfl | rfl <;> decide)
  rw [g1] at g1' g1''
  cases g1'; cases g1''
  refine ⟨y, hr, root, g1, ?_, ?_, ?_⟩
  · match e1, g3 with
    | .middle R L, ⟨⟨x, hx, hR⟩, ⟨x', hx', hL⟩⟩ =>
      rw [h80] at hx; rw [h10] at hx'; cases hx; cases hx'
      exact ⟨R, L, g2, hR, hL⟩
  · match e2, g3' with
    | .leftmost R, ⟨x, hx, hR⟩ =>
      rw [h10] at hx; cases hx
      exact ⟨R, g2', hR⟩
  · match e3, g3'' with
    | .rightmost L, ⟨x, hx, hL⟩ =>
      rw [h80] at hx; cases hx
      exact ⟨L, g2'', hL⟩

/-- A missing version. -/
example (H : Hasher) : ∃ y, Reached H Sample.ops y ∧
    getWithExclusionProof H y.store.reader (Sample.key 0) 9 = .error (.missingRoot 9) := by
  obtain ⟨y, hy⟩ := Sample.reached H
  exact ⟨y, hy, (C32_missing_root_others _ _ _ (C32_uncommitted hy Sample.bound (by decide))).1⟩

/-- An empty version. -/
example (H : Hasher) : ∃ y, Reached H [.commit [[]]] y ∧
    ∃ s, getWithExclusionProof H y.store.reader (Sample.key 0) 0 = .error (.bail s) := by
  obtain ⟨y, hy⟩ := C13_history_never_fails H [.commit [[]]] (by decide) (by decide)
  exact ⟨y, hy, C27_empty_tree hy (by decide) (by constructor <;> decide) (fun _ => rfl) _⟩

end Jmt
