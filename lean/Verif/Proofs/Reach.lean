import Verif.Proofs.Verify
import Verif.Spec.Reads
/-!
# From the history invariant to reads of a readable version
-/
namespace Jmt
open Spec (Entry)

theorem lists_perm {H : Hasher} {s : Spec.Map} {es es' : List Entry} (h : Spec.Lists H s es)
    (h' : Spec.Lists H s es') : es.Perm es' := by
  have nd : ∀ {l : List Entry}, (l.map Prod.fst).Nodup → l.Nodup := by
    intro l hl
    induction l with
    | nil => simp
    | cons a l ih =>
      simp only [List.map_cons, List.nodup_cons] at hl ⊢
      exact ⟨fun hm => hl.1 (List.mem_map.2 ⟨a, hm, rfl⟩), ih hl.2⟩
  rw [List.perm_ext_iff_of_nodup (nd h.nodup) (nd h'.nodup)]
  rintro ⟨k, vh⟩
  rw [h.mem, h'.mem]

theorem root_perm {H : Hasher} {es es' : List Entry} (h : es.Perm es') : Spec.root H es = Spec.root H es' :=
  subtree_perm H _ _ h

/-- What is known about a readable version. -/
structure ReadTree (H : Hasher) (R : Reader) (v : Version) (mp : Spec.Map) (es : List Entry) : Prop where
  nodup : NodupE es
  tree : ∃ ver, TreeAt H R.getNodeOption v es ver
  lists : Spec.Lists H mp es
  present : ∀ k x, mp k = some x → R.getValueOption v k = .ok (some x)
  leaves : ∃ ver, TreeAt H R.getNodeOption v es ver ∧ ∀ q e, q ≠ [] → pres es [] q → under q es = [e] →
    R.getValueOption (ver q) e.1 = .ok (mp e.1)

/-- Besides, keys without a value have none. -/
structure ReadAt (H : Hasher) (R : Reader) (v : Version) (mp : Spec.Map) (es : List Entry) : Prop extends ReadTree H R v mp es where
  value : ∀ k, R.getValueOption v k = .ok (mp k)

theorem ReadAt.of {H : Hasher} {R : Reader} {v : Version} {mp : Spec.Map} {es : List Entry} (nodup : NodupE es)
    (tree : ∃ ver, TreeAt H R.getNodeOption v es ver) (lists : Spec.Lists H mp es) (value : ∀ k, R.getValueOption v k = .ok (mp k))
    (leaves : ∃ ver, TreeAt H R.getNodeOption v es ver ∧ ∀ q e, q ≠ [] → pres es [] q → under q es = [e] →
      R.getValueOption (ver q) e.1 = .ok (mp e.1)) : ReadAt H R v mp es :=
  ⟨⟨nodup, tree, lists, fun k x hx => by rw [value, hx], leaves⟩, value⟩

theorem lastWrite_none {ws : ValueSet} {k : KeyHash} (h : k ∉ ws.map Prod.fst) : lastWrite ws k = none := by
  induction ws with
  | nil => rfl
  | cons w ws ih =>
    simp only [List.map_cons, List.mem_cons, not_or] at h
    rw [lastWrite_cons, ih h.2, if_neg (fun hc => h.1 hc.symm)]; rfl

theorem stateAfter_const {hist : List ValueSet} {k : KeyHash} {w : Nat} : ∀ {v : Nat}, w ≤ v →
    (∀ u, w < u → u ≤ v → ∀ ws, hist[u]? = some ws → k ∉ ws.map Prod.fst) →
    Spec.stateAfter Spec.Map.empty hist (w + 1) k = Spec.stateAfter Spec.Map.empty hist (v + 1) k := by
  intro v
  induction v with
  | zero => intro h _; rw [Nat.le_zero.1 h]
  | succ v ih =>
    intro h hu
    by_cases hw : w = v + 1
    · rw [hw]
    · rw [ih (by omega) (fun u h1 h2 => hu u h1 (by omega)), stateAfter_succ _ _ (v + 1)]
      cases hh : hist[v + 1]? with
      | none => rfl
      | some ws =>
        have := hu (v + 1) (by omega) (Nat.le_refl _) ws hh
        rw [Option.bind_some, lastWrite_none this]

theorem Reached.readAt {H : Hasher} {ops : List Op} {y : Sys} (h : Reached H ops y)
    (hb : (setsOf ops).length < 2 ^ 64) {v : Version} (hv : Readable ops v) :
    ReadAt H y.store.reader v (mapAt ops v) (entriesAfter H (setsOf ops) (v + 1)) := by
  obtain ⟨-, ⟨M, W, hI, -, hM, hF, -⟩, -, hval⟩ := h.inv hb
  have ht : TreeAt H y.store.reader.getNodeOption v (entriesAfter H (setsOf ops) (v + 1)) (W v) := by
    rw [← hM v hv.2]
    exact hI.tree v hv.1 hv.2
  refine .of (entriesAfter_nodup _ _ _) ⟨W v, ht⟩ (lists_entriesAfter H _ _) (fun k => ?_) ⟨W v, ht, ?_⟩
  · show Except.ok _ = _
    rw [hval.get]; rfl
  · intro q e hq hp hu
    show Except.ok _ = _
    rw [hval.get]
    congr 1
    rw [← hM v hv.2] at hp hu
    have he : e ∈ under q (M v) := by rw [hu]; simp
    refine stateAfter_const (hI.wle v hv.2 q hp) (fun u h1 h2 ws hws hk => ?_)
    exact hF v hv.2 q hq hp u h1 h2 ws hws _ hk e (mem_under.1 he).1 rfl (mem_under.1 he).2

section
variable {H : Hasher} {R : Reader} {v : Version} {mp : Spec.Map} {es : List Entry}

theorem ReadTree.gwp (r : ReadTree H R v mp es) (k : KeyHash) :
    getWithProof H R k v = .ok (mp k, specProof H es k) := by
  obtain ⟨ver, t⟩ := r.tree
  rw [getWithProof_spec r.nodup t]
  cases hm : mp k with
  | none =>
    have hno : ∀ vh, (k, vh) ∉ es := by
      intro vh hc
      obtain ⟨x, hx, -⟩ := (r.lists.mem k vh).1 hc
      rw [hm] at hx; cases hx
    cases hl : (specProof H es k).leaf with
    | none => rfl
    | some e =>
      have hne : e.1 ≠ k := by
        intro hk
        have : (specProof H es k).leaf = some (k, e.2) := by rw [hl, ← hk]
        exact hno _ ((specProof_leaf_iff r.nodup k e.2).1 this)
      simp [gwpVal, hne, ok_bind]
  | some x =>
    have hmem : (k, H.hash x) ∈ es := (r.lists.mem k _).2 ⟨x, hm, rfl⟩
    rw [(specProof_leaf_iff (H := H) r.nodup k _).2 hmem]
    simp only [gwpVal, if_true, Reader.getValue, r.present k x hm, ok_bind]

theorem ReadTree.rootNode (r : ReadTree H R v mp es) : ∃ ver,
    R.getNodeOption (NodeKey.root v) = .ok (some (canonNode H es ver [])) := by
  obtain ⟨ver, t⟩ := r.tree
  exact ⟨ver, t.root⟩

theorem ReadTree.rootHash (r : ReadTree H R v mp es) : getRootHash H R v = .ok (Spec.root H es) := by
  obtain ⟨ver, t⟩ := r.rootNode
  unfold getRootHash getRootNode getRootNodeOption
  rw [t, ok_bind, ok_bind, canonNode_hash r.nodup, root_eq_sh]
  simp

theorem ReadTree.rootHashOption (r : ReadTree H R v mp es) :
    getRootHashOption H R v = .ok (some (Spec.root H es)) := by
  obtain ⟨ver, t⟩ := r.rootNode
  unfold getRootHashOption getRootNodeOption
  rw [t, ok_bind]
  simp only
  rw [canonNode_hash r.nodup, ok_bind, root_eq_sh]
  simp

theorem ReadTree.leafCount (r : ReadTree H R v mp es) : getLeafCount R v = .ok es.length := by
  obtain ⟨ver, t⟩ := r.rootNode
  unfold getLeafCount getRootNode getRootNodeOption
  rw [t, ok_bind, ok_bind, canonNode_leafCount]
  simp

theorem sh_perm' {es es' : List Entry} (h : es.Perm es') (b) : sh H es b = sh H es' b :=
  sh_perm H (h.filter _)

theorem sibNode_perm {es es' : List Entry} (h : es.Perm es') (b) : sibNode H es b = sibNode H es' b := by
  have hu : (ub b es).Perm (ub b es') := h.filter _
  rcases len_cases (ub b es) with h1 | ⟨e, h1⟩ | h1
  · rw [sibNode_nil h1, sibNode_nil]; rw [h1] at hu; exact hu.nil_eq.symm
  · rw [sibNode_one h1]; rw [h1] at hu; rw [sibNode_one (List.perm_singleton.1 hu.symm)]
  · rw [sibNode_two h1, sibNode_two (by rw [← hu.length_eq]; exact h1), sh_perm' h, sh_perm' h]

theorem walk_perm {es es' : List Entry} (h : es.Perm es') (xs b) : walk H es b xs = walk H es' b xs := by
  have hl : ∀ b, (ub b es).length = (ub b es').length := fun b => (h.filter _).length_eq
  induction xs generalizing b with
  | nil => rfl
  | cons x xs ih => simp only [walk, hl, ih, sibNode_perm h]

theorem specProof_perm {es es' : List Entry} (hn : NodupE es) (h : es.Perm es') (k) :
    specProof H es k = specProof H es' k := by
  unfold specProof
  rw [walk_perm h]
  have hu : (ub (walk H es' [] (keyBits k)).2 es).Perm (ub (walk H es' [] (keyBits k)).2 es') := h.filter _
  have hl := (walk_mem (H := H) hn k).1
  rw [walk_perm h] at hl
  congr 1
  rcases len_cases (ub (walk H es' [] (keyBits k)).2 es) with h1 | ⟨e, h1⟩ | h1
  · rw [h1] at hu ⊢; rw [← hu.nil_eq]
  · rw [h1] at hu ⊢; rw [List.perm_singleton.1 hu.symm]
  · omega

theorem ReadAt.same {R' : Reader} {v' : Version} {es' : List Entry} (r : ReadAt H R v mp es)
    (r' : ReadAt H R' v' mp es') : SameReads H R R' v v' := by
  have hp := lists_perm r.lists r'.lists
  refine ⟨fun k => ?_, fun k => ?_, ?_, ?_, ?_⟩
  · unfold Jmt.get; rw [r.value, r'.value]
  · rw [r.gwp, r'.gwp, specProof_perm r.nodup hp]
  · rw [r.rootHash, r'.rootHash, root_perm hp]
  · rw [r.rootHashOption, r'.rootHashOption, root_perm hp]
  · rw [r.leafCount, r'.leafCount, hp.length_eq]

end
end Jmt

namespace Jmt
open Spec (Entry)

section
variable {H : Hasher} {s : Store} {v : Version} {m : List Entry} {ver : List Nibble → Version}

/-- The nodes reachable from the root of a readable version. -/
theorem TreeAt.reach_iff (hm : NodupE m) (t : TreeAt H s.reader.getNodeOption v m ver) (k : NodeKey) :
    ReachFrom s v k ↔ k = ⟨v, []⟩ ∨ (k.path ≠ [] ∧ pres m [] k.path ∧ ver k.path = k.version) := by
  have hroot : s.nodes.get? ⟨v, []⟩ = some (canonNode H m ver []) := by
    have := t.root; simpa [Store.reader] using this
  have hnode : ∀ q, q ≠ [] → pres m [] q → s.nodes.get? ⟨ver q, q⟩ = some (canonNode H m ver q) := by
    intro q h1 h2
    have := t.node q h1 h2; simpa [Store.reader] using this
  constructor
  · intro h
    induction h with
    | root => exact .inl rfl
    | @child k n i c h1 h2 h3 ih =>
      right
      have hc : s.nodes.get? k = some (canonNode H m ver k.path) := by
        rcases ih with rfl | ⟨a, b, c'⟩
        · exact hroot
        · obtain ⟨w, q⟩ := k
          simp only at a b c' ⊢
          rw [← c']; exact hnode q a b
      rw [hc] at h2
      have h2' : canonNode H m ver k.path = .internal n := by simpa using h2
      rcases len_cases (under k.path m) with g | ⟨e, g⟩ | g
      · rw [canonNode_nil g] at h2'; cases h2'
      · rw [canonNode_one g] at h2'; cases h2'
      · rw [canonNode_two g] at h2'
        cases h2'
        have hcc : canonChild H m ver (k.path ++ [i]) = some c := h3
        have := canonChild_some hcc
        refine ⟨by simp, ?_, this.2.1.symm⟩
        rw [pres_nil_iff]
        exact ⟨this.2.2.2.2, .inr (by simpa using g)⟩
  · rintro (rfl | ⟨h1, h2, h3⟩)
    · exact .root
    · obtain ⟨w, q⟩ := k
      simp only at h1 h2 h3
      subst h3
      -- induction on the length of the path
      have : ∀ n (q : List Nibble), q.length = n → q ≠ [] → pres m [] q → ReachFrom s v ⟨ver q, q⟩ := by
        intro n
        induction n with
        | zero => intro q hq hne; exact absurd (List.length_eq_zero_iff.1 hq) hne
        | succ n ih =>
          intro q hq hne hp
          obtain ⟨q', i, rfl⟩ : ∃ q' i, q = q' ++ [i] := ⟨q.dropLast, q.getLast hne, (List.dropLast_concat_getLast hne).symm⟩
          rw [pres_nil_iff] at hp
          have h2 : 2 ≤ (under q' m).length := by
            rcases hp.2 with h | h
            · simp at h
            · simpa using h
          obtain ⟨c, hc⟩ := Option.isSome_iff_exists.1 ((canonChild_isSome (H := H) (ver := ver)).2 hp.1)
          have hv := (canonChild_some hc).2.1
          rw [← hv]
          by_cases hq' : q' = []
          · subst hq'
            have hr := hroot
            rw [canonNode_two h2] at hr
            exact ReachFrom.child (s := s) (v := v) (k := ⟨v, []⟩) .root hr hc
          · have hpq : pres m [] q' := by
              rw [pres_nil_iff]
              refine ⟨fun h => by rw [h] at h2; simp at h2, .inr ?_⟩
              have hsub : (under q' m).length ≤ (under q'.dropLast m).length := by
                rw [← under_under (List.dropLast_prefix q') m]
                exact List.length_filter_le _ _
              omega
            have hr := hnode q' hq' hpq
            rw [canonNode_two h2] at hr
            exact ReachFrom.child (k := ⟨ver q', q'⟩) (ih q' (by simp at hq; exact hq) hq' hpq) hr hc
      exact this _ q rfl h1 h2

end
end Jmt

namespace Jmt
open Spec (Entry)

section
variable {H : Hasher} {ops : List Op} {y : Sys}

/-- One more commit from a reached state. -/
theorem Reached.commit (h : Reached H ops y) (sets : List ValueSet)
    (hb : (setsOf ops).length + sets.length < 2 ^ 64) :
    ∃ hs b s', putValueSets H y.store.reader sets y.next = .ok (hs, b) ∧
      y.store.writeTreeUpdateBatch b = .ok s' ∧ y.store.commit H sets y.next = .ok (hs, s') ∧
      CommitRes H y.store (setsOf ops) sets (horizon ops).2 hs b s' ∧
      Reached H (ops ++ [.commit sets]) ⟨s', y.next + sets.length⟩ := by
  obtain ⟨hn, hi⟩ := h.inv (by omega)
  obtain ⟨hs, b, s', a1, a2, a3⟩ := hi.commit sets (by unfold preGenesisVersion u64Size; omega)
  rw [← hn] at a1
  have hc : y.store.commit H sets y.next = .ok (hs, s') := by
    unfold Store.commit; simp only [a1, ok_bind, a2]
  obtain ⟨ow, h⟩ := h
  refine ⟨hs, b, s', a1, a2, hc, a3, ow, ?_⟩
  rw [Sys.run_snoc, h, ok_bind]
  unfold Sys.step
  simp only [hc, ok_bind]

theorem Reached.purge (h : Reached H ops y) (r : Version) (hb : (setsOf ops).length < 2 ^ 64) :
    ∃ s', y.store.purgeStaleNodes r = .ok s' ∧ Reached H (ops ++ [.purge r]) ⟨s', y.next⟩ := by
  obtain ⟨hn, hi⟩ := h.inv hb
  obtain ⟨s', a1, -⟩ := hi.purge r
  obtain ⟨ow, h⟩ := h
  refine ⟨s', a1, ow, ?_⟩
  rw [Sys.run_snoc, h, ok_bind]
  unfold Sys.step
  simp only [a1, ok_bind]

theorem setsOf_commit (ops : List Op) (sets) : setsOf (ops ++ [.commit sets]) = setsOf ops ++ sets := by
  rw [setsOf_append]; simp [setsOf]

theorem setsOf_purge (ops : List Op) (r) : setsOf (ops ++ [.purge r]) = setsOf ops := by
  rw [setsOf_append]; simp [setsOf]

theorem Readable.commit {v : Version} (h : Readable ops v) (sets) : Readable (ops ++ [.commit sets]) v := by
  unfold Readable at *
  rw [horizon_snoc_commit, setsOf_commit, List.length_append]
  omega

theorem mapAt_commit {v : Version} (h : v < (setsOf ops).length) (sets) :
    mapAt (ops ++ [.commit sets]) v = mapAt ops v := by
  unfold mapAt Spec.stateAfter
  rw [setsOf_commit, List.take_append_of_le_length (by omega)]

theorem mapAt_purge {v : Version} (r) : mapAt (ops ++ [.purge r]) v = mapAt ops v := by
  unfold mapAt; rw [setsOf_purge]

theorem horizon_le (h : Reached H ops y) (hb : (setsOf ops).length < 2 ^ 64) :
    (horizon ops).2 ≤ (setsOf ops).length - 1 := by
  obtain ⟨-, ⟨M, W, hI, -⟩, -⟩ := h.inv hb
  exact hI.lowle

theorem CommitRes.hash_get {s s' : Store} {hist sets : List ValueSet} {low : Nat} {hs b}
    (c : CommitRes H s hist sets low hs b s') :
    hs.length = sets.length ∧ ∀ j, j < sets.length →
      hs[j]? = some (sh H (entriesAfter H (hist ++ sets) (hist.length + j + 1)) []) := by
  rw [c.hashes]
  refine ⟨by simp, fun j hj => ?_⟩
  rw [List.getElem?_map, List.getElem?_range hj]; rfl

end
end Jmt
