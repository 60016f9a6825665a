import Verif.Proofs.RestoreOver
/-!
# C70: restoring with `new_overwrite` into a store that holds something already
-/
namespace Jmt
open Spec (Entry SameLookups Written)
open Store

section
variable {H : Hasher} {w : Version} {root : Digest} {all : List (KeyHash × Value)}
  {r r' : Restore} {checked : Bool} {R R' R0 : Reader} {b : NodeBatch} {ops ops0 : List Op} {y y0 : Sys} {v : Version} {pos : Option KeyHash}

/-- What is found in one store is found in another. -/
theorem ReadTree.found {E : Reader} {mp : Spec.Map} {es : List Entry} (h : ReadTree H E w mp es)
    (hn : ∀ k, E.getNodeOption k = R.getNodeOption k ∨ E.getNodeOption k = .ok none)
    (hx : ∀ v k, E.getValueOption v k = R.getValueOption v k ∨ E.getValueOption v k = .ok none) : ReadTree H R w mp es := by
  have hN : ∀ k n, E.getNodeOption k = .ok (some n) → R.getNodeOption k = .ok (some n) := by
    intro k n h1
    rcases hn k with h2 | h2
    · rw [← h2]; exact h1
    · rw [h2] at h1; cases h1
  have hX : ∀ v k x, E.getValueOption v k = .ok (some x) → R.getValueOption v k = .ok (some x) := by
    intro v k x h1
    rcases hx v k with h2 | h2
    · rw [← h2]; exact h1
    · rw [h2] at h1; cases h1
  have hT : ∀ {ver}, TreeAt H E.getNodeOption w es ver → TreeAt H R.getNodeOption w es ver :=
    fun ht => ⟨hN _ _ ht.root, fun q h1 h2 => hN _ _ (ht.node q h1 h2)⟩
  obtain ⟨h1, ⟨ver, h2⟩, h3, h4, ver', h5, h6⟩ := h
  refine ⟨h1, ⟨ver, hT h2⟩, h3, fun k x hk => hX _ _ _ (h4 k x hk), ver', hT h5, fun q e hq hp hu => ?_⟩
  have h7 := h6 q e hq hp hu
  have he : e ∈ es := (mem_under.1 (by rw [hu]; exact List.mem_cons_self)).1
  obtain ⟨x, hx', -⟩ := (h3.mem e.1 e.2).1 he
  rw [hx'] at h7 ⊢
  exact hX _ _ _ h7

theorem lastBatch_grows (h : r.lastBatch H = .ok b) : Grows r.frozenNodes b := by
  unfold Restore.lastBatch at h
  cases hs : r.singleLeaf with
  | some l =>
    rw [hs] at h
    simp only [] at h
    split at h
    · cases h
      exact insAll_grows r.frozenNodes [(NodeKey.root r.version, .leaf l)]
    · cases h
  | none =>
    rw [hs] at h
    simp only [] at h
    obtain ⟨r1, h1, h2⟩ := bind_ok_inv h
    cases h2
    exact freeze_grows h1

/-- The values waiting to be written are of the version to restore and of keys of the map. -/
theorem restoreOn_frozen {E : Reader} {whole : Bool} (hr : Reached H ops y) (hb : (setsOf ops).length < 2 ^ 64) (hv : Readable ops v)
    (hall : SortedPairs (mapAt ops v) all) (hroot : getRootHash H y.store.reader v = .ok root) (hnp : NP H (entriesOf H all))
    (h : RestoreOn H checked y.store.reader v all w root r E pos whole) (u : Version) (k : KeyHash) (x : Option Value)
    (hx : r.frozenNodes.values.get? (u, k) = some x) : u = w ∧ k ∈ all.map Prod.fst := by
  obtain ⟨z, p0, gp, p, hs⟩ := bsim_of hr hb hv hall hroot hnp h
  obtain ⟨h1, h2⟩ := addKeys_inv _ hs.inv.inv hs.add (fun m hm => by cases hm)
  have hf := h1.frozen
  rw [(h2 rfl).1] at hf
  obtain ⟨g1, x', -, g3⟩ := hf u k x hx
  exact ⟨g1, List.mem_map.2 ⟨(k, x'), hs.pre.subset g3, rfl⟩⟩

/-- The store a restoration over `R0` ends in, compared with that of a restoration over nothing. -/
theorem restored_over (hr : Reached H ops y) (hb : (setsOf ops).length < 2 ^ 64) (hv : Readable ops v) (hall : SortedPairs (mapAt ops v) all)
    (hne : all ≠ []) (hroot : getRootHash H y.store.reader v = .ok root)
    (hph : ∀ p ∈ Spec.treeStrings H (Spec.hashed H all), p.hash H ≠ placeholder)
    (h : RestoreOver H checked y.store.reader v all w root R0 r R pos) (hdone : Spec.above all pos = []) (hlast : r.lastBatch H = .ok b)
    (hw : Written b R' R) :
    ∃ s', SysInv H s' (setsOf (restoredAs w all)) (horizon (restoredAs w all)).2 ∧ Over all w R0 s'.reader R' ⟨[], []⟩ ∧
      (∃ es, ReadAt H s'.reader w (mapAt ops v) es) ∧ ∀ k n, s'.nodes.get? k = some n → k.version = w := by
  obtain ⟨hasc, -, hrt, -⟩ := honest_setting hr hb hv hall hroot
  have hnp : NP H (entriesOf H all) := np_of' hasc.nodup hph
  obtain ⟨E, whole, h1, h2⟩ := over_of hr hb hv hall hroot hnp h
  obtain ⟨s', h3, h4, -, h5⟩ := restored_backend hr hb hv hall hne hroot hph h1 hdone hlast (overlay_written b E)
  have hbo : BatchOf all w b := by
    refine ⟨fun k n hk => ?_, fun u k x hx => ?_⟩
    · have := (overlay_written b E).new k n hk
      rw [h4.node k] at this
      exact h5 k n (Except.ok.inj this)
    · rw [lastBatch_values hlast] at hx
      exact restoreOn_frozen hr hb hv hall hroot hnp h1 u k x hx
  have ho := h2.write hbo (lastBatch_grows hlast) hw (overlay_written b E) ⟨[], []⟩
  have hra := h3.reads.readAt (v := w) (by rw [horizon_restoredAs]; exact Nat.le_refl w) (by rw [setsOf_restoredAs]; simp)
  have hmap := (C44_restoredAs_map (w := w) hall).1
  unfold mapAt at hmap
  rw [hmap] at hra
  refine ⟨s', h3, ?_, ⟨_, hra⟩, h5⟩
  exact ⟨fun k hk => by rw [← h4.node k]; exact ho.node k hk, fun u k hk => by rw [← h4.value u k]; exact ho.value u k hk, ho.others, ho.older⟩

/-! ### The property -/

/-- C70: whatever the backend held before, and whatever writes have failed, the next chunk of an honest sender passes all checks: `add_chunk` gets to
the write. -/
theorem C70_next_chunk (hr : Reached H ops y) (hb : (setsOf ops).length < 2 ^ 64) (hv : Readable ops v) (hall : SortedPairs (mapAt ops v) all)
    (hroot : getRootHash H y.store.reader v = .ok root) (hph : ∀ p ∈ Spec.treeStrings H (Spec.hashed H all), p.hash H ≠ placeholder)
    (h : RestoreOver H checked y.store.reader v all w root R0 r R pos) (hmore : Spec.above all pos ≠ []) (n : Nat) :
    ∃ k x P r' b, ((Spec.above all pos).take (n + 1)).getLast? = some (k, x) ∧ getRangeProof H y.store.reader k v = .ok P ∧
      r.prepare H checked ((Spec.above all pos).take (n + 1)) P = (r', .ok b) := by
  obtain ⟨hasc, -⟩ := honest_setting hr hb hv hall hroot
  obtain ⟨E, whole, h1, -⟩ := over_of hr hb hv hall hroot (np_of' hasc.nodup hph) h
  exact C67_next_chunk hr hb hv hall hroot hph h1 hmore n

/-- C70: when everything has been sent, `finish` gets to its write.  (Two pairs at least; see below for one.) -/
theorem C70_finish (hr : Reached H ops y) (hb : (setsOf ops).length < 2 ^ 64) (hv : Readable ops v) (hall : SortedPairs (mapAt ops v) all)
    (hroot : getRootHash H y.store.reader v = .ok root) (hph : ∀ p ∈ Spec.treeStrings H (Spec.hashed H all), p.hash H ≠ placeholder)
    (h2 : 2 ≤ all.length) (h : RestoreOver H checked y.store.reader v all w root R0 r R pos) (hdone : Spec.above all pos = []) :
    ∃ b, r.lastBatch H = .ok b := by
  obtain ⟨hasc, -⟩ := honest_setting hr hb hv hall hroot
  obtain ⟨E, whole, h1, -⟩ := over_of hr hb hv hall hroot (np_of' hasc.nodup hph) h
  obtain ⟨b, h3, -⟩ := C67_finish hr hb hv hall hroot hph h2 h1 hdone
  exact ⟨b, h3⟩

/-- C70: the same for any non-empty map if the last chunk has been written. -/
theorem C70_finish_after_written_chunk (hr : Reached H ops y) (hb : (setsOf ops).length < 2 ^ 64) (hv : Readable ops v)
    (hall : SortedPairs (mapAt ops v) all) (hroot : getRootHash H y.store.reader v = .ok root)
    (hph : ∀ p ∈ Spec.treeStrings H (Spec.hashed H all), p.hash H ≠ placeholder)
    (h : RestoreOver H checked y.store.reader v all w root R0 r R pos) {n : Nat} {k : KeyHash} {x : Value} {P : RangeProof}
    (hl : ((Spec.above all pos).take (n + 1)).getLast? = some (k, x)) (hP : getRangeProof H y.store.reader k v = .ok P)
    (hprep : r.prepare H checked ((Spec.above all pos).take (n + 1)) P = (r', .ok b)) (hdone : Spec.above all (some k) = []) :
    ∃ b', r'.cleared.lastBatch H = .ok b' := by
  obtain ⟨hasc, -⟩ := honest_setting hr hb hv hall hroot
  obtain ⟨E, whole, h1, -⟩ := over_of hr hb hv hall hroot (np_of' hasc.nodup hph) h
  obtain ⟨b', h2, -⟩ := C67_finish_after_written_chunk hr hb hv hall hroot hph h1 hl hP hprep (overlay_written b E) hdone
  exact ⟨b', h2⟩

theorem none_of_path (h : ∀ k n, b.nodes.get? k = some n → k.path ≠ []) (u : Version) : b.nodes.get? (NodeKey.root u) = none := by
  cases hc : b.nodes.get? (NodeKey.root u) with
  | none => rfl
  | some n => exact absurd rfl (h _ n hc)

/-- C70: the root node is written by `finish` only: until then the backend shows as root of the version to restore what it showed before. -/
theorem C70_root_comes_last (hr : Reached H ops y) (hb : (setsOf ops).length < 2 ^ 64) (hv : Readable ops v) (hall : SortedPairs (mapAt ops v) all)
    (hroot : getRootHash H y.store.reader v = .ok root) (hph : ∀ p ∈ Spec.treeStrings H (Spec.hashed H all), p.hash H ≠ placeholder)
    (h : RestoreOver H checked y.store.reader v all w root R0 r R pos) :
    ∀ u, R.getNodeOption (NodeKey.root u) = R0.getNodeOption (NodeKey.root u) := by
  obtain ⟨hasc, -⟩ := honest_setting hr hb hv hall hroot
  have hnp : NP H (entriesOf H all) := np_of' hasc.nodup hph
  intro u
  induction h with
  | start => rfl
  | again _ ih => exact ih
  | chunk h hl hP hprep hw ih =>
    obtain ⟨E, whole, h1, -⟩ := over_of hr hb hv hall hroot hnp h
    obtain ⟨-, -, -, hp⟩ := prepared_batch hr hb hv hall hroot hnp h1 hl hP hprep
    rw [hw.old _ (none_of_path hp u), ih]
  | failed h hl hP hprep hw ih =>
    obtain ⟨E, whole, h1, -⟩ := over_of hr hb hv hall hroot hnp h
    obtain ⟨-, -, -, hp⟩ := prepared_batch hr hb hv hall hroot hnp h1 hl hP hprep
    rcases hw.node (NodeKey.root u) with h2 | ⟨n, h2, -⟩
    · rw [h2, ih]
    · exact absurd rfl (hp _ n h2)

/-- C67: over a backend that held nothing, no version can be queried before `finish`: each has no root, so every query that starts from a root reports it
missing. -/
theorem C67_invisible_until_finished {whole : Bool} (hr : Reached H ops y) (hb : (setsOf ops).length < 2 ^ 64) (hv : Readable ops v)
    (hall : SortedPairs (mapAt ops v) all) (hroot : getRootHash H y.store.reader v = .ok root)
    (hph : ∀ p ∈ Spec.treeStrings H (Spec.hashed H all), p.hash H ≠ placeholder)
    (h : RestoreOn H checked y.store.reader v all w root r R pos whole) (u : Version) :
    R.getNodeOption (NodeKey.root u) = .ok none ∧ getRootHashOption H R u = .ok none ∧ getRootHash H R u = .error (.missingRoot u) ∧
    getLeafCount R u = .error (.missingRoot u) ∧
    ∀ k, getWithProof H R k u = .error (.missingRoot u) ∧ getWithExclusionProof H R k u = .error (.missingRoot u) ∧
      getRangeProof H R k u = .error (.missingRoot u) ∧ Iter.new R u k = .error (.missingNode (NodeKey.root u)) := by
  obtain ⟨hasc, -⟩ := honest_setting hr hb hv hall hroot
  have hnp : NP H (entriesOf H all) := np_of' hasc.nodup hph
  have key : R.getNodeOption (NodeKey.root u) = .ok none := by
    induction h with
    | start hV _ => exact hV.node _
    | restart _ _ _ _ ih => exact ih
    | chunk h hl hP hprep hw ih =>
      obtain ⟨-, -, -, hp⟩ := prepared_batch hr hb hv hall hroot hnp h hl hP hprep
      rw [hw.old _ (none_of_path hp u), ih]
    | failed h hl hP hprep hw hc ih =>
      obtain ⟨-, -, -, hp⟩ := prepared_batch hr hb hv hall hroot hnp h hl hP hprep
      rcases hw.node (NodeKey.root u) with h2 | ⟨n, h2, -⟩
      · rw [h2, ih]
      · exact absurd rfl (hp _ n h2)
  obtain ⟨-, h2, h3, h4⟩ := C32_missing_root (H := H) R ⟨List.replicate 32 0, rfl⟩ u key
  exact ⟨key, h3, h2, h4, fun k => ⟨(C32_missing_root R k u key).1, (C32_missing_root_others R k u key).1, (C32_missing_root_others (H := H) R k u key).2.1,
    (C32_missing_root_others (H := H) R k u key).2.2.1⟩⟩

section
variable (hr : Reached H ops y) (hb : (setsOf ops).length < 2 ^ 64) (hv : Readable ops v) (hall : SortedPairs (mapAt ops v) all)
    (hne : all ≠ []) (hroot : getRootHash H y.store.reader v = .ok root)
    (hph : ∀ p ∈ Spec.treeStrings H (Spec.hashed H all), p.hash H ≠ placeholder)
    (h : RestoreOver H checked y.store.reader v all w root R0 r R pos) (hdone : Spec.above all pos = []) (hlast : r.lastBatch H = .ok b)
    (hw : Written b R' R)
include hr hb hv hall hne hroot hph h hdone hlast hw

/-- C70: then every query about the restored version that starts from its root node is answered as by the source: proofs, root hash, leaf count, range,
exclusion and ics23 proofs, and iteration.  `get` finds the values restored, and for keys absent from the map what the backend showed before. -/
theorem C70_restored_over : SameTreeQueries H R' y.store.reader w v ∧ (∀ p ∈ all, Jmt.get R' p.1 w = .ok (some p.2)) ∧
    ∀ k, mapAt ops v k = none → Jmt.get R' k w = Jmt.get R0 k w := by
  obtain ⟨s', -, ho, ⟨es, hra⟩, -⟩ := restored_over hr hb hv hall hne hroot hph h hdone hlast hw
  have hrt : ReadTree H R' w (mapAt ops v) es := hra.toReadTree.found (fun k => ho.node k rfl) (fun u k => ho.value u k (fun _ _ hc => by cases hc))
  refine ⟨hrt.sameTree (hr.readAt hb hv).toReadTree, fun p hp => ?_, fun k hk => ?_⟩
  · exact hrt.present p.1 p.2 ((hall.mem p.1 p.2).1 hp)
  · refine ho.older w k (.inr fun hm => ?_)
    obtain ⟨p, hp, rfl⟩ := List.mem_map.1 hm
    have := (hall.mem p.1 p.2).1 hp
    rw [hk] at this
    cases this

/-- C70: so if the backend showed no value at that version for keys absent from the map, all queries are answered alike. -/
theorem C70_same_queries (hclean : ∀ k, mapAt ops v k = none → Jmt.get R0 k w = .ok none) : SameQueries H R' y.store.reader w v := by
  obtain ⟨h1, h2, h3⟩ := C70_restored_over hr hb hv hall hne hroot hph h hdone hlast hw
  refine h1.same (fun k => ?_)
  rw [(hr.readAt hb hv).value k |> (fun h => (h : Jmt.get y.store.reader k v = _))]
  cases hk : mapAt ops v k with
  | none => rw [h3 k hk]; exact hclean k hk
  | some x => exact h2 (k, x) ((hall.mem k x).2 hk)

/-- C70: in particular over what failed attempts left, if the backend held nothing before the first: starting again from the beginning with
`new_overwrite` repairs any interrupted restoration. -/
theorem C70_start_again (hvac : Spec.Vacant R0) : SameQueries H R' y.store.reader w v :=
  C70_same_queries hr hb hv hall hne hroot hph h hdone hlast hw (fun k _ => hvac.value w k)

/-- C70: nodes of all other versions, and values at all earlier ones, are as they were. -/
theorem C70_rest_untouched : (∀ k : NodeKey, k.version ≠ w → R'.getNodeOption k = R0.getNodeOption k) ∧
    ∀ u k, u < w → R'.getValueOption u k = R0.getValueOption u k := by
  obtain ⟨s', -, ho, -⟩ := restored_over hr hb hv hall hne hroot hph h hdone hlast hw
  exact ⟨ho.others, fun u k hu => ho.older u k (.inl hu)⟩

/-- C70: so versions of the backend's own history before the restored one answer every query as before. -/
theorem C70_older_versions (hr0 : Reached H ops0 y0) (hb0 : (setsOf ops0).length < 2 ^ 64) (hR0 : R0 = y0.store.reader) {u : Version}
    (hu : Readable ops0 u) (huw : u < w) : SameQueries H R' y0.store.reader u u := by
  obtain ⟨h1, h2⟩ := C70_rest_untouched hr hb hv hall hne hroot hph h hdone hlast hw
  subst hR0
  refine (hr0.readAt_older hb0 hu (fun k hk => h1 k (by omega)) (fun v k hk => h2 v k (by omega))).sameQueries (hr0.readAt hb0 hu)

/-- C70, what is missing: if the backend held a value of a key that the restored map does not contain, `get` at the restored version shows that old value,
while `get_with_proof` proves that the key is absent. -/
theorem C70_get_shows_old_value {k : KeyHash} {x : Value} (hk : mapAt ops v k = none) (hx : Jmt.get R0 k w = .ok (some x)) :
    Jmt.get R' k w = .ok (some x) ∧ ∃ P, getWithProof H R' k w = .ok (none, P) := by
  obtain ⟨h1, -, h3⟩ := C70_restored_over hr hb hv hall hne hroot hph h hdone hlast hw
  refine ⟨(h3 k hk).trans hx, ?_⟩
  obtain ⟨P, hP⟩ := C02_get_with_proof_agrees hr hb hv k
  exact ⟨P, by rw [h1.getWithProof k, hP, hk]⟩

end

end

/-! ### Concrete cases -/

/-- Version 1 of the sample history (three pairs) restored as any version over anything: one pair is written, the process ends and another attempt
starts from the beginning; the write of the first pair fails, the second pair is written, and then the third. -/
theorem Sample.restoredOver (w : Version) (R0 : Reader) : ∃ y root r R b R', Reached Sample.T Sample.ops y ∧
    getRootHash Sample.T y.store.reader 1 = .ok root ∧
    RestoreOver Sample.T true y.store.reader 1 Sample.all1 w root R0 r R (some (Sample.key 0x80)) ∧ r.lastBatch Sample.T = .ok b ∧ Written b R' R := by
  obtain ⟨y, hy⟩ := Sample.reached Sample.T
  have hroot := (hy.readAt Sample.bound Sample.readable1).rootHash
  have next := fun r R pos h => C70_next_chunk (w := w) (checked := true) (r := r) (R := R) (R0 := R0) (pos := pos)
    hy Sample.bound Sample.readable1 Sample.sorted1 hroot Sample.noPlaceholder1 h
  have s0 := RestoreOver.start (H := Sample.T) (checked := true) (src := y.store.reader) (v := 1) (all := Sample.all1) (w := w)
    (root := Spec.root Sample.T (entriesAfter Sample.T (setsOf Sample.ops) (1 + 1))) (R0 := R0)
  have key10 : ∀ {k x}, ((Spec.above Sample.all1 none).take (0 + 1)).getLast? = some (k, x) → k = Sample.key 0x10 ∧ x = [4] := by
    intro k x h
    rw [show ((Spec.above Sample.all1 none).take 1).getLast? = some (Sample.key 0x10, [4]) by decide] at h
    cases h; exact ⟨rfl, rfl⟩
  obtain ⟨k1, x1, P1, r1, b1, a1, c1, d1⟩ := next _ _ _ s0 (by decide) 0
  have s1 := RestoreOver.again (RestoreOver.chunk s0 a1 c1 d1 (overlay_written _ _))
  obtain ⟨k2, x2, P2, r2, b2, a2, c2, d2⟩ := next _ _ _ s1 (by decide) 0
  obtain ⟨rfl, rfl⟩ := key10 a2
  have s2 := RestoreOver.failed s1 a2 c2 d2 (partlyWritten_none _ _)
  obtain ⟨k3, x3, P3, r3, b3, a3, c3, d3⟩ := next _ _ _ s2 (by decide) 0
  obtain ⟨rfl, rfl⟩ : k3 = Sample.key 0x1f ∧ x3 = [2] := by
    rw [show ((Spec.above Sample.all1 (some (Sample.key 0x10))).take 1).getLast? = some (Sample.key 0x1f, [2]) by decide] at a3
    cases a3; exact ⟨rfl, rfl⟩
  have s3 := RestoreOver.chunk s2 a3 c3 d3 (overlay_written _ _)
  obtain ⟨k4, x4, P4, r4, b4, a4, c4, d4⟩ := next _ _ _ s3 (by decide) 0
  obtain ⟨rfl, rfl⟩ : k4 = Sample.key 0x80 ∧ x4 = [3] := by
    rw [show ((Spec.above Sample.all1 (some (Sample.key 0x1f))).take 1).getLast? = some (Sample.key 0x80, [3]) by decide] at a4
    cases a4; exact ⟨rfl, rfl⟩
  have s4 := RestoreOver.chunk s3 a4 c4 d4 (overlay_written _ _)
  obtain ⟨b, e1⟩ := C70_finish hy Sample.bound Sample.readable1 Sample.sorted1 hroot Sample.noPlaceholder1 (by decide) s4 (by decide)
  exact ⟨y, _, _, _, b, _, hy, hroot, s4, e1, overlay_written _ _⟩

/-- Before `finish`, nothing is visible - over nothing - or the old root is, over the sample history. -/
example : ∃ (y : Sys) (root : Digest) (r : Restore) (R : Reader), RestoreOn Sample.T true y.store.reader 1 Sample.all1 2 root r R (some (Sample.key 0x80)) true ∧
    getRootHash Sample.T R 2 = .error (.missingRoot 2) := by
  obtain ⟨y, root, r, R, b, R', hy, h1, h2, -⟩ := Sample.restoredOn 2
  exact ⟨y, root, r, R, h2, (C67_invisible_until_finished hy Sample.bound Sample.readable1 Sample.sorted1 h1 Sample.noPlaceholder1 h2 2).2.2.1⟩

example : ∃ (y y0 : Sys) (root : Digest) (r : Restore) (R : Reader) (n : Option Node),
    RestoreOver Sample.T true y.store.reader 1 Sample.all1 2 root y0.store.reader r R (some (Sample.key 0x80)) ∧
    R.getNodeOption (NodeKey.root 2) = .ok n ∧ y0.store.reader.getNodeOption (NodeKey.root 2) = .ok n := by
  obtain ⟨y0, hy0⟩ := Sample.reached Sample.T
  obtain ⟨y, root, r, R, b, R', hy, h1, h2, -⟩ := Sample.restoredOver 2 y0.store.reader
  exact ⟨y, y0, root, r, R, _, h2, C70_root_comes_last hy Sample.bound Sample.readable1 Sample.sorted1 h1 Sample.noPlaceholder1 h2 2, rfl⟩

/-- Over nothing, and over the store of the sample history itself (versions 0 to 4), as version 5: there version 3 stays readable. -/
example (w : Version) : ∃ y R', Reached Sample.T Sample.ops y ∧ SameQueries Sample.T R' y.store.reader w 1 := by
  obtain ⟨y, root, r, R, b, R', hy, h1, h2, h3, h4⟩ := Sample.restoredOver w vacantReader
  exact ⟨y, R', hy, C70_start_again hy Sample.bound Sample.readable1 Sample.sorted1 (by decide) h1 Sample.noPlaceholder1 h2 (by decide) h3 h4 vacantReader_vacant⟩

example : ∃ y y0 R', Reached Sample.T Sample.ops y ∧ Reached Sample.T Sample.ops y0 ∧ SameTreeQueries Sample.T R' y.store.reader 5 1 ∧
    SameQueries Sample.T R' y0.store.reader 3 3 := by
  obtain ⟨y0, hy0⟩ := Sample.reached Sample.T
  obtain ⟨y, root, r, R, b, R', hy, h1, h2, h3, h4⟩ := Sample.restoredOver 5 y0.store.reader
  have h5 := C70_restored_over hy Sample.bound Sample.readable1 Sample.sorted1 (by decide) h1 Sample.noPlaceholder1 h2 (by decide) h3 h4
  exact ⟨y, y0, R', hy, hy0, h5.1, C70_older_versions hy Sample.bound Sample.readable1 Sample.sorted1 (by decide) h1 Sample.noPlaceholder1 h2 (by decide)
    h3 h4 hy0 Sample.bound rfl Sample.readable3 (by decide)⟩

/-- Restored over the sample history as version 5, the map with the keys 0x10, 0x1f and 0x80 also shows 0x81 to `get` - with the value of version 4. -/
theorem C70_old_value_witness : ∃ y R', Reached Sample.T Sample.ops y ∧ SameTreeQueries Sample.T R' y.store.reader 5 1 ∧
    mapAt Sample.ops 1 (Sample.key 0x81) = none ∧ Jmt.get R' (Sample.key 0x81) 5 = .ok (some [7]) ∧
    ∃ P, getWithProof Sample.T R' (Sample.key 0x81) 5 = .ok (none, P) := by
  obtain ⟨y0, hy0⟩ := Sample.reached Sample.T
  obtain ⟨y, root, r, R, b, R', hy, h1, h2, h3, h4⟩ := Sample.restoredOver 5 y0.store.reader
  have h5 := C70_restored_over hy Sample.bound Sample.readable1 Sample.sorted1 (by decide) h1 Sample.noPlaceholder1 h2 (by decide) h3 h4
  refine ⟨y, R', hy, h5.1, by decide, ?_⟩
  refine C70_get_shows_old_value hy Sample.bound Sample.readable1 Sample.sorted1 (by decide) h1 Sample.noPlaceholder1 h2 (by decide) h3 h4 (by decide) ?_
  obtain ⟨-, hi⟩ := hy0.inv Sample.bound
  show Except.ok (y0.store.getValueOption 5 (Sample.key 0x81)) = _
  rw [hi.vals.get]
  exact congrArg Except.ok (by decide)

/-- Why `new_overwrite` is needed: over a store that holds a tree - here of the versions 0 and 1 - `JellyfishMerkleRestore::new` panics. -/
theorem C70_new_over_a_tree_panics : ∃ ops y m, Reached Sample.T ops y ∧ Restore.new Sample.T y.store.reader 7 placeholder = .error (.panic m) := by
  obtain ⟨y, hy, h⟩ := Sample.of_check (ops := [.commit [[(Sample.key 0x10, some [1])]], .commit [[(Sample.key 0x80, some [2])]]])
    (p := fun s => Sample.panicked (Restore.new Sample.T s.reader 7 placeholder)) (by decide +kernel)
  obtain ⟨m, hm⟩ := Sample.of_panicked h
  exact ⟨_, y, m, hy, hm⟩

end Jmt
