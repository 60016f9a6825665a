import Verif.Proofs.PreHistory
import Verif.Props.RestoreSample
import Verif.Props.Overwrite
/-!
# C45: version 0 on top of a tree loaded before genesis
-/
namespace Jmt
open Spec (Entry)

section
variable {H : Hasher} {R : Reader} {m : List Entry} {mp : Spec.Map}

/-- What building and writing versions `0 .. sets.length - 1` over a pre-genesis tree gives. -/
theorem pre_commit {s : Store} (hl : Spec.Lists H mp m) (hne : m ≠ [])
    (ht : TreeAt H s.reader.getNodeOption preGenesisVersion m (fun _ => preGenesisVersion))
    (hfresh : ∀ w, w < preGenesisVersion → s.reader.getNodeOption ⟨w, []⟩ = .ok none)
    {ws : ValueSet} {rest : List ValueSet} (hL : Spec.TakesEffect mp ws) (hle : rest.length + 1 < 2 ^ 64) :
    ∃ hs b, putValueSets H s.reader (ws :: rest) 0 = .ok (hs, b) ∧ hs.length = rest.length + 1 ∧
      ∀ j, j < rest.length + 1 → ∀ es, Spec.Lists H (Spec.stateAfter mp (ws :: rest) (j + 1)) es →
        hs[j]? = some (Spec.root H es) ∧
        ∀ R', Spec.Written b.nodeBatch R' s.reader →
          getRootHash H R' j = .ok (Spec.root H es) ∧ getLeafCount R' j = .ok es.length ∧
          ∀ k, (Spec.stateAfter mp (ws :: rest) (j + 1) k = none ∨
              ∃ u wu, u ≤ j ∧ (ws :: rest)[u]? = some wu ∧ k ∈ wu.map Prod.fst) →
            ∃ P, getWithProof H R' k j = .ok (Spec.stateAfter mp (ws :: rest) (j + 1) k, P) ∧
              P.verify H (Spec.root H es) k (Spec.stateAfter mp (ws :: rest) (j + 1) k) = .ok () := by
  have hle' : rest.length + 1 ≤ preGenesisVersion := by unfold preGenesisVersion u64Size; omega
  obtain ⟨tc, pss, tc', infos, a1, a2, a3, a4, a5, -, -⟩ := pre_putSets (wp := false) hl.nodup hne ht hfresh (leaves_of hl hL) hle'
  have hlen : infos.length = rest.length + 1 := by rw [← List.length_map (f := StepInfo.ws), a3]; rfl
  refine ⟨tc'.frozen.rootHashes, tc'.finish.2, ?_, ?_, fun j hj es hes => ?_⟩
  · unfold putValueSets
    simp only [a1, ok_bind, a2]
    rfl
  · rw [a5, pushAll_hashes, hashAll_eq]; simp [Frozen.empty, hlen]
  have a4' : Run H 0 (nb s.nodes.get?) m (fun _ => preGenesisVersion) infos := a4
  obtain ⟨ver', t1, t2⟩ := a4'.trees (fun _ _ => ⟨by decide, .inr rfl⟩) (by omega) hl.nodup j (by omega)
  have hlj : Spec.Lists H (Spec.stateAfter mp (ws :: rest) (j + 1)) (((infos.map StepInfo.ws).take (j + 1)).foldl (updAll H) m) := by
    rw [a3]; exact lists_foldl _ hl
  have hperm := lists_perm hlj hes
  refine ⟨?_, fun R' hw => ?_⟩
  · rw [a5, pushAll_hashes, hashAll_eq]
    simp only [Frozen.empty, List.nil_append]
    rw [List.getElem?_map, List.getElem?_range (by omega)]
    rw [← root_perm hperm, root_eq_sh]; rfl
  obtain ⟨p1, p2⟩ := pushAll_nodes (H := H) (V := 0) (B := s.reader.getNodeOption) (m := m) (f := Frozen.empty) a4.nodup
  have hR' : R'.getNodeOption = nb (foldG s.nodes.get? infos) := by
    funext k
    have := congrFun (p1 s.nodes.get?) k
    rw [← a5] at this
    have he : overG Frozen.empty.nodeBatch.nodes s.nodes.get? = s.nodes.get? := by
      funext k; rfl
    rw [he] at this
    unfold nb
    rw [← this]
    unfold overG
    cases hg : tc'.frozen.nodeBatch.nodes.get? k with
    | some n => exact hw.new k n hg
    | none => rw [hw.old k hg]; rfl
  rw [← hR', Nat.zero_add] at t1
  have hroot : getRootHash H R' j = .ok (Spec.root H es) := by
    unfold getRootHash getRootNode getRootNodeOption
    have := t1.root
    rw [show NodeKey.root j = ⟨j, []⟩ from rfl, this, ok_bind, ok_bind, canonNode_hash t2, ← root_perm hperm, root_eq_sh]
    simp
  refine ⟨hroot, ?_, fun k hk => ?_⟩
  · unfold getLeafCount getRootNode getRootNodeOption
    have := t1.root
    rw [show NodeKey.root j = ⟨j, []⟩ from rfl, this, ok_bind, ok_bind, canonNode_leafCount]
    simp [hperm.length_eq]
  · obtain ⟨p5, -⟩ := pushAll_values (H := H) (f := Frozen.empty) a4
    have hvals : ∀ v k, tc'.finish.2.nodeBatch.values.get? (v, k) = (ws :: rest)[v]?.bind (fun ws => lastWrite ws k) := by
      intro v k
      show tc'.frozen.nodeBatch.values.get? (v, k) = _
      rw [a5, p5, ← a3, List.getElem?_map]
      simp only [Frozen.empty, AMap.get?_nil, Option.or_none, Nat.zero_le, if_true, Nat.sub_zero]
      cases infos[v]? <;> rfl
    have hval : Spec.stateAfter mp (ws :: rest) (j + 1) k ≠ none →
        R'.getValueOption j k = .ok (Spec.stateAfter mp (ws :: rest) (j + 1) k) := by
      intro hs
      obtain ⟨w, x, g1, g2, g3, g4⟩ := last_set (mp := mp) j (hk.resolve_left hs)
      rw [g4]
      exact hw.newValue j k w x (by rw [hvals]; exact g2) g1 (fun u x' h1 h2 => g3 u x' (by rw [← hvals]; exact h1) h2)
    refine ⟨specProof H (((infos.map StepInfo.ws).take (j + 1)).foldl (updAll H) m) k, ?_, ?_⟩
    · rw [getWithProof_spec t2 t1]
      cases hm : Spec.stateAfter mp (ws :: rest) (j + 1) k with
      | none =>
        have hno : ∀ vh, (k, vh) ∉ ((infos.map StepInfo.ws).take (j + 1)).foldl (updAll H) m := by
          intro vh hc
          obtain ⟨x, hx, -⟩ := (hlj.mem k vh).1 hc
          rw [hm] at hx; cases hx
        cases hlf : (specProof H (((infos.map StepInfo.ws).take (j + 1)).foldl (updAll H) m) k).leaf with
        | none => rfl
        | some e =>
          have hne : e.1 ≠ k := by
            intro hk
            exact hno e.2 ((specProof_leaf_iff (H := H) t2 k e.2).1 (by rw [hlf, ← hk]))
          simp [gwpVal, hne, ok_bind]
      | some x =>
        have hmem : (k, H.hash x) ∈ ((infos.map StepInfo.ws).take (j + 1)).foldl (updAll H) m := (hlj.mem k _).2 ⟨x, hm, rfl⟩
        rw [(specProof_leaf_iff (H := H) t2 k _).2 hmem]
        simp only [gwpVal, if_true, Reader.getValue, hval (by rw [hm]; simp), hm, ok_bind]
    · rw [← root_perm hperm, root_eq_sh]
      cases hm : Spec.stateAfter mp (ws :: rest) (j + 1) k with
      | none =>
        refine specProof_verifies_nonexistence t2 fun vh hc => ?_
        obtain ⟨x, hx, -⟩ := (hlj.mem k vh).1 hc
        rw [hm] at hx; cases hx
      | some x => exact specProof_verifies_existence t2 ((hlj.mem k _).2 ⟨x, hm, rfl⟩)

variable {ops : List Op} {y : Sys} {v : Version} {all : List (KeyHash × Value)} {checked ow : Bool} {root : Digest}

/-- C45, the part that holds: restore at the pre-genesis version (`u64::MAX`) as in C25, then build versions `0, 1, ..` on top with
`put_value_sets`, the first value set taking effect.  Then the call succeeds, returns the canonical roots of the restored map after
the value sets, and once the batch is written every version has that root, its number of leaves, and for every key that the value
sets write, or that is absent, `get_with_proof` returns the value of the map and a proof that verifies.
Missing (and false, see below): value sets without effect, and the values of the restored keys that have not been rewritten. -/
theorem C45_pregenesis_tree_partial (hr : Reached H ops y) (hb : (setsOf ops).length < 2 ^ 64) (hv : Readable ops v)
    (hall : SortedPairs (mapAt ops v) all) (hne : all ≠ []) (hroot : getRootHash H y.store.reader v = .ok root)
    (hph : ∀ p ∈ Spec.treeStrings H (Spec.hashed H all), p.hash H ≠ placeholder)
    (evs : List SendEvent) (sizes : List Nat) (hsizes : all.length ≤ (sizes.map (· + 1)).sum)
    {ws : ValueSet} {rest : List ValueSet} (hL : Spec.TakesEffect (mapAt ops v) ws) (hle : rest.length + 1 < 2 ^ 64) :
    ∃ z z' s', Sess.run H checked y.store.reader v all preGenesisVersion root (Sess.start ow preGenesisVersion root) evs = .ok z ∧
      Sess.run H checked y.store.reader v all preGenesisVersion root z (sizes.map .feed) = .ok z' ∧
      z'.receiver.finish H z'.store = .ok s' ∧
      ∃ hs b, putValueSets H s'.reader (ws :: rest) 0 = .ok (hs, b) ∧ hs.length = rest.length + 1 ∧
        ∀ j, j < rest.length + 1 → ∀ es, Spec.Lists H (Spec.stateAfter (mapAt ops v) (ws :: rest) (j + 1)) es →
          hs[j]? = some (Spec.root H es) ∧
          ∀ R', Spec.Written b.nodeBatch R' s'.reader →
            getRootHash H R' j = .ok (Spec.root H es) ∧ getLeafCount R' j = .ok es.length ∧
            ∀ k, (Spec.stateAfter (mapAt ops v) (ws :: rest) (j + 1) k = none ∨
                ∃ u wu, u ≤ j ∧ (ws :: rest)[u]? = some wu ∧ k ∈ wu.map Prod.fst) →
              ∃ P, getWithProof H R' k j = .ok (Spec.stateAfter (mapAt ops v) (ws :: rest) (j + 1) k, P) ∧
                P.verify H (Spec.root H es) k (Spec.stateAfter (mapAt ops v) (ws :: rest) (j + 1) k) = .ok () := by
  obtain ⟨hasc, hp, -, hl⟩ := honest_setting hr hb hv hall hroot
  have hnp : NP H (entriesOf H all) := np_of' hasc.nodup hph
  obtain ⟨z, p0, gp, h1, h2⟩ := sess_run (checked := checked) hr hb hv hall hroot hnp evs
    (sess_start (H := H) (all := all) (w := preGenesisVersion) (root := root) ow)
  obtain ⟨z', p0', h3, h4⟩ := feed_all (checked := checked) hr hb hv hall hroot hnp sizes h2 (by omega)
  obtain ⟨s', h5, h6, h7, rfl, h9⟩ := sess_finish h4 hne
  have hne' : entriesOf H p0' ≠ [] := fun hc => hne (List.map_eq_nil_iff.1 hc)
  refine ⟨z, z', s', h1, h3, h5, pre_commit (m := entriesOf H p0') ?_ hne' (h6.treeAt hne') ?_ hL hle⟩
  · exact hl
  · intro w hw
    show Except.ok (s'.nodes.get? ⟨w, []⟩) = _
    rw [h6.no ⟨w, []⟩ (fun h => by have h : w = preGenesisVersion := h.1; omega)]

theorem PreInv.calls {m : List Entry} {calls : List (List ValueSet)} : ∀ {R R' : Reader} {sets : List ValueSet}, PreInv H mp m R sets → sets ≠ [] →
    Spec.Calls H R sets.length calls R' → sets.length + calls.flatten.length < preGenesisVersion →
    PreInv H mp m R' (sets ++ calls.flatten) := by
  induction calls with
  | nil => intro R R' sets h _ hc _; cases hc; simpa using h
  | cons c rest ih =>
    intro R R' sets h hne hc hle
    simp only [List.flatten_cons, List.length_append] at hle ⊢
    cases hc with
    | cons h1 h2 h3 =>
      obtain ⟨hs, b, a1, -, a3⟩ := h.put hne c (by omega)
      rw [h1] at a1
      cases a1
      have := ih (a3 _ h2) (by simp [hne]) (by rw [List.length_append]; exact h3) (by rw [List.length_append]; omega)
      rwa [List.append_assoc] at this

/-- C45, the part that holds, for whole histories: restore at the pre-genesis version as in C25, then make any number of calls of
`put_value_sets`, each for the next versions and each batch written by any backend before the next call, the very first value set taking
effect.  Then every one of the versions has the canonical root of the restored map after the value sets, its number of leaves, and for
every key that the value sets wrote, or that is absent, `get_with_proof` returns the value of the map and a proof that verifies; and
the next call succeeds with the canonical roots.  Missing: as in `C45_pregenesis_tree_partial`. -/
theorem C45_pregenesis_history_partial (hr : Reached H ops y) (hb : (setsOf ops).length < 2 ^ 64) (hv : Readable ops v)
    (hall : SortedPairs (mapAt ops v) all) (hne : all ≠ []) (hroot : getRootHash H y.store.reader v = .ok root)
    (hph : ∀ p ∈ Spec.treeStrings H (Spec.hashed H all), p.hash H ≠ placeholder)
    (evs : List SendEvent) (sizes : List Nat) (hsizes : all.length ≤ (sizes.map (· + 1)).sum) :
    ∃ z z' s', Sess.run H checked y.store.reader v all preGenesisVersion root (Sess.start ow preGenesisVersion root) evs = .ok z ∧
      Sess.run H checked y.store.reader v all preGenesisVersion root z (sizes.map .feed) = .ok z' ∧
      z'.receiver.finish H z'.store = .ok s' ∧
      ∀ (ws : ValueSet) (rest : List ValueSet) (later : List (List ValueSet)) (sets : List ValueSet) (R' : Reader),
        Spec.TakesEffect (mapAt ops v) ws → sets = ((ws :: rest) :: later).flatten →
        Spec.Calls H s'.reader 0 ((ws :: rest) :: later) R' → sets.length < 2 ^ 64 - 1 →
        (∀ j, j < sets.length → ∀ es, Spec.Lists H (Spec.stateAfter (mapAt ops v) sets (j + 1)) es →
          getRootHash H R' j = .ok (Spec.root H es) ∧ getLeafCount R' j = .ok es.length ∧
          ∀ k, (Spec.stateAfter (mapAt ops v) sets (j + 1) k = none ∨ ∃ u wu, u ≤ j ∧ sets[u]? = some wu ∧ k ∈ wu.map Prod.fst) →
            ∃ P, getWithProof H R' k j = .ok (Spec.stateAfter (mapAt ops v) sets (j + 1) k, P) ∧
              P.verify H (Spec.root H es) k (Spec.stateAfter (mapAt ops v) sets (j + 1) k) = .ok ()) ∧
        ∀ more : List ValueSet, sets.length + more.length < 2 ^ 64 - 1 →
          ∃ hs b, putValueSets H R' more sets.length = .ok (hs, b) ∧ hs.length = more.length ∧
            ∀ i, i < more.length → ∀ es, Spec.Lists H (Spec.stateAfter (mapAt ops v) (sets ++ more) (sets.length + i + 1)) es →
              hs[i]? = some (Spec.root H es) := by
  obtain ⟨hasc, hp, -, hl⟩ := honest_setting hr hb hv hall hroot
  have hnp : NP H (entriesOf H all) := np_of' hasc.nodup hph
  obtain ⟨z, p0, gp, h1, h2⟩ := sess_run (checked := checked) hr hb hv hall hroot hnp evs
    (sess_start (H := H) (all := all) (w := preGenesisVersion) (root := root) ow)
  obtain ⟨z', p0', h3, h4⟩ := feed_all (checked := checked) hr hb hv hall hroot hnp sizes h2 (by omega)
  obtain ⟨s', h5, h6, h7, rfl, h9⟩ := sess_finish h4 hne
  have hne' : entriesOf H p0' ≠ [] := fun hc => hne (List.map_eq_nil_iff.1 hc)
  refine ⟨z, z', s', h1, h3, h5, ?_⟩
  intro ws rest later sets R' hL hsets hcalls hle
  have hpre : preGenesisVersion = 2 ^ 64 - 1 := rfl
  subst hsets
  simp only [List.flatten_cons, List.length_append, List.length_cons] at hle
  cases hcalls with
  | cons c1 c2 c3 =>
    have hl' : Spec.Lists H (mapAt ops v) (entriesOf H p0') := hl
    obtain ⟨hs, b, a1, -, a3⟩ := pre_put (R := s'.reader) (rest := rest) hl' hne' (h6.treeAt hne') (by
      intro w hw
      show Except.ok (s'.nodes.get? ⟨w, []⟩) = _
      rw [h6.no ⟨w, []⟩ (fun h => by have h : w = preGenesisVersion := h.1; omega)]) hL (by omega)
    rw [c1] at a1
    cases a1
    have hi := (a3 _ c2).calls (by simp) (by simpa using c3) (by simp only [List.length_cons]; omega)
    rw [show ((ws :: rest) :: later).flatten = (ws :: rest) ++ later.flatten from rfl]
    refine ⟨fun j hj es hes => hi.queries hl' hj hes, fun more hmore => ?_⟩
    obtain ⟨hs', b', d1, d2, -⟩ := hi.put (by simp) more (by omega)
    refine ⟨hs', b', d1, by rw [d2]; simp, fun i hi' es hes => ?_⟩
    have hlj : Spec.Lists H (Spec.stateAfter (mapAt ops v) ((ws :: rest) ++ later.flatten ++ more) (((ws :: rest) ++ later.flatten).length + i + 1))
        (preEntries H (entriesOf H p0') ((ws :: rest) ++ later.flatten ++ more) (((ws :: rest) ++ later.flatten).length + i + 1)) :=
      lists_foldl _ hl'
    rw [d2, List.getElem?_map, List.getElem?_range hi', ← root_perm (lists_perm hlj hes), root_eq_sh]
    rfl

end

/-- The hypotheses are met: the three keys of the sample history restored before genesis, then two value sets. -/
example : ∃ (y : Sys) (root : Digest) (z' : Sess) (s' : Store) (hs : List Digest) (b : TreeUpdateBatch), Reached Sample.T Sample.ops y ∧
    Sess.run Sample.T true y.store.reader 1 Sample.all1 preGenesisVersion root (Sess.start false preGenesisVersion root) [.feed 5] = .ok z' ∧
    z'.receiver.finish Sample.T z'.store = .ok s' ∧
    putValueSets Sample.T s'.reader [[(Sample.key 0x44, some [7])], [(Sample.key 0x10, none)]] 0 = .ok (hs, b) := by
  obtain ⟨y, hy⟩ := Sample.reached Sample.T
  have hroot := (hy.readAt Sample.bound Sample.readable1).rootHash
  obtain ⟨z, z', s', h1, h2, h3, hs, b, h4, -⟩ := C45_pregenesis_tree_partial (checked := true) (ow := false) hy Sample.bound
    Sample.readable1 Sample.sorted1 (by decide) hroot Sample.noPlaceholder1 [] [5] (by decide)
    (ws := [(Sample.key 0x44, some [7])]) (rest := [[(Sample.key 0x10, none)]])
    (.inl ⟨Sample.key 0x44, by simp, by simp [Spec.Map.writes, Spec.Map.write]⟩) (by decide)
  cases h1
  exact ⟨y, _, z', s', hs, b, hy, h2, h3, h4⟩

/-- ... and then a third value set in a second call. -/
example : ∃ (y : Sys) (root : Digest) (z' : Sess) (s' : Store) (R' : Reader), Reached Sample.T Sample.ops y ∧
    Sess.run Sample.T true y.store.reader 1 Sample.all1 preGenesisVersion root (Sess.start false preGenesisVersion root) [.feed 5] = .ok z' ∧
    z'.receiver.finish Sample.T z'.store = .ok s' ∧
    Spec.Calls Sample.T s'.reader 0
      [[[(Sample.key 0x44, some [7])], [(Sample.key 0x10, none)]], [[(Sample.key 0x44, none), (Sample.key 0x45, some [8])]]] R' ∧
    ∀ k, k = Sample.key 0x45 → ∃ P, getWithProof Sample.T R' k 2 = .ok (some [8], P) := by
  obtain ⟨y, hy⟩ := Sample.reached Sample.T
  have hroot := (hy.readAt Sample.bound Sample.readable1).rootHash
  have hL : Spec.TakesEffect (mapAt Sample.ops 1) [(Sample.key 0x44, some [7])] :=
    .inl ⟨Sample.key 0x44, by simp, by simp [Spec.Map.writes, Spec.Map.write]⟩
  obtain ⟨z0, z0', s0', h1', h2', h3', hs, b, h4, -⟩ := C45_pregenesis_tree_partial (checked := true) (ow := false) hy Sample.bound
    Sample.readable1 Sample.sorted1 (by decide) hroot Sample.noPlaceholder1 [] [5] (by decide)
    (ws := [(Sample.key 0x44, some [7])]) (rest := [[(Sample.key 0x10, none)]]) hL (by decide)
  obtain ⟨z, z', s', h1, h2, h3, h⟩ := C45_pregenesis_history_partial (checked := true) (ow := false) hy Sample.bound
    Sample.readable1 Sample.sorted1 (by decide) hroot Sample.noPlaceholder1 [] [5] (by decide)
  cases h1
  cases h1'
  rw [h2] at h2'
  cases h2'
  rw [h3'] at h3
  cases h3
  have h3 := h3'
  obtain ⟨R1, w1⟩ := written_exists b.nodeBatch s0'.reader
  obtain ⟨-, hnext⟩ := h [(Sample.key 0x44, some [7])] [[(Sample.key 0x10, none)]] [] _ R1 hL rfl (.cons h4 w1 (.nil _ _)) (by decide)
  obtain ⟨hs', b', h5, -⟩ := hnext [[(Sample.key 0x44, none), (Sample.key 0x45, some [8])]] (by decide)
  obtain ⟨R2, w2⟩ := written_exists b'.nodeBatch R1
  have hc := Spec.Calls.cons h4 w1 (.cons h5 w2 (.nil _ _))
  refine ⟨y, _, _, s0', R2, hy, h2, h3, hc, fun k hk => ?_⟩
  obtain ⟨hq, -⟩ := h [(Sample.key 0x44, some [7])] [[(Sample.key 0x10, none)]] _ _ R2 hL rfl hc (by decide)
  obtain ⟨-, -, h6⟩ := hq 2 (by decide) _ (lists_foldl (H := Sample.T) _ (lists_entriesAfter Sample.T (setsOf Sample.ops) 2))
  obtain ⟨P, h7, -⟩ := h6 k (.inr ⟨2, [(Sample.key 0x44, none), (Sample.key 0x45, some [8])], Nat.le_refl _, rfl, by simp [hk]⟩)
  refine ⟨P, ?_⟩
  rw [h7, hk]
  rfl

/-! ### What goes wrong -/

namespace Sample

/-- Restoring the two-key map `{0x10 ↦ 4, 0x80 ↦ 3}` at the pre-genesis version, pair by pair. -/
def preFed : Recv := (Recv.start false).run T true preGenesisVersion (Spec.root T es2) [.restart, chunk10, chunk80]

def preStore (p : Store → Bool) : Bool :=
  match preFed.receiver with
  | none => false
  | some r => okAnd (r.finish T preFed.store) p

theorem of_preStore {p : Store → Bool} (h : preStore p = true) :
    ∃ r s', preFed.result = .ok () ∧ preFed.receiver = some r ∧ r.finish T preFed.store = .ok s' ∧ p s' = true := by
  unfold preStore at h
  cases hr : preFed.receiver with
  | none => rw [hr] at h; cases h
  | some r =>
    rw [hr] at h
    obtain ⟨s', h1, h2⟩ := of_okAnd h
    exact ⟨r, s', ok_of (by decide +kernel), rfl, h1, h2⟩

/-- C45 is false of the code (1): after a value set without effect at version 0 the returned root is that of the restored map, but no
root is written for version 0: it cannot be read, and version 1 is built as if nothing had been restored. -/
theorem _root_.Jmt.C45_noop_loses_tree : ∃ r s' h s1 h1 s2 e, preFed.result = .ok () ∧ preFed.receiver = some r ∧
    r.finish T preFed.store = .ok s' ∧ s'.commit T [[(key 0x1f, none)]] 0 = .ok ([h], s1) ∧ h = Spec.root T es2 ∧
    getRootHash T s1.reader 0 = .error e ∧
    s1.commit T [[(key 0x44, some [7])]] 1 = .ok ([h1], s2) ∧ h1 = Spec.root T [(key 0x44, T.hash [7])] := by
  have key : preStore (fun s' => okAnd (s'.commit T [[(key 0x1f, none)]] 0) (fun r1 =>
      decide (r1.1 = [Spec.root T es2]) && (match getRootHash T r1.2.reader 0 with | .ok _ => false | .error _ => true) &&
      okAnd (r1.2.commit T [[(Sample.key 0x44, some [7])]] 1) (fun r2 =>
        decide (r2.1 = [Spec.root T [(Sample.key 0x44, T.hash [7])]])))) = true := by decide +kernel
  obtain ⟨r, s', g1, g2, g3, key⟩ := of_preStore key
  obtain ⟨⟨hs, s1⟩, g4, key⟩ := of_okAnd key
  simp only [Bool.and_eq_true, decide_eq_true_eq] at key
  obtain ⟨⟨rfl, g5⟩, key⟩ := key
  obtain ⟨⟨hs2, s2⟩, g6, key⟩ := of_okAnd key
  simp only [decide_eq_true_eq] at key
  subst key
  cases hg : getRootHash T s1.reader 0 with
  | ok a => rw [hg] at g5; cases g5
  | error e => exact ⟨r, s', _, s1, _, s2, e, g1, g2, g3, g4, rfl, hg, g6, rfl⟩

/-- C45 is false of the code (2): after committing another key at version 0, the restored key `0x10` is in the tree (two restored leaves
and the new one), but `get` does not find its value and `get_with_proof` fails. -/
theorem _root_.Jmt.C45_restored_values_invisible : ∃ r s' hs s1 e, preFed.result = .ok () ∧ preFed.receiver = some r ∧
    r.finish T preFed.store = .ok s' ∧ s'.commit T [[(key 0x44, some [7])]] 0 = .ok (hs, s1) ∧
    getLeafCount s1.reader 0 = .ok 3 ∧ get s1.reader (key 0x10) 0 = .ok none ∧
    getWithProof T s1.reader (key 0x10) 0 = .error e := by
  have key : preStore (fun s' => okAnd (s'.commit T [[(key 0x44, some [7])]] 0) (fun r1 =>
      okAnd (getLeafCount r1.2.reader 0) (fun n => decide (n = 3)) &&
      okAnd (get r1.2.reader (Sample.key 0x10) 0) (fun x => decide (x = none)) &&
      (match getWithProof T r1.2.reader (Sample.key 0x10) 0 with | .ok _ => false | .error _ => true))) = true := by decide +kernel
  obtain ⟨r, s', g1, g2, g3, key⟩ := of_preStore key
  obtain ⟨⟨hs, s1⟩, g4, key⟩ := of_okAnd key
  simp only [Bool.and_eq_true] at key
  obtain ⟨⟨k1, k2⟩, k3⟩ := key
  obtain ⟨n, k1, k1'⟩ := of_okAnd k1
  obtain ⟨x, k2, k2'⟩ := of_okAnd k2
  obtain rfl := of_decide_eq_true k1'
  obtain rfl := of_decide_eq_true k2'
  cases hg : getWithProof T s1.reader (Sample.key 0x10) 0 with
  | ok a => rw [hg] at k3; cases k3
  | error e => exact ⟨r, s', hs, s1, e, g1, g2, g3, g4, k1, k2, hg⟩

/-- C45 is false of the code (3): a new value of the restored key `0x10` at version 0 is accepted by `put_value_sets`, but the batch cannot
be written to the mock store: its values have to come in the order of the versions, and the restored one is at the largest version. -/
theorem _root_.Jmt.C45_restored_key_not_writable : ∃ r s' hs b m, preFed.result = .ok () ∧ preFed.receiver = some r ∧
    r.finish T preFed.store = .ok s' ∧ putValueSets T s'.reader [[(key 0x10, some [5])]] 0 = .ok (hs, b) ∧
    s'.writeTreeUpdateBatch b = .error (.bail m) := by
  have key : preStore (fun s' => okAnd (putValueSets T s'.reader [[(key 0x10, some [5])]] 0) (fun r1 =>
      bailed (s'.writeTreeUpdateBatch r1.2))) = true := by decide +kernel
  obtain ⟨r, s', g1, g2, g3, key⟩ := of_preStore key
  obtain ⟨⟨hs, b⟩, g4, key⟩ := of_okAnd key
  obtain ⟨m, hm⟩ := of_bailed key
  exact ⟨r, s', hs, b, m, g1, g2, g3, g4, hm⟩

end Sample
end Jmt
