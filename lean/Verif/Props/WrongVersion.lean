import Verif.Proofs.Gap
import Verif.Props.Batch
import Verif.Props.Fork
/-!
# C52: writing at a version that is not the next one

A user would expect such a write to be refused.  The batch API refuses a version whose predecessor is missing; the others take
the missing tree for an empty one.  The in-memory store refuses a version it already has.
-/
namespace Jmt
open Spec (Entry Lists Leftover NeverDeletesFromEmpty)

section
variable {H : Hasher} {ops : List Op} {y : Sys} {w v : Version}

/-- The batch API refuses a version whose predecessor has never been committed. -/
theorem C52_batch_gap_refused (hr : Reached H ops y) (hb : (setsOf ops).length < 2 ^ 64) (hw : y.next < w)
    (set : List (KeyHash × Value)) (rest) (hne : set ≠ []) :
    batchPutValueSets H y.store.reader (set :: rest) none w = .error (.missingNode ⟨w - 1, []⟩) := by
  obtain ⟨hn, -⟩ := hr.inv hb
  exact C15_missing_previous_root_fails _ set rest w (by omega) hne (C32_uncommitted hr hb (by omega))

/-- The other API does not: for a version after the next one it succeeds and returns the canonical roots of the value sets
applied to the *empty* map - whatever the store holds is forgotten. -/
theorem C52_gap_starts_from_empty (hr : Reached H ops y) (hb : (setsOf ops).length < 2 ^ 64) (hw : y.next < w)
    (ws : ValueSet) (rest : List ValueSet) (hb' : w + (rest.length + 1) < 2 ^ 64)
    (hleft : ∃ k x, Spec.Map.empty.writes ws k = some x) :
    ∃ hs b, putValueSets H y.store.reader (ws :: rest) w = .ok (hs, b) ∧ hs.length = rest.length + 1 ∧
      ∀ j, j < rest.length + 1 → ∀ es, Lists H (Spec.stateAfter Spec.Map.empty (ws :: rest) (j + 1)) es →
        hs[j]? = some (Spec.root H es) := by
  obtain ⟨hn, -⟩ := hr.inv hb
  have l0 : Lists H Spec.Map.empty [] := ⟨by simp, by simp [Spec.Map.empty]⟩
  have hL : updAll H [] ws ≠ [] := by
    intro h
    obtain ⟨k, x, hk⟩ := hleft
    have hl := (lists_updAll ws l0).mem k (H.hash x)
    rw [h] at hl
    have := hl.2 ⟨x, hk, rfl⟩
    cases this
  obtain ⟨tc, pss, tc', infos, a0, a1, a2, a3, a4, -, -⟩ := gap_putSets (H := H) (R := y.store.reader) (V := w) (F := True)
    (by omega) (C32_uncommitted hr hb (by omega)) (fun _ u h1 _ => C32_uncommitted hr hb (by omega)) (ws := ws) (rest := rest)
    (.inl trivial) hL (by unfold preGenesisVersion u64Size; omega) false
  have hlen : infos.length = rest.length + 1 := by rw [← List.length_map (f := StepInfo.ws), a2]; rfl
  have hroots : tc'.finish.1 = hashAll H [] infos := by
    show tc'.frozen.rootHashes = _
    rw [a4, pushAll_hashes]; rfl
  refine ⟨tc'.finish.1, tc'.finish.2, ?_, ?_, fun j hj es hes => ?_⟩
  · unfold putValueSets
    rw [a0, ok_bind, a1]; rfl
  · rw [hroots, hashAll_eq]; simp [hlen]
  · rw [hroots, hashAll_eq, List.getElem?_map, List.getElem?_range (by omega), a2, Option.map_some, ← root_eq_sh]
    congr 1
    exact root_perm (lists_perm (lists_foldl _ l0) hes)

/-- Deleting from a tree whose root is missing changes nothing in the cache but the values. -/
theorem putAll_gap {V : Nat} (ws : ValueSet) : ∀ (tc : TreeCache), tc.rootNodeKey = ⟨V, []⟩ → tc.getNodeOption ⟨V, []⟩ = .ok none →
    (∀ x ∈ ws, x.2 = none) → ∃ vc, putAll H w false ws tc = .ok ([], { tc with valueCache := vc }) := by
  induction ws with
  | nil => intro tc _ _ _; exact ⟨tc.valueCache, rfl⟩
  | cons x ws ih =>
    intro tc h1 h2 hx
    obtain ⟨k, o⟩ := x
    obtain rfl : o = none := hx (k, o) (by simp)
    obtain ⟨vc, ih⟩ := ih (tc.putValue w k none) h1 h2 (fun y hy => hx y (by simp [hy]))
    refine ⟨vc, ?_⟩
    have hput : put H k (Option.map H.hash none) w (tc.putValue w k none) false = .ok (none, tc.putValue w k none) := by
      unfold put
      have : insertAt H w (Option.map H.hash none) false k.nibbles [] (tc.putValue w k none).rootNodeKey (tc.putValue w k none) =
          .ok (.notChanged, none, tc.putValue w k none) := by
        show insertAt H w none false k.nibbles [] tc.rootNodeKey (tc.putValue w k none) = _
        rw [h1]
        unfold insertAt
        have : (tc.putValue w k none).getNodeOption ⟨V, []⟩ = .ok none := h2
        rw [this]
        simp only [ok_bind]
        unfold insertAtNull
        simp [proofIf]
      rw [this]; rfl
    unfold putAll
    simp only [hput, ok_bind, ih]
    rfl

/-- A set that deletes only, at a version after the next one: the call succeeds, but the one node of the update is the null
root of the version *before* the one asked for.  The version asked for has no root even after the update is written. -/
theorem C52_noop_gap_writes_predecessor (hr : Reached H ops y) (hb : (setsOf ops).length < 2 ^ 64) (hw : y.next < w)
    (hw' : w + 1 < 2 ^ 64) (ws : ValueSet) (hdel : ∀ x ∈ ws, x.2 = none) :
    ∃ b, putValueSets H y.store.reader [ws] w = .ok ([placeholder], b) ∧ b.nodeBatch.nodes = [(⟨w - 1, []⟩, .null)] ∧
      ∀ s', y.store.writeTreeUpdateBatch b = .ok s' →
        getRootHash H s'.reader w = .error (.missingRoot w) ∧ getRootHash H s'.reader (w - 1) = .ok placeholder := by
  obtain ⟨hn, -⟩ := hr.inv hb
  have hm : y.store.reader.getNodeOption ⟨w - 1, []⟩ = .ok none := C32_uncommitted hr hb (by omega)
  have hm' : y.store.reader.getNodeOption ⟨w, []⟩ = .ok none := C32_uncommitted hr hb (by omega)
  obtain ⟨vc, hp⟩ := putAll_gap (H := H) (w := w) (V := w - 1) ws ⟨NodeKey.root (w - 1), w, [], [], 0, [], 0, Frozen.empty, y.store.reader⟩
    rfl hm hdel
  have hfr : TreeCache.freeze H ⟨NodeKey.root (w - 1), w, [], vc, 0, [], 0, Frozen.empty, y.store.reader⟩ =
      .ok ⟨NodeKey.root (w - 1), w + 1, [], [], 0, [], 0,
        ⟨⟨[(⟨w - 1, []⟩, .null)], vc.foldl (fun m e => m.insert e.1 e.2) []⟩, [], [⟨1, 0, 0, 0⟩], [placeholder]⟩, y.store.reader⟩ := by
    have h1 : TreeCache.freezeRoot ⟨NodeKey.root (w - 1), w, [], vc, 0, [], 0, Frozen.empty, y.store.reader⟩ =
        .ok (.null, ⟨NodeKey.root (w - 1), w, [(⟨w - 1, []⟩, .null)], vc, 0, [], 0, Frozen.empty, y.store.reader⟩) := by
      unfold TreeCache.freezeRoot
      have : TreeCache.getNodeOption ⟨NodeKey.root (w - 1), w, [], vc, 0, [], 0, Frozen.empty, y.store.reader⟩ (NodeKey.root (w - 1)) =
        .ok none := hm
      rw [this]
      rfl
    unfold TreeCache.freeze
    rw [h1]
    simp only [ok_bind]
    have h2 : u64Size = 2 ^ 64 := rfl
    simp only [TreeCache.freezeCopy, Node.hash, ok_bind]
    rw [if_neg (by simp)]
    simp only [ok_bind, TreeCache.freezeDrain]
    rw [if_pos (by omega)]
    rfl
  have hput : putValueSets H y.store.reader [ws] w = .ok ([placeholder], ⟨⟨[(⟨w - 1, []⟩, .null)], vc.foldl (fun m e => m.insert e.1 e.2) []⟩, [], [⟨1, 0, 0, 0⟩]⟩) := by
    unfold putValueSets TreeCache.new
    rw [if_neg (by omega)]
    simp only [ok_bind, putSets, hp, hfr]
    rfl
  refine ⟨_, hput, rfl, fun s' hs' => ?_⟩
  unfold Store.writeTreeUpdateBatch Store.writeNodeBatch at hs'
  obtain ⟨s1, hs1, hs2⟩ := bind_ok_inv hs'
  obtain ⟨ns, hns, hs3⟩ := bind_ok_inv hs1
  obtain ⟨vs, hvs, hs4⟩ := bind_ok_inv hs3
  obtain ⟨st, hst, hs5⟩ := bind_ok_inv hs2
  have hg : y.store.nodes.get? ⟨w - 1, []⟩ = none := Except.ok.inj hm
  have hg' : y.store.nodes.get? ⟨w, []⟩ = none := Except.ok.inj hm'
  have hns' : ns = y.store.nodes.insert ⟨w - 1, []⟩ .null := by
    unfold Store.insertNodes at hns
    rw [hg] at hns
    simp only [Option.isSome_none, Bool.and_false, Bool.false_eq_true, if_false, Store.insertNodes] at hns
    exact (Except.ok.inj hns).symm
  cases hs4
  cases hs5
  have hread : ∀ k, (Store.reader { y.store with nodes := ns, values := vs, stale := st }).getNodeOption k = .ok (ns.get? k) := fun _ => rfl
  constructor
  · refine (C32_missing_root (H := H) _ ⟨List.replicate 32 0, rfl⟩ w ?_).2.1
    show Except.ok (ns.get? ⟨w, []⟩) = _
    rw [hns', AMap.get?_insert, if_neg (by intro h; have := congrArg NodeKey.version h; simp at this; omega), hg']
  · unfold getRootHash getRootNode getRootNodeOption
    have : (Store.reader { y.store with nodes := ns, values := vs, stale := st }).getNodeOption (NodeKey.root (w - 1)) = .ok (some .null) := by
      show Except.ok (ns.get? ⟨w - 1, []⟩) = _
      rw [hns', AMap.get?_insert, if_pos rfl]
    rw [this]; rfl

/-! ### A version that is already there -/

theorem insertNodes_taken {k : NodeKey} : ∀ (l : List (NodeKey × Node)) (m : AMap NodeKey Node), (∃ n, (k, n) ∈ l) → (m.get? k).isSome →
    ∃ msg, Store.insertNodes false l m = .error (.panic msg) := by
  intro l
  induction l with
  | nil => rintro m ⟨n, hn⟩; cases hn
  | cons e l ih =>
    obtain ⟨k', n'⟩ := e
    rintro m ⟨n, hn⟩ hk
    unfold Store.insertNodes
    by_cases h : (m.get? k').isSome
    · rw [if_pos (by simp [h])]; exact ⟨_, rfl⟩
    · rw [if_neg (by simp [h])]
      have hne : k' ≠ k := by rintro rfl; exact h hk
      refine ih _ ⟨n, ?_⟩ ?_
      · rcases List.mem_cons.1 hn with h' | h'
        · cases h'; exact absurd rfl hne
        · exact h'
      · rw [AMap.get?_insert]
        split
        · rfl
        · exact hk

/-- The in-memory store without overwriting refuses a batch with a node it already has. -/
theorem write_taken {s : Store} {b : TreeUpdateBatch} {k : NodeKey} (how : s.allowOverwrite = false)
    (h1 : ∃ n, b.nodeBatch.nodes.get? k = some n) (h2 : (s.nodes.get? k).isSome) :
    ∃ msg, s.writeTreeUpdateBatch b = .error (.panic msg) := by
  obtain ⟨n, h1⟩ := h1
  obtain ⟨msg, h⟩ := insertNodes_taken b.nodeBatch.nodes s.nodes ⟨n, AMap.mem_of_get? h1⟩ h2
  refine ⟨msg, ?_⟩
  unfold Store.writeTreeUpdateBatch Store.writeNodeBatch
  rw [how, h]; rfl

/-- The in-memory store (without `allow_overwrite`) refuses a commit at a version it already has: `write_tree_update_batch`
panics. -/
theorem C52_mock_refuses_committed_version (hr : Reached H ops y) (hb : (setsOf ops).length < 2 ^ 64)
    (how : y.store.allowOverwrite = false) (hv : Readable ops v) (hv' : v + 1 < (setsOf ops).length) (sets : List ValueSet)
    (hne : sets ≠ []) (hb' : v + 1 + sets.length < 2 ^ 64) (hsafe : NeverDeletesFromEmpty (mapAt ops v) sets) :
    ∃ msg, y.store.commit H sets (v + 1) = .error (.panic msg) := by
  obtain ⟨-, hi⟩ := hr.inv hb
  obtain ⟨res, b, -, h1, h2⟩ := hi.past_put hv.1 hv.2 sets hsafe (by unfold preGenesisVersion u64Size; omega)
  have hput := (h2 y.store.reader (fun k n _ hn => by show Except.ok _ = _; rw [hn])).2
  obtain ⟨n, hroot⟩ : ∃ n, y.store.reader.getNodeOption ⟨v + 1, []⟩ = .ok (some n) := by
    obtain ⟨ver, t⟩ := (hr.readAt (v := v + 1) hb ⟨Nat.le_succ_of_le hv.1, hv'⟩).tree
    exact ⟨_, t.root⟩
  have hroot : y.store.nodes.get? ⟨v + 1, []⟩ = some n := Except.ok.inj hroot
  obtain ⟨msg, h3⟩ := write_taken how (h1 0 (List.length_pos_iff.2 hne)) (by rw [show v + 1 + 0 = v + 1 from rfl, hroot]; rfl)
  refine ⟨msg, ?_⟩
  unfold Store.commit
  rw [hput, ok_bind]
  show (y.store.writeTreeUpdateBatch b >>= _) = _
  rw [h3]; rfl

/-- The batch API, likewise. -/
theorem C52_mock_refuses_committed_version_batch (hr : Reached H ops y) (hb : (setsOf ops).length < 2 ^ 64)
    (how : y.store.allowOverwrite = false) (hv : Readable ops v) (hv' : v + 1 < (setsOf ops).length)
    (sets : List (List (KeyHash × Value))) (hne : sets ≠ []) (hnes : ∀ s ∈ sets, s ≠ []) (hb' : v + 1 + sets.length < 2 ^ 64) :
    ∃ msg, y.store.commitBatch H sets none (v + 1) = .error (.panic msg) := by
  obtain ⟨-, hi⟩ := hr.inv hb
  obtain ⟨hs, b, -, h1, h2⟩ := hi.past_batch hv.1 hv.2 sets hnes (by unfold preGenesisVersion u64Size; omega)
  have hput := h2 y.store.reader (fun k n _ hn => by show Except.ok _ = _; rw [hn])
  obtain ⟨n, hroot⟩ : ∃ n, y.store.reader.getNodeOption ⟨v + 1, []⟩ = .ok (some n) := by
    obtain ⟨ver, t⟩ := (hr.readAt (v := v + 1) hb ⟨Nat.le_succ_of_le hv.1, hv'⟩).tree
    exact ⟨_, t.root⟩
  have hroot : y.store.nodes.get? ⟨v + 1, []⟩ = some n := Except.ok.inj hroot
  obtain ⟨msg, h3⟩ := write_taken how (h1 0 (List.length_pos_iff.2 hne)) (by rw [show v + 1 + 0 = v + 1 from rfl, hroot]; rfl)
  refine ⟨msg, ?_⟩
  unfold Store.commitBatch
  rw [hput, ok_bind]
  show (y.store.writeTreeUpdateBatch b >>= _) = _
  rw [h3]; rfl

/-- The first version again. -/
theorem C52_mock_refuses_version_zero (hr : Reached H ops y) (hb : (setsOf ops).length < 2 ^ 64)
    (how : y.store.allowOverwrite = false) (hv : Readable ops 0) (sets : List ValueSet) (hne : sets ≠ [])
    (hb' : sets.length < 2 ^ 64) (hsafe : NeverDeletesFromEmpty Spec.Map.empty sets) :
    ∃ msg, y.store.commit H sets 0 = .error (.panic msg) := by
  obtain ⟨-, hi⟩ := hr.inv hb
  obtain ⟨⟨M, W, hI, -⟩, -, -⟩ := hi
  have hempty : Reached H [] ⟨Store.new false, 0⟩ := ⟨false, rfl⟩
  obtain ⟨hs, b, s', a1, a2, a3, a4, a5⟩ := hempty.commit sets (by simpa [setsOf] using hb')
  have hl : Leftover 0 y.store.reader (Store.new false).reader := by
    refine ⟨fun k hk => ?_, fun w k hw => by omega⟩
    rcases hk with hk | hk
    · omega
    · show Except.ok (y.store.nodes.get? k) = Except.ok _
      cases hg : y.store.nodes.get? k with
      | none => rfl
      | some n => have := hI.lt _ _ hg; unfold preGenesisVersion u64Size at hk; omega
  obtain ⟨⟨r, e1, e2⟩, -⟩ := C42_leftovers_same_update hempty sets (by simpa [setsOf] using hb') hl (.inr hsafe)
  have a1 : putValueSets H (Store.new false).reader sets 0 = .ok (hs, b) := a1
  have e2 : putValueSets H (Store.new false).reader sets 0 = .ok r := e2
  rw [a1] at e2
  cases e2
  have e1 : putValueSets H y.store.reader sets 0 = .ok (hs, b) := e1
  have hlen : (setsOf ([] ++ [Op.commit sets])).length = sets.length := by simp [setsOf]
  have hb1 : ∃ n, b.nodeBatch.nodes.get? ⟨0, []⟩ = some n := by
    have hpos := List.length_pos_iff.2 hne
    obtain ⟨ver, t⟩ := (a5.readAt (v := 0) (by omega) ⟨by simp [horizon, horizonStep], by omega⟩).tree
    have hroot : s'.nodes.get? ⟨0, []⟩ = some _ := Except.ok.inj t.root
    rw [a4.nodes] at hroot
    cases hbk : b.nodeBatch.nodes.get? ⟨0, []⟩ with
    | some n => exact ⟨n, rfl⟩
    | none =>
      rw [hbk] at hroot
      cases hroot
  obtain ⟨n, hroot⟩ : ∃ n, y.store.reader.getNodeOption ⟨0, []⟩ = .ok (some n) := by
    obtain ⟨ver, t⟩ := (hr.readAt (v := 0) hb hv).tree
    exact ⟨_, t.root⟩
  have hroot : y.store.nodes.get? ⟨0, []⟩ = some n := Except.ok.inj hroot
  obtain ⟨msg, h3⟩ := write_taken how hb1 (by rw [hroot]; rfl)
  refine ⟨msg, ?_⟩
  unfold Store.commit
  rw [e1, ok_bind]
  show (y.store.writeTreeUpdateBatch b >>= _) = _
  rw [h3]; rfl

theorem write_flag {s s' : Store} {b : TreeUpdateBatch} (h : s.writeTreeUpdateBatch b = .ok s') : s'.allowOverwrite = s.allowOverwrite := by
  unfold Store.writeTreeUpdateBatch Store.writeNodeBatch at h
  obtain ⟨s1, hs1, hs2⟩ := bind_ok_inv h
  obtain ⟨ns, hns, hs3⟩ := bind_ok_inv hs1
  obtain ⟨vs, hvs, hs4⟩ := bind_ok_inv hs3
  obtain ⟨st, hst, hs5⟩ := bind_ok_inv hs2
  cases hs4
  cases hs5
  rfl

theorem purgeLoop_flag : ∀ (l : List StaleNodeIndex) {s s' : Store}, Store.purgeLoop l s = .ok s' → s'.allowOverwrite = s.allowOverwrite := by
  intro l
  induction l with
  | nil => intro s s' h; cases h; rfl
  | cons i l ih =>
    intro s s' h
    unfold Store.purgeLoop at h
    cases hg : s.nodes.get? i.nodeKey with
    | none => rw [hg] at h; cases h
    | some n =>
      rw [hg] at h
      have := ih h
      exact this

/-- No operation of a history changes whether the store allows overwriting. -/
theorem Sys.run_flag (ops : List Op) : ∀ {y z : Sys}, Sys.run H ops y = .ok z → z.store.allowOverwrite = y.store.allowOverwrite := by
  induction ops with
  | nil => intro y z h; cases h; rfl
  | cons op ops ih =>
    intro y z h
    obtain ⟨x, h1, h2⟩ := bind_ok_inv (show (y.step H op >>= fun z => Sys.run H ops z) = .ok z from h)
    rw [ih h2]
    cases op with
    | commit sets =>
      obtain ⟨a, e1, e2⟩ := bind_ok_inv h1
      unfold Store.commit at e1
      obtain ⟨c, e3, e4⟩ := bind_ok_inv e1
      obtain ⟨s', e5, e6⟩ := bind_ok_inv e4
      cases e6; cases e2
      exact write_flag e5
    | batch sets =>
      obtain ⟨a, e1, e2⟩ := bind_ok_inv h1
      unfold Store.commitBatch at e1
      obtain ⟨c, e3, e4⟩ := bind_ok_inv e1
      obtain ⟨s', e5, e6⟩ := bind_ok_inv e4
      cases e6; cases e2
      exact write_flag e5
    | purge r =>
      obtain ⟨s', e1, e2⟩ := bind_ok_inv h1
      cases e2
      exact purgeLoop_flag _ e1

/-- C52 in full would be: a write at a version other than the next one is refused, by every API.  What holds: the batch API
refuses a version with a gap before it, and the in-memory store without `allow_overwrite` refuses every version that is
already there (given that the one before it is retained).  Missing: `put_value_sets` accepts a gap
(`C52_gap_starts_from_empty`, `C52_gap_hides_data`). -/
theorem C52_wrong_version_refused_partial (hr : Reached H ops y) (hb : (setsOf ops).length < 2 ^ 64) :
    (∀ w, y.next < w → ∀ (set : List (KeyHash × Value)) rest, set ≠ [] →
      ∃ e, y.store.commitBatch H (set :: rest) none w = .error e) ∧
    (y.store.allowOverwrite = false → ∀ v, Readable ops v → v + 1 < y.next →
      (∀ sets : List ValueSet, sets ≠ [] → v + 1 + sets.length < 2 ^ 64 → NeverDeletesFromEmpty (mapAt ops v) sets →
        ∃ e, y.store.commit H sets (v + 1) = .error e) ∧
      (∀ sets : List (List (KeyHash × Value)), sets ≠ [] → (∀ s ∈ sets, s ≠ []) → v + 1 + sets.length < 2 ^ 64 →
        ∃ e, y.store.commitBatch H sets none (v + 1) = .error e)) := by
  obtain ⟨hn, -⟩ := hr.inv hb
  refine ⟨fun w hw set rest hne => ⟨.missingNode ⟨w - 1, []⟩, ?_⟩, fun how v hv hv' => ⟨fun sets h1 h2 h3 => ?_, fun sets h1 h2 h3 => ?_⟩⟩
  · unfold Store.commitBatch
    rw [C52_batch_gap_refused hr hb hw set rest hne]; rfl
  · obtain ⟨msg, h⟩ := C52_mock_refuses_committed_version hr hb how hv (by omega) sets h1 h2 h3
    exact ⟨_, h⟩
  · obtain ⟨msg, h⟩ := C52_mock_refuses_committed_version_batch hr hb how hv (by omega) sets h1 h2 h3
    exact ⟨_, h⟩

end

/-! ### Witnesses -/

namespace Sample

/-- C52 is false of the code: version 0 holds a key; a commit at version 2 (there is no version 1) succeeds, also on the
in-memory store.  At version 2 `get` still finds the key while `get_with_proof` of the same key and version says it is absent,
and the root is that of the new entry alone. -/
theorem _root_.Jmt.C52_gap_hides_data :
    ∃ s s' : Store, ∃ hs0 hs p, (Store.new false).commit T [[(key 0x10, some [1])]] 0 = .ok (hs0, s) ∧
      s.commit T [[(key 0x80, some [2])]] 2 = .ok (hs, s') ∧ hs = [Spec.root T [(key 0x80, T.hash [2])]] ∧
      get s'.reader (key 0x10) 2 = .ok (some [1]) ∧ getWithProof T s'.reader (key 0x10) 2 = .ok (none, p) := by
  have key : okAnd ((Store.new false).commit T [[(key 0x10, some [1])]] 0) (fun r =>
      okAnd (r.2.commit T [[(key 0x80, some [2])]] 2) (fun a =>
        okAnd (get a.2.reader (key 0x10) 2) (fun g =>
        okAnd (getWithProof T a.2.reader (key 0x10) 2) (fun q =>
          decide (a.1 = [Spec.root T [(Sample.key 0x80, T.hash [2])]] ∧ g = some [1] ∧ q.1 = none))))) = true := by
    decide +kernel
  obtain ⟨⟨hs0, s⟩, h0, key⟩ := of_okAnd key
  obtain ⟨⟨hs, s'⟩, h1, key⟩ := of_okAnd key
  obtain ⟨g, h2, key⟩ := of_okAnd key
  obtain ⟨⟨q, p⟩, h3, key⟩ := of_okAnd key
  obtain ⟨h4, h5, h6⟩ := of_decide_eq_true key
  subst h5
  have h6 : q = none := h6
  subst h6
  exact ⟨s, s', hs0, hs, p, h0, h1, h4, h2, h3⟩

/-- The sample history and a commit at version 9 instead of 5. -/
example : ∃ y hs b, Reached T Sample.ops y ∧
    putValueSets T y.store.reader [[(key 0x80, none), (key 0x33, some [9])], []] 9 = .ok (hs, b) ∧
    hs[1]? = some (Spec.root T [(key 0x33, T.hash [9])]) := by
  obtain ⟨y, hy⟩ := Sample.reached T
  have hn := (hy.inv Sample.bound).1
  obtain ⟨hs, b, h1, -, h3⟩ := C52_gap_starts_from_empty (w := 9) hy Sample.bound (by rw [hn]; decide) [(key 0x80, none), (key 0x33, some [9])] [[]]
    (by decide) ⟨key 0x33, [9], by decide⟩
  refine ⟨y, hs, b, hy, h1, h3 1 (by decide) _ ⟨by simp, fun k vh => ?_⟩⟩
  have hst : ∀ k, Spec.stateAfter Spec.Map.empty [[(key 0x80, none), (key 0x33, some [9])], []] 2 k =
      if k = key 0x33 then some [9] else none := by
    intro k
    simp only [Spec.stateAfter, List.take, List.foldl, Spec.Map.writes, Spec.Map.write, Spec.Map.empty]
    split
    · rfl
    · split <;> rfl
  rw [hst]
  constructor
  · intro h
    simp only [List.mem_singleton, Prod.mk.injEq] at h
    obtain ⟨rfl, rfl⟩ := h
    exact ⟨[9], by simp, rfl⟩
  · rintro ⟨v, h1, rfl⟩
    split at h1
    · cases h1; next h => simp [h]
    · cases h1

example : ∃ y b, Reached H Sample.ops y ∧ putValueSets H y.store.reader [[(key 0x10, none)]] 9 = .ok ([placeholder], b) := by
  obtain ⟨y, hy⟩ := Sample.reached H
  have hn := (hy.inv Sample.bound).1
  obtain ⟨b, h1, -⟩ := C52_noop_gap_writes_predecessor (w := 9) hy Sample.bound (by rw [hn]; decide) (by decide) [(key 0x10, none)] (by decide)
  exact ⟨y, b, hy, h1⟩

/-- Version 2 of the sample history again: its deletion is refused by the store. -/
example : ∃ y, Reached H Sample.ops y ∧ (∃ e, y.store.commit H [[(key 0x10, none)]] 2 = .error e) ∧
    (∃ e, y.store.commitBatch H [[(key 0x10, [3])]] none 2 = .error e) ∧
    ∃ e, y.store.commitBatch H [[(key 0x10, [3])]] none 6 = .error e := by
  obtain ⟨y, h, -⟩ := Sys.run_ok H false Sample.ops (by decide) (by decide)
  have hy : Reached H Sample.ops y := ⟨false, h⟩
  have how : y.store.allowOverwrite = false := Sys.run_flag Sample.ops h
  have hn := (hy.inv Sample.bound).1
  have hh := C52_wrong_version_refused_partial hy Sample.bound
  refine ⟨y, hy, (hh.2 how 1 Sample.readable1 (by rw [hn]; decide)).1 _ (by decide) (by decide) ?_,
    (hh.2 how 1 Sample.readable1 (by rw [hn]; decide)).2 _ (by decide) (by decide) (by decide), hh.1 6 (by rw [hn]; decide) _ _ (by decide)⟩
  intro i ws pre k post hi hws
  cases i with
  | succ i => simp at hi
  | zero =>
    simp only [List.getElem?_cons_zero, Option.some.injEq] at hi
    subst hi
    cases pre with
    | nil => exact ⟨key 0x10, [4], by decide⟩
    | cons p pre => simp at hws

end Sample
end Jmt
