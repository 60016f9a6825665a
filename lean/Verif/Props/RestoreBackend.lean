import Verif.Proofs.RestoreBackend
import Verif.Props.RestoreSample
import Verif.Props.Continue
/-!
# C67: restoring into any storage backend, and after failed chunk writes
-/
namespace Jmt
open Spec (Entry SameLookups EqualQueries)
open Store

section
variable {H : Hasher} {w : Version} {root : Digest} {p0 gp p all chunk : List (KeyHash × Value)}
  {r r' : Restore} {checked : Bool} {R R' : Reader} {b : NodeBatch}

theorem yields_eq (h : ∀ it : Iter, it.next R = it.next R') : ∀ {it : Iter} {l}, it.Yields R l → it.Yields R' l := by
  intro it l hy
  induction hy with
  | done h1 => exact .done (by rw [← h]; exact h1)
  | item h1 _ ih => exact .item (by rw [← h]; exact h1) ih

theorem Spec.EqualQueries.trans_same {S : Reader} {v : Version} (h : EqualQueries H R R') (h' : SameQueries H R' S w v) : SameQueries H R S w v where
  get k := (h.get k w).trans (h'.get k)
  getWithProof k := (h.getWithProof k w).trans (h'.getWithProof k)
  rootHash := (h.rootHash w).trans h'.rootHash
  rootHashOption := (h.rootHashOption w).trans h'.rootHashOption
  leafCount := (h.leafCount w).trans h'.leafCount
  range k := (h.range k w).trans (h'.range k)
  exclusion k := (h.exclusion k w).trans (h'.exclusion k)
  ics23 c pre k := (h.ics23 c pre k w).trans (h'.ics23 c pre k)
  iter start := by
    obtain ⟨it, it', items, h1, h2, h3, h4⟩ := h'.iter start
    exact ⟨it, it', items, by rw [h.iterNew]; exact h1, h2, yields_eq (fun i => (h.iterNext i).symm) h3, h4⟩
  iterByIndex i := by
    obtain ⟨it, it', items, h1, h2, h3, h4⟩ := h'.iterByIndex i
    exact ⟨it, it', items, by rw [h.iterByIndex]; exact h1, h2, yields_eq (fun i => (h.iterNext i).symm) h3, h4⟩

theorem sess_single {z : Sess} (h : SessInv H all w root z p0 all) (hne : all ≠ []) :
    (2 ≤ all.length → z.receiver.singleLeaf = none) ∧ (¬ 2 ≤ all.length → ∃ l, z.receiver.singleLeaf = some l) := by
  obtain ⟨e, he⟩ : ∃ e, all.getLast? = some e := by
    cases hl : all.getLast? with
    | none => exact absurd (List.getLast?_eq_none_iff.1 hl) hne
    | some e => exact ⟨e, rfl⟩
  have hle : (entriesOf H all).getLast? = some (e.1, H.hash e.2) := by rw [entriesOf_last, he]; rfl
  have hlen : (entriesOf H all).length = all.length := by simp [entriesOf]
  obtain ⟨g1, n, g2, g3⟩ := h.inv.nodes.last _ _ hle
  rcases g3 with ⟨-, -, L, d, hL, -⟩ | ⟨h0, hr, -, -⟩
  · exfalso
    have := h.inv.nodes.auth0.length_le
    rw [hL] at this
    simp at this
    omega
  · rw [← hlen]
    exact ⟨fun h2 => singleLeaf_none h.inv.nodes.asc.nodup (List.mem_of_getLast? hle) g2 hr h2,
      fun h2 => ⟨_, singleLeaf_some (List.mem_of_getLast? hle) g2 hr h2⟩⟩

theorem finish_version {z : Sess} {s' : Store} (h : SessInv H all w root z p0 all) (hne : all ≠ []) (hfin : z.receiver.finish H z.store = .ok s')
    (k : NodeKey) (n : Node) (hk : s'.nodes.get? k = some n) : k.version = w := by
  obtain ⟨s1, g1, g2, -⟩ := sess_finish h hne
  rw [hfin] at g1
  cases g1
  apply Classical.byContradiction
  intro hc
  rw [g2.no k (fun h => hc h.1)] at hk
  cases hk

/-- The batch of `finish` for a receiver with nothing unwritten. -/
theorem lastBatch_cleared (hF : r.frozenNodes = ⟨[], []⟩) (h : r.lastBatch H = .ok b) : AMap.NodupKeys b.nodes ∧ b.values = [] := by
  unfold Restore.lastBatch at h
  cases hs : r.singleLeaf with
  | some l =>
    rw [hs] at h
    simp only [] at h
    split at h
    · cases h
      unfold Restore.insertFrozen
      rw [hF]
      exact ⟨AMap.NodupKeys.insert AMap.nodupKeys_nil _ _, rfl⟩
    · cases h
  | none =>
    rw [hs] at h
    simp only [] at h
    obtain ⟨r1, h1, h2⟩ := bind_ok_inv h
    cases h2
    obtain ⟨L, hL, -⟩ := (freeze_adds h1).self h1
    rw [hL, hF]
    exact ⟨insAll_nodup L _ AMap.nodupKeys_nil, rfl⟩

theorem addKeys_values : ∀ (ps : List (KeyHash × Value)) {r r' : Restore}, ps ≠ [] → Restore.addKeys H ps r = (r', .ok ()) →
    r'.frozenNodes.values ≠ [] := by
  intro ps
  cases ps with
  | nil => intro r r' h; exact absurd rfl h
  | cons e ps =>
    obtain ⟨k, x⟩ := e
    intro r r' _ h hc
    unfold Restore.addKeys at h
    split at h
    · cases h
    · cases he : Restore.addEntry H r k x with
      | error e => rw [he] at h; cases h
      | ok r1 =>
        rw [he] at h
        have hg := addKeys_grows ps h
        have h1 := hg.values (r.version, k) (by rw [hc]; rfl)
        unfold Restore.addEntry at he
        obtain ⟨r2, h2, h3⟩ := bind_ok_inv he
        cases h3
        rw [panics_ok] at h2
        have h3 := (addOneLoop_grows _ _ _ h2).values (r.version, k) h1
        have h4 : (r.frozenNodes.values.insert (r.version, k) (some x)).get? (r.version, k) = none := h3
        rw [AMap.get?_insert, if_pos rfl] at h4
        cases h4

section
variable {ops : List Op} {y : Sys} {v : Version} {pos : Option KeyHash} {whole : Bool}

theorem bsim_finish_store (hr : Reached H ops y) (hb : (setsOf ops).length < 2 ^ 64) (hv : Readable ops v) (hall : SortedPairs (mapAt ops v) all)
    (hne : all ≠ []) (hroot : getRootHash H y.store.reader v = .ok root) (hnp : NP H (entriesOf H all)) {z : Sess}
    (h : BSim H all w root z p0 gp p r R pos whole) (hgp : gp ++ p = all) (hc : p = [] ∨ 2 ≤ all.length) :
    ∃ b s', r.lastBatch H = .ok b ∧ SysInv H s' (setsOf (restoredAs w all)) (horizon (restoredAs w all)).2 ∧
      SameQueries H s'.reader y.store.reader w v ∧ (∀ k n, s'.nodes.get? k = some n → k.version = w) ∧
      ∀ R', Spec.Written b R' R → SameLookups R' s'.reader := by
  obtain ⟨hasc, -, hrt, -⟩ := honest_setting hr hb hv hall hroot
  by_cases hp : p = []
  · subst hp
    rw [List.append_nil] at hgp
    subst hgp
    obtain ⟨s', h1, h2, -⟩ := finish_same hr hb hv hall hne hroot h.inv
    have hsys := restored_sysInv hall.sorted hne h.inv h.stale h1
    have hver := finish_version h.inv hne h1
    have hr' : r = z.receiver := by have := h.add; cases this; rfl
    subst hr'
    rw [finish_lastBatch] at h1
    obtain ⟨b, h3, h4⟩ := bind_ok_inv h1
    have hF : z.receiver.frozenNodes = ⟨[], []⟩ := by
      refine (h.inv.clean ?_).2
      intro h0
      obtain ⟨e, he⟩ : ∃ e, gp.getLast? = some e := by
        cases hl : gp.getLast? with
        | none => exact absurd (List.getLast?_eq_none_iff.1 hl) hne
        | some e => exact ⟨e, rfl⟩
      obtain ⟨-, n, -, g3⟩ := h.inv.inv.nodes.last e.1 (H.hash e.2) (by rw [entriesOf_last, he]; rfl)
      rcases g3 with ⟨-, -, L, d, hL, -⟩ | ⟨h1, -⟩
      · have := h.inv.inv.nodes.auth0.length_le
        rw [hL] at this
        simp at this
        omega
      · exact h1 h0
    obtain ⟨hn, hvl⟩ := lastBatch_cleared hF h3
    refine ⟨b, s', h3, hsys, h2, hver, fun R' hw => ?_⟩
    have hsame := h.same (.inr rfl)
    exact written_lookups (w := w) (F := ⟨[], []⟩) hw (mock_written hn (by rw [hvl]; exact AMap.nodupKeys_nil) h4) ⟨fun _ _ => rfl, fun _ _ => rfl⟩
      (fun v k x hx => by rw [hvl] at hx; cases hx) (fun k _ => hsame.node k) (fun v k _ => hsame.value v k)
  · have h2 : 2 ≤ all.length := hc.resolve_left hp
    obtain ⟨e, he⟩ : ∃ e, p.getLast? = some e := by
      cases hl : p.getLast? with
      | none => exact absurd (List.getLast?_eq_none_iff.1 hl) hp
      | some e => exact ⟨e, rfl⟩
    obtain ⟨r1, s1, h3, h4⟩ := sess_chunk (checked := true) hasc hnp hrt h.inv (by rw [hgp]; exact List.prefix_refl _) he
    rw [hgp] at h4
    have hinv := (addKeys_inv p h.inv.inv h.add (fun m hm => by cases hm)).1
    obtain ⟨hr1, hw1⟩ : r1 = r.cleared ∧ z.store.writeNodeBatch r.frozenNodes = .ok s1 := by
      unfold Restore.addChunk at h3
      rw [if_neg hp, h.add] at h3
      simp only [] at h3
      split at h3
      · cases h3
      · split at h3
        · cases h3
        · rename_i hw; cases h3; exact ⟨rfl, hw⟩
    subst hr1
    obtain ⟨s', h5, h6, -⟩ := finish_same hr hb hv hall hne hroot h4
    have hsys := restored_sysInv hall.sorted hne h4 ((writeNodeBatch_stale hw1).trans h.stale) h5
    have hver := finish_version h4 hne h5
    have hsl : r.singleLeaf = none := (sess_single h4 hne).1 h2
    rw [finish_lastBatch] at h5
    obtain ⟨b2, h7, h8⟩ := bind_ok_inv h5
    have h7' : (r.cleared.freeze H 0 >>= fun r => Except.ok r.frozenNodes) = .ok b2 := by
      unfold Restore.lastBatch at h7
      rw [show (Sess.mk r.cleared s1 (some e.1)).receiver.singleLeaf = none from hsl] at h7
      exact h7
    obtain ⟨r2, h9, h10⟩ := bind_ok_inv h7'
    cases h10
    obtain ⟨L, hL, hAll⟩ := (freeze_adds h9).self h9
    have hfr : r.freeze H 0 = .ok (withF r2 (insAll r.frozenNodes L)) := hAll r.frozenNodes
    have hL' : r2.frozenNodes = insAll ⟨[], []⟩ L := hL
    refine ⟨insAll r.frozenNodes L, s', ?_, hsys, h6, hver, fun R' hw => ?_⟩
    · unfold Restore.lastBatch
      rw [hsl]
      simp only []
      rw [hfr]
      rfl
    · have hnd : AMap.NodupKeys r2.frozenNodes.nodes := by rw [hL']; exact insAll_nodup L _ AMap.nodupKeys_nil
      have hvl : r2.frozenNodes.values = [] := by rw [hL']; rfl
      have w1 := mock_written hinv.nodes.nodup hinv.vnodup hw1
      have w2 := mock_written hnd (by rw [hvl]; exact AMap.nodupKeys_nil) h8
      have w3 : Spec.Written (insAll r.frozenNodes L) s'.reader z.store.reader := by
        constructor
        · intro k n hk
          rw [insAll_get, ← hL'] at hk
          cases hb2 : r2.frozenNodes.nodes.get? k with
          | some n' => rw [hb2] at hk; cases hk; exact w2.new k n hb2
          | none => rw [hb2] at hk; rw [w2.old k hb2]; exact w1.new k n hk
        · intro k hk
          rw [insAll_get, ← hL'] at hk
          cases hb2 : r2.frozenNodes.nodes.get? k with
          | some n' => rw [hb2] at hk; cases hk
          | none => rw [hb2] at hk; rw [w2.old k hb2]; exact w1.old k hk
        · intro v k u x h1 h2 h3
          rw [w2.oldValue v k (fun u x hx => by rw [hvl] at hx; cases hx)]
          exact w1.newValue v k u x h1 h2 h3
        · intro v k hk
          rw [w2.oldValue v k (fun u x hx => by rw [hvl] at hx; cases hx)]
          exact w1.oldValue v k hk
      exact written_lookups (w := w) hw w3 (insAll_grows r.frozenNodes L) (fun v k x hx => (hinv.frozen v k x hx).1) h.node h.value

theorem bsim_finish (hr : Reached H ops y) (hb : (setsOf ops).length < 2 ^ 64) (hv : Readable ops v) (hall : SortedPairs (mapAt ops v) all)
    (hne : all ≠ []) (hroot : getRootHash H y.store.reader v = .ok root) (hnp : NP H (entriesOf H all)) {z : Sess}
    (h : BSim H all w root z p0 gp p r R pos whole) (hgp : gp ++ p = all) (hc : p = [] ∨ 2 ≤ all.length) :
    ∃ b, r.lastBatch H = .ok b ∧ ∀ R', Spec.Written b R' R → SameQueries H R' y.store.reader w v := by
  obtain ⟨b, s', h1, -, h2, -, h3⟩ := bsim_finish_store hr hb hv hall hne hroot hnp h hgp hc
  exact ⟨b, h1, fun R' hw => (h3 R' hw).queries.trans_same h2⟩

theorem bsim_rest {z : Sess} (hall : SortedPairs (mapAt ops v) all) (h : BSim H all w root z p0 gp p r R pos whole) :
    gp ++ p ++ Spec.above all pos = all := by
  obtain ⟨t, ht⟩ := h.pre
  rw [h.pos, ← ht, above_append (by rw [ht]; exact hall.sorted)]

/-- Every restoration into a backend is simulated. -/
theorem bsim_of (hr : Reached H ops y) (hb : (setsOf ops).length < 2 ^ 64) (hv : Readable ops v) (hall : SortedPairs (mapAt ops v) all)
    (hroot : getRootHash H y.store.reader v = .ok root) (hnp : NP H (entriesOf H all))
    (h : RestoreOn H checked y.store.reader v all w root r R pos whole) : ∃ z p0 gp p, BSim H all w root z p0 gp p r R pos whole := by
  obtain ⟨hasc, -, hrt, -⟩ := honest_setting hr hb hv hall hroot
  have hnext : ∀ {r r' R pos whole n k x P b} {z : Sess} {p0 gp p}, BSim H all w root z p0 gp p r R pos whole →
      ((Spec.above all pos).take (n + 1)).getLast? = some (k, x) → getRangeProof H y.store.reader k v = .ok P →
      r.prepare H checked ((Spec.above all pos).take (n + 1)) P = (r', .ok b) →
      b = r'.frozenNodes ∧ (∀ R', Spec.Written b R' R → ∃ z p0 gp p, BSim H all w root z p0 gp p r'.cleared R' (some k) true) ∧
      (∀ R' whole', Spec.PartlyWritten b R' R → (whole' = true → whole = true ∧ R' = R) → ∃ z p0 gp p, BSim H all w root z p0 gp p r' R' (some k) whole') := by
    intro r r' R pos whole n k x P b z p0 gp p hs hl hP hprep
    have hrest := bsim_rest hall hs
    have hpre : gp ++ p ++ (Spec.above all pos).take (n + 1) <+: all := by
      conv => rhs; rw [← hrest]
      exact (List.prefix_append_right_inj _).2 (List.take_prefix _ _)
    have hmem : (k, x) ∈ all := hpre.subset (List.mem_append_right _ (List.mem_of_getLast? hl))
    rw [honest_proof hr hb hv hall hmem] at hP
    cases hP
    obtain ⟨r1, h1, h2, h3⟩ := bsim_prepare (checked := checked) hasc hnp hrt hs hpre hl
    rw [h1] at hprep
    cases hprep
    refine ⟨rfl, fun R' hw => ?_, fun R' whole' hw hc => ?_⟩
    · obtain ⟨s', h4⟩ := h2 R' hw
      exact ⟨_, _, _, _, h4⟩
    · exact ⟨_, _, _, _, h3 R' whole' hw hc⟩
  induction h with
  | start hV hn =>
    obtain ⟨h1, h2⟩ := bsim_start (H := H) (all := all) (w := w) (root := root) hV
    rw [h1] at hn
    cases hn
    exact ⟨_, _, _, _, h2⟩
  | restart _ hf hn hl ih =>
    obtain ⟨z, p0, gp, p, hs⟩ := ih
    obtain ⟨r1, l1, h1, h2, h3⟩ := bsim_restart hasc hs hf
    rw [h1] at hn
    rw [h2] at hl
    cases hn
    cases hl
    exact ⟨_, _, _, _, h3⟩
  | chunk _ hl hP hprep hw ih =>
    obtain ⟨z, p0, gp, p, hs⟩ := ih
    exact (hnext hs hl hP hprep).2.1 _ hw
  | failed _ hl hP hprep hw hc ih =>
    obtain ⟨z, p0, gp, p, hs⟩ := ih
    exact (hnext hs hl hP hprep).2.2 _ _ hw hc

/-! ### The property -/

/-- C67: over any backend, whatever writes have failed before, the next chunk of an honest sender passes all checks: `add_chunk` gets to the write, so it
can only fail if the backend does. -/
theorem C67_next_chunk (hr : Reached H ops y) (hb : (setsOf ops).length < 2 ^ 64) (hv : Readable ops v) (hall : SortedPairs (mapAt ops v) all)
    (hroot : getRootHash H y.store.reader v = .ok root) (hph : ∀ p ∈ Spec.treeStrings H (Spec.hashed H all), p.hash H ≠ placeholder)
    (h : RestoreOn H checked y.store.reader v all w root r R pos whole) (hmore : Spec.above all pos ≠ []) (n : Nat) :
    ∃ k x P r' b, ((Spec.above all pos).take (n + 1)).getLast? = some (k, x) ∧ getRangeProof H y.store.reader k v = .ok P ∧
      r.prepare H checked ((Spec.above all pos).take (n + 1)) P = (r', .ok b) := by
  obtain ⟨hasc, -, hrt, -⟩ := honest_setting hr hb hv hall hroot
  have hnp : NP H (entriesOf H all) := np_of' hasc.nodup hph
  obtain ⟨z, p0, gp, p, hs⟩ := bsim_of hr hb hv hall hroot hnp h
  cases hl : ((Spec.above all pos).take (n + 1)).getLast? with
  | none =>
    have := List.getLast?_eq_none_iff.1 hl
    cases hab : Spec.above all pos with
    | nil => exact absurd hab hmore
    | cons a t => rw [hab] at this; simp at this
  | some e =>
    have hrest := bsim_rest hall hs
    have hpre : gp ++ p ++ (Spec.above all pos).take (n + 1) <+: all := by
      conv => rhs; rw [← hrest]
      exact (List.prefix_append_right_inj _).2 (List.take_prefix _ _)
    have hmem : e ∈ all := hpre.subset (List.mem_append_right _ (List.mem_of_getLast? hl))
    obtain ⟨r1, h1, -⟩ := bsim_prepare (checked := checked) hasc hnp hrt hs hpre hl
    exact ⟨e.1, e.2, _, _, _, rfl, honest_proof hr hb hv hall hmem, h1⟩

/-- C67: over any backend, as long as it holds only completely written batches, `JellyfishMerkleRestore::new` succeeds. -/
theorem C67_restart (hr : Reached H ops y) (hb : (setsOf ops).length < 2 ^ 64) (hv : Readable ops v) (hall : SortedPairs (mapAt ops v) all)
    (hroot : getRootHash H y.store.reader v = .ok root) (hph : ∀ p ∈ Spec.treeStrings H (Spec.hashed H all), p.hash H ≠ placeholder)
    (h : RestoreOn H checked y.store.reader v all w root r R pos true) (hf : Spec.FindsRightmostLeaf R) :
    ∃ r', Restore.new H R w root = .ok r' := by
  obtain ⟨hasc, -, hrt, -⟩ := honest_setting hr hb hv hall hroot
  obtain ⟨z, p0, gp, p, hs⟩ := bsim_of hr hb hv hall hroot (np_of' hasc.nodup hph) h
  obtain ⟨r', l, h1, -⟩ := bsim_restart hasc hs hf
  exact ⟨r', h1⟩

/-- C67: when everything has been sent - in chunks of any sizes, with restarts, and with failed writes, the last one perhaps - `finish` gets to its write; and
once that is done, the backend answers every query about the restored version like the source.  (Two pairs at least; see below for one.) -/
theorem C67_finish (hr : Reached H ops y) (hb : (setsOf ops).length < 2 ^ 64) (hv : Readable ops v) (hall : SortedPairs (mapAt ops v) all)
    (hroot : getRootHash H y.store.reader v = .ok root) (hph : ∀ p ∈ Spec.treeStrings H (Spec.hashed H all), p.hash H ≠ placeholder)
    (h2 : 2 ≤ all.length) (h : RestoreOn H checked y.store.reader v all w root r R pos whole) (hdone : Spec.above all pos = []) :
    ∃ b, r.lastBatch H = .ok b ∧ ∀ R', Spec.Written b R' R → SameQueries H R' y.store.reader w v := by
  obtain ⟨hasc, -, hrt, -⟩ := honest_setting hr hb hv hall hroot
  have hnp : NP H (entriesOf H all) := np_of' hasc.nodup hph
  obtain ⟨z, p0, gp, p, hs⟩ := bsim_of hr hb hv hall hroot hnp h
  have hrest := bsim_rest hall hs
  rw [hdone, List.append_nil] at hrest
  exact bsim_finish hr hb hv hall (by rintro rfl; simp at h2) hroot hnp hs hrest (.inr h2)

/-- C67: the same for any non-empty map if the last chunk has been written. -/
theorem C67_finish_after_written_chunk (hr : Reached H ops y) (hb : (setsOf ops).length < 2 ^ 64) (hv : Readable ops v)
    (hall : SortedPairs (mapAt ops v) all) (hroot : getRootHash H y.store.reader v = .ok root)
    (hph : ∀ p ∈ Spec.treeStrings H (Spec.hashed H all), p.hash H ≠ placeholder)
    (h : RestoreOn H checked y.store.reader v all w root r R pos whole) {n : Nat} {k : KeyHash} {x : Value} {P : RangeProof}
    (hl : ((Spec.above all pos).take (n + 1)).getLast? = some (k, x)) (hP : getRangeProof H y.store.reader k v = .ok P)
    (hprep : r.prepare H checked ((Spec.above all pos).take (n + 1)) P = (r', .ok b)) (hw : Spec.Written b R' R)
    (hdone : Spec.above all (some k) = []) :
    ∃ b', r'.cleared.lastBatch H = .ok b' ∧ ∀ R'', Spec.Written b' R'' R' → SameQueries H R'' y.store.reader w v := by
  obtain ⟨hasc, -, hrt, -⟩ := honest_setting hr hb hv hall hroot
  have hnp : NP H (entriesOf H all) := np_of' hasc.nodup hph
  obtain ⟨z, p0, gp, p, hs⟩ := bsim_of hr hb hv hall hroot hnp h
  have hrest := bsim_rest hall hs
  have hpre : gp ++ p ++ (Spec.above all pos).take (n + 1) <+: all := by
    conv => rhs; rw [← hrest]
    exact (List.prefix_append_right_inj _).2 (List.take_prefix _ _)
  have hmem : (k, x) ∈ all := hpre.subset (List.mem_append_right _ (List.mem_of_getLast? hl))
  rw [honest_proof hr hb hv hall hmem] at hP
  cases hP
  obtain ⟨r1, h1, h2, -⟩ := bsim_prepare (checked := checked) hasc hnp hrt hs hpre hl
  rw [h1] at hprep
  cases hprep
  obtain ⟨s', h4⟩ := h2 R' hw
  have hrest' := bsim_rest hall h4
  rw [hdone, List.append_nil] at hrest'
  exact bsim_finish hr hb hv hall (List.ne_nil_of_mem hmem) hroot hnp h4 hrest' (.inl rfl)

/-- C67: a map with a single pair is the exception: if the write of its chunk fails, `finish` panics (src/restore.rs:669 `assert!`). -/
theorem C67_single_pair_failed_write (hr : Reached H ops y) (hb : (setsOf ops).length < 2 ^ 64) (hv : Readable ops v)
    (hall : SortedPairs (mapAt ops v) all) (hroot : getRootHash H y.store.reader v = .ok root)
    (hph : ∀ p ∈ Spec.treeStrings H (Spec.hashed H all), p.hash H ≠ placeholder)
    (h : RestoreOn H checked y.store.reader v all w root r R pos whole) {n : Nat} {k : KeyHash} {x : Value} {P : RangeProof}
    (hl : ((Spec.above all pos).take (n + 1)).getLast? = some (k, x)) (hP : getRangeProof H y.store.reader k v = .ok P)
    (hprep : r.prepare H checked ((Spec.above all pos).take (n + 1)) P = (r', .ok b)) (h1 : all.length = 1) :
    ∃ m, r'.lastBatch H = .error (.panic m) := by
  obtain ⟨hasc, -, hrt, -⟩ := honest_setting hr hb hv hall hroot
  have hnp : NP H (entriesOf H all) := np_of' hasc.nodup hph
  obtain ⟨z, p0, gp, p, hs⟩ := bsim_of hr hb hv hall hroot hnp h
  have hrest := bsim_rest hall hs
  have hpre : gp ++ p ++ (Spec.above all pos).take (n + 1) <+: all := by
    conv => rhs; rw [← hrest]
    exact (List.prefix_append_right_inj _).2 (List.take_prefix _ _)
  have hmem : (k, x) ∈ all := hpre.subset (List.mem_append_right _ (List.mem_of_getLast? hl))
  rw [honest_proof hr hb hv hall hmem] at hP
  cases hP
  obtain ⟨r1, h2, h3, -⟩ := bsim_prepare (checked := checked) hasc hnp hrt hs hpre hl
  rw [h2] at hprep
  cases hprep
  obtain ⟨C, hC⟩ : ∃ C, C = (Spec.above all pos).take (n + 1) := ⟨_, rfl⟩
  rw [← hC] at h2 h3 hl hpre
  have hne : C ≠ [] := by rintro rfl; simp at hl
  have hfull : gp ++ p ++ C = all := by
    obtain ⟨t, ht⟩ := hpre
    have hlen := congrArg List.length ht
    simp only [List.length_append] at hlen
    have : 0 < C.length := List.length_pos_iff.2 hne
    have : t = [] := List.eq_nil_of_length_eq_zero (by omega)
    rw [this, List.append_nil] at ht
    exact ht
  have hadd : Restore.addKeys H C r = (r', .ok ()) := by
    unfold Restore.prepare at h2
    rw [if_neg hne] at h2
    rcases hk : Restore.addKeys H C r with ⟨r2, _ | u⟩
    · rw [hk] at h2; cases h2
    · rw [hk] at h2
      simp only [] at h2
      cases hv : r2.verify H checked ⟨rightSiblingsOf (specProof H (entriesOf H all) k).siblings k⟩ with
      | error e => rw [hv] at h2; cases h2
      | ok u => rw [hv] at h2; cases h2; rfl
  have hvne := addKeys_values C hne hadd
  -- a mock backend that writes the batch
  obtain ⟨s1, r1, h5, h6⟩ : ∃ s1 r1, z.receiver.addChunk H checked z.store (p ++ C) ⟨rightSiblingsOf (specProof H (entriesOf H all) k).siblings k⟩ =
      (r1, s1, .ok ()) ∧ SessInv H all w root ⟨r1, s1, some k⟩ all all := by
    obtain ⟨r1, s1, a, b⟩ := sess_chunk (checked := checked) (chunk := p ++ C) (e := (k, x)) hasc hnp hrt hs.inv
      (by rw [← List.append_assoc]; exact hpre) (by rw [List.getLast?_append, hl]; rfl)
    rw [← List.append_assoc, hfull] at b
    exact ⟨s1, r1, a, b⟩
  have hr1 : r1 = r'.cleared := by
    unfold Restore.addChunk at h5
    rw [if_neg (by simp [hne]), addKeys_append _ _ hs.add, hadd] at h5
    simp only [] at h5
    split at h5
    · cases h5
    · split at h5
      · cases h5
      · cases h5; rfl
  subst hr1
  obtain ⟨l, hsl⟩ := (sess_single h6 (List.ne_nil_of_mem hmem)).2 (by omega)
  have hsl' : r'.singleLeaf = some l := hsl
  refine ⟨"assert!(self.frozen_nodes.is_empty())", ?_⟩
  unfold Restore.lastBatch
  rw [hsl']
  simp only []
  rw [if_neg (fun hc => hvne hc.2)]

end

/-! ### A chunk must not be sent twice to the same receiver -/

theorem addKeys_last : ∀ (ps : List (KeyHash × Value)) {r r' : Restore}, Restore.addKeys H ps r = (r', .ok ()) →
    ∀ k, (r.previousLeaf.any (fun l => !decide (l.keyHash.val < k.val)) = true ∨ k ∈ ps.map Prod.fst) →
      r'.previousLeaf.any (fun l => !decide (l.keyHash.val < k.val)) = true := by
  intro ps
  induction ps with
  | nil =>
    intro r r' h k hk
    cases h
    rcases hk with hk | hk
    · exact hk
    · cases hk
  | cons e ps ih =>
    obtain ⟨k0, x⟩ := e
    intro r r' h k hk
    unfold Restore.addKeys at h
    split at h
    · cases h
    · rename_i hno
      cases he : Restore.addEntry H r k0 x with
      | error e => rw [he] at h; cases h
      | ok r1 =>
        rw [he] at h
        refine ih h k ?_
        unfold Restore.addEntry at he
        obtain ⟨r2, -, h3⟩ := bind_ok_inv he
        cases h3
        simp only [Option.any_some, Bool.not_eq_true', decide_eq_false_iff_not]
        rcases hk with hk | hk
        · left
          cases hpl : r.previousLeaf with
          | none => rw [hpl] at hk; cases hk
          | some l =>
            rw [hpl] at hk hno
            simp only [Option.any_some, Bool.not_eq_true', decide_eq_false_iff_not, Decidable.not_not] at hk hno
            exact fun hc => hk (List.lt_trans hno hc)
        · rw [List.map_cons, List.mem_cons] at hk
          rcases hk with rfl | hk
          · left; exact List.lt_irrefl _
          · right; exact hk

/-- C67: after `add_chunk` has returned an error of the backend's write, sending the chunk again is refused; the sender has to go on with the next pairs.  (Whatever
the receiver, the chunk and the proofs.) -/
theorem C67_resend_refused {proof proof' : RangeProof} (h : r.prepare H checked chunk proof = (r', .ok b)) :
    r'.prepare H checked chunk proof' = (r', .error (.bail "Account keys must come in increasing order.")) := by
  unfold Restore.prepare at h
  by_cases hne : chunk = []
  · rw [if_pos hne] at h; cases h
  · rw [if_neg hne] at h
    rcases hk : Restore.addKeys H chunk r with ⟨r2, _ | u⟩
    · rw [hk] at h; cases h
    · rw [hk] at h
      simp only [] at h
      cases hv : r2.verify H checked proof with
      | error e => rw [hv] at h; cases h
      | ok u =>
        rw [hv] at h
        cases h
        cases chunk with
        | nil => exact absurd rfl hne
        | cons e t =>
          have := addKeys_last _ hk e.1 (.inr (by simp))
          unfold Restore.prepare
          rw [if_neg hne]
          unfold Restore.addKeys
          rw [if_pos this]

/-- The calls of the model are these parts with the mock store's write between them. -/
theorem C67_add_chunk_is {s : Store} (proof : RangeProof) : r.addChunk H checked s chunk proof =
    match r.prepare H checked chunk proof with
    | (r', .error e) => (r', s, .error e)
    | (r', .ok b) =>
      match s.writeNodeBatch b with
      | .error e => (r', s, .error e)
      | .ok s' => (r'.cleared, s', .ok ()) := addChunk_prepare proof

theorem C67_finish_is {s : Store} : r.finish H s = (r.lastBatch H >>= fun b => s.writeNodeBatch b) := finish_lastBatch

end

/-! ### There are such backends, and a concrete case -/

/-- The backend holding `R` and the batch `b`. -/
noncomputable def overlay (b : NodeBatch) (R : Reader) : Reader where
  getNodeOption k := match b.nodes.get? k with | some n => .ok (some n) | none => R.getNodeOption k
  getRightmostLeaf := R.getRightmostLeaf
  getValueOption v k :=
    open Classical in
    if h : ∃ w x, b.values.get? (w, k) = some x ∧ w ≤ v ∧ ∀ u x', b.values.get? (u, k) = some x' → u ≤ v → u ≤ w then
      .ok h.choose_spec.choose
    else R.getValueOption v k

theorem overlay_written (b : NodeBatch) (R : Reader) : Spec.Written b (overlay b R) R := by
  constructor
  · intro k n h; unfold overlay; simp only [h]
  · intro k h; unfold overlay; simp only [h]
  · intro v k w x h1 h2 h3
    have hex : ∃ w x, b.values.get? (w, k) = some x ∧ w ≤ v ∧ ∀ u x', b.values.get? (u, k) = some x' → u ≤ v → u ≤ w := ⟨w, x, h1, h2, h3⟩
    unfold overlay
    simp only [dif_pos hex]
    obtain ⟨g1, g2, g3⟩ := hex.choose_spec.choose_spec
    have he : hex.choose = w := Nat.le_antisymm (h3 _ _ g1 g2) (g3 w x h1 h2)
    have g1' : b.values.get? (w, k) = some hex.choose_spec.choose := by
      have := congrArg (fun u => b.values.get? (u, k)) he
      exact this.symm.trans g1
    rw [h1] at g1'
    exact congrArg Except.ok (Option.some.inj g1').symm
  · intro v k h
    unfold overlay
    simp only []
    rw [dif_neg]
    rintro ⟨w, x, h1, h2, -⟩
    exact absurd h2 (Nat.not_le_of_lt (h w x h1))

theorem Spec.Written.partly (h : Spec.Written b R' R) : Spec.PartlyWritten b R' R := by
  refine ⟨fun k => ?_, h.oldValue⟩
  cases hk : b.nodes.get? k with
  | none => exact .inl (h.old k hk)
  | some n => exact .inr ⟨n, rfl, h.new k n hk⟩

theorem partlyWritten_none (b : NodeBatch) (R : Reader) : Spec.PartlyWritten b R R := ⟨fun _ => .inl rfl, fun _ _ _ => rfl⟩

/-- Version 1 of the sample history (three pairs) restored as any version: the write of the first pair fails with nothing written, that of the second with
everything written but an error returned, that of the third succeeds; `finish` completes the tree. -/
theorem Sample.restoredOn (w : Version) : ∃ y root r R b R', Reached Sample.T Sample.ops y ∧ getRootHash Sample.T y.store.reader 1 = .ok root ∧
    RestoreOn Sample.T true y.store.reader 1 Sample.all1 w root r R (some (Sample.key 0x80)) true ∧ r.lastBatch Sample.T = .ok b ∧
    Spec.Written b R' R ∧ SameQueries Sample.T R' y.store.reader w 1 := by
  obtain ⟨y, hy⟩ := Sample.reached Sample.T
  have hroot := (hy.readAt Sample.bound Sample.readable1).rootHash
  have hV : Spec.Vacant (Store.new false).reader := ⟨fun _ => rfl, fun _ _ => rfl, .inl ⟨rfl, fun _ _ h => by cases h⟩⟩
  have next := fun r R pos whole h => C67_next_chunk (w := w) (checked := true) (r := r) (R := R) (pos := pos) (whole := whole)
    hy Sample.bound Sample.readable1 Sample.sorted1 hroot Sample.noPlaceholder1 h
  have s0 := RestoreOn.start (checked := true) (src := y.store.reader) (v := 1) (all := Sample.all1) hV
    (bsim_start (H := Sample.T) (all := Sample.all1) (w := w) (root := Spec.root Sample.T (entriesAfter Sample.T (setsOf Sample.ops) (1 + 1))) hV).1
  obtain ⟨k1, x1, P1, r1, b1, a1, c1, d1⟩ := next _ _ _ _ s0 (by decide) 0
  obtain ⟨rfl, rfl⟩ : k1 = Sample.key 0x10 ∧ x1 = [4] := by
    rw [show ((Spec.above Sample.all1 none).take 1).getLast? = some (Sample.key 0x10, [4]) by decide] at a1
    cases a1; exact ⟨rfl, rfl⟩
  have s1 := RestoreOn.failed (whole' := true) s0 a1 c1 d1 (partlyWritten_none _ _) (fun _ => ⟨rfl, rfl⟩)
  obtain ⟨k2, x2, P2, r2, b2, a2, c2, d2⟩ := next _ _ _ _ s1 (by decide) 0
  obtain ⟨rfl, rfl⟩ : k2 = Sample.key 0x1f ∧ x2 = [2] := by
    rw [show ((Spec.above Sample.all1 (some (Sample.key 0x10))).take 1).getLast? = some (Sample.key 0x1f, [2]) by decide] at a2
    cases a2; exact ⟨rfl, rfl⟩
  have s2 := RestoreOn.failed (whole' := false) s1 a2 c2 d2 (overlay_written _ _).partly (fun h => by cases h)
  obtain ⟨k3, x3, P3, r3, b3, a3, c3, d3⟩ := next _ _ _ _ s2 (by decide) 0
  obtain ⟨rfl, rfl⟩ : k3 = Sample.key 0x80 ∧ x3 = [3] := by
    rw [show ((Spec.above Sample.all1 (some (Sample.key 0x1f))).take 1).getLast? = some (Sample.key 0x80, [3]) by decide] at a3
    cases a3; exact ⟨rfl, rfl⟩
  have s3 := RestoreOn.chunk s2 a3 c3 d3 (overlay_written _ _)
  obtain ⟨b, e1, e2⟩ := C67_finish hy Sample.bound Sample.readable1 Sample.sorted1 hroot Sample.noPlaceholder1 (by decide) s3 (by decide)
  exact ⟨y, _, _, _, b, _, hy, hroot, s3, e1, overlay_written _ _, e2 _ (overlay_written _ _)⟩

/-- The mock store keeps the contract of `get_rightmost_leaf`. -/
theorem C67_mock_finds_rightmost {s : Store} (hs : AMap.NodupKeys s.nodes) : Spec.FindsRightmostLeaf s.reader := by
  have h := rmSpec s
  have hget : ∀ k n, s.reader.getNodeOption k = .ok (some n) ↔ (k, n) ∈ s.nodes := by
    intro k n
    rw [AMap.mem_iff_get? hs]
    show Except.ok (s.nodes.get? k) = _ ↔ _
    constructor
    · intro h; exact Except.ok.inj h
    · intro h; rw [h]
  cases hx : s.getRightmostLeaf with
  | none =>
    rw [hx] at h
    exact .inl ⟨congrArg Except.ok hx, fun k l hk => h k l ((hget _ _).1 hk)⟩
  | some a =>
    obtain ⟨k, l⟩ := a
    rw [hx] at h
    exact .inr ⟨k, l, congrArg Except.ok hx, (hget _ _).2 h.1, fun k' l' hk => h.2 k' l' ((hget _ _).1 hk)⟩

/-- A map with one pair. -/
example : ∃ y root r R m, Reached Sample.T [.commit [[(Sample.key 0x10, some [4])]]] y ∧
    RestoreOn Sample.T true y.store.reader 0 [(Sample.key 0x10, [4])] 5 root r R (some (Sample.key 0x10)) true ∧
    r.lastBatch Sample.T = .error (.panic m) := by
  obtain ⟨y, h, -⟩ := Sys.run_ok Sample.T false [.commit [[(Sample.key 0x10, some [4])]]] (by decide) (by decide)
  have hy : Reached Sample.T [.commit [[(Sample.key 0x10, some [4])]]] y := ⟨false, h⟩
  have hb : (setsOf [.commit [[(Sample.key 0x10, some [4])]]]).length < 2 ^ 64 := by decide
  have hv : Readable [.commit [[(Sample.key 0x10, some [4])]]] 0 := by constructor <;> decide
  have hall : SortedPairs (mapAt [.commit [[(Sample.key 0x10, some [4])]]] 0) [(Sample.key 0x10, [4])] := by
    constructor
    · decide
    · intro k x
      show _ ↔ Spec.Map.write Spec.Map.empty (Sample.key 0x10, some [4]) k = _
      unfold Spec.Map.write Spec.Map.empty
      by_cases hk : k = Sample.key 0x10
      · subst hk; simp [eq_comm]
      · simp [hk]
  have hph : ∀ p ∈ Spec.treeStrings Sample.T (Spec.hashed Sample.T [(Sample.key 0x10, [4])]), p.hash Sample.T ≠ placeholder := by decide +kernel
  have hroot := (hy.readAt hb hv).rootHash
  have hV : Spec.Vacant (Store.new false).reader := ⟨fun _ => rfl, fun _ _ => rfl, .inl ⟨rfl, fun _ _ h => by cases h⟩⟩
  have s0 := RestoreOn.start (H := Sample.T) (root := Spec.root Sample.T (entriesAfter Sample.T (setsOf [.commit [[(Sample.key 0x10, some [4])]]]) (0 + 1)))
    (w := 5) (checked := true) (src := y.store.reader) (v := 0) (all := [(Sample.key 0x10, [4])]) hV
    (bsim_start (all := [(Sample.key 0x10, [4])]) hV).1
  obtain ⟨k1, x1, P1, r1, b1, a1, c1, d1⟩ := C67_next_chunk hy hb hv hall hroot hph s0 (by decide) 0
  obtain ⟨rfl, rfl⟩ : k1 = Sample.key 0x10 ∧ x1 = [4] := by
    rw [show ((Spec.above [(Sample.key 0x10, ([4] : Value))] none).take 1).getLast? = some (Sample.key 0x10, [4]) by decide] at a1
    cases a1; exact ⟨rfl, rfl⟩
  obtain ⟨m, hm⟩ := C67_single_pair_failed_write hy hb hv hall hroot hph s0 a1 c1 d1 rfl
  exact ⟨y, _, r1, _, m, hy, RestoreOn.failed (whole' := true) s0 a1 c1 d1 (partlyWritten_none _ _) (fun _ => ⟨rfl, rfl⟩), hm⟩

end Jmt
