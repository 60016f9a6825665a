import Verif.Spec.Backend
import Verif.Proofs.CrashRead
import Verif.Props.Crash
/-!
# A backend that keeps the writer contract follows the mock store
-/
namespace Jmt
open Spec (Entry PartlyWritten Written)

section
variable {H : Hasher}

/-- The backend `R` with the indices `st` shows all that the mock store `s` shows, and of the nodes of versions from `n` on exactly
that.  If `strict`, it shows no other values either. -/
structure Tracks (strict : Prop) (R : Reader) (st : List StaleNodeIndex) (s : Store) (n : Nat) : Prop where
  node : ∀ k nd, s.nodes.get? k = some nd → R.getNodeOption k = .ok (some nd)
  fresh : ∀ k : NodeKey, n ≤ k.version → s.nodes.get? k = none → R.getNodeOption k = .ok none
  value : ∀ v k, R.getValueOption v k = .ok (s.getValueOption v k) ∨ (¬ strict ∧ s.getValueOption v k = none)
  stale : ∀ x ∈ st, x.nodeKey.version < n ∧ (x ∈ s.stale ∨ s.nodes.get? x.nodeKey = none)

theorem Tracks.values {R : Reader} {st} {s : Store} {n : Nat} (h : Tracks True R st s n) (v : Version) (k : KeyHash) :
    R.getValueOption v k = .ok (s.getValueOption v k) := (h.value v k).resolve_right fun hc => hc.1 trivial

/-- What the mock store shows, with the keys hidden that it may have pruned. -/
def certain (n : Nat) (s : Store) : Reader where
  getNodeOption k := match s.nodes.get? k with
    | some nd => .ok (some nd)
    | none => if n ≤ k.version then .ok none else .error (.io "hidden")
  getValueOption _ _ := .error (.io "hidden")
  getRightmostLeaf := .error (.io "hidden")

theorem Tracks.view {P : Prop} {R : Reader} {st} {s : Store} {n : Nat} (h : Tracks P R st s n) :
    Spec.RootsNotLost (certain n s) R := by
  refine onlyErrors_roots ⟨fun k => ?_, fun _ _ => .inr (.inl ⟨_, rfl⟩), .inr ⟨_, rfl⟩⟩
  unfold certain
  dsimp only
  cases hk : s.nodes.get? k with
  | some nd => exact .inl (h.node k nd hk).symm
  | none =>
    by_cases hn : n ≤ k.version
    · simp only [hn, if_true]; exact .inl (h.fresh k hn hk).symm
    · simp only [hn, if_false]; exact .inr (.inl ⟨_, rfl⟩)

theorem tracks_self (s : Store) {n : Nat} : Tracks True s.reader [] s n where
  node k nd h := by show Except.ok _ = _; rw [h]
  fresh k _ h := by show Except.ok _ = _; rw [h]
  value _ _ := .inl rfl
  stale x hx := by cases hx

theorem SysInv.certain_ready {s : Store} {hist : List ValueSet} {low : Nat} (h : SysInv H s hist low)
    (hle : hist.length ≤ preGenesisVersion) :
    ∃ ver, ReadyW True H (certain hist.length s).getNodeOption hist.length (entriesAfter H hist hist.length) ver := by
  obtain ⟨ver, hr, -⟩ := h.commitRun (H := H) []
  have hsome : ∀ (k : NodeKey) nd, nb s.nodes.get? k = .ok (some nd) →
      (certain hist.length s).getNodeOption k = .ok (some nd) := by
    intro k nd hk
    have hk' : s.nodes.get? k = some nd := Except.ok.inj hk
    unfold certain
    dsimp only
    rw [hk']
  have hnone : ∀ k : NodeKey, hist.length ≤ k.version → nb s.nodes.get? k = .ok none →
      (certain hist.length s).getNodeOption k = .ok none := by
    intro k hv hk
    have hk' : s.nodes.get? k = none := Except.ok.inj hk
    unfold certain
    dsimp only
    rw [hk']
    simp only [hv, if_true]
  refine ⟨ver, hr.nodup, fun h0 => ⟨(hr.zero h0).1, hnone _ ?_ (hr.zero h0).2⟩, fun h0 => ⟨hsome _ _ (hr.tree h0).root,
    fun q h1 h2 => hsome _ _ ((hr.tree h0).node q h1 h2)⟩, hr.old, hr.root, fun hF w h1 h2 => hnone _ h1 (hr.fresh hF w h1 h2)⟩
  exact hle

/-- Over a backend that follows the mock store, the write functions return what they return over the mock store. -/
theorem Tracks.put {P : Prop} {R : Reader} {st} {s : Store} {hist : List ValueSet} {low : Nat} (h : Tracks P R st s hist.length)
    (hi : SysInv H s hist low) (sets : List ValueSet) (hle : hist.length + sets.length ≤ preGenesisVersion) :
    (∃ r, putValueSets H R sets hist.length = .ok r ∧ putValueSets H s.reader sets hist.length = .ok r) ∧
    (∃ r, putValueSetsWithProof H R sets hist.length = .ok r ∧
      putValueSetsWithProof H s.reader sets hist.length = .ok r) := by
  obtain ⟨ver, hready⟩ := hi.certain_ready (H := H) (by omega)
  have f1 := h.view
  have f2 := (tracks_self s (n := hist.length)).view
  constructor
  · obtain ⟨tc, pss, tc', -, a1, a2, -⟩ := putSets_readyW (R := certain hist.length s) hready false sets (.inl trivial) hle
    have hb : putValueSets H (certain hist.length s) sets hist.length = .ok tc'.finish := by
      unfold putValueSets
      rw [a1, ok_bind, a2]; rfl
    exact ⟨_, (putValueSets_le f1 sets _).eq hb, (putValueSets_le f2 sets _).eq hb⟩
  · obtain ⟨tc, pss, tc', -, a1, a2, -⟩ := putSets_readyW (R := certain hist.length s) hready true sets (.inl trivial) hle
    have hb : putValueSetsWithProof H (certain hist.length s) sets hist.length =
        .ok (tc'.finish.1.zip pss, tc'.finish.2) := by
      unfold putValueSetsWithProof
      rw [a1, ok_bind, a2]; rfl
    exact ⟨_, (putValueSetsWithProof_le f1 sets _).eq hb, (putValueSetsWithProof_le f2 sets _).eq hb⟩

theorem Tracks.putBatch {P : Prop} {R : Reader} {st} {s : Store} {hist : List ValueSet} {low : Nat} (h : Tracks P R st s hist.length)
    (hi : SysInv H s hist low) (sets : List (List (KeyHash × Value))) (hn : ∀ s ∈ sets, s ≠ [])
    (hle : hist.length + sets.length ≤ preGenesisVersion) :
    ∃ r, batchPutValueSets H R sets none hist.length = .ok r ∧
      batchPutValueSets H s.reader sets none hist.length = .ok r := by
  obtain ⟨ver, hready⟩ := hi.certain_ready (H := H) (by omega)
  have f1 := h.view
  have f2 := (tracks_self s (n := hist.length)).view
  obtain ⟨tc, tc', -, a1, a2, -⟩ := batchSets_ready (R := certain hist.length s) hready sets none hn
    (cachesFor_none _ _) hle
  have hb : batchPutValueSets H (certain hist.length s) sets none hist.length = .ok tc'.finish := by
    unfold batchPutValueSets
    rw [a1, ok_bind]
    show (batchSets H hist.length sets (cachesOf sets none) tc >>= _) = _
    rw [a2]; rfl
  exact ⟨_, (batchPutValueSets_le f1 sets _ _).eq hb, (batchPutValueSets_le f2 sets _ _).eq hb⟩

/-- Writing the batch back. -/
theorem Tracks.write {P : Prop} {R R1 R' : Reader} {st} {s s' : Store} {hist sets : List ValueSet} {low : Nat} {hs b}
    (h : Tracks P R st s hist.length) (hi : SysInv H s hist low) (c : CommitRes H s hist sets low hs b s')
    (hpart : PartlyWritten b.nodeBatch R1 R) (hwrite : Written b.nodeBatch R' R1) :
    Tracks P R' (st ++ b.staleNodeIndexBatch) s' (hist.length + sets.length) := by
  have hw := c.written hi
  have hst : ∀ x ∈ b.staleNodeIndexBatch, x.nodeKey.version < hist.length + sets.length := by
    intro x hx
    obtain ⟨⟨M, W, hI, -⟩, -⟩ := c.inv
    have := hI.stale x (by rw [c.stale]; exact List.mem_append_right _ hx)
    obtain ⟨nd, hnd⟩ := this.2.2.1
    have := hI.lt _ _ hnd
    rwa [List.length_append] at this
  have hold : ∀ k, b.nodeBatch.nodes.get? k = none → R'.getNodeOption k = R.getNodeOption k := by
    intro k hk
    rw [hwrite.old k hk]
    rcases hpart.node k with h | ⟨n, hn, -⟩
    · exact h
    · rw [hk] at hn; cases hn
  refine ⟨fun k nd hk => ?_, fun k hv hk => ?_, fun v k => ?_, fun x hx => ?_⟩
  · rw [c.nodes] at hk
    cases hb : b.nodeBatch.nodes.get? k with
    | some n =>
      rw [hb] at hk
      cases hk
      exact hwrite.new k _ hb
    | none =>
      rw [hb] at hk
      rw [hold k hb]
      exact h.node k nd hk
  · rw [c.nodes] at hk
    cases hb : b.nodeBatch.nodes.get? k with
    | some n => rw [hb] at hk; cases hk
    | none =>
      rw [hb] at hk
      rw [hold k hb]
      exact h.fresh k (by omega) hk
  · let hyb : Reader := { R' with getValueOption := fun v k => open Classical in
      if ∃ u x, b.nodeBatch.values.get? (u, k) = some x ∧ u ≤ v then s'.reader.getValueOption v k else R.getValueOption v k }
    have hhyb : Written b.nodeBatch hyb R := by
      refine ⟨hwrite.new, hold, fun v k w x hx hle hmax => ?_, fun v k hno => ?_⟩
      · exact (if_pos ⟨w, x, hx, hle⟩).trans (hw.newValue v k w x hx hle hmax)
      · exact if_neg fun ⟨u, x, hx, hle⟩ => by have := hno u x hx; omega
    have hv := (written_unique hpart hwrite hhyb).2 v k
    rw [hv]
    by_cases hex : ∃ u x, b.nodeBatch.values.get? (u, k) = some x ∧ u ≤ v
    · exact .inl (if_pos hex)
    · rw [show hyb.getValueOption v k = R.getValueOption v k from if_neg hex,
        ← show s.getValueOption v k = s'.getValueOption v k from (Except.ok.inj (hw.oldValue v k fun u x hx =>
          Nat.lt_of_not_le fun hle => hex ⟨u, x, hx, hle⟩)).symm]
      exact h.value v k
  · rw [c.stale]
    rcases List.mem_append.1 hx with hx | hx
    · obtain ⟨h1, h2⟩ := h.stale x hx
      refine ⟨by omega, ?_⟩
      rcases h2 with h2 | h2
      · exact .inl (List.mem_append_left _ h2)
      · right
        rw [c.nodes, h2]
        cases hb : b.nodeBatch.nodes.get? x.nodeKey with
        | none => rfl
        | some n => have := (c.nodeVer _ _ hb).1; omega
    · exact ⟨hst x hx, .inl (List.mem_append_right _ hx)⟩

theorem Tracks.prune {P : Prop} {R R' : Reader} {st} {s s' : Store} {n : Nat} {r : Version} (h : Tracks P R st s n)
    (hs' : s'.stale = s.stale.filter (fun i => decide (¬ i.staleSince ≤ r)))
    (hval : s'.values = s.values)
    (hg : ∀ k, s'.nodes.get? k = if ∃ x ∈ s.stale, x.staleSince ≤ r ∧ x.nodeKey = k then none else s.nodes.get? k)
    (hlt : ∀ k nd, s.nodes.get? k = some nd → ¬ n ≤ k.version) (hp : Spec.Pruned st r R' R) : Tracks P R' st s' n := by
  refine ⟨fun k nd hk => ?_, fun k hv hk => ?_, fun v k => ?_, fun x hx => ?_⟩
  · rw [hg] at hk
    split at hk
    · cases hk
    · next hno =>
      rw [hp.node k]
      · exact h.node k nd hk
      · intro x hx hxk
        rcases (h.stale x hx).2 with h1 | h1
        · apply Nat.lt_of_not_le
          intro hle
          exact hno ⟨x, h1, hle, hxk⟩
        · rw [hxk, hk] at h1; cases h1
  · have hkeep : R'.getNodeOption k = R.getNodeOption k := by
      apply hp.node
      intro x hx hxk
      have := (h.stale x hx).1
      rw [hxk] at this; omega
    rw [hkeep]
    cases hk0 : s.nodes.get? k with
    | none => exact h.fresh k hv hk0
    | some nd =>
      exact (hlt k nd hk0 hv).elim
  · rw [hp.value]
    have hv := h.value v k
    unfold Store.getValueOption at hv ⊢
    rwa [hval]
  · obtain ⟨h1, h2⟩ := h.stale x hx
    refine ⟨h1, ?_⟩
    rw [hs', hg]
    by_cases hle : x.staleSince ≤ r
    · right
      rcases h2 with h2 | h2
      · rw [if_pos ⟨x, h2, hle, rfl⟩]
      · split
        · rfl
        · exact h2
    · rcases h2 with h2 | h2
      · exact .inl (List.mem_filter.2 ⟨h2, by simp [hle]⟩)
      · right
        split
        · rfl
        · exact h2

/-- Every run of a backend follows a run of the mock store. -/
theorem BackendRun.tracks {ops : List Op} {R : Reader} {n : Version} {st : List StaleNodeIndex}
    (h : BackendRun H ops R n st) (hb : (setsOf ops).length < 2 ^ 64) :
    n = (setsOf ops).length ∧ ∃ y, Reached H ops y ∧ Tracks True R st y.store n := by
  induction h with
  | @start R hn hv =>
    refine ⟨rfl, ⟨Store.new false, 0⟩, ⟨false, rfl⟩, fun k nd hk => ?_, fun k _ _ => hn k, fun v k => ?_, fun x hx => ?_⟩
    · cases hk
    · exact .inl (hv v k)
    · cases hx
  | @commit ops R n st sets hs b R1 R' h hput hpart hwrite ih =>
    rw [setsOf_commit, List.length_append] at hb
    obtain ⟨hn, y, hr, ht⟩ := ih (by omega)
    obtain ⟨hy, hi⟩ := hr.inv (by omega)
    obtain ⟨hs', b', s', a1, a2, -, a4, a5⟩ := hr.commit sets hb
    rw [hn] at ht hput
    obtain ⟨⟨r, e1, e2⟩, -⟩ := ht.put hi sets (by unfold preGenesisVersion u64Size; omega)
    rw [hput] at e1
    cases e1
    rw [hy, e2] at a1
    cases a1
    refine ⟨by rw [setsOf_commit, List.length_append, hn], _, a5, ?_⟩
    rw [hn]
    exact ht.write hi a4 hpart hwrite
  | @batch ops R n st sets hs b R1 R' h hput hpart hwrite ih =>
    have hlen : setsOf (ops ++ [.batch sets]) = setsOf ops ++ sets.map someSet := by
      rw [setsOf_append]; simp [setsOf]
    rw [hlen, List.length_append, List.length_map] at hb
    obtain ⟨hn, y, hr, ht⟩ := ih (by omega)
    obtain ⟨hy, hi⟩ := hr.inv (by omega)
    have hne := batch_nonempty hput
    obtain ⟨hs', b', s', a1, a2, a4⟩ := hi.batch sets none hne (cachesFor_none _ _)
      (by unfold preGenesisVersion u64Size; omega)
    rw [hn] at ht hput
    obtain ⟨r, e1, e2⟩ := ht.putBatch hi sets hne (by unfold preGenesisVersion u64Size; omega)
    rw [hput] at e1
    cases e1
    rw [e2] at a1
    cases a1
    refine ⟨by rw [hlen, List.length_append, List.length_map, hn], ⟨s', y.next + sets.length⟩, hr.run ?_, ?_⟩
    · show (y.step H (.batch sets) >>= fun z => Sys.run H [] z) = _
      unfold Sys.step Store.commitBatch
      simp only [hy, e2, a2, ok_bind]
      rfl
    · have := ht.write hi a4 hpart hwrite
      rw [List.length_map] at this
      rw [hn]
      exact this
  | @purge ops R n st r R' h hp ih =>
    rw [setsOf_purge] at hb ⊢
    obtain ⟨hn, y, hr, ht⟩ := ih hb
    obtain ⟨hy, hi⟩ := hr.inv hb
    obtain ⟨s', a1, -, a3, a4, -, a5⟩ := hi.purge r
    refine ⟨hn, ⟨s', y.next⟩, hr.run ?_, ht.prune a4 a3 a5 ?_ hp⟩
    · show (y.step H (.purge r) >>= fun z => Sys.run H [] z) = _
      unfold Sys.step
      simp only [a1, ok_bind]
      rfl
    · obtain ⟨⟨M, W, hI, -⟩, -⟩ := hi
      intro k nd hk
      have := hI.lt _ _ hk
      omega

/-- A readable version of a backend that follows the mock store. -/
theorem Tracks.readAt {R : Reader} {st} {ops : List Op} {y : Sys} {n : Nat} (ht : Tracks True R st y.store n)
    (h : Reached H ops y) (hb : (setsOf ops).length < 2 ^ 64) {v : Version} (hv : Readable ops v) :
    ReadAt H R v (mapAt ops v) (entriesAfter H (setsOf ops) (v + 1)) := by
  have r := h.readAt hb hv
  have lift : ∀ {ver}, TreeAt H y.store.reader.getNodeOption v (entriesAfter H (setsOf ops) (v + 1)) ver →
      TreeAt H R.getNodeOption v (entriesAfter H (setsOf ops) (v + 1)) ver := by
    intro ver t
    exact ⟨ht.node _ _ (Except.ok.inj t.root), fun q h1 h2 => ht.node _ _ (Except.ok.inj (t.node q h1 h2))⟩
  obtain ⟨ver, t⟩ := r.tree
  obtain ⟨ver', t', l⟩ := r.leaves
  refine .of r.nodup ⟨ver, lift t⟩ r.lists (fun k => ?_) ⟨ver', lift t', fun q e h1 h2 h3 => ?_⟩
  · rw [ht.values]; exact r.value k
  · rw [ht.values]; exact l q e h1 h2 h3

end
end Jmt
