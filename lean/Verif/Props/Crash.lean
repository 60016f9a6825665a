import Verif.Proofs.CrashRead
import Verif.Props.Queries
import Verif.Props.Faults
/-!
# Properties C42 (leftovers of interrupted writes) and C43 (reading while writes and pruning go on)
-/
namespace Jmt
open Spec (Leftover NoLeftoverRoot NeverDeletesFromEmpty PartlyWritten Written)

variable {H : Hasher} {ops : List Op} {y : Sys} {R' : Reader}

/-- C42, reads: whatever the store holds of later versions, a readable version answers every query alike.  (`Leftover` for
the version after `v`: everything of version `v` and older is unchanged.) -/
theorem C42_later_versions_do_not_matter (hr : Reached H ops y) (hb : (setsOf ops).length < 2 ^ 64) {v : Version}
    (hv : Readable ops v) (hl : Leftover (v + 1) R' y.store.reader) : SameQueries H R' y.store.reader v v :=
  (hr.readAt_older hb hv (fun k hk => hl.node k (.inl (by omega))) (fun w k hw => hl.value w k (by omega))).sameQueries
    (hr.readAt hb hv)

/-- C42, writes: over a store that holds arbitrary leftovers of the versions about to be written, `put_value_sets` and
`put_value_sets_with_proof` return exactly what they return over the clean store - provided no root node is among the
leftovers, or no write deletes from an empty map. -/
theorem C42_leftovers_same_update (hr : Reached H ops y) (sets : List ValueSet)
    (hb : (setsOf ops).length + sets.length < 2 ^ 64) (hl : Leftover y.next R' y.store.reader)
    (hsafe : NoLeftoverRoot y.next R' ∨ NeverDeletesFromEmpty (latestMap (setsOf ops)) sets) :
    (∃ r, putValueSets H R' sets y.next = .ok r ∧ putValueSets H y.store.reader sets y.next = .ok r) ∧
    (∃ r, putValueSetsWithProof H R' sets y.next = .ok r ∧
      putValueSetsWithProof H y.store.reader sets y.next = .ok r) := by
  obtain ⟨hn, hi⟩ := hr.inv (by omega)
  rw [hn] at hl hsafe ⊢
  exact hi.leftover_put hl sets hsafe (by unfold preGenesisVersion u64Size; omega)

/-- C42, the batch API: arbitrary leftovers, as it cannot delete. -/
theorem C42_leftovers_same_batch (hr : Reached H ops y) (sets : List (List (KeyHash × Value))) (hne : ∀ s ∈ sets, s ≠ [])
    (hb : (setsOf ops).length + sets.length < 2 ^ 64) (hl : Leftover y.next R' y.store.reader) :
    ∃ r, batchPutValueSets H R' sets none y.next = .ok r ∧ batchPutValueSets H y.store.reader sets none y.next = .ok r := by
  obtain ⟨hn, hi⟩ := hr.inv (by omega)
  rw [hn] at hl ⊢
  exact hi.leftover_batch hl sets none hne (cachesFor_none _ _) (by unfold preGenesisVersion u64Size; omega)

/-- C42, a crash in the middle of writing an update batch back: whatever part of the batch has been written (`R1`),
every version that was readable answers as before; computing the update again gives the same root hashes and the same
batch; and after the batch has been written completely (`R2`), every version answers as after an uninterrupted commit. -/
theorem C42_retry_after_crash (hr : Reached H ops y) (sets : List ValueSet)
    (hb : (setsOf ops).length + sets.length < 2 ^ 64) :
    ∃ hs b s', putValueSets H y.store.reader sets y.next = .ok (hs, b) ∧ y.store.commit H sets y.next = .ok (hs, s') ∧
      ∀ R1, PartlyWritten b.nodeBatch R1 y.store.reader →
        (∀ v, Readable ops v → SameQueries H R1 y.store.reader v v) ∧
        (NoLeftoverRoot y.next R1 ∨ NeverDeletesFromEmpty (latestMap (setsOf ops)) sets →
          putValueSets H R1 sets y.next = .ok (hs, b)) ∧
        ∀ R2, Written b.nodeBatch R2 R1 → ∀ v, Readable (ops ++ [.commit sets]) v → SameQueries H R2 s'.reader v v := by
  obtain ⟨hs, b, s', a1, a2, a3, a4, a5⟩ := hr.commit sets hb
  obtain ⟨hn, hi⟩ := hr.inv (by omega)
  refine ⟨hs, b, s', a1, a3, fun R1 h1 => ?_⟩
  have hl := a4.leftover (by unfold preGenesisVersion u64Size; omega) h1
  have hb' : (setsOf (ops ++ [.commit sets])).length < 2 ^ 64 := by
    rw [setsOf_commit, List.length_append]; exact hb
  refine ⟨fun v hv => ?_, fun hsafe => ?_, fun R2 h2 v hv => ?_⟩
  · refine C42_later_versions_do_not_matter hr (by omega) hv ⟨fun k hk => hl.node k ?_, fun w k hw => hl.value w k ?_⟩
    · have := hv.2
      omega
    · have := hv.2
      omega
  · obtain ⟨r, e1, e2⟩ := (C42_leftovers_same_update hr sets hb (hn ▸ hl) hsafe).1
    rw [a1] at e2; cases e2
    exact e1
  · obtain ⟨u1, u2⟩ := written_unique h1 h2 (a4.written hi)
    exact (a5.readAt_older hb' hv (fun k _ => u1 k) (fun w k _ => u2 w k)).sameQueries (a5.readAt hb' hv)

/-! ### Reading while the store changes -/

theorem Sys.run_append {ops ops' : List Op} : ∀ {y : Sys},
    Sys.run H (ops ++ ops') y = (Sys.run H ops y >>= fun z => Sys.run H ops' z) := by
  induction ops with
  | nil => intro y; rfl
  | cons op ops ih =>
    intro y
    show (y.step H op >>= fun z => Sys.run H (ops ++ ops') z) = ((y.step H op >>= fun z => Sys.run H ops z) >>= _)
    cases y.step H op with
    | error e => rfl
    | ok z => exact ih

theorem Reached.run {ops' : List Op} {z : Sys} (h : Reached H ops y) (hz : Sys.run H ops' y = .ok z) :
    Reached H (ops ++ ops') z := by
  obtain ⟨ow, h⟩ := h
  exact ⟨ow, by rw [Sys.run_append, h]; exact hz⟩

theorem Reached.run_inv {ops' : List Op} {z : Sys} (h : Reached H (ops ++ ops') z) :
    ∃ y, Reached H ops y ∧ Sys.run H ops' y = .ok z := by
  obtain ⟨ow, h⟩ := h
  rw [Sys.run_append] at h
  obtain ⟨y, h1, h2⟩ := bind_ok_inv h
  exact ⟨y, ⟨ow, h1⟩, h2⟩

theorem length_setsOf_append (ops ops' : List Op) : (setsOf (ops ++ ops')).length = (setsOf ops).length + (setsOf ops').length := by
  rw [setsOf_append, List.length_append]

/-- Nodes of committed versions only ever disappear. -/
theorem Reached.evolve {ops' : List Op} : ∀ {ops : List Op} {y z : Sys}, Reached H ops y → Sys.run H ops' y = .ok z →
    (setsOf (ops ++ ops')).length < 2 ^ 64 → ∀ k : NodeKey, k.version < (setsOf ops).length →
    z.store.nodes.get? k = y.store.nodes.get? k ∨ z.store.nodes.get? k = none := by
  induction ops' with
  | nil =>
    intro ops y z _ hz _ k _
    cases hz
    exact .inl rfl
  | cons op ops' ih =>
    intro ops y z hr hz hb k hk
    obtain ⟨x, h1, h2⟩ := bind_ok_inv (show (y.step H op >>= fun z => Sys.run H ops' z) = .ok z from hz)
    have hx : Reached H (ops ++ [op]) x := hr.run (by
      show (y.step H op >>= fun z => Sys.run H [] z) = _
      rw [h1]; rfl)
    have happ : ops ++ op :: ops' = (ops ++ [op]) ++ ops' := by simp
    rw [happ] at hb
    have hlen := length_setsOf_append (ops ++ [op]) ops'
    have hlen1 := length_setsOf_append ops [op]
    have hrec := ih hx h2 hb k (by omega)
    have hstep : x.store.nodes.get? k = y.store.nodes.get? k ∨ x.store.nodes.get? k = none := by
      obtain ⟨hn, hi⟩ := hr.inv (by omega)
      cases op with
      | commit sets =>
        have hl : (setsOf [Op.commit sets]).length = sets.length := by simp [setsOf]
        obtain ⟨hs, b, s', a1, a2, a3, a4, -⟩ := hr.commit sets (by omega)
        unfold Sys.step at h1
        simp only [a3, ok_bind] at h1
        cases h1
        show s'.nodes.get? k = _ ∨ s'.nodes.get? k = none
        rw [a4.nodes]
        cases hbk : b.nodeBatch.nodes.get? k with
        | none => exact .inl rfl
        | some n => have := (a4.nodeVer k n hbk).1; omega
      | batch sets =>
        have hl : (setsOf [Op.batch sets]).length = sets.length := by simp [setsOf]
        obtain ⟨hs, b, s', a1, a2, a3⟩ := hi.batch sets none (hx.allowed (.batch sets) (by simp)) (cachesFor_none _ _)
          (by unfold preGenesisVersion u64Size; omega)
        unfold Sys.step Store.commitBatch at h1
        rw [← hn] at a1
        simp only [a1, a2, ok_bind] at h1
        cases h1
        show s'.nodes.get? k = _ ∨ s'.nodes.get? k = none
        rw [a3.nodes]
        cases hbk : b.nodeBatch.nodes.get? k with
        | none => exact .inl rfl
        | some n => have := (a3.nodeVer k n hbk).1; omega
      | purge r =>
        obtain ⟨s', a1, -, -, -, -, a2⟩ := hi.purge r
        unfold Sys.step at h1
        simp only [a1, ok_bind] at h1
        cases h1
        show s'.nodes.get? k = _ ∨ s'.nodes.get? k = none
        rw [a2]
        split
        · exact .inr rfl
        · exact .inl rfl
    rcases hrec with h | h
    · rcases hstep with h' | h'
      · exact .inl (h.trans h')
      · exact .inr (h.trans h')
    · exact .inr h

theorem horizon_mono (ops ops' : List Op) : (horizon ops).2 ≤ (horizon (ops ++ ops')).2 := by
  unfold horizon
  rw [List.foldl_append]
  generalize ops.foldl horizonStep (0, 0) = a
  induction ops' generalizing a with
  | nil => exact Nat.le_refl _
  | cons op ops' ih =>
    refine Nat.le_trans ?_ (ih (horizonStep a op))
    cases op with
    | commit => exact Nat.le_refl _
    | batch => exact Nat.le_refl _
    | purge r => exact Nat.le_max_left ..

/-- What a reader that sees the states in between has of a version that stays readable. -/
theorem seen_reads {ops' : List Op} {z : Sys} (hr : Reached H ops y) (hz : Sys.run H ops' y = .ok z)
    (hb : (setsOf (ops ++ ops')).length < 2 ^ 64) {v : Version} (hv : Readable (ops ++ ops') v)
    (hcommitted : v < (setsOf ops).length) (hs : SeenDuring H y ops' R') :
    (∀ k : NodeKey, k.version ≤ v → ∀ n, z.store.reader.getNodeOption k = .ok (some n) → R'.getNodeOption k = .ok (some n)) ∧
    (∀ w k, w ≤ v → R'.getValueOption w k = z.store.reader.getValueOption w k) := by
  have hrz := hr.run hz
  -- a state in between
  have hmid : ∀ i x, Sys.run H (ops'.take i) y = .ok x →
      Reached H (ops ++ ops'.take i) x ∧ Sys.run H (ops'.drop i) x = .ok z ∧
      (setsOf (ops ++ ops'.take i)).length < 2 ^ 64 ∧ v < (setsOf (ops ++ ops'.take i)).length ∧
      (setsOf (ops ++ ops'.take i) ++ setsOf (ops'.drop i)) = setsOf (ops ++ ops') := by
    intro i x hx
    have heq : setsOf (ops ++ ops'.take i) ++ setsOf (ops'.drop i) = setsOf (ops ++ ops') := by
      rw [← setsOf_append, List.append_assoc, List.take_append_drop]
    have hle : (setsOf (ops ++ ops'.take i)).length ≤ (setsOf (ops ++ ops')).length := by
      rw [← heq, List.length_append]; omega
    refine ⟨hr.run hx, ?_, by omega, ?_, heq⟩
    · have := hz
      rw [← List.take_append_drop i ops', Sys.run_append, hx] at this
      exact this
    · rw [length_setsOf_append]; omega
  obtain ⟨-, hiz⟩ := hrz.inv hb
  refine ⟨?_, ?_⟩
  · intro k hk n hn
    obtain ⟨i, x, hx, hxe⟩ := hs.node k
    obtain ⟨m1, m2, m3, m4, m5⟩ := hmid i x hx
    have hn' : z.store.nodes.get? k = some n := by
      have : Except.ok (z.store.nodes.get? k) = (Except.ok (some n) : Except Err _) := hn
      injection this
    rw [hxe]
    show Except.ok _ = _
    rcases m1.evolve m2 (by rw [setsOf_append, m5]; exact hb) k (by omega) with h | h
    · rw [← h, hn']
    · rw [h] at hn'; cases hn'
  · intro w k hw
    obtain ⟨i, x, hx, hxe⟩ := hs.value w k
    obtain ⟨m1, m2, m3, m4, m5⟩ := hmid i x hx
    obtain ⟨-, hix⟩ := m1.inv m3
    rw [hxe]
    show Except.ok (x.store.getValueOption w k) = .ok (z.store.getValueOption w k)
    rw [hix.vals.get, hiz.vals.get, ← m5]
    congr 1
    unfold Spec.stateAfter
    rw [List.take_append_of_le_length (by omega)]

/-- The lookups at versions up to `v` suffice to read version `v`. -/
theorem readAt_older {ops : List Op} {z : Sys} (hrz : Reached H ops z) (hb : (setsOf ops).length < 2 ^ 64) {v : Version}
    (hv : Readable ops v) {R' : Reader}
    (hnode : ∀ k : NodeKey, k.version ≤ v → ∀ n, z.store.reader.getNodeOption k = .ok (some n) → R'.getNodeOption k = .ok (some n))
    (hval : ∀ w k, w ≤ v → R'.getValueOption w k = z.store.reader.getValueOption w k) :
    ReadAt H R' v (mapAt ops v) (entriesAfter H (setsOf ops) (v + 1)) := by
  obtain ⟨-, hiz⟩ := hrz.inv hb
  have hR := hrz.readAt hb hv
  have hle := hiz
  obtain ⟨⟨M, W, hI, -, hM, hF, -⟩, -, -⟩ := hle
  have hwle : ∀ q, pres (entriesAfter H (setsOf ops) (v + 1)) [] q → W v q ≤ v := by
    intro q hq
    rw [← hM v hv.2] at hq
    exact hI.wle v hv.2 q hq
  have t : TreeAt H z.store.reader.getNodeOption v (entriesAfter H (setsOf ops) (v + 1)) (W v) := by
    rw [← hM v hv.2]
    exact hI.tree v hv.1 hv.2
  have t' : TreeAt H R'.getNodeOption v (entriesAfter H (setsOf ops) (v + 1)) (W v) :=
    ⟨hnode _ (Nat.le_refl _) _ t.root, fun q h1 h2 => hnode _ (hwle q h2) _ (t.node q h1 h2)⟩
  refine .of hR.nodup ⟨W v, t'⟩ hR.lists (fun k => ?_) ⟨W v, t', fun q e hq hp hu => ?_⟩
  · rw [hval v k (Nat.le_refl _)]; exact hR.value k
  · rw [hval _ _ (hwle q hp)]
    show Except.ok _ = _
    rw [hiz.vals.get]
    congr 1
    rw [← hM v hv.2] at hp hu
    have he : e ∈ under q (M v) := by rw [hu]; simp
    refine stateAfter_const (hI.wle v hv.2 q hp) (fun u h1 h2 ws hws hk => ?_)
    exact hF v hv.2 q hq hp u h1 h2 ws hws _ hk e (mem_under.1 he).1 rfl (mem_under.1 he).2

/-- C43: a query of a version that stays readable while commits and pruning go on gives the answer it gives on the store
at rest, before and after, whichever state each of its lookups happens to see. -/
theorem C43_concurrent_reads {ops' : List Op} {z : Sys} (hr : Reached H ops y) (hz : Sys.run H ops' y = .ok z)
    (hb : (setsOf (ops ++ ops')).length < 2 ^ 64) {v : Version} (hv : Readable (ops ++ ops') v)
    (hcommitted : v < (setsOf ops).length) (hs : SeenDuring H y ops' R') :
    SameQueries H R' y.store.reader v v ∧ SameQueries H R' z.store.reader v v := by
  have hrz := hr.run hz
  obtain ⟨hnode, hval⟩ := seen_reads hr hz hb hv hcommitted hs
  have hR := hrz.readAt hb hv
  have hR' := readAt_older hrz hb hv hnode hval
  have hR0 := hr.readAt (v := v) (by rw [length_setsOf_append] at hb; omega)
    ⟨Nat.le_trans (horizon_mono ops ops') hv.1, hcommitted⟩
  have hmap : mapAt ops v = mapAt (ops ++ ops') v := by
    unfold mapAt Spec.stateAfter
    rw [setsOf_append, List.take_append_of_le_length (by omega)]
  rw [hmap] at hR0
  exact ⟨hR'.sameQueries hR0, hR'.sameQueries hR⟩

/-! ### The hypotheses are met -/

namespace Sample

/-- The sample history interrupted while version 5 is written: the nodes of the batch are there, the values are not. -/
def halfWritten (y : Sys) (b : NodeBatch) : Reader where
  getNodeOption k := match b.nodes.get? k with | some n => .ok (some n) | none => y.store.reader.getNodeOption k
  getValueOption v k := y.store.reader.getValueOption v k
  getRightmostLeaf := y.store.reader.getRightmostLeaf

theorem halfWritten_partly (y : Sys) (b : NodeBatch) : PartlyWritten b (halfWritten y b) y.store.reader where
  node k := by
    unfold halfWritten
    dsimp only
    cases h : b.nodes.get? k with
    | none => exact .inl rfl
    | some n => exact .inr ⟨n, rfl, rfl⟩
  value _ _ _ := rfl

/-- Over the sample history and a set that inserts and deletes: the crash leaves a root, and the retry gives the same
update. -/
example : ∃ y hs b, Reached H Sample.ops y ∧
    putValueSets H y.store.reader [[(key 0x80, none), (key 0x33, some [9])]] y.next = .ok (hs, b) ∧
    putValueSets H (halfWritten y b.nodeBatch) [[(key 0x80, none), (key 0x33, some [9])]] y.next = .ok (hs, b) := by
  obtain ⟨y, hy⟩ := Sample.reached H
  obtain ⟨hs, b, s', h1, -, h3⟩ := C42_retry_after_crash hy [[(key 0x80, none), (key 0x33, some [9])]] (by decide)
  refine ⟨y, hs, b, hy, h1, (h3 _ (halfWritten_partly y _)).2.1 (.inr ?_)⟩
  intro i ws pre k post hi hws
  cases i with
  | succ i => simp at hi
  | zero =>
    simp only [List.getElem?_cons_zero, Option.some.injEq] at hi
    subst hi
    cases pre with
    | nil => exact ⟨key 0x10, [6], by decide⟩
    | cons p pre =>
      cases pre with
      | nil => simp at hws
      | cons q pre => simp at hws

/-- A reader that sees the store before a purge for the root and after it for everything else. -/
example : ∃ y z R', Reached H Sample.ops y ∧ Sys.run H [.commit [[(key 0x80, none)]], .purge 4] y = .ok z ∧
    SeenDuring H y [.commit [[(key 0x80, none)]], .purge 4] R' ∧ SameQueries H R' y.store.reader 4 4 := by
  obtain ⟨y, hy⟩ := Sample.reached H
  obtain ⟨z', hz', -, -⟩ := Sys.run_ok H false (Sample.ops ++ [.commit [[(key 0x80, none)]], .purge 4]) (by decide) (by decide)
  obtain ⟨y, hy, hz⟩ := Reached.run_inv (⟨false, hz'⟩ : Reached H _ z')
  let R' : Reader :=
    { getNodeOption := fun k => if k.path = [] then y.store.reader.getNodeOption k else z'.store.reader.getNodeOption k
      getValueOption := fun v k => z'.store.reader.getValueOption v k
      getRightmostLeaf := .ok none }
  have hs : SeenDuring H y [.commit [[(key 0x80, none)]], .purge 4] R' := by
    refine ⟨fun k => ?_, fun v k => ⟨2, z', hz, rfl⟩⟩
    by_cases hk : k.path = []
    · exact ⟨0, y, rfl, if_pos hk⟩
    · exact ⟨2, z', hz, if_neg hk⟩
  exact ⟨y, z', R', hy, hz, hs, (C43_concurrent_reads hy hz (by decide) (by constructor <;> decide) (by decide) hs).1⟩

/-! ### The restriction of C42 is needed -/

/-- `s` with nodes added. -/
def withNodes (s : Store) (N : AMap NodeKey Node) : Reader :=
  { s.reader with getNodeOption := fun k => match N.get? k with | some n => .ok (some n) | none => s.reader.getNodeOption k }

/-- A commit that empties the tree, deletes once more and then inserts. -/
def emptying : List ValueSet := [[(key 0x10, none), (key 0x10, none), (key 0x80, some [2])]]

/-- Without the restriction the retry of an interrupted write goes wrong: with the root of the batch left over, the same
call returns a different batch, in which the new root is listed as stale - the next pruning removes it. -/
theorem _root_.Jmt.C42_retry_retires_live_root :
    ∃ s : Store, ∃ hs, ∃ b b' : TreeUpdateBatch,
      (∃ hs0, (Store.new false).commit T [[(key 0x10, some [1])]] 0 = .ok (hs0, s)) ∧
      putValueSets T s.reader emptying 1 = .ok (hs, b) ∧
      putValueSets T (withNodes s b.nodeBatch.nodes) emptying 1 = .ok (hs, b') ∧
      (⟨1, ⟨1, []⟩⟩ : StaleNodeIndex) ∉ b.staleNodeIndexBatch ∧ (⟨1, ⟨1, []⟩⟩ : StaleNodeIndex) ∈ b'.staleNodeIndexBatch := by
  have key : okAnd ((Store.new false).commit T [[(key 0x10, some [1])]] 0) (fun r =>
      okAnd (putValueSets T r.2.reader emptying 1) (fun a =>
        okAnd (putValueSets T (withNodes r.2 a.2.nodeBatch.nodes) emptying 1) (fun b =>
          decide (b.1 = a.1 ∧ (⟨1, ⟨1, []⟩⟩ : StaleNodeIndex) ∉ a.2.staleNodeIndexBatch ∧
            (⟨1, ⟨1, []⟩⟩ : StaleNodeIndex) ∈ b.2.staleNodeIndexBatch)))) = true := by
    decide +kernel
  obtain ⟨⟨hs0, s⟩, h0, key⟩ := of_okAnd key
  obtain ⟨⟨ha, a⟩, h1, key⟩ := of_okAnd key
  obtain ⟨⟨hb, b⟩, h2, key⟩ := of_okAnd key
  obtain ⟨rfl, h3, h4⟩ := of_decide_eq_true key
  exact ⟨s, _, a, b, ⟨hs0, h0⟩, h1, h2, h3, h4⟩

/-- ... and when another set is committed than the interrupted one, a key of the interrupted write comes back: the root hash
is that of a map with both keys. -/
theorem _root_.Jmt.C42_leftover_root_wrong_hash :
    ∃ s : Store, ∃ hs0 hs hs', ∃ b0 b b' : TreeUpdateBatch,
      putValueSets T s.reader [[(key 0x20, some [5]), (key 0x10, none)]] 1 = .ok (hs0, b0) ∧
      putValueSets T s.reader emptying 1 = .ok (hs, b) ∧ hs = [Spec.root T [(key 0x80, T.hash [2])]] ∧
      putValueSets T (withNodes s b0.nodeBatch.nodes) emptying 1 = .ok (hs', b') ∧
      hs' = [Spec.root T [(key 0x20, T.hash [5]), (key 0x80, T.hash [2])]] ∧ hs' ≠ hs := by
  have key : okAnd ((Store.new false).commit T [[(key 0x10, some [1])]] 0) (fun r =>
      okAnd (putValueSets T r.2.reader [[(key 0x20, some [5]), (key 0x10, none)]] 1) (fun c =>
      okAnd (putValueSets T r.2.reader emptying 1) (fun a =>
        okAnd (putValueSets T (withNodes r.2 c.2.nodeBatch.nodes) emptying 1) (fun b =>
          decide (a.1 = [Spec.root T [(Sample.key 0x80, T.hash [2])]] ∧
            b.1 = [Spec.root T [(Sample.key 0x20, T.hash [5]), (Sample.key 0x80, T.hash [2])]] ∧ b.1 ≠ a.1))))) = true := by
    decide +kernel
  obtain ⟨⟨_, s⟩, h0, key⟩ := of_okAnd key
  obtain ⟨⟨hc, c⟩, h1, key⟩ := of_okAnd key
  obtain ⟨⟨ha, a⟩, h2, key⟩ := of_okAnd key
  obtain ⟨⟨hb, b⟩, h3, key⟩ := of_okAnd key
  obtain ⟨h4, h5, h6⟩ := of_decide_eq_true key
  exact ⟨s, hc, ha, hb, c, a, b, h1, h2, h4, h3, h5, h6⟩

end Sample
end Jmt
