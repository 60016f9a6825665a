import Verif.Proofs.Writers
import Verif.Props.WrongVersion
import Verif.Props.Layout
import Verif.Props.Writes
import Verif.Props.Space
/-!
# C64 and C65: preparing an update while others use the store

`put_value_sets` and its variants only read; the caller writes the returned batch later.  Pruning in between, or at the same
time, makes no difference.  A batch whose version another writer has committed meanwhile is refused by the in-memory store as
long as that version is retained; after it has been pruned, the batch is accepted and pruning fails from then on.
-/
namespace Jmt
open Spec (NeverDeletesFromEmpty)

section
variable {H : Hasher} {ops ops' : List Op} {y z : Sys} {b : TreeUpdateBatch} {R' : Reader}

theorem purges_mid {rs : List Version} (hr : Reached H ops y) (hz : Sys.run H (rs.map .purge) y = .ok z)
    (hb : (setsOf ops).length < 2 ^ 64) {i : Nat} {x : Sys} (hx : Sys.run H ((rs.map .purge).take i) y = .ok x) :
    (∀ (k : NodeKey) n, z.store.nodes.get? k = some n → x.store.nodes.get? k = some n) ∧
    (∀ w, (setsOf ops).length ≤ w → x.store.nodes.get? ⟨w, []⟩ = none) := by
  have e1 : ∀ i, setsOf ((rs.map Op.purge).take i) = [] := fun i => by rw [← List.map_take]; exact setsOf_purges _
  have e2 : ∀ i, setsOf ((rs.map Op.purge).drop i) = [] := fun i => by rw [← List.map_drop]; exact setsOf_purges _
  have hxs : setsOf (ops ++ (rs.map Op.purge).take i) = setsOf ops := by rw [setsOf_append, e1, List.append_nil]
  have hrx := hr.run hx
  have hxz : Sys.run H ((rs.map Op.purge).drop i) x = .ok z := by
    have := hz
    rw [← List.take_append_drop i (rs.map Op.purge), Sys.run_append, hx] at this
    exact this
  obtain ⟨-, hix⟩ := hrx.inv (by rw [hxs]; exact hb)
  have hrz := hrx.run hxz
  have hzs : setsOf (ops ++ (rs.map Op.purge).take i ++ (rs.map Op.purge).drop i) = setsOf ops := by
    rw [setsOf_append, hxs, e2, List.append_nil]
  obtain ⟨-, hiz⟩ := hrz.inv (by rw [hzs]; exact hb)
  refine ⟨fun k n hk => ?_, fun w hw => ?_⟩
  · have hlt := hiz.lt hk
    rw [hzs] at hlt
    rcases hrx.evolve hxz (by rw [hzs]; exact hb) k (by rw [hxs]; exact hlt) with h | h
    · rw [← h, hk]
    · rw [h] at hk; cases hk
  · cases hg : x.store.nodes.get? ⟨w, []⟩ with
    | none => rfl
    | some n => have := hix.lt hg; rw [hxs] at this; dsimp only at this; omega

theorem purges_shown {rs : List Version} (hr : Reached H ops y) (hz : Sys.run H (rs.map .purge) y = .ok z)
    (hb : (setsOf ops).length < 2 ^ 64) (hs : SeenDuring H y (rs.map .purge) R') :
    (∀ (k : NodeKey) n, z.store.nodes.get? k = some n → R'.getNodeOption k = .ok (some n)) ∧
    (∀ w, (setsOf ops).length ≤ w → R'.getNodeOption ⟨w, []⟩ = .ok none) := by
  refine ⟨fun k n hk => ?_, fun w hw => ?_⟩
  · obtain ⟨i, x, hx, he⟩ := hs.node k
    rw [he]
    exact congrArg Except.ok ((purges_mid hr hz hb hx).1 k n hk)
  · obtain ⟨i, x, hx, he⟩ := hs.node ⟨w, []⟩
    rw [he]
    exact congrArg Except.ok ((purges_mid hr hz hb hx).2 w hw)

/-- A reader that does not move. -/
theorem seen_start (H : Hasher) (y : Sys) (ops : List Op) : SeenDuring H y ops y.store.reader :=
  ⟨fun _ => ⟨0, y, rfl, rfl⟩, fun _ _ => ⟨0, y, rfl, rfl⟩⟩

/-- C64: computing an update while the store is being pruned. However the lookups of the computation are spread over the states
the store goes through while it is pruned, the returned roots and the batch are the ones computed before pruning, and the ones
computed after it; with proofs likewise. -/
theorem C64_compute_while_pruning {rs : List Version} (hr : Reached H ops y) (hz : Sys.run H (rs.map .purge) y = .ok z)
    (hs : SeenDuring H y (rs.map .purge) R') (sets : List ValueSet) (hb : (setsOf ops).length + sets.length < 2 ^ 64) :
    (∃ r, putValueSets H R' sets y.next = .ok r ∧ putValueSets H y.store.reader sets y.next = .ok r ∧
      putValueSets H z.store.reader sets z.next = .ok r) ∧
    (∃ r, putValueSetsWithProof H R' sets y.next = .ok r ∧ putValueSetsWithProof H y.store.reader sets y.next = .ok r ∧
      putValueSetsWithProof H z.store.reader sets z.next = .ok r) := by
  have hzs : setsOf (ops ++ rs.map Op.purge) = setsOf ops := by rw [setsOf_append, setsOf_purges, List.append_nil]
  obtain ⟨hn, -⟩ := hr.inv (by omega)
  obtain ⟨hn', hiz⟩ := (hr.run hz).inv (by rw [hzs]; omega)
  rw [hzs] at hn' hiz
  obtain ⟨r, r', h⟩ := hiz.shown_put (H := H) sets (by unfold preGenesisVersion u64Size; omega)
  obtain ⟨p1, p2⟩ := purges_shown hr hz (by omega) hs
  obtain ⟨q1, q2⟩ := purges_shown hr hz (by omega) (seen_start H y _)
  have ⟨s1, s2⟩ := purges_mid hr hz (by omega) (i := (rs.map Op.purge).length) (x := z) (by rw [List.take_length]; exact hz)
  rw [hn, hn']
  have hp := h R' p1 p2
  have hy := h _ q1 q2
  have hzz := h z.store.reader (fun k n hk => congrArg Except.ok hk) (fun w hw => congrArg Except.ok (s2 w hw))
  exact ⟨⟨r, hp.1, hy.1, hzz.1⟩, ⟨r', hp.2, hy.2, hzz.2⟩⟩

/-- C64: the batch API, likewise. -/
theorem C64_compute_batch_while_pruning {rs : List Version} (hr : Reached H ops y) (hz : Sys.run H (rs.map .purge) y = .ok z)
    (hs : SeenDuring H y (rs.map .purge) R') (sets : List (List (KeyHash × Value))) (hne : ∀ s ∈ sets, s ≠ [])
    (hb : (setsOf ops).length + sets.length < 2 ^ 64) :
    ∃ r, batchPutValueSets H R' sets none y.next = .ok r ∧ batchPutValueSets H y.store.reader sets none y.next = .ok r ∧
      batchPutValueSets H z.store.reader sets none z.next = .ok r := by
  have hzs : setsOf (ops ++ rs.map Op.purge) = setsOf ops := by rw [setsOf_append, setsOf_purges, List.append_nil]
  obtain ⟨hn, -⟩ := hr.inv (by omega)
  obtain ⟨hn', hiz⟩ := (hr.run hz).inv (by rw [hzs]; omega)
  rw [hzs] at hn' hiz
  obtain ⟨r, h⟩ := hiz.shown_batch (H := H) sets hne (by unfold preGenesisVersion u64Size; omega)
  obtain ⟨p1, p2⟩ := purges_shown hr hz (by omega) hs
  obtain ⟨q1, q2⟩ := purges_shown hr hz (by omega) (seen_start H y _)
  have ⟨s1, s2⟩ := purges_mid hr hz (by omega) (i := (rs.map Op.purge).length) (x := z) (by rw [List.take_length]; exact hz)
  rw [hn, hn']
  exact ⟨r, h R' p1 p2, h _ q1 q2, h z.store.reader (fun k n hk => congrArg Except.ok hk) (fun w hw => congrArg Except.ok (s2 w hw))⟩

/-- C64: writing after pruning. An update prepared before the store was pruned is accepted after it, and the store is then the
one of the history in which the whole commit came after the pruning. -/
theorem C64_write_after_pruning {rs : List Version} (hr : Reached H ops y) (hz : Sys.run H (rs.map .purge) y = .ok z)
    (sets : List ValueSet) (hb : (setsOf ops).length + sets.length < 2 ^ 64) :
    ∃ hs b s', putValueSets H y.store.reader sets y.next = .ok (hs, b) ∧ z.store.writeTreeUpdateBatch b = .ok s' ∧
      Reached H (ops ++ rs.map .purge ++ [.commit sets]) ⟨s', y.next + sets.length⟩ := by
  have hzs : setsOf (ops ++ rs.map Op.purge) = setsOf ops := by rw [setsOf_append, setsOf_purges, List.append_nil]
  obtain ⟨⟨r, h1, h2, h3⟩, -⟩ := C64_compute_while_pruning hr hz (seen_start H y _) sets hb
  obtain ⟨hs, b, s', a1, a2, -, -, a5⟩ := (hr.run hz).commit sets (by rw [hzs]; exact hb)
  rw [h3] at a1
  cases a1
  obtain ⟨hn, -⟩ := hr.inv (by omega)
  obtain ⟨hn', -⟩ := (hr.run hz).inv (by rw [hzs]; omega)
  rw [hzs] at hn'
  exact ⟨hs, b, s', h2, a2, by rw [hn, ← hn']; exact a5⟩

/-- C64: pruning what became stale at or before a committed version, and committing the next versions, can be done in either
order: both succeed and the stores end up holding the same. -/
theorem C64_commit_and_pruning_commute (hr : Reached H ops y) (r : Version) (hrl : r < (setsOf ops).length) (sets : List ValueSet)
    (hb : (setsOf ops).length + sets.length < 2 ^ 64) :
    ∃ y1 y2, Reached H (ops ++ [.purge r, .commit sets]) y1 ∧ Reached H (ops ++ [.commit sets, .purge r]) y2 ∧
      y1.next = y2.next ∧ SameStore y1.store y2.store := by
  obtain ⟨hn, hi⟩ := hr.inv (by omega)
  -- purge, then commit
  obtain ⟨s1, p1, -, pv, pst, pow, pn⟩ := hi.purge r
  obtain ⟨s1', p1', hrp⟩ := hr.purge r (by omega)
  rw [p1] at p1'; cases p1'
  have hrun1 : Sys.run H ([r].map Op.purge) y = .ok ⟨s1, y.next⟩ := by
    show (y.step H (.purge r) >>= _) = _
    unfold Sys.step
    simp only [p1, ok_bind]; rfl
  obtain ⟨hs, b, s2, c1, c2, c3⟩ := C64_write_after_pruning hr hrun1 sets hb
  have e1 : setsOf (ops ++ [Op.purge r]) = setsOf ops := by rw [setsOf_append]; simp [setsOf]
  obtain ⟨hs0, b0, s20, d1, d2, -, d4, -⟩ := hrp.commit sets (by rw [e1]; exact hb)
  obtain ⟨⟨rr, f1, f2, f3⟩, -⟩ := C64_compute_while_pruning hr hrun1 (seen_start H y _) sets hb
  rw [c1] at f2
  cases f2
  rw [show putValueSets H s1.reader sets y.next = _ from f3] at d1
  cases d1
  rw [show s1.writeTreeUpdateBatch b = _ from c2] at d2
  cases d2
  rw [e1] at d4
  -- commit, then purge
  obtain ⟨hs', b', s3, g1, g2, -, g4, g5⟩ := hr.commit sets hb
  rw [c1] at g1
  cases g1
  obtain ⟨-, hi3⟩ := g5.inv (by rw [setsOf_commit, List.length_append]; exact hb)
  obtain ⟨s4, q1, -, qv, qst, -, qn⟩ := hi3.purge r
  obtain ⟨s4', q1', hr4⟩ := g5.purge r (by rw [setsOf_commit, List.length_append]; exact hb)
  rw [show s3.purgeStaleNodes r = .ok s4 from q1] at q1'; cases q1'
  have h1 : Reached H (ops ++ [.purge r, .commit sets]) ⟨s2, y.next + sets.length⟩ := by
    have := c3
    rwa [List.append_assoc] at this
  have h2 : Reached H (ops ++ [.commit sets, .purge r]) ⟨s4, y.next + sets.length⟩ := by
    have := hr4
    rwa [List.append_assoc] at this
  have hnew : ∀ x ∈ b.staleNodeIndexBatch, ¬ x.staleSince ≤ r := by
    obtain ⟨tc, pss, tc', s5, infos, i1, i2, -, -, -, -, -, -, -, -, -, i3, -⟩ := hi.commit' false sets
      (by unfold preGenesisVersion u64Size; omega)
    have : putValueSets H y.store.reader sets y.next = .ok tc'.finish := by
      unfold putValueSets
      rw [hn, i1, ok_bind, i2]; rfl
    rw [c1] at this
    have hbeq : b = tc'.finish.2 := congrArg Prod.snd (Except.ok.inj this)
    intro x hx
    rw [hbeq, i3] at hx
    obtain ⟨j, i, -, hj, -⟩ := mem_stAll hx
    omega
  have hstale : (fun x : StaleNodeIndex => x ∈ s3.stale ∧ x.staleSince ≤ r) = fun x => x ∈ y.store.stale ∧ x.staleSince ≤ r := by
    funext x
    apply propext
    rw [show s3.stale = _ from g4.stale, List.mem_append]
    constructor
    · rintro ⟨h | h, h'⟩
      · exact ⟨h, h'⟩
      · exact absurd h' (hnew x h)
    · rintro ⟨h, h'⟩; exact ⟨.inl h, h'⟩
  refine ⟨_, _, h1, h2, rfl, ?_, ?_, ?_⟩
  · intro k
    dsimp only
    rw [show s4.nodes.get? k = _ from qn k, d4.nodes, show s1.nodes.get? k = _ from pn k, show s3.nodes.get? k = _ from g4.nodes k]
    have hiff : (∃ x ∈ s3.stale, x.staleSince ≤ r ∧ x.nodeKey = k) ↔ ∃ x ∈ y.store.stale, x.staleSince ≤ r ∧ x.nodeKey = k := by
      constructor
      · rintro ⟨x, a, b, c⟩
        have := (congrFun hstale x).mp ⟨a, b⟩
        exact ⟨x, this.1, this.2, c⟩
      · rintro ⟨x, a, b, c⟩
        have := (congrFun hstale x).mpr ⟨a, b⟩
        exact ⟨x, this.1, this.2, c⟩
    by_cases hk : ∃ x ∈ y.store.stale, x.staleSince ≤ r ∧ x.nodeKey = k
    · rw [if_pos hk, if_pos (hiff.2 hk)]
      cases hbk : b.nodeBatch.nodes.get? k with
      | none => rfl
      | some n =>
        obtain ⟨x, a, -, c⟩ := hk
        have h3 := (g4.nodeVer k n hbk).2
        obtain ⟨⟨M, W, hI, -⟩, -⟩ := hi
        obtain ⟨-, -, ⟨nd, h4⟩, -⟩ := hI.stale x a
        rw [c, h3] at h4
        cases h4
    · rw [if_neg hk, if_neg (fun h => hk (hiff.1 h))]
  · intro x
    dsimp only
    rw [d4.stale, pst, show s4.stale = _ from qst, show s3.stale = _ from g4.stale]
    simp only [List.mem_append, List.mem_filter, decide_eq_true_eq, List.filter_append]
    constructor
    · rintro (h | h)
      · exact .inl h
      · exact .inr ⟨h, hnew x h⟩
    · rintro (h | h)
      · exact .inl h
      · exact .inr h.1
  · have hset : setsOf (ops ++ [Op.purge r, .commit sets]) = setsOf (ops ++ [Op.commit sets, .purge r]) := by
      rw [setsOf_append, setsOf_append]; simp [setsOf]
    have hlen : (setsOf (ops ++ [Op.purge r, .commit sets])).length < 2 ^ 64 := by
      rw [setsOf_append]; simpa [setsOf] using hb
    refine (C59_layout_deterministic h1 h2 hlen hset ?_).2.2.2
    rw [show ops ++ [Op.purge r, .commit sets] = (ops ++ [.purge r]) ++ [.commit sets] by simp,
      show ops ++ [Op.commit sets, .purge r] = (ops ++ [.commit sets]) ++ [.purge r] by simp,
      horizon_snoc_commit, horizon_snoc_purge, horizon_snoc_purge, horizon_snoc_commit, setsOf_commit, List.length_append]
    omega

/-- What a commit writes has a root for each of its versions. -/
theorem CommitRes.has_root {s s' : Store} {hist sets : List ValueSet} {low : Nat} {hs : List Digest}
    (h : CommitRes H s hist sets low hs b s') (hi : SysInv H s hist low) {j : Nat} (hj : j < sets.length) :
    ∃ n, b.nodeBatch.nodes.get? ⟨hist.length + j, []⟩ = some n := by
  obtain ⟨⟨M, W, hI, -⟩, -⟩ := h.inv
  obtain ⟨⟨M0, W0, hI0, -⟩, -⟩ := hi
  have hroot := (hI.tree (hist.length + j) (by have := hI0.lowle; omega) (by rw [List.length_append]; omega)).root
  have hroot : s'.nodes.get? ⟨hist.length + j, []⟩ = some _ := Except.ok.inj hroot
  rw [h.nodes] at hroot
  cases hb : b.nodeBatch.nodes.get? ⟨hist.length + j, []⟩ with
  | some n => exact ⟨n, rfl⟩
  | none =>
    rw [hb] at hroot
    have hlt := hI0.lt _ _ hroot
    dsimp only at hlt
    omega

theorem prepared_res {hs : List Digest} (hr : Reached H ops y) (hb : (setsOf ops).length < 2 ^ 64)
    (hp : PreparedUpdate H y.store.reader y.next hs b) :
    ∃ sets s', sets ≠ [] ∧ y.next + sets.length < 2 ^ 64 ∧ CommitRes H y.store (setsOf ops) sets (horizon ops).2 hs b s' ∧
      b.nodeBatch.nodes.NodupKeys := by
  obtain ⟨hn, hi⟩ := hr.inv hb
  rw [hn] at hp ⊢
  rcases hp with ⟨sets, h1, h2, h3⟩ | ⟨sets, hps, h1, h2, h3, h4⟩ | ⟨sets, h1, h1', h2, h3⟩
  · obtain ⟨tc, pss, tc', s', infos, i1, i2, -, a3, -, -, -, -, a4, -⟩ := hi.commit' false sets (by unfold preGenesisVersion u64Size; omega)
    have : putValueSets H y.store.reader sets (setsOf ops).length = .ok tc'.finish := by
      unfold putValueSets
      rw [i1, ok_bind, i2]; rfl
    rw [h3] at this
    have he := Except.ok.inj this
    rw [← he] at a3 a4
    exact ⟨sets, s', h1, h2, a3, a4⟩
  · obtain ⟨tc, pss, tc', s', infos, i1, i2, -, a3, -, a5, -, -, a4, -⟩ := hi.commit' true sets (by unfold preGenesisVersion u64Size; omega)
    have : putValueSetsWithProof H y.store.reader sets (setsOf ops).length = .ok (tc'.finish.1.zip pss, tc'.finish.2) := by
      unfold putValueSetsWithProof
      rw [i1, ok_bind, i2]; rfl
    rw [h3] at this
    cases this
    have hl : tc'.finish.1.length = sets.length := by rw [a3.hashes]; simp
    rw [List.map_fst_zip (by omega)] at h4
    subst h4
    exact ⟨sets, s', h1, h2, a3, a4⟩
  · obtain ⟨tc, tc', s', infos, i1, i2, -, a3, -, -, a4, -⟩ := hi.batch' sets none h1' (cachesFor_none _ _) (by unfold preGenesisVersion u64Size; omega)
    have : batchPutValueSets H y.store.reader sets none (setsOf ops).length = .ok tc'.finish := by
      unfold batchPutValueSets
      rw [i1, ok_bind]
      show (batchSets H (setsOf ops).length sets (cachesOf sets none) tc >>= _) = _
      rw [i2]; rfl
    rw [h3] at this
    have he := Except.ok.inj this
    rw [← he] at a3 a4
    exact ⟨sets.map someSet, s', by simpa using h1, by simpa using h2, a3, a4⟩

theorem prepared_root {hs : List Digest} (hr : Reached H ops y) (hb : (setsOf ops).length < 2 ^ 64)
    (hp : PreparedUpdate H y.store.reader y.next hs b) :
    ∃ n, b.nodeBatch.nodes.get? ⟨y.next, []⟩ = some n := by
  obtain ⟨hn, hi⟩ := hr.inv hb
  obtain ⟨sets, s', h1, -, h2, -⟩ := prepared_res hr hb hp
  rw [hn]
  exact h2.has_root hi (j := 0) (List.length_pos_iff.2 h1)

/-- C65: a late write is refused. An update was prepared for the next version; before it was written, others committed that
version (and any number of further versions, and pruned), and the version is still retained: the in-memory store refuses the
batch, whatever value sets it was made from. -/
theorem C65_late_write_refused_partial {hs : List Digest} (hr : Reached H ops y) (hz : Sys.run H ops' y = .ok z)
    (hb : (setsOf (ops ++ ops')).length < 2 ^ 64) (how : y.store.allowOverwrite = false)
    (hp : PreparedUpdate H y.store.reader y.next hs b) (hv : Readable (ops ++ ops') y.next) :
    ∃ msg, z.store.writeTreeUpdateBatch b = .error (.panic msg) := by
  have hb0 : (setsOf ops).length < 2 ^ 64 := by rw [length_setsOf_append] at hb; omega
  have hroot := prepared_root hr hb0 hp
  obtain ⟨ver, t⟩ := ((hr.run hz).readAt hb hv).tree
  have hz' : z.store.nodes.get? ⟨y.next, []⟩ = some _ := Except.ok.inj t.root
  exact write_taken (by rw [Sys.run_flag ops' hz]; exact how) hroot (by rw [hz']; rfl)

/-- C65: the same when the update was computed while the others were already at work, each of its lookups answered from some
state in between: it fails to compute or its write is refused. (Stated for updates that delete nothing from an empty map: such
a deletion may pick up a root another writer has just written, C51.) -/
theorem C65_overtaken_write_refused_partial (hr : Reached H ops y) (hz : Sys.run H ops' y = .ok z)
    (hb : (setsOf (ops ++ ops')).length < 2 ^ 64) (how : y.store.allowOverwrite = false) (hpos : 0 < y.next)
    (hs : SeenDuring H y ops' R') (hprev : Readable (ops ++ ops') (y.next - 1)) (hv : y.next < (setsOf (ops ++ ops')).length)
    (sets : List ValueSet) (hne : sets ≠ []) (hb' : y.next + sets.length < 2 ^ 64)
    (hsafe : NeverDeletesFromEmpty (latestMap (setsOf ops)) sets) :
    ∃ hs b msg, putValueSets H R' sets y.next = .ok (hs, b) ∧ putValueSets H y.store.reader sets y.next = .ok (hs, b) ∧
      z.store.writeTreeUpdateBatch b = .error (.panic msg) := by
  have hb0 : (setsOf ops).length < 2 ^ 64 := by rw [length_setsOf_append] at hb; omega
  obtain ⟨hn, hi⟩ := hr.inv hb0
  obtain ⟨-, hiz⟩ := (hr.run hz).inv hb
  obtain ⟨hnode, -⟩ := seen_reads hr hz hb hprev (by omega) hs
  obtain ⟨hnode0, -⟩ := seen_reads hr hz hb hprev (by omega) (seen_start H y ops')
  have hmap : Spec.stateAfter .empty (setsOf (ops ++ ops')) (y.next - 1 + 1) = latestMap (setsOf ops) := by
    unfold latestMap Spec.stateAfter
    rw [setsOf_append, List.take_append_of_le_length (by omega), show y.next - 1 + 1 = (setsOf ops).length by omega]
  obtain ⟨res, b, -, h1, h2⟩ := hiz.past_put (v := y.next - 1) hprev.1 hprev.2 sets (by rw [hmap]; exact hsafe)
    (by unfold preGenesisVersion u64Size; omega)
  rw [show y.next - 1 + 1 = y.next by omega] at h1 h2
  have p1 := (h2 R' (fun k n hk hg => hnode k (by omega) n (congrArg Except.ok hg))).2
  have p2 := (h2 y.store.reader (fun k n hk hg => hnode0 k (by omega) n (congrArg Except.ok hg))).2
  obtain ⟨ver, t⟩ := ((hr.run hz).readAt hb ⟨Nat.le_trans hprev.1 (Nat.sub_le ..), hv⟩).tree
  have hz' : z.store.nodes.get? ⟨y.next, []⟩ = some _ := Except.ok.inj t.root
  obtain ⟨msg, h3⟩ := write_taken (by rw [Sys.run_flag ops' hz]; exact how) (h1 0 (List.length_pos_iff.2 hne))
    (by rw [Nat.add_zero, hz']; rfl)
  exact ⟨_, b, msg, p1, p2, h3⟩

end

/-! ### What happens when the version has been pruned, or the store allows overwriting -/

namespace Sample

/-- Two writers: `first` is committed by both, then one prepares `late` for the next version, the other performs `others`, and
then the first writes what it prepared. -/
def lateWrite (ow : Bool) (first : List Op) (late : List ValueSet) (others : List Op) : Except Err Sys := do
  let y ← Sys.run T first ⟨Store.new ow, 0⟩
  let r ← putValueSets T y.store.reader late y.next
  let z ← Sys.run T others y
  let s ← z.store.writeTreeUpdateBatch r.2
  .ok ⟨s, z.next⟩

def got (x : Except Err (Option Value × SMProof)) (v : Option Value) : Bool := okAnd x (fun r => r.1 == v)

def bails {α : Type} : Except Err α → Bool
  | .error (.bail _) => true
  | _ => false

/-- C65, finding: a late write whose version has been pruned meanwhile is accepted by the in-memory store. Then the latest
version has a value that its tree has not - `get` returns it and `get_with_proof` proves its absence - and pruning fails, even
pruning that was already done. -/
theorem _root_.Jmt.C65_late_write_after_pruning :
    okAnd (lateWrite false [.commit [[(key 0x10, some [1])]]] [[(key 0x80, some [2])]]
        [.commit [[(key 0x10, some [3])]], .commit [[(key 0x10, some [4])]], .purge 2])
      (fun z => okAnd (get z.store.reader (key 0x80) 2) (· == some [2]) &&
        got (getWithProof T z.store.reader (key 0x80) 2) none &&
        [1, 2, 3].all (fun r => bails (z.store.purgeStaleNodes r))) = true := by decide +kernel

/-- Without the pruning it is refused. -/
example : okAnd (lateWrite false [.commit [[(key 0x10, some [1])]]] [[(key 0x80, some [2])]]
    [.commit [[(key 0x10, some [3])]], .commit [[(key 0x10, some [4])]]]) (fun _ => true) = false := by decide +kernel

/-- C65, finding: a store that allows overwriting accepts a late write of the first version, and the two updates are mixed:
afterwards `get` returns what the other writer wrote, while the tree has only what the late writer wrote, and `get_with_proof`
proves the absence of the other writer's key. -/
theorem _root_.Jmt.C65_late_write_with_overwrite :
    okAnd (lateWrite true [] [[(key 0x80, some [2])]] [.commit [[(key 0x33, some [3])]]])
      (fun z => okAnd (get z.store.reader (key 0x33) 0) (· == some [3]) &&
        got (getWithProof T z.store.reader (key 0x33) 0) none &&
        got (getWithProof T z.store.reader (key 0x80) 0) (some [2])) = true := by decide +kernel

/-- At a later version, such a store refuses it when both updates retire a node: the second entry for it in the stale index is
refused. -/
theorem _root_.Jmt.C65_late_write_with_overwrite_refused :
    bails (lateWrite true [.commit [[(key 0x10, some [1])]]] [[(key 0x80, some [2])]] [.commit [[(key 0x33, some [3])]]]) = true := by
  decide +kernel

variable {H : Hasher}

/-- The hypotheses of `C64_compute_while_pruning` are met by the sample history, pruned twice. -/
example : ∃ y z hs b s', Reached H Sample.ops y ∧ Sys.run H ([2, 3].map .purge) y = .ok z ∧
    putValueSets H y.store.reader [[(key 0x80, none), (key 0x33, some [9])]] y.next = .ok (hs, b) ∧
    z.store.writeTreeUpdateBatch b = .ok s' := by
  obtain ⟨y, hy⟩ := Sample.reached H
  have hlen := Sample.bound
  obtain ⟨s1, h1, r1⟩ := hy.purge 2 (by decide)
  obtain ⟨s2, h2, r2⟩ := r1.purge 3 (by decide)
  have hz : Sys.run H ([2, 3].map Op.purge) y = .ok ⟨s2, y.next⟩ := by
    show (y.step H (.purge 2) >>= _) = _
    unfold Sys.step
    simp only [h1, ok_bind]
    show (Sys.step H ⟨s1, y.next⟩ (.purge 3) >>= _) = _
    unfold Sys.step
    simp only [show s1.purgeStaleNodes 3 = .ok s2 from h2, ok_bind]
    rfl
  obtain ⟨hs, b, s', a1, a2, -⟩ := C64_write_after_pruning hy hz [[(key 0x80, none), (key 0x33, some [9])]] (by decide)
  exact ⟨y, _, hs, b, s', hy, hz, a1, a2⟩

/-- A late write over the sample history that is refused. -/
example : ∃ y z hs b msg, Reached H Sample.ops y ∧ PreparedUpdate H y.store.reader y.next hs b ∧
    Sys.run H [.commit [[(key 0x10, none)]]] y = .ok z ∧ z.store.writeTreeUpdateBatch b = .error (.panic msg) := by
  obtain ⟨y, hrun, hn, -⟩ := Sys.run_ok H false Sample.ops Sample.allowed (by decide)
  have hy : Reached H Sample.ops y := ⟨false, hrun⟩
  obtain ⟨hs, b, s', a1, a2, a3, a4, a5⟩ := hy.commit [[(key 0x33, some [9])]] (by decide)
  obtain ⟨hs2, b2, s2, c1, c2, c3, c4, c5⟩ := hy.commit [[(key 0x10, none)]] (by decide)
  have hz : Sys.run H [.commit [[(key 0x10, none)]]] y = .ok ⟨s2, y.next + 1⟩ := by
    show (y.step H (.commit [[(key 0x10, none)]]) >>= _) = _
    unfold Sys.step
    simp only [c3, ok_bind]
    rfl
  have hp : PreparedUpdate H y.store.reader y.next hs b :=
    .inl ⟨[[(key 0x33, some [9])]], by simp, by rw [hn]; decide, a1⟩
  obtain ⟨msg, h⟩ := C65_late_write_refused_partial hy hz (by decide) (Sys.run_flag Sample.ops hrun) hp (by rw [hn]; unfold Readable; decide)
  exact ⟨y, _, hs, b, msg, hy, hp, hz, h⟩

end Sample
end Jmt
