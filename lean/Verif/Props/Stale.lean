import Verif.Proofs.Stats
import Verif.Props.Sound
/-!
# Properties C11, C12, C29: the stale index, leaks, statistics
-/
namespace Jmt
open Spec (Lists)

variable {H : Hasher} {ops : List Op} {y : Sys}

theorem Reached.reach_iff (hr : Reached H ops y) (hb : (setsOf ops).length < 2 ^ 64) :
    ∃ M W, HistInv H y.store.nodes.get? y.store.stale (setsOf ops).length (horizon ops).2 M W ∧
      ∀ v, Readable ops v → ∀ k : NodeKey,
        ReachFrom y.store v k ↔ k = ⟨v, []⟩ ∨ (k.path ≠ [] ∧ pres (M v) [] k.path ∧ W v k.path = k.version) := by
  obtain ⟨-, ⟨M, W, hI, -, hM, -⟩, -, -⟩ := hr.inv hb
  exact ⟨M, W, hI, fun v hv k => TreeAt.reach_iff (hI.nodup v hv.2) (hI.tree v hv.1 hv.2) k⟩

/-- C11: every entry of the stale index names a stored node from an earlier version, which no version from
`stale_since_version` on can reach. -/
theorem C11_stale_sound (hr : Reached H ops y) (hb : (setsOf ops).length < 2 ^ 64) {x : StaleNodeIndex}
    (hx : x ∈ y.store.stale) :
    (∃ n, y.store.nodes.get? x.nodeKey = some n) ∧ x.nodeKey.version < x.staleSince ∧
    x.staleSince < (setsOf ops).length ∧
    ∀ v, Readable ops v → x.staleSince ≤ v → ¬ ReachFrom y.store v x.nodeKey := by
  obtain ⟨M, W, hI, hiff⟩ := hr.reach_iff hb
  obtain ⟨h1, h2, h3, h4⟩ := hI.stale x hx
  refine ⟨h3, h2, h1, fun v hv hle h => ?_⟩
  rcases (hiff v hv _).1 h with h | ⟨ha, hb'⟩
  · rw [h] at h2; simp only at h2; omega
  · exact h4 ha v hle hv.2 hb'

/-- C11: below the root, the entries made at version `v` are exactly the nodes reachable at `v - 1` and not at `v`. -/
theorem C11_stale_exact (hr : Reached H ops y) (hb : (setsOf ops).length < 2 ^ 64) {v : Version}
    (hv : Readable ops v) (hv' : Readable ops (v - 1)) (h0 : 0 < v) {k : NodeKey} (hk : k.path ≠ []) :
    (⟨v, k⟩ : StaleNodeIndex) ∈ y.store.stale ↔ ReachFrom y.store (v - 1) k ∧ ¬ ReachFrom y.store v k := by
  obtain ⟨M, W, hI, hiff⟩ := hr.reach_iff hb
  obtain ⟨w, q⟩ := k
  simp only at hk
  rw [hI.exact v w q hk (by have := hv'.1; omega) hv.2, hiff _ hv', hiff _ hv]
  simp [hk, and_assoc]

/-- C11: no node is ever entered twice. -/
theorem C11_stale_unique (hr : Reached H ops y) (hb : (setsOf ops).length < 2 ^ 64) :
    (y.store.stale.map StaleNodeIndex.nodeKey).Nodup := by
  obtain ⟨M, W, hI, -⟩ := hr.reach_iff hb
  exact hI.staleNodup

/-- C11: hence a purge never meets a missing node, and a commit never a duplicated entry. -/
theorem C11_no_index_failures (hr : Reached H ops y) (hb : (setsOf ops).length < 2 ^ 64) (r : Version)
    (sets : List ValueSet) (hb' : (setsOf ops).length + sets.length < 2 ^ 64) :
    (∃ s', y.store.purgeStaleNodes r = .ok s') ∧
    ∃ hs s', y.store.commit H sets y.next = .ok (hs, s') := by
  obtain ⟨s', h, -⟩ := hr.purge r hb
  obtain ⟨hs, b, s'', -, -, h', -⟩ := hr.commit sets hb'
  exact ⟨⟨s', h⟩, hs, s'', h'⟩

/-- C12: every stored node below the root is reachable from a readable version; so a purge (which moves
the readable versions up to `min r (latest)`) leaves nothing else below the roots. -/
theorem C12_no_leak_below_root (hr : Reached H ops y) (hb : (setsOf ops).length < 2 ^ 64) {k : NodeKey} {n : Node}
    (hk : y.store.nodes.get? k = some n) (hp : k.path ≠ []) :
    ∃ v, Readable ops v ∧ ReachFrom y.store v k := by
  obtain ⟨M, W, hI, hiff⟩ := hr.reach_iff hb
  obtain ⟨v, h1, h2, h3, h4⟩ := hI.keep k n hk hp
  exact ⟨v, ⟨h1, h2⟩, (hiff v ⟨h1, h2⟩ k).2 (.inr ⟨hp, h3, h4⟩)⟩

/-- C12 spelled out for a purge: afterwards every stored node below the root is reachable from a version `≥ r` (or from
the latest version, when `r` is beyond it). -/
theorem C12_purge_leaves_nothing_older (hr : Reached H ops y) (hb : (setsOf ops).length < 2 ^ 64) {r : Version} {s' : Store}
    (hp : y.store.purgeStaleNodes r = .ok s') {k : NodeKey} {n : Node}
    (hk : s'.nodes.get? k = some n) (hne : k.path ≠ []) :
    ∃ v, (r ≤ v ∨ v + 1 = (setsOf ops).length) ∧ v < (setsOf ops).length ∧ ReachFrom s' v k := by
  obtain ⟨s'', h, hr'⟩ := hr.purge r hb
  rw [hp] at h; cases h
  obtain ⟨v, hv, hreach⟩ := C12_no_leak_below_root hr' (by rw [setsOf_purge]; exact hb) hk hne
  unfold Readable at hv
  rw [horizon_snoc_purge, setsOf_purge] at hv
  refine ⟨v, ?_, hv.2, hreach⟩
  omega

/-- C12 for roots, when things go well: a set that changes the root hash of a non-empty tree retires the previous
root. -/
theorem C12_changed_root_retired (hr : Reached H ops y) {v : Version} (hlast : v + 1 = (setsOf ops).length)
    (hb : (setsOf ops).length + 1 < 2 ^ 64) (hne : mapAt ops v ≠ Spec.Map.empty) (ws : ValueSet) {h h' : Digest} {s' : Store}
    (hroot : getRootHash H y.store.reader v = .ok h)
    (hc : y.store.commit H [ws] y.next = .ok ([h'], s')) (hchg : h' ≠ h) :
    (⟨v + 1, ⟨v, []⟩⟩ : StaleNodeIndex) ∈ s'.stale := by
  obtain ⟨hn, hi⟩ := hr.inv (by omega)
  obtain ⟨tc, pss, tc', s'', infos, a0, a1, a2, a3, -, -, a5, ⟨ver, a6, a7⟩, -, -, -, a8, -⟩ :=
    hi.commit' false [ws] (by unfold preGenesisVersion u64Size; simp; omega)
  have hs : s'' = s' ∧ [h'] = tc'.finish.1 := by
    have : y.store.commit H [ws] y.next = .ok (tc'.finish.1, s'') := by
      unfold Store.commit putValueSets
      rw [hn, a0, ok_bind, a1]
      simp only [ok_bind]
      rw [show (tc'.finish).2 = (tc'.finish).2 from rfl] at a2
      simp only [a2, ok_bind]
    rw [hc] at this
    injection this with this
    injection this with h1 h2
    exact ⟨h2.symm, h1⟩
  obtain ⟨rfl, hh⟩ := hs
  obtain ⟨i, rfl, rfl⟩ : ∃ i, infos = [i] ∧ i.ws = ws := by
    match infos, a5 with
    | [i], a5 => exact ⟨i, rfl, by simpa using a5⟩
  have hpos : 0 < (setsOf ops).length := by omega
  obtain ⟨b1, b2⟩ := a7 hpos
  rw [a3.stale, a8]
  apply List.mem_append_right
  have hv : Readable ops v := by
    have := horizon_le hr (by omega)
    constructor <;> omega
  have ra := hr.readAt (by omega) hv
  rw [hlast] at ra
  cases a6 with
  | cons d _ =>
    refine List.mem_append_left _ (List.mem_map.2 ⟨⟨v, []⟩, ?_, by rw [hlast]⟩)
    rw [d.stale]
    have hm : entriesAfter H (setsOf ops) (setsOf ops).length ≠ [] := by
      intro hc
      apply hne
      funext k
      cases hk : mapAt ops v k with
      | none => rfl
      | some x => have := (ra.lists.mem k _).2 ⟨x, hk, rfl⟩; rw [hc] at this; cases this
    refine ⟨pres_root.2 hm, by rw [b1]; omega, ?_⟩
    rintro ⟨c1, c2⟩
    have hnV : i.ver [] ≠ (setsOf ops).length := by omega
    obtain ⟨e1, -⟩ := d.oldRoot hnV
    have e2 := b2.root
    rw [c2, show v = (setsOf ops).length - 1 by omega, e2] at e1
    have e3 : canonNode H (entriesAfter H (setsOf ops) (setsOf ops).length) ver [] =
        canonNode H (updAll H (entriesAfter H (setsOf ops) (setsOf ops).length) i.ws) i.ver [] := by simpa using e1
    have hh1 := canonNode_hash (H := H) (ver := ver) (p := []) ra.nodup
    rw [e3, canonNode_hash (ra.nodup.updAll _)] at hh1
    rw [ra.rootHash, root_eq_sh] at hroot
    apply hchg
    have h2 := a3.hashes
    rw [← hh] at h2
    simp only [List.length_singleton, List.range_one, List.map_cons, List.map_nil, List.cons.injEq, and_true,
      Nat.add_zero] at h2
    rw [h2]
    have h3 := entriesAfter_append H (setsOf ops) [i.ws] 1
    simp only [List.take_one, List.head?_cons, Option.toList, List.foldl_cons, List.foldl_nil] at h3
    rw [h3]
    simp only [Except.ok.injEq] at hh1 hroot
    rw [← hroot]
    exact hh1

/-- C29: for each value set the reported statistics are the numbers of nodes and leaves written for that version, and of
stale entries and stale leaves made at that version. -/
theorem C29_node_stats_exact (hr : Reached H ops y) (sets : List ValueSet)
    (hb : (setsOf ops).length + sets.length < 2 ^ 64) {hs b s'}
    (hp : putValueSets H y.store.reader sets y.next = .ok (hs, b))
    (hw : y.store.writeTreeUpdateBatch b = .ok s') :
    b.nodeStats.length = sets.length ∧ ∀ j, j < sets.length → b.nodeStats[j]? = some
      { newNodes := b.nodeBatch.nodes.countP (fun e => e.1.version == y.next + j)
        newLeaves := b.nodeBatch.nodes.countP (fun e => e.1.version == y.next + j && e.2.isLeaf)
        staleNodes := b.staleNodeIndexBatch.countP (fun x => x.staleSince == y.next + j)
        staleLeaves := b.staleNodeIndexBatch.countP (fun x => x.staleSince == y.next + j &&
          ((s'.nodes.get? x.nodeKey).map Node.isLeaf).getD false) } := by
  obtain ⟨hn, hi⟩ := hr.inv (by omega)
  obtain ⟨tc, pss, tc', s'', infos, a0, a1, a2, a3, -, -, a5, ⟨ver, a6, -⟩, a7, a8, a9, a10, a11⟩ :=
    hi.commit' false sets (by unfold preGenesisVersion u64Size; omega)
  have hb' : b = tc'.finish.2 := by
    unfold putValueSets at hp
    rw [hn, a0, ok_bind, a1] at hp
    cases hp; rfl
  subst hb'
  rw [a2] at hw; cases hw
  have hlen : infos.length = sets.length := by rw [← a5]; simp
  rw [a11, a10, hn]
  have hl : ∀ (infos : List StepInfo) B, (statAll H B infos).length = infos.length := by
    intro infos
    induction infos with
    | nil => intro B; rfl
    | cons i rest ih => intro B; simp [statAll, ih]
  refine ⟨by rw [hl, hlen], fun j hj => ?_⟩
  obtain ⟨i, hji⟩ : ∃ i, infos[j]? = some i := ⟨infos[j], List.getElem?_eq_getElem (by omega)⟩
  refine stats_of_run a6 a7 a9 a8 ?_ hji
  intro x hx
  obtain ⟨M, W, hI, -⟩ := a3.inv.tree
  exact .inl (hI.stale x (by rw [a3.stale, a10]; exact List.mem_append_right _ hx)).2.1

/-! ### Concrete cases -/

namespace Sample

/-- Run a history on the toy hasher and test the resulting store. -/
def check (ops : List Op) (p : Store → Bool) : Bool :=
  match Sys.run T ops ⟨Store.new false, 0⟩ with
  | .ok y => p y.store
  | .error _ => false

theorem of_check {ops : List Op} {p : Store → Bool} (h : check ops p = true) :
    ∃ y, Reached T ops y ∧ p y.store = true := by
  unfold check at h
  cases hr : Sys.run T ops ⟨Store.new false, 0⟩ with
  | error e => rw [hr] at h; cases h
  | ok y => rw [hr] at h; exact ⟨y, ⟨false, hr⟩, h⟩

/-- Three keys inserted one by one, a purge, a delete. -/
def ops2 : List Op :=
  [.commit [[(key 0x10, some [1])]], .commit [[(key 0x1f, some [2])]], .commit [[(key 0x80, some [3])]], .purge 2,
   .commit [[(key 0x1f, none)]]]

end Sample

/-- C11 on a concrete history: deleting key 0x1f at version 3 retires the leaf at path 1f, written at version 1. -/
example : ∃ y, Reached Sample.T Sample.ops2 y ∧ ReachFrom y.store 2 ⟨1, [1, 15]⟩ ∧
    ¬ ReachFrom y.store 3 ⟨1, [1, 15]⟩ := by
  obtain ⟨y, hy, h⟩ := Sample.of_check (ops := Sample.ops2)
    (p := fun s => decide ((⟨3, ⟨1, [1, 15]⟩⟩ : StaleNodeIndex) ∈ s.stale)) (by decide +kernel)
  refine ⟨y, hy, ?_⟩
  exact (C11_stale_exact (v := 3) hy (by decide) (by constructor <;> decide) (by constructor <;> decide) (by decide)
    (k := ⟨1, [1, 15]⟩) (by simp)).1 (by simpa using h)

/-- C12 on the same history: the node at path 8 of version 2 is stored, hence reachable from a readable version. -/
example : ∃ y v, Reached Sample.T Sample.ops2 y ∧ Readable Sample.ops2 v ∧ ReachFrom y.store v ⟨2, [8]⟩ := by
  obtain ⟨y, hy, h⟩ := Sample.of_check (ops := Sample.ops2)
    (p := fun s => (s.nodes.get? ⟨2, [8]⟩).isSome) (by decide +kernel)
  obtain ⟨n, hn⟩ := Option.isSome_iff_exists.1 h
  obtain ⟨v, a, b⟩ := C12_no_leak_below_root hy (by decide) hn (by simp)
  exact ⟨y, v, hy, a, b⟩

/-- C12 fails for root nodes: the `Null` root written by an empty first set is never entered in the stale index, so it
stays in the store although its version has been pruned. -/
theorem C12_null_root_leaks : ∃ (H : Hasher) (ops : List Op) (y : Sys), Reached H ops y ∧ ¬ Readable ops 0 ∧
    (y.store.nodes.get? ⟨0, []⟩).isSome ∧ ∀ x ∈ y.store.stale, x.nodeKey ≠ ⟨0, []⟩ := by
  let ops : List Op := [.commit [[]], .commit [[(Sample.key 0x10, some [1])]], .purge 1]
  obtain ⟨y, hy, h⟩ := Sample.of_check (ops := ops)
    (p := fun s => (s.nodes.get? ⟨0, []⟩).isSome && s.stale.all (fun x => decide (x.nodeKey ≠ ⟨0, []⟩))) (by decide +kernel)
  simp only [Bool.and_eq_true, List.all_eq_true, decide_eq_true_eq] at h
  exact ⟨Sample.T, ops, y, hy, fun hc => absurd hc.1 (by decide), h.1, h.2⟩

/-- C12 fails for root nodes: so does the root superseded by a no-op set. -/
theorem C12_noop_root_leaks : ∃ (H : Hasher) (ops : List Op) (y : Sys), Reached H ops y ∧ ¬ Readable ops 0 ∧
    (y.store.nodes.get? ⟨0, []⟩).isSome ∧ ∀ x ∈ y.store.stale, x.nodeKey ≠ ⟨0, []⟩ := by
  let ops : List Op := [.commit [[(Sample.key 0x10, some [1])]], .commit [[]],
    .commit [[(Sample.key 0x10, some [2])]], .purge 2]
  obtain ⟨y, hy, h⟩ := Sample.of_check (ops := ops)
    (p := fun s => (s.nodes.get? ⟨0, []⟩).isSome && s.stale.all (fun x => decide (x.nodeKey ≠ ⟨0, []⟩))) (by decide +kernel)
  simp only [Bool.and_eq_true, List.all_eq_true, decide_eq_true_eq] at h
  exact ⟨Sample.T, ops, y, hy, fun hc => absurd hc.1 (by decide), h.1, h.2⟩

/-- C29 on the sample history. -/
example : ∃ y hs b, Reached H Sample.ops y ∧
    putValueSets H y.store.reader [[(Sample.key 0x1f, some [7])], []] y.next = .ok (hs, b) ∧ b.nodeStats.length = 2 := by
  obtain ⟨y, hy⟩ := Sample.reached H
  obtain ⟨⟨hs, b, s', h1, h2⟩, -⟩ := C13_commit_never_fails hy [[(Sample.key 0x1f, some [7])], []] (by decide)
  exact ⟨y, hs, b, hy, h1, (C29_node_stats_exact hy _ (by decide) h1 h2).1⟩

end Jmt

namespace Jmt

/-- The root-retirement theorem on a concrete history. -/
example : ∃ y h h' s', Reached Sample.T [.commit [[(Sample.key 0x10, some [1])]]] y ∧
    getRootHash Sample.T y.store.reader 0 = .ok h ∧
    y.store.commit Sample.T [[(Sample.key 0x10, some [2])]] y.next = .ok ([h'], s') ∧
    (⟨1, ⟨0, []⟩⟩ : StaleNodeIndex) ∈ s'.stale := by
  obtain ⟨y, hy, h⟩ := Sample.of_check (ops := [.commit [[(Sample.key 0x10, some [1])]]])
    (p := fun s => match s.commit Sample.T [[(Sample.key 0x10, some [2])]] 1, getRootHash Sample.T s.reader 0 with
      | .ok ([h'], _), .ok h => decide (h' ≠ h)
      | _, _ => false) (by decide +kernel)
  split at h
  · next h' s' h0 heq1 heq2 =>
    have hn := (hy.inv (by decide)).1
    rw [show (setsOf [Op.commit [[(Sample.key 0x10, some [1])]]]).length = 1 by rfl] at hn
    rw [← hn] at heq1
    refine ⟨y, h0, h', s', hy, heq2, heq1, ?_⟩
    refine C12_changed_root_retired (v := 0) hy (by decide) (by decide) ?_ _ heq2 heq1 (by simpa using h)
    intro hc
    have := congrFun hc (Sample.key 0x10)
    revert this
    decide
  · cases h

end Jmt
