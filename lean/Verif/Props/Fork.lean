import Verif.Proofs.Fork
import Verif.Proofs.Rollback
import Verif.Props.Continue
/-!
# C50 (rolling back), C51 (building on any retained version)
-/
namespace Jmt
open Spec (Entry Lists Leftover NeverDeletesFromEmpty)

section
variable {H : Hasher} {ops ops' : List Op} {y z : Sys} {v : Version}

/-! ### C50 -/

/-- The history `rolledBackAs ops v` has the maps and the readable versions of `ops` up to `v`, and none after. -/
theorem C50_rolledBackAs_map (hr : Reached H ops y) (hb : (setsOf ops).length < 2 ^ 64) (hv : Readable ops v) (u : Version) :
    (Readable (rolledBackAs ops v) u ↔ Readable ops u ∧ u ≤ v) ∧ (u ≤ v → mapAt (rolledBackAs ops v) u = mapAt ops u) := by
  have hlen : ((setsOf ops).take (v + 1)).length = v + 1 := by have := hv.2; rw [List.length_take]; omega
  have hs : setsOf (rolledBackAs ops v) = (setsOf ops).take (v + 1) := by simp [rolledBackAs, setsOf]
  have hh : (horizon (rolledBackAs ops v)).2 = (horizon ops).2 := by
    have := hv.1
    simp only [rolledBackAs, horizon, List.foldl_cons, List.foldl_nil, horizonStep, hlen]
    unfold horizon at this
    omega
  constructor
  · unfold Readable
    rw [hh, hs, hlen]
    have := hv.2
    omega
  · intro hu
    unfold mapAt Spec.stateAfter
    rw [hs, List.take_take, Nat.min_eq_left (by omega)]

/-- C50: after deleting every record of the versions after `v`, any further history of commits, batch commits and purges
succeeds, and afterwards every query of every version that pruning has not given up is answered as by a store that never saw
the deleted versions; further value sets get the same root hashes on both. -/
theorem C50_rollback (hr : Reached H ops y) (hb : (setsOf ops).length < 2 ^ 64) (hv : Readable ops v) (ops' : List Op)
    (hok : ∀ op ∈ ops', op.Allowed) (hb' : v + 1 + (setsOf ops').length < 2 ^ 64) :
    ∃ z1 y1, Sys.run H ops' ⟨y.store.rollback v, v + 1⟩ = .ok z1 ∧ Reached H (rolledBackAs ops v ++ ops') y1 ∧ z1.next = y1.next ∧
      (∀ u, Readable (rolledBackAs ops v ++ ops') u → SameQueries H z1.store.reader y1.store.reader u u) ∧
      (∀ u k, get z1.store.reader k u = get y1.store.reader k u) ∧
      ∀ sets : List ValueSet, v + 1 + (setsOf ops').length + sets.length < 2 ^ 64 →
        ∃ hs s1 s2, z1.store.commit H sets z1.next = .ok (hs, s1) ∧ y1.store.commit H sets y1.next = .ok (hs, s2) := by
  have hlen0 : ((setsOf ops).take (v + 1)).length = v + 1 := by have := hv.2; rw [List.length_take]; omega
  have hs : setsOf (rolledBackAs ops v) = (setsOf ops).take (v + 1) := by simp [rolledBackAs, setsOf]
  have hh : (horizon (rolledBackAs ops v)).2 = (horizon ops).2 := by
    have := hv.1
    simp only [rolledBackAs, horizon, List.foldl_cons, List.foldl_nil, horizonStep, hlen0]
    unfold horizon at this
    omega
  have hlen : (setsOf (rolledBackAs ops v ++ ops')).length = v + 1 + (setsOf ops').length := by
    rw [setsOf_append, List.length_append, hs, hlen0]
  obtain ⟨-, hi⟩ := hr.inv hb
  have hi' : SysInv H (y.store.rollback v) (setsOf (rolledBackAs ops v)) (horizon (rolledBackAs ops v)).2 := by
    rw [hs, hh]; exact hi.rollback hv.1 hv.2
  obtain ⟨z1, a1, a2, a3⟩ := Sys.run_from (y := ⟨y.store.rollback v, v + 1⟩) hi' (by rw [hs, hlen0]) ops' hok
    (by unfold preGenesisVersion u64Size; omega)
  obtain ⟨y1, hy1⟩ := C13_history_never_fails H (rolledBackAs ops v ++ ops') (by
    intro op hop
    rcases List.mem_append.1 hop with hop | hop
    · unfold rolledBackAs at hop
      simp only [List.mem_cons, List.not_mem_nil, or_false] at hop
      rcases hop with rfl | rfl <;> trivial
    · exact hok op hop) (by omega)
  obtain ⟨b1, b2⟩ := hy1.inv (by omega)
  refine ⟨z1, y1, a1, hy1, a2.trans b1.symm, fun u hu => ?_, fun u k => ?_, fun sets hsets => ?_⟩
  · exact (a3.reads.readAt hu.1 hu.2).sameQueries (hy1.readAt (by omega) hu)
  · unfold get
    show Except.ok _ = Except.ok _
    rw [a3.vals.get, b2.vals.get]
  · obtain ⟨hs, b, s1, c1, c2, c3⟩ := a3.commit sets (by unfold preGenesisVersion u64Size; omega)
    obtain ⟨hs', b', s2, d1, d2, d3⟩ := b2.commit sets (by unfold preGenesisVersion u64Size; omega)
    obtain rfl : hs = hs' := by rw [c3.hashes, d3.hashes]
    refine ⟨hs, s1, s2, ?_, ?_⟩
    · unfold Store.commit; simp only [a2, c1, ok_bind, c2]
    · unfold Store.commit; simp only [b1, d1, ok_bind, d2]

/-! ### C51 -/

/-- C51: on every readable version `v` - the last one or not, whatever was pruned before - `put_value_sets` and
`put_value_sets_with_proof` can build the versions from `v + 1` on.  They return the canonical roots of the map of `v` with
the value sets applied, and proofs that `verify_update` accepts.  What the store holds of later versions (`R'`) does not
matter. -/
theorem C51_build_on_any_version (hr : Reached H ops y) (hb : (setsOf ops).length < 2 ^ 64) (hv : Readable ops v)
    (sets : List ValueSet) (hb' : v + 1 + sets.length < 2 ^ 64) (hsafe : NeverDeletesFromEmpty (mapAt ops v) sets)
    (checked : Bool) :
    ∃ res b, (∀ R', Leftover (v + 1) R' y.store.reader →
        putValueSetsWithProof H R' sets (v + 1) = .ok (res, b) ∧
        putValueSets H R' sets (v + 1) = .ok (res.map Prod.fst, b)) ∧
      res.length = sets.length ∧
      ∀ j vs newRoot proofs, sets[j]? = some vs → res[j]? = some (newRoot, proofs) →
        ∀ es es', Lists H (Spec.stateAfter (mapAt ops v) sets j) es → Lists H (Spec.stateAfter (mapAt ops v) sets (j + 1)) es' →
          newRoot = Spec.root H es' ∧
          SMProof.verifyUpdate H checked proofs (Spec.root H es) newRoot vs = .ok () := by
  obtain ⟨-, hi⟩ := hr.inv hb
  obtain ⟨res, b, h1, -, h2⟩ := hi.past_put hv.1 hv.2 sets hsafe (by unfold preGenesisVersion u64Size; omega)
  refine ⟨res, b, fun R' hl => h2 R' (fun k n hk hn => ?_), h1.len, fun j vs newRoot proofs hj hres es es' hes hes' => ?_⟩
  · rw [hl.node k (.inl hk)]
    show Except.ok _ = _
    rw [hn]
  · obtain ⟨g1, g2⟩ := h1.get j vs newRoot proofs hj hres
    have l0 : Lists H (mapAt ops v) (entriesAfter H (setsOf ops) (v + 1)) := lists_entriesAfter H _ _
    have hnd := nodupE_of_lists (lists_foldl (sets.take j) l0)
    have hnew : updAll H ((sets.take j).foldl (updAll H) (entriesAfter H (setsOf ops) (v + 1))) vs =
        (sets.take (j + 1)).foldl (updAll H) (entriesAfter H (setsOf ops) (v + 1)) := by
      rw [List.take_add_one, hj, List.foldl_append]; rfl
    have h3 := verifyUpdate_put checked g2 hnd
    rw [hnew] at h3
    have p1 := root_perm (H := H) (lists_perm (lists_foldl (sets.take j) l0) hes)
    have p2 := root_perm (H := H) (lists_perm (lists_foldl (sets.take (j + 1)) l0) hes')
    rw [← root_eq_sh, ← root_eq_sh, p1, p2] at h3
    rw [← root_eq_sh, p2] at g1
    exact ⟨g1, by rw [g1]; exact h3⟩

/-- C51, the batch API. -/
theorem C51_batch_on_any_version (hr : Reached H ops y) (hb : (setsOf ops).length < 2 ^ 64) (hv : Readable ops v)
    (sets : List (List (KeyHash × Value))) (hne : ∀ s ∈ sets, s ≠ []) (hb' : v + 1 + sets.length < 2 ^ 64) :
    ∃ hs b, (∀ R', Leftover (v + 1) R' y.store.reader → batchPutValueSets H R' sets none (v + 1) = .ok (hs, b)) ∧
      hs.length = sets.length ∧
      ∀ j, j < sets.length → ∀ es, Lists H (Spec.stateAfter (mapAt ops v) (sets.map someSet) (j + 1)) es →
        hs[j]? = some (Spec.root H es) := by
  obtain ⟨-, hi⟩ := hr.inv hb
  obtain ⟨hs, b, ⟨h1, h2⟩, -, h3⟩ := hi.past_batch hv.1 hv.2 sets hne (by unfold preGenesisVersion u64Size; omega)
  refine ⟨hs, b, fun R' hl => h3 R' (fun k n hk hn => ?_), h1, fun j hj es hes => ?_⟩
  · rw [hl.node k (.inl hk)]
    show Except.ok _ = _
    rw [hn]
  · rw [h2 j hj, ← root_eq_sh]
    congr 1
    exact root_perm (lists_perm (lists_foldl _ (lists_entriesAfter H _ _)) hes)

/-- C51: what is built on a version is the same as long as the version is retained: the call returns what it returned when the
version was the last one. -/
theorem C51_same_as_when_last (hr : Reached H ops y) (hz : Sys.run H ops' y = .ok z)
    (hb : (setsOf (ops ++ ops')).length < 2 ^ 64) (hlast : y.next = v + 1) (hv : Readable (ops ++ ops') v)
    (sets : List ValueSet) (hb' : v + 1 + sets.length < 2 ^ 64) (hsafe : NeverDeletesFromEmpty (mapAt ops v) sets) :
    (∃ r, putValueSets H z.store.reader sets (v + 1) = .ok r ∧ putValueSets H y.store.reader sets (v + 1) = .ok r) ∧
    (∃ r, putValueSetsWithProof H z.store.reader sets (v + 1) = .ok r ∧
      putValueSetsWithProof H y.store.reader sets (v + 1) = .ok r) := by
  have hrz := hr.run hz
  have hlen := length_setsOf_append ops ops'
  obtain ⟨hn, -⟩ := hr.inv (by omega)
  obtain ⟨-, hi⟩ := hrz.inv hb
  have hmap : mapAt (ops ++ ops') v = mapAt ops v := by
    unfold mapAt Spec.stateAfter
    rw [setsOf_append, List.take_append_of_le_length (by omega)]
  rw [← hmap] at hsafe
  obtain ⟨res, b, -, -, h2⟩ := hi.past_put hv.1 hv.2 sets hsafe (by unfold preGenesisVersion u64Size; omega)
  obtain ⟨a1, a2⟩ := h2 z.store.reader (fun k n _ hn => by show Except.ok _ = _; rw [hn])
  obtain ⟨b1, b2⟩ := h2 y.store.reader (fun k n hk hkn => by
    show Except.ok _ = _
    rcases hr.evolve hz hb k (by omega) with h | h
    · rw [← h, hkn]
    · rw [h] at hkn; cases hkn)
  exact ⟨⟨_, a2, b2⟩, ⟨_, a1, b1⟩⟩

/-- C51, the batch API likewise. -/
theorem C51_batch_same_as_when_last (hr : Reached H ops y) (hz : Sys.run H ops' y = .ok z)
    (hb : (setsOf (ops ++ ops')).length < 2 ^ 64) (hlast : y.next = v + 1) (hv : Readable (ops ++ ops') v)
    (sets : List (List (KeyHash × Value))) (hne : ∀ s ∈ sets, s ≠ []) (hb' : v + 1 + sets.length < 2 ^ 64) :
    ∃ r, batchPutValueSets H z.store.reader sets none (v + 1) = .ok r ∧ batchPutValueSets H y.store.reader sets none (v + 1) = .ok r := by
  have hrz := hr.run hz
  have hlen := length_setsOf_append ops ops'
  obtain ⟨hn, -⟩ := hr.inv (by omega)
  obtain ⟨-, hi⟩ := hrz.inv hb
  obtain ⟨hs, b, -, -, h2⟩ := hi.past_batch hv.1 hv.2 sets hne (by unfold preGenesisVersion u64Size; omega)
  refine ⟨_, h2 z.store.reader (fun k n _ hn => by show Except.ok _ = _; rw [hn]), h2 y.store.reader (fun k n hk hkn => ?_)⟩
  show Except.ok _ = _
  rcases hr.evolve hz hb k (by omega) with h | h
  · rw [← h, hkn]
  · rw [h] at hkn; cases hkn

end

/-! ### The hypotheses are met, and the restriction of C51 is needed -/

namespace Sample
variable {H : Hasher}

/-- The sample history rolled back from version 4 to version 2, then continued with other sets and a purge. -/
example : ∃ y z1 y1, Reached H Sample.ops y ∧
    Sys.run H [.commit [[(key 0x10, none), (key 0x44, some [8])], []], .purge 3] ⟨y.store.rollback 2, 3⟩ = .ok z1 ∧
    Reached H (rolledBackAs Sample.ops 2 ++ [.commit [[(key 0x10, none), (key 0x44, some [8])], []], .purge 3]) y1 ∧
    SameQueries H z1.store.reader y1.store.reader 4 4 := by
  obtain ⟨y, hy⟩ := Sample.reached H
  obtain ⟨z1, y1, h1, h2, -, h3, -⟩ := C50_rollback hy Sample.bound (v := 2) (by constructor <;> decide)
    [.commit [[(key 0x10, none), (key 0x44, some [8])], []], .purge 3] (by decide) (by decide)
  exact ⟨y, z1, y1, hy, h1, h2, h3 4 (by constructor <;> decide)⟩

/-- A different version 2 built on version 1 of the sample history, which has gone on to version 4. -/
example : ∃ y res b, Reached H Sample.ops y ∧
    putValueSetsWithProof H y.store.reader [[(key 0x80, none), (key 0x33, some [9])]] 2 = .ok (res, b) ∧ res.length = 1 := by
  obtain ⟨y, hy⟩ := Sample.reached H
  obtain ⟨res, b, h1, h2, -⟩ := C51_build_on_any_version hy Sample.bound Sample.readable1 [[(key 0x80, none), (key 0x33, some [9])]]
    (by decide) (by
      intro i ws pre k post hi hws
      cases i with
      | succ i => simp at hi
      | zero =>
        simp only [List.getElem?_cons_zero, Option.some.injEq] at hi
        subst hi
        cases pre with
        | nil => exact ⟨key 0x10, [4], by decide⟩
        | cons p pre =>
          cases pre with
          | nil => simp at hws
          | cons q pre => simp at hws) true
  exact ⟨y, res, b, hy, (h1 y.store.reader ⟨fun _ _ => rfl, fun _ _ _ => rfl⟩).1, h2⟩

example : ∃ y hs b, Reached H Sample.ops y ∧ batchPutValueSets H y.store.reader [[(key 0x80, [1]), (key 0x33, [9])]] none 2 = .ok (hs, b) := by
  obtain ⟨y, hy⟩ := Sample.reached H
  obtain ⟨hs, b, h1, -⟩ := C51_batch_on_any_version hy Sample.bound Sample.readable1 [[(key 0x80, [1]), (key 0x33, [9])]] (by decide) (by decide)
  exact ⟨y, hs, b, hy, h1 y.store.reader ⟨fun _ _ => rfl, fun _ _ _ => rfl⟩⟩

/-- Version 1 as last version, and after three more. -/
example : ∃ y z r, Reached H [.commit [[(key 0x10, some [1]), (key 0x1f, some [2])]]] y ∧
    Sys.run H [.commit [[(key 0x80, some [3])], [(key 0x10, none)]]] y = .ok z ∧
    putValueSets H z.store.reader [[(key 0x77, some [3])]] 1 = .ok r ∧ putValueSets H y.store.reader [[(key 0x77, some [3])]] 1 = .ok r := by
  obtain ⟨z', hz', -, -⟩ := Sys.run_ok H false ([.commit [[(key 0x10, some [1]), (key 0x1f, some [2])]]] ++
    [.commit [[(key 0x80, some [3])], [(key 0x10, none)]]]) (by decide) (by decide)
  obtain ⟨y, hy, hz⟩ := Reached.run_inv (⟨false, hz'⟩ : Reached H _ z')
  obtain ⟨⟨r, h1, h2⟩, -⟩ := C51_same_as_when_last (v := 0) hy hz (by decide) (hy.inv (by decide)).1 (by constructor <;> decide)
    [[(key 0x77, some [3])]] (by decide) (by
      intro i ws pre k post hi hws
      cases i with
      | succ i => simp at hi
      | zero =>
        simp only [List.getElem?_cons_zero, Option.some.injEq] at hi
        subst hi
        cases pre with
        | nil => simp at hws
        | cons p pre => simp at hws)
  exact ⟨y, z', r, hy, hz, h1, h2⟩

/-- The nodes of `withNodes`, and nothing else. -/
def onlyNodes (s : Store) (N : AMap NodeKey Node) : Reader :=
  { getNodeOption := (withNodes s N).getNodeOption
    getValueOption := fun _ _ => .error (.io "hidden")
    getRightmostLeaf := .error (.io "hidden") }

/-- Without the restriction: version 1 exists already, and the other version 1 that empties the map, deletes once more and then
inserts is computed with a root that holds the key of the *existing* version 1 as well. -/
theorem _root_.Jmt.C51_delete_from_empty_picks_up_later_version :
    ∃ s : Store, ∃ hs hs' b b', (∃ hs0 hs1 s0, (Store.new false).commit T [[(key 0x10, some [1])]] 0 = .ok (hs0, s0) ∧
        s0.commit T [[(key 0x20, some [5]), (key 0x10, none)]] 1 = .ok (hs1, s) ∧ putValueSets T s0.reader emptying 1 = .ok (hs, b)) ∧
      hs = [Spec.root T [(key 0x80, T.hash [2])]] ∧
      putValueSets T s.reader emptying 1 = .ok (hs', b') ∧
      hs' = [Spec.root T [(key 0x20, T.hash [5]), (key 0x80, T.hash [2])]] ∧ hs' ≠ hs := by
  have key : okAnd ((Store.new false).commit T [[(key 0x10, some [1])]] 0) (fun r =>
      okAnd (putValueSets T r.2.reader [[(key 0x20, some [5]), (key 0x10, none)]] 1) (fun c =>
      okAnd (putValueSets T r.2.reader emptying 1) (fun a =>
        okAnd (putValueSets T (onlyNodes r.2 c.2.nodeBatch.nodes) emptying 1) (fun b =>
          decide (a.1 = [Spec.root T [(Sample.key 0x80, T.hash [2])]] ∧
            b.1 = [Spec.root T [(Sample.key 0x20, T.hash [5]), (Sample.key 0x80, T.hash [2])]] ∧ b.1 ≠ a.1))))) = true := by
    decide +kernel
  obtain ⟨⟨hs0, s0⟩, h0, key⟩ := of_okAnd key
  obtain ⟨⟨hc, c⟩, h1, key⟩ := of_okAnd key
  obtain ⟨⟨ha, a⟩, h2, key⟩ := of_okAnd key
  obtain ⟨⟨hb, b⟩, h3, key⟩ := of_okAnd key
  obtain ⟨h4, h5, h6⟩ := of_decide_eq_true key
  have hr0 : Reached T [.commit [[(Sample.key 0x10, some [1])]]] ⟨s0, 1⟩ := by
    refine ⟨false, ?_⟩
    show (Sys.step T _ _ >>= _) = _
    unfold Sys.step
    simp only [h0, ok_bind]
    rfl
  obtain ⟨hs1, b1, s, e1, e2, e3, e4, -⟩ := hr0.commit [[(Sample.key 0x20, some [5]), (Sample.key 0x10, none)]] (by decide)
  have e1 : putValueSets T s0.reader [[(Sample.key 0x20, some [5]), (Sample.key 0x10, none)]] 1 = .ok (hs1, b1) := e1
  rw [h1] at e1
  cases e1
  have hread : (withNodes s0 c.nodeBatch.nodes).getNodeOption = s.reader.getNodeOption := by
    funext k
    show (match c.nodeBatch.nodes.get? k with | some n => .ok (some n) | none => s0.reader.getNodeOption k) = Except.ok (s.nodes.get? k)
    rw [e4.nodes]
    cases c.nodeBatch.nodes.get? k <;> rfl
  have hput : putValueSets T s.reader emptying 1 = .ok (hb, b) := by
    have f : Spec.OnlyErrors (onlyNodes s0 c.nodeBatch.nodes) s.reader :=
      ⟨fun k => .inl (by rw [← hread]; rfl), fun _ _ => .inr (.inl ⟨_, rfl⟩), .inr ⟨_, rfl⟩⟩
    exact (putValueSets_le (onlyErrors_roots f) emptying 1).eq h3
  exact ⟨s, ha, hb, a, b, ⟨hs0, _, s0, h0, e3, h2⟩, h4, hput, h5, h6⟩

end Sample
end Jmt
