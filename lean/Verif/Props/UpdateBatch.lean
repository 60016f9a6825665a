import Verif.Proofs.UpdateBatch
import Verif.Props.Backend
import Verif.Model.Writer
/-!
# Property C48: what an update batch contains
-/
namespace Jmt

variable {H : Hasher} {ops : List Op} {y : Sys}

/-- C48: the update batch returned by `put_value_sets` holds exactly the values written, only new nodes used by the version
they belong to, the root of every version with the hash returned, and stale entries of nodes that are there and had not been
retired before. -/
theorem C48_update_contents (hr : Reached H ops y) (sets : List ValueSet)
    (hb : (setsOf ops).length + sets.length < 2 ^ 64) {hs b s'}
    (hp : putValueSets H y.store.reader sets y.next = .ok (hs, b)) (hw : y.store.writeTreeUpdateBatch b = .ok s') :
    Spec.UpdateOf H y.store s' y.next sets hs b := by
  obtain ⟨hn, hi⟩ := hr.inv (by omega)
  have hle : (setsOf ops).length + sets.length ≤ preGenesisVersion := by unfold preGenesisVersion u64Size; omega
  obtain ⟨ver, hready, hrun⟩ := hi.commitRun (H := H) sets
  obtain ⟨tc, pss, tc', infos, b0, b1, b2, b3, b4, -⟩ := putSets_ready (R := y.store.reader) hready false sets hle
  obtain ⟨s'', c1, c2, -, -, c4, c5, c6, c7⟩ := hrun tc' infos b2 b3 b4
  have hbe : (hs, b) = tc'.finish := by
    unfold putValueSets at hp
    rw [hn, b0, ok_bind, b1] at hp
    cases hp; rfl
  obtain ⟨e1, e2⟩ : hs = tc'.finish.1 ∧ b = tc'.finish.2 := by rw [← hbe]; exact ⟨rfl, rfl⟩
  rw [e2, c1] at hw
  cases hw
  rw [e1, e2]
  rw [hn]
  exact c2.updateOf hle b2 hready b3 c4 c5 c6 c7

/-- C48 for `batch_put_value_sets`. -/
theorem C48_batch_update_contents (hr : Reached H ops y) (sets : List (List (KeyHash × Value)))
    (hb : (setsOf ops).length + sets.length < 2 ^ 64) {hs b s'}
    (hp : batchPutValueSets H y.store.reader sets none y.next = .ok (hs, b)) (hw : y.store.writeTreeUpdateBatch b = .ok s') :
    Spec.UpdateOf H y.store s' y.next (sets.map someSet) hs b := by
  obtain ⟨hn, hi⟩ := hr.inv (by omega)
  have hle : (setsOf ops).length + sets.length ≤ preGenesisVersion := by unfold preGenesisVersion u64Size; omega
  obtain ⟨ver, hready, hrun⟩ := hi.commitRun (H := H) (sets.map someSet)
  obtain ⟨tc, tc', infos, b0, b1, b2, b3, b4⟩ := batchSets_ready (R := y.store.reader) hready sets none
    (batch_nonempty hp) (cachesFor_none _ _) hle
  obtain ⟨s'', c1, c2, -, -, c4, c5, c6, c7⟩ := hrun tc' infos b2 b3 b4
  have hbe : (hs, b) = tc'.finish := by
    unfold batchPutValueSets at hp
    rw [hn, b0, ok_bind] at hp
    have hp' : (batchSets H (setsOf ops).length sets (cachesOf sets none) tc >>= fun tc => Except.ok tc.finish) =
      .ok (hs, b) := hp
    rw [b1] at hp'
    cases hp'; rfl
  obtain ⟨e1, e2⟩ : hs = tc'.finish.1 ∧ b = tc'.finish.2 := by rw [← hbe]; exact ⟨rfl, rfl⟩
  rw [e2, c1] at hw
  cases hw
  rw [e1, e2]
  rw [hn]
  exact c2.updateOf (by rw [List.length_map]; exact hle) b2 hready b3 c4 c5 c6 c7

/-- C48, `NodeBatch::merge`: writing two batches merged into one shows what writing one after the other shows, if the second
writes no key at a version before the first's.  (`BTreeMap` keys are unique.) -/
theorem C48_merge_is_consecutive_write {b1 b2 : NodeBatch} {R R1 R2 : Reader} (hn : b2.nodes.NodupKeys)
    (hv : b2.values.NodupKeys)
    (hord : ∀ k u x w x', b1.values.get? (u, k) = some x → b2.values.get? (w, k) = some x' → u ≤ w)
    (h1 : Spec.Written b1 R1 R) (h2 : Spec.Written b2 R2 R1) : Spec.Written (b1.merge b2) R2 R := by
  have hnode : ∀ k, (b1.merge b2).nodes.get? k = (b2.nodes.get? k).or (b1.nodes.get? k) := by
    intro k
    show AMap.get? (AMap.extend b1.nodes b2.nodes) k = _
    rw [AMap.get?_extend _ hn]
    cases b2.nodes.get? k <;> rfl
  have hval : ∀ k, (b1.merge b2).values.get? k = (b2.values.get? k).or (b1.values.get? k) := by
    intro k
    show AMap.get? (AMap.extend b1.values b2.values) k = _
    rw [AMap.get?_extend _ hv]
    cases b2.values.get? k <;> rfl
  refine ⟨fun k n hk => ?_, fun k hk => ?_, fun v k w x hx hwv hmax => ?_, fun v k hno => ?_⟩
  · rw [hnode] at hk
    cases hb : b2.nodes.get? k with
    | some n' => rw [hb] at hk; cases hk; exact h2.new k _ hb
    | none => rw [hb, Option.none_or] at hk; rw [h2.old k hb]; exact h1.new k n hk
  · rw [hnode] at hk
    cases hb : b2.nodes.get? k with
    | some n' => rw [hb] at hk; cases hk
    | none => rw [hb, Option.none_or] at hk; rw [h2.old k hb, h1.old k hk]
  · rw [hval] at hx
    cases hb : b2.values.get? (w, k) with
    | some x' =>
      rw [hb] at hx
      cases hx
      exact h2.newValue v k w _ hb hwv (fun u x' hu hle => hmax u x' (by rw [hval, hu]; rfl) hle)
    | none =>
      rw [hb, Option.none_or] at hx
      rw [h2.oldValue v k, h1.newValue v k w x hx hwv]
      · intro u x' hu hle
        cases hc : b2.values.get? (u, k) with
        | some x'' => exact hmax u x'' (by rw [hval, hc]; rfl) hle
        | none => exact hmax u x' (by rw [hval, hc, hu]; rfl) hle
      · intro u x' hu
        apply Nat.lt_of_not_le
        intro hle
        have e1 := hmax u x' (by rw [hval, hu]; rfl) hle
        have e2 := hord k w x u x' hx hu
        have : u = w := Nat.le_antisymm e1 e2
        rw [this, hb] at hu
        cases hu
  · rw [h2.oldValue v k, h1.oldValue v k]
    · intro w x hx
      cases hc : b2.values.get? (w, k) with
      | some x'' => exact hno w x'' (by rw [hval, hc]; rfl)
      | none => exact hno w x (by rw [hval, hc, hx]; rfl)
    · intro w x hx
      exact hno w x (by rw [hval, hx]; rfl)

/-- The order matters: merged the other way round, the older batch's entry for a node or value key would win. -/
example : ((⟨[], [((0, Sample.key 0x10), some [1])]⟩ : NodeBatch).merge ⟨[], [((0, Sample.key 0x10), some [2])]⟩).values.get?
    (0, Sample.key 0x10) = some (some [2]) := by decide

/-- The update batch on the sample history for a set that writes one key twice and deletes another. -/
example (H : Hasher) : ∃ y hs b s', Reached H Sample.ops y ∧
    putValueSets H y.store.reader [[(Sample.key 0x82, some [9]), (Sample.key 0x10, none), (Sample.key 0x82, some [8])]] y.next
      = .ok (hs, b) ∧
    Spec.UpdateOf H y.store s' y.next [[(Sample.key 0x82, some [9]), (Sample.key 0x10, none), (Sample.key 0x82, some [8])]] hs b ∧
    b.nodeBatch.values.get? (5, Sample.key 0x82) = some (some [8]) := by
  obtain ⟨y, hy⟩ := Sample.reached H
  have hn : y.next = 5 := (hy.inv (by decide)).1
  obtain ⟨⟨hs, b, s', hp, hw⟩, -⟩ := C13_commit_never_fails hy
    [[(Sample.key 0x82, some [9]), (Sample.key 0x10, none), (Sample.key 0x82, some [8])]] (by decide)
  have hu := C48_update_contents hy _ (by decide) hp hw
  refine ⟨y, hs, b, s', hy, hp, hu, (hu.values 5 _ _).2 ⟨0, _, [(Sample.key 0x82, some [9]), (Sample.key 0x10, none)], [],
    by rw [hn], rfl, rfl, by simp⟩⟩

end Jmt
