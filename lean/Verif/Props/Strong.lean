import Verif.Props.Queries
import Verif.Props.Batch
/-!
# The properties about reads, for all queries

`C09`, `C10`, `C14`, `C15`, `C18` and `C30` state equality of the basic reads; here the same for every query of the crate, range,
exclusion and ics23 proofs and iteration included.  All of them are instances of one fact: what can be queried about a version depends
on its map only.
-/
namespace Jmt
open Spec (Lists)

section
variable {H : Hasher} {ops ops' : List Op} {y y' : Sys} {v v' : Version}

/-- C03, all queries: two versions of two histories that have the same map answer every query alike. -/
theorem C03_same_map_same_queries (hr : Reached H ops y) (hb : (setsOf ops).length < 2 ^ 64) (hv : Readable ops v)
    (hr' : Reached H ops' y') (hb' : (setsOf ops').length < 2 ^ 64) (hv' : Readable ops' v')
    (hmap : mapAt ops v = mapAt ops' v') : SameQueries H y.store.reader y'.store.reader v v' := by
  have r := hr.readAt hb hv
  rw [hmap] at r
  exact r.sameQueries (hr'.readAt hb' hv')

/-- C09, all queries. -/
theorem C09_commit_keeps_queries (hr : Reached H ops y) (sets : List ValueSet)
    (hb : (setsOf ops).length + sets.length < 2 ^ 64) {hs s'}
    (hc : y.store.commit H sets y.next = .ok (hs, s')) :
    ∀ v, Readable ops v → SameQueries H y.store.reader s'.reader v v := by
  obtain ⟨hs', b', s'', -, -, a3, -, a5⟩ := hr.commit sets hb
  rw [hc] at a3; cases a3
  intro v hv
  exact C03_same_map_same_queries hr (by omega) hv a5 (by rw [setsOf_commit, List.length_append]; omega) (hv.commit sets)
    (mapAt_commit hv.2 sets).symm

/-- C10, all queries. -/
theorem C10_purge_keeps_queries (hr : Reached H ops y) (hb : (setsOf ops).length < 2 ^ 64) (r : Version) {s'}
    (hp : y.store.purgeStaleNodes r = .ok s') :
    ∀ v, Readable ops v → r ≤ v ∨ v + 1 = (setsOf ops).length → SameQueries H y.store.reader s'.reader v v := by
  obtain ⟨s'', a1, a2⟩ := hr.purge r hb
  rw [hp] at a1; cases a1
  intro v hv hrv
  refine C03_same_map_same_queries hr hb hv a2 (by rw [setsOf_purge]; exact hb) ?_ (mapAt_purge ..).symm
  unfold Readable at *
  rw [horizon_snoc_purge, setsOf_purge]
  have := horizon_le hr hb
  omega

theorem setsOf_singles (sets : List ValueSet) : setsOf (sets.map (fun s => Op.commit [s])) = sets := by
  induction sets with
  | nil => rfl
  | cons s sets ih => simp [setsOf, ih]

/-- C14, all queries. -/
theorem C14_multi_set_same_queries {sets : List ValueSet} (hr : Reached H (ops ++ [.commit sets]) y)
    (hr' : Reached H (ops ++ sets.map (fun s => .commit [s])) y') (hb : (setsOf ops).length + sets.length < 2 ^ 64) :
    ∀ v, Readable (ops ++ [.commit sets]) v → SameQueries H y.store.reader y'.store.reader v v := by
  intro v hv
  obtain ⟨y0, h0⟩ : ∃ y0, Reached H ops y0 := by
    obtain ⟨ow, h⟩ := hr
    rw [Sys.run_snoc] at h
    obtain ⟨y0, h0, -⟩ := bind_ok_inv h
    exact ⟨y0, ow, h0⟩
  obtain ⟨-, -, -, -, -, hR, -⟩ := C14_multi_set_is_consecutive h0 sets hb
  have hS : setsOf (ops ++ [.commit sets]) = setsOf (ops ++ sets.map (fun s => .commit [s])) := by
    rw [setsOf_commit, setsOf_append]
    congr 1
    exact (setsOf_singles sets).symm
  have hb1 : (setsOf (ops ++ [.commit sets])).length < 2 ^ 64 := by rw [setsOf_commit, List.length_append]; exact hb
  exact C03_same_map_same_queries hr hb1 hv hr' (by rw [← hS]; exact hb1) ((hR v).1 hv) (by unfold mapAt; rw [hS])

/-- C15, all queries: after the batch API and after the sequential one. -/
theorem C15_batch_same_queries {sets : List (List (KeyHash × Value))} (hr : Reached H (ops ++ [.batch sets]) y)
    (hr' : Reached H (ops ++ [.commit (sets.map someSet)]) y') (hb : (setsOf ops).length + sets.length < 2 ^ 64) :
    ∀ v, Readable (ops ++ [.batch sets]) v → SameQueries H y.store.reader y'.store.reader v v := by
  intro v hv
  have hset : setsOf (ops ++ [.batch sets]) = setsOf ops ++ sets.map someSet := by
    rw [setsOf_append]; simp [setsOf]
  refine C03_same_map_same_queries hr (by rw [hset]; simpa using hb) hv hr' (by rw [setsOf_commit]; simpa using hb) ?_ ?_
  · unfold Readable at *
    rw [horizon_snoc_commit, setsOf_commit, ← hset, ← horizon_snoc_batch ops sets]
    exact hv
  · unfold mapAt; rw [hset, setsOf_commit]

/-- C18, all queries: a set that changes nothing creates a version that answers like the one before. -/
theorem C18_noop_same_queries (hr : Reached H ops y) (ws : ValueSet) (hb : (setsOf ops).length + 1 < 2 ^ 64)
    (hlast : (setsOf ops).length = v + 1) (hnoop : (mapAt ops v).writes ws = mapAt ops v)
    (hr' : Reached H (ops ++ [.commit [ws]]) y') : SameQueries H y.store.reader y'.store.reader v (v + 1) := by
  have hle := horizon_le hr (by omega)
  refine C03_same_map_same_queries hr (by omega) ⟨by omega, by omega⟩ hr' (by rw [setsOf_commit]; simp; omega) ?_ ?_
  · unfold Readable; rw [horizon_snoc_commit, setsOf_commit]; simp; omega
  · rw [← hnoop]
    unfold mapAt Spec.stateAfter
    rw [setsOf_commit, List.take_append, List.take_of_length_le (i := v + 1 + 1) (by omega),
      List.take_of_length_le (i := v + 1) (by omega), hlast]
    simp

/-- C30, all queries. -/
theorem C30_last_write_same_queries {sets : List ValueSet} (hr : Reached H (ops ++ [.commit sets]) y)
    (hr' : Reached H (ops ++ [.commit (sets.map Spec.keepLast)]) y') (hb : (setsOf ops).length + sets.length < 2 ^ 64) :
    ∀ v, Readable (ops ++ [.commit sets]) v → SameQueries H y.store.reader y'.store.reader v v := by
  intro v hv
  refine C03_same_map_same_queries hr (by rw [setsOf_commit, List.length_append]; exact hb) hv hr'
    (by rw [setsOf_commit]; simpa using hb) ?_ ?_
  · unfold Readable at *
    rw [horizon_snoc_commit, setsOf_commit, List.length_append] at *
    simpa using hv
  · unfold mapAt Spec.stateAfter
    rw [setsOf_commit, setsOf_commit, List.take_append, List.take_append, List.foldl_append, List.foldl_append, ← List.map_take]
    generalize List.foldl Spec.Map.writes Spec.Map.empty (List.take (v + 1) (setsOf ops)) = s0
    generalize List.take (v + 1 - (setsOf ops).length) sets = l
    induction l generalizing s0 with
    | nil => rfl
    | cons a l ih => simp only [List.map_cons, List.foldl_cons, C30_keepLast_map]; exact ih _

theorem keepLast_ne_nil {ws : List Spec.Write} (h : ws ≠ []) : Spec.keepLast ws ≠ [] := by
  induction ws with
  | nil => exact absurd rfl h
  | cons w ws ih =>
    show (if w.1 ∈ (Spec.keepLast ws).map Prod.fst then Spec.keepLast ws else w :: Spec.keepLast ws) ≠ []
    split
    · next hm =>
      intro hc
      rw [hc] at hm
      cases hm
    · exact List.cons_ne_nil _ _

/-- C30 for the batch API: sets with repeated keys, and the same sets with only the last write of each key kept, get the same root
hashes from `batch_put_value_sets` and leave stores that answer every read alike. -/
theorem C30_batch_last_write_wins (hr : Reached H ops y) (sets sets' : List (List (KeyHash × Value))) (hne : ∀ s ∈ sets, s ≠ [])
    (hk : sets'.map someSet = (sets.map someSet).map Spec.keepLast) (hb : (setsOf ops).length + sets.length < 2 ^ 64) :
    ∃ hs s1 s2, y.store.commitBatch H sets none y.next = .ok (hs, s1) ∧ y.store.commitBatch H sets' none y.next = .ok (hs, s2) ∧
      ∀ v, Readable (ops ++ [.batch sets]) v → SameReads H s1.reader s2.reader v v := by
  have hlen : sets'.length = sets.length := by
    have := congrArg List.length hk
    simpa using this
  have hne' : ∀ s ∈ sets', s ≠ [] := by
    intro s hs hc
    have h1 : someSet s ∈ (sets.map someSet).map Spec.keepLast := by rw [← hk]; exact List.mem_map_of_mem hs
    obtain ⟨t, ht, he⟩ := List.mem_map.1 h1
    obtain ⟨u, hu, rfl⟩ := List.mem_map.1 ht
    have hu' : someSet u ≠ [] := by
      intro hz
      exact hne u hu (List.map_eq_nil_iff.1 hz)
    apply keepLast_ne_nil hu'
    rw [he, hc]
    rfl
  obtain ⟨hs, s1, t1, a1, a2, -, -, -, a3⟩ := C15_batch_same_store hr sets hne hb
  obtain ⟨hs', s2, t2, b1, b2, -, -, -, b3⟩ := C15_batch_same_store hr sets' hne' (by rw [hlen]; exact hb)
  obtain ⟨hs'', u1, u2, c1, c2, c3⟩ := C30_last_write_wins hr (sets.map someSet) (by simpa using hb)
  rw [a2] at c1
  cases c1
  rw [← hk, b2] at c2
  cases c2
  refine ⟨hs, s1, s2, a1, b1, fun v hv => ?_⟩
  have hv1 : Readable (ops ++ [.commit (sets.map someSet)]) v := by
    unfold Readable at *
    rw [horizon_snoc_batch, setsOf_append] at hv
    rw [horizon_snoc_commit, setsOf_append]
    simpa [setsOf] using hv
  have hv2 : Readable (ops ++ [.batch sets']) v := by
    unfold Readable at *
    rw [horizon_snoc_batch, setsOf_append] at *
    simpa [setsOf, hlen] using hv
  obtain ⟨x1, -⟩ := a3 v hv
  obtain ⟨x2, -⟩ := b3 v hv2
  have x3 := c3 v hv1
  exact ⟨fun k => (x1.get k).trans ((x3.get k).trans (x2.get k).symm),
    fun k => (x1.getWithProof k).trans ((x3.getWithProof k).trans (x2.getWithProof k).symm),
    x1.rootHash.trans (x3.rootHash.trans x2.rootHash.symm), x1.rootHashOption.trans (x3.rootHashOption.trans x2.rootHashOption.symm),
    x1.leafCount.trans (x3.leafCount.trans x2.leafCount.symm)⟩

/-- The hypotheses are met by a set that writes one key three times. -/
example : ([[(Sample.key 2, [2]), (Sample.key 1, [7])]] : List (List (KeyHash × Value))).map someSet =
    (([[(Sample.key 1, [1]), (Sample.key 1, [4]), (Sample.key 2, [2]), (Sample.key 1, [7])]] : List (List (KeyHash × Value))).map someSet).map
      Spec.keepLast := by decide

end

/-- Two different histories of the same map: insert `10` and `80`, or insert `80` and `33`, then delete `33` and insert `10`. -/
example (H : Hasher) : ∃ y y', Reached H [.commit [[(Sample.key 0x10, some [1]), (Sample.key 0x80, some [2])]]] y ∧
    Reached H [.commit [[(Sample.key 0x80, some [2]), (Sample.key 0x33, some [3])], [(Sample.key 0x33, none), (Sample.key 0x10, some [1])]]] y' ∧
    SameQueries H y.store.reader y'.store.reader 0 1 := by
  obtain ⟨y, hy⟩ := C13_history_never_fails H [.commit [[(Sample.key 0x10, some [1]), (Sample.key 0x80, some [2])]]]
    (by intro op hop; rw [List.mem_singleton.1 hop]; trivial) (by decide)
  obtain ⟨y', hy'⟩ := C13_history_never_fails H [.commit [[(Sample.key 0x80, some [2]), (Sample.key 0x33, some [3])],
    [(Sample.key 0x33, none), (Sample.key 0x10, some [1])]]] (by intro op hop; rw [List.mem_singleton.1 hop]; trivial) (by decide)
  refine ⟨y, y', hy, hy', C03_same_map_same_queries hy (by decide) (by constructor <;> decide) hy' (by decide) (by constructor <;> decide) ?_⟩
  have e1 : Sample.key 0x10 ≠ Sample.key 0x80 := by decide
  have e2 : Sample.key 0x10 ≠ Sample.key 0x33 := by decide
  have e3 : Sample.key 0x80 ≠ Sample.key 0x33 := by decide
  funext k
  show Spec.Map.write (Spec.Map.write Spec.Map.empty (Sample.key 0x10, some [1])) (Sample.key 0x80, some [2]) k =
    Spec.Map.write (Spec.Map.write (Spec.Map.write (Spec.Map.write Spec.Map.empty (Sample.key 0x80, some [2])) (Sample.key 0x33, some [3]))
      (Sample.key 0x33, none)) (Sample.key 0x10, some [1]) k
  unfold Spec.Map.write Spec.Map.empty
  by_cases h1 : k = Sample.key 0x10
  · subst h1; simp [e1]
  · by_cases h2 : k = Sample.key 0x80
    · subst h2; simp [e1.symm, e3]
    · by_cases h3 : k = Sample.key 0x33 <;> simp [h1, h2, h3, e2.symm, e3.symm]

end Jmt
