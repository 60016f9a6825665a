import Verif.Props.RestoreOver
import Verif.Props.Fork
import Verif.Props.Borsh
/-!
# C70: working on with a store that a restoration has overwritten in part
-/
namespace Jmt
open Spec (Entry Lists Written NeverDeletesFromEmpty)
open Store

/-- `R` shows everything that is found in `E`. -/
structure Ahead (E R : Reader) : Prop where
  node : ∀ k, E.getNodeOption k = R.getNodeOption k ∨ E.getNodeOption k = .ok none
  value : ∀ v k, E.getValueOption v k = R.getValueOption v k ∨ E.getValueOption v k = .ok none

theorem Ahead.write {E R E' R' : Reader} {b : NodeBatch} (h : Ahead E R) (he : Written b E' E) (hr : Written b R' R) : Ahead E' R' := by
  refine ⟨fun k => ?_, fun v k => ?_⟩
  · cases hk : b.nodes.get? k with
    | some n => rw [he.new k n hk, hr.new k n hk]; exact .inl rfl
    | none => rw [he.old k hk, hr.old k hk]; exact h.node k
  · by_cases hex : ∃ u, (∃ x, b.values.get? (u, k) = some x) ∧ u ≤ v
    · obtain ⟨u, hu, hle⟩ := hex
      obtain ⟨m, ⟨x, hx⟩, h2, h3⟩ := bounded_max (p := fun u => ∃ x, b.values.get? (u, k) = some x) v u hu hle
      rw [he.newValue v k m x hx h2 (fun u x' hu hle => h3 u ⟨x', hu⟩ hle), hr.newValue v k m x hx h2 (fun u x' hu hle => h3 u ⟨x', hu⟩ hle)]
      exact .inl rfl
    · have hno : ∀ u x, b.values.get? (u, k) = some x → v < u := fun u x hx => Nat.lt_of_not_le fun hle => hex ⟨u, ⟨x, hx⟩, hle⟩
      rw [he.oldValue v k hno, hr.oldValue v k hno]
      exact h.value v k

theorem stateAfter_shift (mp : Spec.Map) (a b : List ValueSet) (i : Nat) :
    Spec.stateAfter mp (a ++ b) (a.length + i) = Spec.stateAfter (Spec.stateAfter mp a a.length) b i := by
  unfold Spec.stateAfter
  rw [List.take_append, List.take_of_length_le (by omega), List.foldl_append, List.take_of_length_le (Nat.le_refl _)]
  congr 2
  omega

theorem Spec.NeverDeletesFromEmpty.split {mp : Spec.Map} {a b : List ValueSet} (h : NeverDeletesFromEmpty mp (a ++ b)) :
    NeverDeletesFromEmpty mp a ∧ NeverDeletesFromEmpty (Spec.stateAfter mp a a.length) b := by
  constructor
  · intro i ws pre k post hi hws
    have hlt : i < a.length := by
      apply Nat.lt_of_not_le
      intro hc
      rw [List.getElem?_eq_none hc] at hi
      cases hi
    have := h i ws pre k post (by rw [List.getElem?_append_left hlt]; exact hi) hws
    unfold Spec.stateAfter at this ⊢
    rwa [List.take_append_of_le_length (by omega)] at this
  · intro i ws pre k post hi hws
    have := h (a.length + i) ws pre k post (by rw [List.getElem?_append_right (by omega)]; rw [Nat.add_sub_cancel_left]; exact hi) hws
    rwa [stateAfter_shift] at this

section
variable {H : Hasher} {w : Version} {root : Digest} {all : List (KeyHash × Value)}
  {r : Restore} {checked : Bool} {R R' R2 R0 : Reader} {b : NodeBatch} {ops : List Op} {y : Sys} {v n : Version} {pos : Option KeyHash}
  {css : List (List ValueSet)} {mp : Spec.Map}

/-- The history a restored node that works on stands for: the restored map at version `w`, then the commits. -/
def workedOn (w : Version) (all : List (KeyHash × Value)) (css : List (List ValueSet)) : List Op := restoredAs w all ++ css.map .commit

theorem setsOf_commits (css : List (List ValueSet)) : setsOf (css.map .commit) = css.flatten := by
  induction css with
  | nil => rfl
  | cons c css ih => 
    show _ ++ setsOf _ = _
    rw [ih]; rfl

theorem setsOf_workedOn : setsOf (workedOn w all css) = setsOf (restoredAs w all) ++ css.flatten := by
  unfold workedOn; rw [setsOf_append, setsOf_commits]

theorem length_workedOn : (setsOf (workedOn w all css)).length = w + 1 + css.flatten.length := by
  rw [setsOf_workedOn, setsOf_restoredAs]; simp; omega

theorem horizon_workedOn : (horizon (workedOn w all css)).2 = w := by
  induction css using list_snoc_ind with
  | h0 => unfold workedOn; rw [List.map_nil, List.append_nil, horizon_restoredAs]
  | h1 css sets ih =>
    have : workedOn w all (css ++ [sets]) = workedOn w all css ++ [.commit sets] := by unfold workedOn; simp
    rw [this, horizon_snoc_commit, ih]

/-- The maps of this history: the restored one at version `w`, then the commits applied to it. -/
theorem mapAt_workedOn (hall : SortedPairs mp all) (i : Nat) :
    mapAt (workedOn w all css) (w + i) = Spec.stateAfter mp css.flatten i := by
  have h := (C44_restoredAs_map (w := w) hall).1
  have hl : (setsOf (restoredAs w all)).length = w + 1 := by rw [setsOf_restoredAs]; simp
  unfold mapAt at h ⊢
  rw [← hl] at h
  rw [setsOf_workedOn, show w + i + 1 = (setsOf (restoredAs w all)).length + i by omega, stateAfter_shift, h]

/-- One commit: over a reader ahead of a store, `put_value_sets` does what it does over the store. -/
theorem SysInv.commit_ahead {s : Store} {hist : List ValueSet} {low : Nat} (h : SysInv H s hist low) (hne : low < hist.length) (hA : Ahead s.reader R)
    (sets : List ValueSet) (hsafe : NeverDeletesFromEmpty (Spec.stateAfter .empty hist hist.length) sets)
    (hle : hist.length + sets.length ≤ preGenesisVersion) :
    ∃ res b s', putValueSetsWithProof H R sets hist.length = .ok (res, b) ∧ putValueSets H R sets hist.length = .ok (res.map Prod.fst, b) ∧
      ForkRes H (entriesAfter H hist hist.length) sets res ∧ CommitRes H s hist sets low (res.map Prod.fst) b s' := by
  obtain ⟨hs, b', s', c1, -, c3⟩ := h.commit sets hle
  have hl : hist.length - 1 + 1 = hist.length := by omega
  obtain ⟨res, b, p1, -, p2⟩ := h.past_put (v := hist.length - 1) (by omega) (by omega) sets (by rw [hl]; exact hsafe) (by omega)
  rw [hl] at p1 p2
  obtain ⟨-, q1⟩ := p2 s.reader (fun k n _ hn => by show Except.ok _ = _; rw [hn])
  obtain ⟨q2, q3⟩ := p2 R (fun k n _ hn => by
    rcases hA.node k with h1 | h1
    · rw [← h1]; show Except.ok _ = _; rw [hn]
    · have h2 : Except.ok (s.nodes.get? k) = .ok none := h1
      rw [hn] at h2; cases h2)
  rw [c1] at q1
  cases q1
  exact ⟨res, b', s', q2, q3, p1, c3⟩

theorem worksOn_inv {s : Store} {mp : Spec.Map} (hall : SortedPairs mp all) (hi : SysInv H s (setsOf (restoredAs w all)) (horizon (restoredAs w all)).2)
    (hA : Ahead s.reader R) (h : WorksOn H R (w + 1) css R2 n) (hsafe : NeverDeletesFromEmpty mp css.flatten)
    (hlen : w + 1 + css.flatten.length < 2 ^ 64) :
    ∃ s2, SysInv H s2 (setsOf (workedOn w all css)) w ∧ Ahead s2.reader R2 ∧ n = w + 1 + css.flatten.length ∧
      (∀ k : NodeKey, k.version < w + 1 → R2.getNodeOption k = R.getNodeOption k) ∧
      ∀ u k, u < w + 1 → R2.getValueOption u k = R.getValueOption u k := by
  induction h with
  | start =>
    rw [horizon_restoredAs] at hi
    exact ⟨s, by rw [setsOf_workedOn, List.flatten_nil, List.append_nil]; exact hi, hA, by simp, fun _ _ => rfl, fun _ _ _ => rfl⟩
  | @commit css R1 R2 n1 sets hs b _ hp hw ih =>
    rw [List.flatten_append, List.flatten_singleton] at hsafe hlen
    rw [List.length_append] at hlen
    obtain ⟨hs1, hs2⟩ := hsafe.split
    obtain ⟨s1, g1, g2, g3, g4, g5⟩ := ih hs1 (by omega)
    have hl := length_workedOn (w := w) (all := all) (css := css)
    have hm := mapAt_workedOn (w := w) (css := css) hall css.flatten.length
    unfold mapAt at hm
    rw [show w + css.flatten.length + 1 = (setsOf (workedOn w all css)).length by omega] at hm
    obtain ⟨res, b', s2, -, p2, -, p3⟩ := g1.commit_ahead (by omega) g2 sets (by rw [hm]; exact hs2) (by unfold preGenesisVersion u64Size; omega)
    rw [hl, ← g3, hp] at p2
    cases p2
    have hset : setsOf (workedOn w all css) ++ sets = setsOf (workedOn w all (css ++ [sets])) := by
      rw [setsOf_workedOn, setsOf_workedOn, List.flatten_append, List.flatten_singleton, List.append_assoc]
    refine ⟨s2, hset ▸ p3.inv, g2.write (p3.written g1) hw, ?_, fun k hk => ?_, fun u k hu => ?_⟩
    · rw [List.flatten_append, List.flatten_singleton, List.length_append]; omega
    · rw [hw.old k, g4 k hk]
      cases hb : b.nodeBatch.nodes.get? k with
      | none => rfl
      | some nd => have := (p3.nodeVer k nd hb).1; omega
    · rw [hw.oldValue u k, g5 u k hu]
      intro u' x hx
      rw [p3.values] at hx
      split at hx
      · omega
      · cases hx

section
variable (hr : Reached H ops y) (hb : (setsOf ops).length < 2 ^ 64) (hv : Readable ops v) (hall : SortedPairs (mapAt ops v) all)
    (hne : all ≠ []) (hroot : getRootHash H y.store.reader v = .ok root)
    (hph : ∀ p ∈ Spec.treeStrings H (Spec.hashed H all), p.hash H ≠ placeholder)
    (h : RestoreOver H checked y.store.reader v all w root R0 r R pos) (hdone : Spec.above all pos = []) (hlast : r.lastBatch H = .ok b)
    (hw : Written b R' R) (hwork : WorksOn H R' (w + 1) css R2 n)
include hr hb hv hall hne hroot hph h hdone hlast hw hwork

/-- C70: a node that works on over the restored version - whatever else its backend held and still holds - never fails: the next commit is computed,
with and without proofs; the root hashes are those of the maps, and `verify_update` accepts the proofs. -/
theorem C70_next_commit (sets : List ValueSet) (hsafe : NeverDeletesFromEmpty (mapAt ops v) (css.flatten ++ sets))
    (hlen : w + 1 + (css.flatten ++ sets).length < 2 ^ 64) (checked' : Bool) :
    n = w + 1 + css.flatten.length ∧ ∃ res b', putValueSetsWithProof H R2 sets n = .ok (res, b') ∧ putValueSets H R2 sets n = .ok (res.map Prod.fst, b') ∧
      res.length = sets.length ∧
      ∀ j vs newRoot proofs, sets[j]? = some vs → res[j]? = some (newRoot, proofs) →
        ∀ es es', Lists H (Spec.stateAfter (mapAt ops v) (css.flatten ++ sets) (css.flatten.length + j)) es →
          Lists H (Spec.stateAfter (mapAt ops v) (css.flatten ++ sets) (css.flatten.length + j + 1)) es' →
          newRoot = Spec.root H es' ∧ SMProof.verifyUpdate H checked' proofs (Spec.root H es) newRoot vs = .ok () := by
  obtain ⟨s', hi, ho, -⟩ := restored_over hr hb hv hall hne hroot hph h hdone hlast hw
  rw [List.length_append] at hlen
  obtain ⟨hs1, hs2⟩ := hsafe.split
  obtain ⟨s1, g1, g2, g3, -⟩ := worksOn_inv hall hi ⟨fun k => ho.node k rfl, fun u k => ho.value u k (fun _ _ hc => by cases hc)⟩ hwork hs1 (by omega)
  have hl := length_workedOn (w := w) (all := all) (css := css)
  have hm := mapAt_workedOn (w := w) (css := css) hall css.flatten.length
  unfold mapAt at hm
  rw [show w + css.flatten.length + 1 = (setsOf (workedOn w all css)).length by omega] at hm
  obtain ⟨res, b', s2, p0, p2, p3, -⟩ := g1.commit_ahead (by omega) g2 sets (by rw [hm]; exact hs2) (by unfold preGenesisVersion u64Size; omega)
  rw [hl, ← g3] at p0 p2
  refine ⟨g3, res, b', p0, p2, p3.len, fun j vs newRoot proofs hj hres es es' hes hes' => ?_⟩
  obtain ⟨f1, f2⟩ := p3.get j vs newRoot proofs hj hres
  have l0 : Lists H (Spec.stateAfter (mapAt ops v) css.flatten css.flatten.length) (entriesAfter H (setsOf (workedOn w all css)) (setsOf (workedOn w all css)).length) := by
    rw [show Spec.stateAfter (mapAt ops v) css.flatten css.flatten.length = _ from hm.symm]
    exact lists_entriesAfter H _ _
  rw [stateAfter_shift] at hes
  rw [Nat.add_assoc, stateAfter_shift] at hes'
  have hnd := nodupE_of_lists (lists_foldl (sets.take j) l0)
  have hnew : updAll H ((sets.take j).foldl (updAll H) (entriesAfter H (setsOf (workedOn w all css)) (setsOf (workedOn w all css)).length)) vs =
      (sets.take (j + 1)).foldl (updAll H) (entriesAfter H (setsOf (workedOn w all css)) (setsOf (workedOn w all css)).length) := by
    rw [List.take_add_one, hj, List.foldl_append]; rfl
  have h3 := verifyUpdate_put checked' f2 hnd
  rw [hnew] at h3
  have p1 := root_perm (H := H) (lists_perm (lists_foldl (sets.take j) l0) hes)
  have p2 := root_perm (H := H) (lists_perm (lists_foldl (sets.take (j + 1)) l0) hes')
  rw [← root_eq_sh, ← root_eq_sh, p1, p2] at h3
  rw [← root_eq_sh, p2] at f1
  exact ⟨f1, by rw [f1]; exact h3⟩

/-- C70: and every version from the restored one on answers all queries that start from its root like a store that has performed the same history -
the restored map as version `w`, then the commits - from nothing; `get` finds every value. -/
theorem C70_works_on (hsafe : NeverDeletesFromEmpty (mapAt ops v) css.flatten) (hlen : w + 1 + css.flatten.length < 2 ^ 64)
    {y1 : Sys} (hy1 : Reached H (restoredAs w all ++ css.map .commit) y1) {i : Nat} (hin : i ≤ css.flatten.length) :
    SameTreeQueries H R2 y1.store.reader (w + i) (w + i) ∧
    mapAt (restoredAs w all ++ css.map .commit) (w + i) = Spec.stateAfter (mapAt ops v) css.flatten i ∧
    ∀ k x, Spec.stateAfter (mapAt ops v) css.flatten i k = some x → Jmt.get R2 k (w + i) = .ok (some x) := by
  obtain ⟨s', hi, ho, -⟩ := restored_over hr hb hv hall hne hroot hph h hdone hlast hw
  obtain ⟨s1, g1, g2, -⟩ := worksOn_inv hall hi ⟨fun k => ho.node k rfl, fun u k => ho.value u k (fun _ _ hc => by cases hc)⟩ hwork hsafe hlen
  have hl := length_workedOn (w := w) (all := all) (css := css)
  have hra := g1.reads.readAt (v := w + i) (by omega) (by omega)
  have hrt : ReadTree H R2 (w + i) _ _ := hra.toReadTree.found g2.node g2.value
  have hm := mapAt_workedOn (w := w) (css := css) hall i
  refine ⟨hrt.sameTree (hy1.readAt (by rw [← workedOn, hl]; omega) ⟨?_, ?_⟩).toReadTree, hm, fun k x hx => hrt.present k x ?_⟩
  · rw [← workedOn, horizon_workedOn]; omega
  · rw [← workedOn, hl]; omega
  · rw [← hm] at hx; exact hx

/-- C70: nodes and values of earlier versions stay as they were. -/
theorem C70_works_on_rest (hsafe : NeverDeletesFromEmpty (mapAt ops v) css.flatten) (hlen : w + 1 + css.flatten.length < 2 ^ 64) :
    (∀ k : NodeKey, k.version < w → R2.getNodeOption k = R0.getNodeOption k) ∧ ∀ u k, u < w → R2.getValueOption u k = R0.getValueOption u k := by
  obtain ⟨s', hi, ho, -⟩ := restored_over hr hb hv hall hne hroot hph h hdone hlast hw
  obtain ⟨s1, -, -, -, g4, g5⟩ := worksOn_inv hall hi ⟨fun k => ho.node k rfl, fun u k => ho.value u k (fun _ _ hc => by cases hc)⟩ hwork hsafe hlen
  exact ⟨fun k hk => (g4 k (by omega)).trans (ho.others k (by omega)), fun u k hu => (g5 u k (by omega)).trans (ho.older u k (.inl hu))⟩

/-- C70: so versions of the backend's own history before the restored one keep answering every query. -/
theorem C70_older_versions_stay (hsafe : NeverDeletesFromEmpty (mapAt ops v) css.flatten) (hlen : w + 1 + css.flatten.length < 2 ^ 64)
    {ops0 : List Op} {y0 : Sys} (hr0 : Reached H ops0 y0) (hb0 : (setsOf ops0).length < 2 ^ 64) (hR0 : R0 = y0.store.reader) {u : Version}
    (hu : Readable ops0 u) (huw : u < w) : SameQueries H R2 y0.store.reader u u := by
  obtain ⟨h1, h2⟩ := C70_works_on_rest hr hb hv hall hne hroot hph h hdone hlast hw hwork hsafe hlen
  subst hR0
  exact (hr0.readAt_older hb0 hu (fun k hk => h1 k (by omega)) (fun v k hk => h2 v k (by omega))).sameQueries (hr0.readAt hb0 hu)

end

end

/-- A version that deletes a key and sets another. -/
def Sample.work : List ValueSet := [[(Sample.key 0x1f, none), (Sample.key 0x44, some [7])]]

theorem Sample.work_safe : NeverDeletesFromEmpty (mapAt Sample.ops 1) (Sample.work ++ [[(Sample.key 0x80, none)]]) := by
  intro i ws pre k post hi hws
  match i with
  | 0 =>
    cases hi
    match pre with
    | [] => cases hws; exact ⟨Sample.key 0x10, [4], by decide⟩
    | [_] => cases hws
    | _ :: _ :: _ => simp at hws
  | 1 =>
    cases hi
    match pre with
    | [] => cases hws; exact ⟨Sample.key 0x10, [4], by decide⟩
    | _ :: _ => simp at hws
  | i + 2 => cases hi

/-- Version 1 of the sample history restored as version 2 over a store with the versions 0 to 4 of that history; then version 3 is committed anew, over
the one the store holds, and version 4 can be. -/
theorem Sample.worksOn : ∃ y y0 root r R b R' R2, Reached Sample.T Sample.ops y ∧ Reached Sample.T Sample.ops y0 ∧
    getRootHash Sample.T y.store.reader 1 = .ok root ∧
    RestoreOver Sample.T true y.store.reader 1 Sample.all1 2 root y0.store.reader r R (some (Sample.key 0x80)) ∧ r.lastBatch Sample.T = .ok b ∧
    Written b R' R ∧ WorksOn Sample.T R' 3 [Sample.work] R2 4 ∧
    (∃ res b', putValueSetsWithProof Sample.T R2 [[(Sample.key 0x80, none)]] 4 = .ok (res, b')) ∧
    Jmt.get R2 (Sample.key 0x44) 3 = .ok (some [7]) ∧ Jmt.get R2 (Sample.key 0x1f) 2 = .ok (some [2]) ∧
    SameQueries Sample.T R2 y0.store.reader 1 1 := by
  obtain ⟨y0, hy0⟩ := Sample.reached Sample.T
  obtain ⟨y, root, r, R, b, R', hy, h1, h2, h3, h4⟩ := Sample.restoredOver 2 y0.store.reader
  obtain ⟨-, hc⟩ := C70_next_commit hy Sample.bound Sample.readable1 Sample.sorted1 (by decide) h1 Sample.noPlaceholder1 h2 (by decide) h3 h4 .start
    Sample.work (by simpa using Sample.work_safe.split.1) (by decide) true
  obtain ⟨res, b1, -, c2, -⟩ := hc
  have hwork := WorksOn.commit .start c2 (overlay_written b1.nodeBatch R')
  obtain ⟨-, res', b2, d1, -⟩ := C70_next_commit hy Sample.bound Sample.readable1 Sample.sorted1 (by decide) h1 Sample.noPlaceholder1 h2 (by decide) h3 h4
    hwork [[(Sample.key 0x80, none)]] (by simpa using Sample.work_safe) (by decide) true
  obtain ⟨y1, hy1⟩ := C13_history_never_fails Sample.T (restoredAs 2 Sample.all1 ++ [Sample.work].map .commit) (by decide) (by decide)
  have e := fun i hi => (C70_works_on hy Sample.bound Sample.readable1 Sample.sorted1 (by decide) h1 Sample.noPlaceholder1 h2 (by decide) h3 h4 hwork
    (by simpa using Sample.work_safe.split.1) (by decide) hy1 (i := i) hi).2.2
  exact ⟨y, y0, root, r, R, b, R', _, hy, hy0, h1, h2, h3, h4, hwork, ⟨res', b2, d1⟩, e 1 (by decide) _ _ (by decide), e 0 (by decide) _ _ (by decide),
    C70_older_versions_stay hy Sample.bound Sample.readable1 Sample.sorted1 (by decide) h1 Sample.noPlaceholder1 h2 (by decide) h3 h4 hwork
      (by simpa using Sample.work_safe.split.1) (by decide) hy0 Sample.bound rfl Sample.readable1 (by decide)⟩

end Jmt
