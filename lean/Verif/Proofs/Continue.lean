import Verif.Spec.Continue
import Verif.Proofs.Sorted
import Verif.Proofs.Overwrite
import Verif.Props.Restore
/-!
# A restored store satisfies the invariant of ordinary histories
-/
namespace Jmt
open Spec (Entry)
open Store

section
variable {H : Hasher} {s s' : Store} {w : Version} {all : List (KeyHash × Value)}

theorem writeNodeBatch_stale {b : NodeBatch} (h : s.writeNodeBatch b = .ok s') : s'.stale = s.stale := by
  unfold writeNodeBatch at h
  obtain ⟨n, -, h⟩ := bind_ok_inv h
  obtain ⟨x, -, h⟩ := bind_ok_inv h
  cases h; rfl

theorem addChunk_stale {checked : Bool} {r r' : Restore} {chunk : List (KeyHash × Value)} {P : RangeProof} {e}
    (h : r.addChunk H checked s chunk P = (r', s', e)) : s'.stale = s.stale := by
  unfold Restore.addChunk at h
  split at h
  · cases h; rfl
  · split at h
    · cases h; rfl
    · split at h
      · cases h; rfl
      · split at h
        · cases h; rfl
        · next hw => cases h; exact writeNodeBatch_stale hw

theorem finish_stale {r : Restore} (h : r.finish H s = .ok s') : s'.stale = s.stale := by
  unfold Restore.finish at h
  split at h
  · split at h
    · exact writeNodeBatch_stale h
    · cases h
  · obtain ⟨r', -, h⟩ := bind_ok_inv h
    exact writeNodeBatch_stale h

theorem sess_stale {checked : Bool} {src : Reader} {v : Version} {root : Digest} (evs : List SendEvent) : ∀ {z z' : Sess},
    Sess.run H checked src v all w root z evs = .ok z' → z'.store.stale = z.store.stale := by
  induction evs with
  | nil => intro z z' h; cases h; rfl
  | cons ev evs ih =>
    intro z z' h
    unfold Sess.run at h
    obtain ⟨y, h1, h2⟩ := bind_ok_inv h
    rw [ih h2]
    cases ev with
    | restart =>
      unfold Sess.step at h1
      obtain ⟨r, -, h1⟩ := bind_ok_inv h1
      cases h1; rfl
    | feed n =>
      unfold Sess.step at h1
      simp only [] at h1
      split at h1
      · cases h1; rfl
      · obtain ⟨P, -, h1⟩ := bind_ok_inv h1
        split at h1
        · next hc => cases h1; exact addChunk_stale hc
        · cases h1

theorem entriesAfter_replicate (H : Hasher) (w : Nat) (rest : List ValueSet) {i : Nat} (hi : i ≤ w) :
    entriesAfter H (List.replicate w [] ++ rest) i = [] := by
  rw [entriesAfter_append_le H _ _ (by simpa using hi)]
  unfold entriesAfter
  rw [List.take_replicate]
  generalize min i w = n
  induction n with
  | zero => rfl
  | succ n ih => simpa [List.replicate_succ, updAll] using ih

theorem stateAfter_replicate (w : Nat) (ws : ValueSet) :
    Spec.stateAfter Spec.Map.empty (List.replicate w [] ++ [ws]) (w + 1) = Spec.Map.writes Spec.Map.empty ws := by
  unfold Spec.stateAfter
  rw [List.take_of_length_le (by simp), List.foldl_append]
  have : ∀ n, List.foldl Spec.Map.writes Spec.Map.empty (List.replicate n []) = Spec.Map.empty := by
    intro n
    induction n with
    | zero => rfl
    | succ n ih => simpa [List.replicate_succ, Spec.Map.writes] using ih
  rw [this]; rfl

theorem lastWrite_some (hs : all.Pairwise (fun a b => a.1.val < b.1.val)) (k : KeyHash) (x : Option Value) :
    lastWrite (all.map (fun e => (e.1, some e.2))) k = some x ↔ ∃ y, x = some y ∧ (k, y) ∈ all := by
  induction all with
  | nil => simp [lastWrite]
  | cons a all ih =>
    rw [List.pairwise_cons] at hs
    rw [List.map_cons, lastWrite_cons]
    have ih := ih hs.2
    cases hl : lastWrite (all.map (fun e => (e.1, some e.2))) k with
    | some y =>
      rw [hl] at ih
      rw [Option.some_or, ih]
      constructor
      · rintro ⟨z, h1, h2⟩; exact ⟨z, h1, by simp [h2]⟩
      · rintro ⟨z, h1, h2⟩
        rcases List.mem_cons.1 h2 with h2 | h2
        · exfalso
          have := lastWrite_isSome.1 (by rw [hl]; rfl)
          rw [List.map_map] at this
          obtain ⟨e, he, hk⟩ := List.mem_map.1 this
          have := hs.1 e he
          simp only [Function.comp] at hk
          rw [hk, ← h2] at this
          exact List.lt_irrefl _ this
        · exact ⟨z, h1, h2⟩
    | none =>
      rw [Option.none_or]
      by_cases hk : a.1 = k
      · subst hk
        simp only [if_true, Option.some.injEq]
        constructor
        · rintro rfl; exact ⟨_, rfl, by simp⟩
        · rintro ⟨z, rfl, h2⟩
          rcases List.mem_cons.1 h2 with h2 | h2
          · rw [← h2]
          · exact absurd (hs.1 _ h2) (List.lt_irrefl _)
      · simp only [hk, if_false]
        constructor
        · intro h; cases h
        · rintro ⟨z, rfl, h2⟩
          rcases List.mem_cons.1 h2 with h2 | h2
          · exact absurd (by rw [← h2]) hk
          · have := lastWrite_isSome (ws := all.map (fun e => (e.1, some e.2))) (k := k)
            rw [hl] at this
            simp only [Option.isSome_none, Bool.false_eq_true, List.map_map, false_iff] at this
            exact absurd (List.mem_map.2 ⟨_, h2, rfl⟩) this

theorem writes_sorted {mp : Spec.Map} (h : SortedPairs mp all) :
    Spec.Map.writes Spec.Map.empty (all.map (fun e => (e.1, some e.2))) = mp := by
  funext k
  rw [writes_eq]
  have := fun x => lastWrite_some h.sorted k x
  cases hl : lastWrite (all.map (fun e => (e.1, some e.2))) k with
  | some x =>
    obtain ⟨y, rfl, hy⟩ := (this x).1 hl
    exact ((h.mem k y).1 hy).symm
  | none =>
    cases hm : mp k with
    | none => rfl
    | some y =>
      have := (this (some y)).2 ⟨y, rfl, (h.mem k y).2 hm⟩
      rw [hl] at this; cases this

/-- What `finish` leaves behind. -/
theorem restored_inv (hsorted : all.Pairwise (fun a b => a.1.val < b.1.val)) (hne : all ≠ [])
    (hfull : FullAt H s.nodes (entriesOf H all) w) (hnd : s.nodes.NodupKeys) (hst : s.stale = [])
    (hstored : ∀ e ∈ all, histOf s.values e.1 = [(w, some e.2)])
    (habsent : ∀ k, k ∉ all.map Prod.fst → histOf s.values k = []) :
    SysInv H s (List.replicate w [] ++ [all.map (fun e => (e.1, some e.2))]) w := by
  have hlen : (List.replicate w [] ++ [all.map (fun e => (e.1, some e.2))] : List ValueSet).length = w + 1 := by simp
  have hasc : Asc (entriesOf H all) := by
    unfold Asc entriesOf
    rw [List.pairwise_map]; exact hsorted
  have hpm : SortedPairs (Spec.Map.writes Spec.Map.empty (all.map (fun e => (e.1, some e.2)))) all := by
    refine ⟨hsorted, fun k x => ?_⟩
    rw [writes_eq]
    have := lastWrite_some hsorted k (some x)
    cases hl : lastWrite (all.map (fun e => (e.1, some e.2))) k with
    | some y =>
      rw [hl] at this
      simp only [Option.some.injEq, exists_eq_left'] at this
      exact this.symm
    | none =>
      rw [hl] at this
      simp only [Option.some.injEq, exists_eq_left'] at this
      constructor
      · intro h; exact absurd (this.2 h) (by simp)
      · intro h; cases h
  have hl : Spec.Lists H (Spec.Map.writes Spec.Map.empty (all.map (fun e => (e.1, some e.2)))) (entriesOf H all) := by
    refine ⟨hasc.nodup, fun k vh => ?_⟩
    unfold entriesOf
    rw [List.mem_map]
    constructor
    · rintro ⟨e, he, h⟩
      cases h
      exact ⟨e.2, (hpm.mem _ _).1 he, rfl⟩
    · rintro ⟨x, hx, rfl⟩
      exact ⟨(k, x), (hpm.mem _ _).2 hx, rfl⟩
  have hperm : (entriesOf H all).Perm (entriesAfter H (List.replicate w [] ++ [all.map (fun e => (e.1, some e.2))]) (w + 1)) := by
    have := lists_entriesAfter H (List.replicate w [] ++ [all.map (fun e => (e.1, some e.2))]) (w + 1)
    rw [stateAfter_replicate] at this
    exact lists_perm hl this
  have hne' : entriesOf H all ≠ [] := fun hc => hne (List.map_eq_nil_iff.1 hc)
  have ht := (hfull.treeAt (s := s) hne').perm hperm
  generalize hh : (List.replicate w [] ++ [all.map (fun e => (e.1, some e.2))] : List ValueSet) = hist at *
  have hM0 : ∀ i, i < w → entriesAfter H hist (i + 1) = [] := by
    intro i hi; rw [← hh]; exact entriesAfter_replicate H w _ (by omega)
  have hpr : ∀ q, pres (entriesAfter H hist (w + 1)) [] q ↔ pres (entriesOf H all) [] q := fun q =>
    ⟨pres_perm hperm.symm, pres_perm hperm⟩
  refine ⟨⟨fun i => entriesAfter H hist (i + 1), fun _ _ => w, ⟨?_, ?_, ?_, ?_, ?_, ?_, ?_, ?_, ?_, ?_, ?_, ?_⟩, ?_, ?_, ?_, ?_⟩, hnd, ⟨?_, ?_⟩⟩
  · omega
  · intro i _; exact entriesAfter_nodup _ _ _
  · intro i h1 h2
    obtain rfl : i = w := by omega
    exact ht
  · intro i hi q hq
    by_cases h : i < w
    · rw [hM0 i h] at hq; exact absurd hq not_pres_of_nil
    · omega
  · intro k nd hk
    have : k.version = w ∧ pres (entriesOf H all) [] k.path := by
      apply Classical.byContradiction
      intro hc; rw [hfull.no k hc] at hk; cases hk
    omega
  · intro x hx; rw [hst] at hx; cases hx
  · rw [hst]; exact List.nodup_nil
  · intro a b q _ h1 h2; omega
  · intro k nd hk _
    have : k.version = w ∧ pres (entriesOf H all) [] k.path := by
      apply Classical.byContradiction
      intro hc; rw [hfull.no k hc] at hk; cases hk
    exact ⟨w, Nat.le_refl _, by omega, (hpr _).2 this.2, this.1.symm⟩
  · intro _ _ a b hx; rw [hst] at hx; cases hx
  · intro _ _
    exact ⟨_, hfull.yes [] (pres_self.2 (by rw [under_nil_path]; exact hne'))⟩
  · intro j q _ hj hp hw
    by_cases h : j + 1 < w
    · rw [hM0 _ h] at hp; exact absurd hp not_pres_of_nil
    · exact absurd (show w = j + 1 by omega) hw
  · intro _; show w = _; omega
  · intro _ _; rfl
  · intro i hi q _ hq u h1 h2
    simp only at h1
    omega
  · intro i hi q _ hq ws hws
    by_cases h : i < w
    · simp only [hM0 i h] at hq; exact absurd hq not_pres_of_nil
    · obtain rfl : i = w := by omega
      refine ⟨fun _ => rfl, fun hn => absurd ?_ hn⟩
      rw [← hh, List.getElem?_append_right (by simp)] at hws
      simp only [List.length_replicate, Nat.sub_self, List.getElem?_cons_zero, Option.some.injEq] at hws
      rw [← hws]
      cases all with
      | nil => exact absurd rfl hne
      | cons e l =>
        refine .inl ⟨.inl (by simp), .inr ?_⟩
        unfold cur
        split
        · exact not_pres_of_nil
        · rw [show (fun i => entriesAfter H hist (i + 1)) (i - 1) = [] from hM0 _ (by omega)]; exact not_pres_of_nil
  · intro k
    by_cases hk : k ∈ all.map Prod.fst
    · obtain ⟨e, he, rfl⟩ := List.mem_map.1 hk
      rw [hstored e he]; simp
    · rw [habsent k hk]; simp
  · intro k v x
    have hget : hist[v]?.bind (fun ws => lastWrite ws k) =
        if v = w then lastWrite (all.map (fun e => (e.1, some e.2))) k else none := by
      rw [← hh]
      by_cases h1 : v < w
      · rw [List.getElem?_append_left (by simpa using h1), List.getElem?_replicate]
        simp [h1, lastWrite, Nat.ne_of_lt h1]
      · rw [List.getElem?_append_right (by simpa using h1)]
        by_cases h2 : v = w
        · simp [h2]
        · simp only [List.length_replicate, h2, if_false]
          rw [List.getElem?_eq_none (by simp; omega)]; rfl
    rw [hget]
    by_cases hv : v = w
    · subst hv
      rw [if_pos rfl, lastWrite_some hsorted]
      by_cases hk : k ∈ all.map Prod.fst
      · obtain ⟨e, he, rfl⟩ := List.mem_map.1 hk
        rw [hstored e he]
        simp only [List.mem_singleton, Prod.mk.injEq, true_and]
        constructor
        · rintro rfl; exact ⟨_, rfl, he⟩
        · rintro ⟨y, rfl, hy⟩
          have := (hpm.mem _ _).1 hy
          rw [(hpm.mem _ _).1 he] at this
          exact this.symm
      · rw [habsent k hk]
        simp only [List.not_mem_nil, false_iff]
        rintro ⟨y, -, hy⟩
        exact hk (List.mem_map.2 ⟨_, hy, rfl⟩)
    · rw [if_neg hv]
      simp only [reduceCtorEq, iff_false]
      intro hmem
      by_cases hk : k ∈ all.map Prod.fst
      · obtain ⟨e, he, rfl⟩ := List.mem_map.1 hk
        rw [hstored e he] at hmem
        simp only [List.mem_singleton, Prod.mk.injEq] at hmem
        exact hv hmem.1
      · rw [habsent k hk] at hmem; cases hmem

end

/-- Continuing from any store that satisfies the invariant. -/
theorem Sys.run_from {H : Hasher} {pre : List Op} {y : Sys} (hi : SysInv H y.store (setsOf pre) (horizon pre).2)
    (hn : y.next = (setsOf pre).length) (ops : List Op) (hok : ∀ op ∈ ops, op.Allowed)
    (hb : (setsOf (pre ++ ops)).length ≤ preGenesisVersion) :
    ∃ z, Sys.run H ops y = .ok z ∧ z.next = (setsOf (pre ++ ops)).length ∧
      SysInv H z.store (setsOf (pre ++ ops)) (horizon (pre ++ ops)).2 := by
  induction ops using list_snoc_ind with
  | h0 => exact ⟨y, rfl, by simpa using hn, by simpa using hi⟩
  | h1 ops op ih =>
    rw [← List.append_assoc] at hb ⊢
    obtain ⟨z, a1, a2, a3⟩ := ih (fun o h => hok o (by simp [h])) (by
      rw [setsOf_append (pre ++ ops), List.length_append] at hb; omega)
    obtain ⟨z', b1, b2, b3⟩ := Sys.step_ok a3 a2 op (hok op (by simp)) hb
    exact ⟨z', by rw [Sys.run_snoc, a1, ok_bind, b1], b2, b3⟩

end Jmt
