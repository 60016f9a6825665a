import Verif.Spec.Crash
import Verif.Proofs.Overwrite
/-!
# What a successful write to the in-memory store shows, whatever was in the store before
-/
namespace Jmt

/-- The lookup of values in the in-memory store. -/
def valueIn (vh : AMap KeyHash (List (Version × Option Value))) (max : Version) (k : KeyHash) : Option Value :=
  match vh.get? k with
  | some hist => match hist.reverse.find? (fun e => decide (e.1 ≤ max)) with
    | some e => e.2
    | none => none
  | none => none

theorem getValueOption_valueIn (s : Store) (max : Version) (k : KeyHash) : s.getValueOption max k = valueIn s.values max k := by
  unfold Store.getValueOption valueIn
  cases s.values.get? k with
  | none => rfl
  | some hist => cases hist.reverse.find? (fun e => decide (e.1 ≤ max)) <;> rfl

theorem valueIn_put {vh vh' : AMap KeyHash (List (Version × Option Value))} {v : Version} {k0 : KeyHash} {x : Option Value}
    (h : Store.putValue vh v k0 x = .ok vh') (max : Version) (k : KeyHash) :
    valueIn vh' max k = if k0 = k ∧ v ≤ max then x else valueIn vh max k := by
  have key : ∃ hist', vh' = vh.insert k0 hist' ∧
      (match hist'.reverse.find? (fun e => decide (e.1 ≤ max)) with | some e => e.2 | none => none) =
        if v ≤ max then x else valueIn vh max k0 := by
    unfold Store.putValue at h
    unfold valueIn
    cases hg : vh.get? k0 with
    | none =>
      rw [hg] at h
      cases h
      refine ⟨_, rfl, ?_⟩
      by_cases hm : v ≤ max <;> simp [hm]
    | some hist =>
      rw [hg] at h
      simp only at h
      cases hl : hist.getLast? with
      | none =>
        rw [hl] at h
        cases h
        rw [List.getLast?_eq_none_iff] at hl
        subst hl
        refine ⟨_, rfl, ?_⟩
        by_cases hm : v ≤ max <;> simp [hm]
      | some last =>
        obtain ⟨lv, lx⟩ := last
        rw [hl] at h
        simp only at h
        obtain ⟨ys, rfl⟩ := List.getLast?_eq_some_iff.1 hl
        by_cases h1 : v < lv
        · rw [if_pos h1] at h; cases h
        · rw [if_neg h1] at h
          by_cases h2 : v = lv
          · rw [if_pos h2] at h
            cases h
            subst h2
            refine ⟨_, rfl, ?_⟩
            simp only [List.dropLast_concat, List.reverse_append]
            by_cases hm : v ≤ max <;> simp [hm]
          · rw [if_neg h2] at h
            cases h
            refine ⟨_, rfl, ?_⟩
            rw [List.reverse_append]
            by_cases hm : v ≤ max <;> simp [hm]
  obtain ⟨hist', rfl, hv⟩ := key
  unfold valueIn at hv ⊢
  rw [AMap.get?_insert]
  by_cases hk : k0 = k
  · subst hk
    rw [if_pos rfl]
    simp only [true_and]
    exact hv
  · rw [if_neg hk, if_neg (fun h => hk h.1)]

/-- The last write that counts wins. -/
theorem valueIn_puts : ∀ (L : List ((Version × KeyHash) × Option Value)) {vh vh' : AMap KeyHash (List (Version × Option Value))},
    Store.insertValues L vh = .ok vh' → ∀ max k,
    (∀ pre post e, L = pre ++ e :: post → e.1.2 = k → e.1.1 ≤ max → (∀ p ∈ post, p.1.2 = k → max < p.1.1) → valueIn vh' max k = e.2) ∧
    ((∀ p ∈ L, p.1.2 = k → max < p.1.1) → valueIn vh' max k = valueIn vh max k) := by
  intro L
  induction L with
  | nil =>
    intro vh vh' h max k
    cases h
    exact ⟨fun pre post e he => absurd he (by simp), fun _ => rfl⟩
  | cons a L ih =>
    intro vh vh' h max k
    obtain ⟨⟨v, k0⟩, x⟩ := a
    unfold Store.insertValues at h
    obtain ⟨vh1, h1, h2⟩ := bind_ok_inv h
    obtain ⟨i1, i2⟩ := ih h2 max k
    constructor
    · intro pre post e he hk hm hpost
      cases pre with
      | nil =>
        cases he
        rw [i2 hpost, valueIn_put h1, if_pos ⟨hk, hm⟩]
      | cons b pre =>
        cases he
        exact i1 pre post e rfl hk hm hpost
    · intro hno
      rw [i2 (fun p hp => hno p (List.mem_cons_of_mem _ hp)), valueIn_put h1, if_neg]
      rintro ⟨rfl, hm⟩
      have := hno _ (List.mem_cons_self) rfl
      simp only at this
      omega

/-- Whatever the in-memory store holds: if it accepts a batch, then the batch is stored. -/
theorem mock_written {s s' : Store} {b : NodeBatch} (hn : b.nodes.NodupKeys) (hv : b.values.NodupKeys)
    (h : s.writeNodeBatch b = .ok s') : Spec.Written b s'.reader s.reader := by
  unfold Store.writeNodeBatch at h
  obtain ⟨nd, h1, h2⟩ := bind_ok_inv h
  obtain ⟨vl, h3, h4⟩ := bind_ok_inv h2
  cases h4
  have hnd := insertNodes_inv _ _ _ _ h1
  subst hnd
  have hperm := List.mergeSort_perm b.values Store.valueKeyLe
  have hsort := List.pairwise_mergeSort Store.valueKeyLe_trans Store.valueKeyLe_total b.values
  refine ⟨fun k n hk => ?_, fun k hk => ?_, fun v k w x hx hwv hmax => ?_, fun v k hno => ?_⟩
  · show Except.ok ((AMap.extend s.nodes b.nodes).get? k) = _
    rw [AMap.get?_extend _ hn, hk]
  · show Except.ok ((AMap.extend s.nodes b.nodes).get? k) = .ok (s.nodes.get? k)
    rw [AMap.get?_extend _ hn, hk]
  · show Except.ok (Store.getValueOption _ v k) = _
    rw [getValueOption_valueIn]
    congr 1
    have hmem : ((w, k), x) ∈ b.values.mergeSort Store.valueKeyLe := hperm.mem_iff.2 (AMap.mem_of_get? hx)
    obtain ⟨pre, post, he⟩ := List.append_of_mem hmem
    refine (valueIn_puts _ h3 v k).1 pre post _ he rfl hwv (fun p hp hpk => ?_)
    apply Classical.byContradiction
    intro hc
    have hpm : p ∈ b.values := hperm.mem_iff.1 (by rw [he]; simp [hp])
    obtain ⟨⟨u, k'⟩, x'⟩ := p
    simp only at hpk hc
    subst hpk
    have hle := hmax u x' (AMap.get?_of_mem hv hpm) (by omega)
    rw [he, List.pairwise_append] at hsort
    have hs := (List.pairwise_cons.1 hsort.2.1).1 _ hp
    simp only [Store.valueKeyLe, Bool.or_eq_true, Bool.and_eq_true, decide_eq_true_eq] at hs
    have hu : u = w := by omega
    subst hu
    have hnd : ((b.values.mergeSort Store.valueKeyLe).map Prod.fst).Nodup := (hperm.map Prod.fst).nodup_iff.2 hv
    rw [he, List.map_append, List.map_cons, List.nodup_append] at hnd
    exact (List.nodup_cons.1 hnd.2.1).1 (List.mem_map.2 ⟨_, hp, rfl⟩)
  · show Except.ok (Store.getValueOption _ v k) = .ok (Store.getValueOption _ v k)
    rw [getValueOption_valueIn, getValueOption_valueIn]
    congr 1
    refine (valueIn_puts _ h3 v k).2 (fun p hp hpk => ?_)
    obtain ⟨⟨u, k'⟩, x'⟩ := p
    simp only at hpk
    subst hpk
    exact hno u x' (AMap.get?_of_mem hv (hperm.mem_iff.1 hp))

/-- The same for a whole update. -/
theorem mock_written_update {s s' : Store} {b : TreeUpdateBatch} (hn : b.nodeBatch.nodes.NodupKeys) (hv : b.nodeBatch.values.NodupKeys)
    (h : s.writeTreeUpdateBatch b = .ok s') : Spec.Written b.nodeBatch s'.reader s.reader := by
  unfold Store.writeTreeUpdateBatch at h
  obtain ⟨s1, h1, h2⟩ := bind_ok_inv h
  obtain ⟨st, h3, h4⟩ := bind_ok_inv h2
  cases h4
  have := mock_written hn hv h1
  exact ⟨this.new, this.old, this.newValue, this.oldValue⟩

end Jmt
