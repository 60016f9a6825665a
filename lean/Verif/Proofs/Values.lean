import Verif.Proofs.History
/-!
# Value histories of the mock store, and its insertion / pruning loops
-/
namespace Jmt
open Spec (Entry)

/-! ### insertion loops -/

namespace Store

/-- History list of a key. -/
def histOf (vh : AMap KeyHash (List (Version × Option Value))) (k : KeyHash) :
    List (Version × Option Value) := (vh.get? k).getD []

theorem putValue_ok {vh : AMap KeyHash (List (Version × Option Value))} {v : Nat} {k x}
    (h : ∀ e ∈ histOf vh k, e.1 < v) :
    ∃ vh', putValue vh v k x = .ok vh' ∧
      ∀ k', histOf vh' k' = if k' = k then histOf vh k ++ [(v, x)] else histOf vh k' := by
  have fin : ∀ l : List (Version × Option Value), l = histOf vh k ++ [(v, x)] → ∀ k',
      histOf (vh.insert k l) k' = if k' = k then histOf vh k ++ [(v, x)] else histOf vh k' := by
    intro l hl k'
    unfold histOf at *
    rw [AMap.get?_insert]
    by_cases hk : k = k'
    · subst hk; simp [hl]
    · simp [hk, Ne.symm hk]
  unfold putValue
  cases hg : vh.get? k with
  | none =>
    refine ⟨_, rfl, fin _ ?_⟩
    simp [histOf, hg]
  | some hist =>
    have hh : histOf vh k = hist := by simp [histOf, hg]
    cases hl : hist.getLast? with
    | none =>
      refine ⟨vh.insert k (hist ++ [(v, x)]), by simp only [hl], fin _ ?_⟩
      rw [hh]
    | some e =>
      obtain ⟨w, y⟩ := e
      have hm := List.mem_of_getLast? hl
      have := h (w, y) (by rw [hh]; exact hm)
      dsimp only at this
      refine ⟨_, by simp only [hl]; rw [if_neg (by omega), if_neg (by omega)], fin _ ?_⟩
      rw [hh]

theorem insertValues_ok : ∀ (L : List ((Version × KeyHash) × Option Value))
    (vh : AMap KeyHash (List (Version × Option Value))),
    L.Pairwise (fun a b => valueKeyLe a b = true) → AMap.NodupKeys L →
    (∀ e ∈ L, ∀ o ∈ histOf vh e.1.2, o.1 < e.1.1) →
    ∃ vh', insertValues L vh = .ok vh' ∧
      ∀ k, histOf vh' k = histOf vh k ++ (L.filter (fun e => decide (e.1.2 = k))).map (fun e => (e.1.1, e.2)) := by
  intro L
  induction L with
  | nil => intro vh _ _ _; exact ⟨vh, rfl, fun k => by simp⟩
  | cons e L ih =>
    obtain ⟨⟨v, k⟩, x⟩ := e
    intro vh hs hn hlt
    obtain ⟨vh1, a1, a2⟩ := putValue_ok (x := x) (hlt ((v, k), x) (by simp))
    dsimp only at a1 a2
    rw [List.pairwise_cons] at hs
    have hn' := hn
    simp only [AMap.NodupKeys, List.map_cons, List.nodup_cons] at hn
    obtain ⟨vh2, b1, b2⟩ := ih vh1 hs.2 hn.2 (by
      rintro ⟨⟨v', k'⟩, x'⟩ he o ho
      dsimp only at ho ⊢
      rw [a2] at ho
      by_cases hk : k' = k
      · subst hk
        simp only [if_true] at ho
        rcases List.mem_append.1 ho with ho | ho
        · exact hlt _ (List.mem_cons_of_mem _ he) o ho
        · simp only [List.mem_singleton] at ho
          subst ho
          have h1 := hs.1 _ he
          simp only [valueKeyLe, Bool.or_eq_true, decide_eq_true_eq, Bool.and_eq_true] at h1
          rcases h1 with h1 | ⟨h1, -⟩
          · exact h1
          · exfalso
            apply hn.1
            exact List.mem_map.2 ⟨_, he, by simp [h1]⟩
      · simp only [hk, if_false] at ho
        exact hlt _ (List.mem_cons_of_mem _ he) o ho)
    refine ⟨vh2, ?_, fun k' => ?_⟩
    · unfold insertValues; rw [a1, ok_bind, b1]
    · rw [b2, a2]
      by_cases hk : k' = k
      · subst hk; simp
      · have : ¬ k = k' := fun h => hk h.symm
        simp [hk, this]

theorem valueKeyLe_trans (a b c : (Version × KeyHash) × Option Value) (h1 : valueKeyLe a b = true)
    (h2 : valueKeyLe b c = true) : valueKeyLe a c = true := by
  simp only [valueKeyLe, Bool.or_eq_true, decide_eq_true_eq, Bool.and_eq_true] at *
  rcases h1 with h1 | ⟨h1, h1'⟩ <;> rcases h2 with h2 | ⟨h2, h2'⟩
  · left; omega
  · left; omega
  · left; omega
  · exact .inr ⟨by omega, List.le_trans h1' h2'⟩

theorem valueKeyLe_total (a b : (Version × KeyHash) × Option Value) :
    (valueKeyLe a b || valueKeyLe b a) = true := by
  simp only [valueKeyLe, Bool.or_eq_true, decide_eq_true_eq, Bool.and_eq_true]
  rcases Nat.lt_trichotomy a.1.1 b.1.1 with h | h | h
  · exact .inl (.inl h)
  · rcases List.le_total a.1.2.val b.1.2.val with h' | h'
    · exact .inl (.inr ⟨h, h'⟩)
    · exact .inr (.inr ⟨h.symm, h'⟩)
  · exact .inr (.inl h)

theorem insertNodes_ok (ow : Bool) : ∀ (L : List (NodeKey × Node)) (m : AMap NodeKey Node),
    AMap.NodupKeys L → (∀ e ∈ L, m.get? e.1 = none) →
    insertNodes ow L m = .ok (AMap.extend m L) := by
  intro L
  induction L with
  | nil => intro m _ _; rfl
  | cons e L ih =>
    obtain ⟨k, n⟩ := e
    intro m hn hm
    simp only [AMap.NodupKeys, List.map_cons, List.nodup_cons] at hn
    unfold insertNodes
    have h0 := hm (k, n) (by simp)
    dsimp only at h0
    rw [if_neg (by simp [h0]), ih _ hn.2]; · rfl
    intro e he
    rw [AMap.get?_insert, if_neg]; · exact hm _ (List.mem_cons_of_mem _ he)
    rintro rfl
    exact hn.1 (List.mem_map.2 ⟨e, he, rfl⟩)

theorem insertStale_ok : ∀ (L st : List StaleNodeIndex), (st ++ L).Nodup →
    insertStale L st = .ok (st ++ L) := by
  intro L
  induction L with
  | nil => intro st _; simp [insertStale]
  | cons i L ih =>
    intro st h
    unfold insertStale
    rw [if_neg, ih]
    · simp
    · simpa using h
    · intro hi
      rw [List.nodup_append] at h
      exact h.2.2 i hi i (by simp) rfl

theorem purgeLoop_ok : ∀ (L : List StaleNodeIndex) (s : Store), (L.map StaleNodeIndex.nodeKey).Nodup →
    (∀ i ∈ L, ∃ nd, s.nodes.get? i.nodeKey = some nd) →
    ∃ s', purgeLoop L s = .ok s' ∧ s'.values = s.values ∧ s'.preimages = s.preimages ∧
      s'.allowOverwrite = s.allowOverwrite ∧
      s'.stale = s.stale.filter (fun j => decide (j ∉ L)) ∧
      (s.nodes.NodupKeys → s'.nodes.NodupKeys) ∧
      ∀ k, s'.nodes.get? k = if ∃ x ∈ L, x.nodeKey = k then none else s.nodes.get? k := by
  intro L
  induction L with
  | nil =>
    intro s _ _
    refine ⟨s, rfl, rfl, rfl, rfl, ?_, id, fun k => by simp⟩
    rw [List.filter_eq_self.2]; simp
  | cons i L ih =>
    intro s hn hex
    obtain ⟨nd, hnd⟩ := hex i (by simp)
    simp only [List.map_cons, List.nodup_cons] at hn
    obtain ⟨s', a1, a2, a3, a4, a5, a6, a7⟩ := ih { s with
        nodes := s.nodes.erase i.nodeKey
        stale := s.stale.filter (fun j => decide (j ≠ i)) } hn.2 (by
      intro j hj
      obtain ⟨nd', h'⟩ := hex j (List.mem_cons_of_mem _ hj)
      refine ⟨nd', ?_⟩
      rw [AMap.get?_erase, if_neg]; · exact h'
      intro h
      exact hn.1 (List.mem_map.2 ⟨j, hj, h.symm⟩))
    refine ⟨s', ?_, a2, a3, a4, ?_, fun h => a6 (h.erase _), fun k => ?_⟩
    · unfold purgeLoop; rw [hnd]; exact a1
    · rw [a5, List.filter_filter]
      congr 1
      funext j
      simp only [List.mem_cons, not_or]
      rw [Bool.eq_iff_iff]
      simp only [Bool.and_eq_true, decide_eq_true_eq, ne_eq]
      exact And.comm
    · rw [a7, AMap.get?_erase]
      by_cases h1 : i.nodeKey = k
      · rw [if_pos h1]
        by_cases h2 : ∃ x ∈ L, x.nodeKey = k
        · rw [if_pos h2, if_pos]; exact ⟨i, by simp, h1⟩
        · rw [if_neg h2, if_pos]; exact ⟨i, by simp, h1⟩
      · rw [if_neg h1]
        have : (∃ x ∈ i :: L, x.nodeKey = k) ↔ ∃ x ∈ L, x.nodeKey = k := by
          constructor
          · rintro ⟨x, hx, hk⟩
            rcases List.mem_cons.1 hx with rfl | hx
            · exact absurd hk h1
            · exact ⟨x, hx, hk⟩
          · rintro ⟨x, hx, hk⟩; exact ⟨x, List.mem_cons_of_mem _ hx, hk⟩
        simp only [this]

end Store
end Jmt
