import Verif.Spec.Rollback
import Verif.Proofs.Continue
/-!
# Rolling back to a readable version
-/
namespace Jmt
open Spec (Entry)

theorem AMap.get?_filter {α β : Type} [DecidableEq α] (p : α → Bool) (N : AMap α β) (k : α) :
    AMap.get? (N.filter (fun e => p e.1)) k = if p k then AMap.get? N k else none := by
  induction N with
  | nil => split <;> rfl
  | cons e N ih =>
    obtain ⟨a, b⟩ := e
    rw [List.filter_cons]
    by_cases ha : a = k
    · subst ha
      by_cases hp : p a
      · simp [hp, AMap.get?]
      · rw [if_neg (by simpa using hp), ih, if_neg hp]
        simp [hp]
    · split
      · simp only [AMap.get?, ha, if_false]; exact ih
      · rw [ih]; simp [AMap.get?, ha]

theorem histOf_map (vals : AMap KeyHash (List (Version × Option Value))) (p : Version × Option Value → Bool) (k : KeyHash) :
    Store.histOf (vals.map (fun e => (e.1, e.2.filter p))) k = (Store.histOf vals k).filter p := by
  unfold Store.histOf
  induction vals with
  | nil => rfl
  | cons e vals ih =>
    obtain ⟨a, b⟩ := e
    rw [List.map_cons]
    by_cases ha : a = k
    · simp [AMap.get?, ha]
    · simpa [AMap.get?, ha] using ih

section
variable {H : Hasher} {s : Store} {hist : List ValueSet} {low v : Nat}

theorem HistInv.older_le {G st n low M W} (h : HistInv H G st n low M W) {q : List Nibble} (hq : q ≠ []) :
    ∀ t i, i + t < n → pres (M (i + t)) [] q → W (i + t) q ≤ i → pres (M i) [] q ∧ W i q = W (i + t) q := by
  intro t
  induction t with
  | zero => intro i _ h1 _; exact ⟨h1, rfl⟩
  | succ t ih =>
    intro i hn h1 h2
    obtain ⟨a, b⟩ := h.older (i + t) q hq hn h1 (by rw [show i + t + 1 = i + (t + 1) by omega]; omega)
    rw [show i + t + 1 = i + (t + 1) by omega] at b
    obtain ⟨c, d⟩ := ih i (by omega) a (by omega)
    exact ⟨c, by omega⟩

theorem SysInv.rollback (h : SysInv H s hist low) (h1 : low ≤ v) (h2 : v < hist.length) :
    SysInv H (s.rollback v) (hist.take (v + 1)) low := by
  obtain ⟨⟨M, W, hI, -, hM, hF, hE⟩, hnd, hval⟩ := h
  have hlen : (hist.take (v + 1)).length = v + 1 := by rw [List.length_take]; omega
  have hG : ∀ k, (s.rollback v).nodes.get? k = if k.version ≤ v then s.nodes.get? k else none := by
    intro k
    show AMap.get? (s.nodes.filter _) k = _
    rw [AMap.get?_filter (fun k : NodeKey => decide (k.version ≤ v))]
    simp
  have hGle : ∀ k : NodeKey, k.version ≤ v → (s.rollback v).nodes.get? k = s.nodes.get? k := by
    intro k hk; rw [hG, if_pos hk]
  have hGsome : ∀ k nd, (s.rollback v).nodes.get? k = some nd → k.version ≤ v ∧ s.nodes.get? k = some nd := by
    intro k nd hk
    rw [hG] at hk
    split at hk
    · next h => exact ⟨h, hk⟩
    · cases hk
  have hst : ∀ x, x ∈ (s.rollback v).stale ↔ x ∈ s.stale ∧ x.staleSince ≤ v := by
    intro x
    show x ∈ s.stale.filter _ ↔ _
    rw [List.mem_filter]; simp
  have hI' : HistInv H (s.rollback v).nodes.get? (s.rollback v).stale (v + 1) low M (updN W v (setVer (W v) [] v)) := by
    have hW : ∀ i q, q ≠ [] → updN W v (setVer (W v) [] v) i q = W i q := by
      intro i q hq
      unfold updN; split
      · next h => rw [setVer_ne hq, h]
      · rfl
    have hcn : ∀ i q, canonNode H (M i) (updN W v (setVer (W v) [] v) i) q = canonNode H (M i) (W i) q := by
      intro i q
      unfold updN; split
      · next h => rw [canonNode_setRoot, h]
      · rfl
    refine ⟨by omega, fun i hi => hI.nodup i (by omega), ?_, ?_, ?_, ?_, ?_, ?_, ?_, ?_, ?_, ?_⟩
    · intro i a b
      have ht := hI.tree i a (by omega)
      refine ⟨?_, fun q hq hp => ?_⟩
      · rw [hcn]
        have := ht.root
        unfold nb at this ⊢
        rw [hGle _ (by show i ≤ v; omega)]; exact this
      · rw [hcn, hW _ _ hq]
        have := ht.node q hq hp
        have hw := hI.wle i (by omega) q hp
        unfold nb at this ⊢
        rw [hGle _ (by show W i q ≤ v; omega)]; exact this
    · intro i hi q hq
      by_cases hq0 : q = []
      · subst hq0
        unfold updN; split
        · rw [setVer_self]; omega
        · exact hI.wle i (by omega) _ hq
      · rw [hW _ _ hq0]; exact hI.wle i (by omega) _ hq
    · intro k nd hk
      have := (hGsome k nd hk).1
      omega
    · intro x hx
      obtain ⟨hx, hxv⟩ := (hst x).1 hx
      obtain ⟨a, b, c, d⟩ := hI.stale x hx
      refine ⟨by omega, b, ?_, fun hp j j1 j2 => ?_⟩
      · rw [hGle _ (by omega)]; exact c
      · rw [hW _ _ hp]; exact d hp j j1 (by omega)
    · exact hI.staleNodup.sublist (List.filter_sublist.map _)
    · intro t w q hq a b
      rw [hW _ _ hq, hW _ _ hq, hst, ← hI.exact t w q hq a (by omega)]
      exact ⟨fun h => h.1, fun h => ⟨h, by show t ≤ v; omega⟩⟩
    · intro k nd hk hp
      obtain ⟨hk1, hk2⟩ := hGsome k nd hk
      obtain ⟨j, j1, j2, j3, j4⟩ := hI.keep k nd hk2 hp
      by_cases hj : j ≤ v
      · exact ⟨j, j1, by omega, j3, by rw [hW _ _ hp]; exact j4⟩
      · obtain ⟨a, b⟩ := hI.older_le hp (j - v) v (by omega) (by rw [show v + (j - v) = j by omega]; exact j3)
          (by rw [show v + (j - v) = j by omega]; omega)
        rw [show v + (j - v) = j by omega] at b
        exact ⟨v, h1, by omega, a, by rw [hW _ _ hp]; omega⟩
    · intro _ _ t w hx
      obtain ⟨hx, hxv⟩ := (hst _).1 hx
      rw [Nat.add_sub_cancel, updN_self, setVer_self]
      have := (hI.stale _ hx).2.1
      dsimp only at this hxv
      omega
    · intro _ _
      rw [Nat.add_sub_cancel, updN_self, setVer_self, hGle _ (Nat.le_refl _)]
      have := (hI.tree v h1 h2).root
      unfold nb at this
      exact ⟨_, Except.ok.inj this⟩
    · intro j q hq hj hp hw
      rw [hW _ _ hq] at hw
      rw [hW _ _ hq, hW _ _ hq]
      exact hI.older j q hq (by omega) hp hw
  refine ⟨⟨M, updN W v (setVer (W v) [] v), by rw [hlen]; exact hI', fun _ => ?_, fun i hi => ?_, ?_, ?_⟩, ?_, ⟨?_, ?_⟩⟩
  · rw [hlen, Nat.add_sub_cancel, updN_self, setVer_self]
  · rw [hlen] at hi
    rw [hM i (by omega)]
    unfold entriesAfter
    rw [List.take_take, Nat.min_eq_left (by omega)]
  · intro i hi q hq hp u hu1 hu2 ws hws
    rw [hlen] at hi
    rw [List.getElem?_take_of_lt (by omega)] at hws
    refine hF i (by omega) q hq hp u ?_ hu2 ws hws
    unfold updN at hu1
    split at hu1
    · next h => rw [setVer_ne hq] at hu1; rw [h]; exact hu1
    · exact hu1
  · refine VerInv.of_eq (W := W) ?_ fun i q hq => by
      unfold updN; split
      · next h => rw [setVer_ne hq, h]
      · rfl
    intro i hi q hq hp ws hws
    rw [hlen] at hi
    rw [List.getElem?_take_of_lt (by omega)] at hws
    exact hE i (by omega) q hq hp ws hws
  · show AMap.NodupKeys (s.nodes.filter _)
    exact List.Nodup.sublist (List.filter_sublist.map _) hnd
  · intro k
    show (Store.histOf (s.values.map (fun e => (e.1, e.2.filter (fun x => decide (x.1 ≤ v))))) k).Pairwise _
    rw [histOf_map]
    exact (hval.sorted k).filter _
  · intro k u x
    show _ ∈ Store.histOf (s.values.map (fun e => (e.1, e.2.filter (fun x => decide (x.1 ≤ v))))) k ↔ _
    rw [histOf_map, List.mem_filter, hval.mem]
    simp only [decide_eq_true_eq]
    by_cases hu : u ≤ v
    · rw [List.getElem?_take_of_lt (by omega)]; simp [hu]
    · rw [List.getElem?_eq_none (l := hist.take (v + 1)) (by omega)]
      simp [hu]

end

end Jmt
